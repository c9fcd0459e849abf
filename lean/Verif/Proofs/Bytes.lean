import Verif.Model.Format

/-! Lemmas about bytes, little-endian integers and bounded copies. -/

namespace Zwt

theorem leEnc_length (k n : Nat) : (leEnc k n).length = k := by
  induction k generalizing n with
  | zero => rfl
  | succ k ih => simp [leEnc, ih]

theorem leDec_leEnc (k n : Nat) (h : n < 256 ^ k) : leDec (leEnc k n) = n := by
  induction k generalizing n with
  | zero => simp at h; simp [leEnc, leDec, h]
  | succ k ih =>
    have hd : n / 256 < 256 ^ k := by
      rw [Nat.pow_succ] at h
      exact Nat.div_lt_of_lt_mul (by omega)
    simp only [leEnc, leDec, ih _ hd, UInt8.toNat_ofNat']
    omega

theorem leDec_lt (bs : Bytes) : leDec bs < 256 ^ bs.length := by
  induction bs with
  | nil => simp [leDec]
  | cons b bs ih =>
    simp only [leDec, List.length_cons, Nat.pow_succ]
    have := b.toNat_lt
    omega

theorem leDec_take_lt (k : Nat) (bs : Bytes) : leDec (bs.take k) < 256 ^ k := by
  refine Nat.lt_of_lt_of_le (leDec_lt _) ?_
  exact Nat.pow_le_pow_right (by decide) (by simp; omega)

theorem itFileSize_lt (m : Bytes) : itFileSize m < U64 := leDec_take_lt 8 m
theorem itFileSizeNorm_lt (m : Bytes) : itFileSizeNorm m < U64 := leDec_take_lt 8 _
theorem itNameLen_lt (m : Bytes) : itNameLen m < U32 := leDec_take_lt 4 _
theorem itNameLenNorm_lt (m : Bytes) : itNameLenNorm m < U32 := leDec_take_lt 4 _

theorem sub64_lt {a b : Nat} (ha : a < U64) : sub64 a b < U64 := by
  unfold sub64; split <;> omega

theorem sub64_le {a b : Nat} (h : b ≤ a) : sub64 a b = a - b := by
  simp [sub64, h]

theorem memcpyAt_ok {dst : Bytes} {off : Nat} {src : Bytes} (h : off + src.length ≤ dst.length) :
    memcpyAt dst off src = .ok (dst.take off ++ src ++ dst.drop (off + src.length)) := by
  simp [memcpyAt, h]

/-- Result of a bounded copy. -/
def patched (dst : Bytes) (off : Nat) (src : Bytes) : Bytes :=
  dst.take off ++ src ++ dst.drop (off + src.length)

theorem patched_length {dst : Bytes} {off : Nat} {src : Bytes}
    (h : off + src.length ≤ dst.length) : (patched dst off src).length = dst.length := by
  simp [patched]; omega

theorem patched_take {dst : Bytes} {off : Nat} {src : Bytes}
    (h : off + src.length ≤ dst.length) :
    (patched dst off src).take (off + src.length) = dst.take off ++ src := by
  unfold patched
  rw [List.take_append_of_le_length (by simp; omega), List.take_of_length_le (by simp; omega)]

theorem patched_full {dst : Bytes} {off : Nat} {src : Bytes}
    (h : off + src.length = dst.length) : patched dst off src = dst.take off ++ src := by
  unfold patched; rw [List.drop_of_length_le (by omega)]; simp

end Zwt

namespace Zwt

theorem leEnc_leDec (bs : Bytes) : leEnc bs.length (leDec bs) = bs := by
  induction bs with
  | nil => rfl
  | cons b bs ih =>
    have hb : b.toNat < 256 := b.toNat_lt
    have h1 : (b.toNat + 256 * leDec bs) % 256 = b.toNat := by omega
    have h2 : (b.toNat + 256 * leDec bs) / 256 = leDec bs := by omega
    simp only [List.length_cons, leEnc, leDec, h1, h2, ih]
    simp

end Zwt
