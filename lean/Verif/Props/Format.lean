import Verif.Proofs.Bytes

/-! C01–C03: the on-disk format. -/

namespace Zwt

/-- C01.  The padded length is a multiple of 8, 1 to 8 greater than the length, for every length
below the wrap-around point of its type (32-bit names, 64-bit payloads). -/
theorem C01_padding (w len : Nat) (hw : w = 32 ∨ w = 64) (h : len + 8 < 2 ^ w) :
    8 ∣ normLen w len ∧ len < normLen w len ∧ normLen w len ≤ len + 8 ∧
      normLen w len - len < 9 := by
  have e : normLen w len = (len / 8 + 1) * 8 := by
    have hl : len % 2 ^ w = len := Nat.mod_eq_of_lt (by omega)
    simp only [normLen, hl, Nat.shiftRight_eq_div_pow, Nat.shiftLeft_eq]
    exact Nat.mod_eq_of_lt (by omega)
  rw [e]
  exact ⟨⟨_, Nat.mul_comm _ _⟩, by omega, by omega, by omega⟩

example : normLen 32 5 = 8 ∧ normLen 64 16 = 24 ∧ 16 + 8 < 2 ^ 64 := by decide

/-- C01, sharpness: in the last eight values of the type the padded length wraps to 0. -/
theorem C01_wraps (w len : Nat) (hw : w = 32 ∨ w = 64) (h : 2 ^ w ≤ len + 8) (hl : len < 2 ^ w) :
    normLen w len = 0 := by
  have hm : len % 2 ^ w = len := Nat.mod_eq_of_lt hl
  simp only [normLen, hm, Nat.shiftRight_eq_div_pow, Nat.shiftLeft_eq]
  rcases hw with rfl | rfl <;> omega

example : normLen 32 4294967288 = 0 := by decide

/-- C02.  A header is 128 bytes long and version and kind are recovered whatever the reserved
bytes are. -/
theorem C02_header_roundtrip (version kind : Nat) (junk : Bytes) (hj : junk.length = 120)
    (hv : version < 2 ^ 32) (hk : kind < 2 ^ 32) :
    (headerBytes version kind junk).length = MAIN_HEADER_SIZE ∧
      hdrVersion (headerBytes version kind junk) = version ∧
      hdrKind (headerBytes version kind junk) = kind := by
  have l1 := leEnc_length 4 version
  have l2 := leEnc_length 4 kind
  have e1 : (headerBytes version kind junk).take 4 = leEnc 4 version := by
    simp [headerBytes, List.take_append, l1]
  have e2 : ((headerBytes version kind junk).drop 4).take 4 = leEnc 4 kind := by
    simp [headerBytes, List.drop_append, List.take_append, l1, l2]
  refine ⟨by simp [headerBytes, l1, l2, hj, MAIN_HEADER_SIZE], ?_, ?_⟩
  · rw [hdrVersion, e1]; exact leDec_leEnc 4 _ (by omega)
  · rw [hdrKind, e2]; exact leDec_leEnc 4 _ (by omega)

example : hdrKind (headerBytes 0 CT_DIRECTORY (List.replicate 120 0xAA)) = 1 := by decide

/-- C02, other direction: every 128-byte string is the header of its version and kind. -/
theorem C02_header_surjective (h : Bytes) (hl : h.length = 128) :
    ∃ junk, junk.length = 120 ∧ h = headerBytes (hdrVersion h) (hdrKind h) junk := by
  refine ⟨h.drop 8, by simp [hl], ?_⟩
  have e1 : leEnc 4 (hdrVersion h) = h.take 4 := by
    have := leEnc_leDec (h.take 4)
    rwa [List.length_take, show min 4 h.length = 4 by omega] at this
  have e2 : leEnc 4 (hdrKind h) = (h.drop 4).take 4 := by
    have := leEnc_leDec ((h.drop 4).take 4)
    rwa [List.length_take, List.length_drop, show min 4 (h.length - 4) = 4 by omega] at this
  rw [headerBytes, e1, e2]
  have : h.drop 8 = (h.drop 4).drop 4 := by simp
  rw [this, List.append_assoc, List.take_append_drop, List.take_append_drop]

example : (List.replicate 128 (7 : UInt8)).length = 128 := List.length_replicate

/-- C03.  An item record is 40 bytes long and decodes to the fields it was built from, whatever
its reserved bytes are. -/
theorem C03_item_roundtrip (f : ItemFields) (junk : Bytes) (hj : junk.length = 11)
    (h1 : f.fileSize < 2 ^ 64) (h2 : f.fileSizeNorm < 2 ^ 64) (h3 : f.nameLen < 2 ^ 32)
    (h4 : f.nameLenNorm < 2 ^ 32) (h5 : f.mode < 2 ^ 32) (h6 : f.kind < 2 ^ 8) :
    (itemBytes f junk).length = ITEM_SIZE ∧ itemFields (itemBytes f junk) = f := by
  have l1 := leEnc_length 8 f.fileSize
  have l2 := leEnc_length 8 f.fileSizeNorm
  have l3 := leEnc_length 4 f.nameLen
  have l4 := leEnc_length 4 f.nameLenNorm
  have l5 := leEnc_length 4 f.mode
  have l6 := leEnc_length 1 f.kind
  refine ⟨by simp [itemBytes, l1, l2, l3, l4, l5, l6, hj, ITEM_SIZE], ?_⟩
  have z : ∀ k n j, k ≤ j → (leEnc k n).drop j = [] := fun k n j h =>
    List.drop_of_length_le (by rw [leEnc_length]; exact h)
  obtain ⟨a, b, c, d, m, k⟩ := f
  simp only [itemFields, itFileSize, itFileSizeNorm, itNameLen, itNameLenNorm, itMode, itKind]
  simp only [ItemFields.mk.injEq]
  simp only at l1 l2 l3 l4 l5 l6 h1 h2 h3 h4 h5 h6
  refine ⟨?_, ?_, ?_, ?_, ?_, ?_⟩
  · refine (congrArg leDec ?_).trans (leDec_leEnc 8 a (by omega))
    simp [itemBytes, List.take_append, l1]
  · refine (congrArg leDec ?_).trans (leDec_leEnc 8 b (by omega))
    simp [itemBytes, List.take_append, List.drop_append, l1, l2]
  · refine (congrArg leDec ?_).trans (leDec_leEnc 4 c (by omega))
    simp [itemBytes, List.take_append, List.drop_append, l1, l2, l3]
  · refine (congrArg leDec ?_).trans (leDec_leEnc 4 d (by omega))
    simp [itemBytes, List.take_append, List.drop_append, l1, l2, l3, l4, z]
  · refine (congrArg leDec ?_).trans (leDec_leEnc 4 m (by omega))
    simp [itemBytes, List.take_append, List.drop_append, l1, l2, l3, l4, l5, z]
  · refine (congrArg leDec ?_).trans (leDec_leEnc 1 k (by omega))
    simp [itemBytes, List.take_append, List.drop_append, l1, l2, l3, l4, l5, l6, z]

example : itemFields (itemBytes ⟨3, 8, 1, 8, 0o644, 0⟩ (List.replicate 11 0xAA)) =
    ⟨3, 8, 1, 8, 0o644, 0⟩ := by decide

end Zwt
