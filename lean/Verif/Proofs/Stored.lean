import Verif.Spec.Stored
import Verif.Proofs.Rfc

/-! Streams of stored blocks decode to what was stored. -/

namespace Zwt.Rfc

/-- Between two blocks. -/
def mid (o : Bytes) : St := ⟨.block, [], 0, false, [], [], o⟩

theorem run_cons (s : St) (b : UInt8) (c : Bytes) : s.run (b :: c) = (s.byte b).run c := by
  simp only [St.run, List.foldl_cons]

theorem run_bits (c : Bytes) : ∀ s : St, s.run c = (c.flatMap byteBits).foldl St.bit s := by
  induction c with
  | nil => intro s; rfl
  | cons b c ih =>
    intro s
    rw [List.flatMap_cons, List.foldl_append, show List.foldl St.bit s (byteBits b) = s.byte b from rfl,
      ← ih, run_cons]

theorem run_head : St.init.run [0x78, 0x01] = mid [] := by decide +kernel

theorem head_cut : plain [0x78] = [] := by decide +kernel

theorem run_type (o : Bytes) : (mid o).run [0] = ⟨.storedLen, [], 0, false, [], [], o⟩ := by
  have hb : ([0] : Bytes).flatMap byteBits = [false, false, false] ++ [false, false, false, false, false] := by
    decide +kernel
  rw [run_bits, hb, List.foldl_append, bits_field [false, false, false] (s := mid o) rfl rfl (by simp [mid])
    (by simp [mid]) (by simp) rfl]
  have e : St.field { mid o with pos := ((mid o).pos + 3) % 8, acc := (mid o).acc ++ [false, false, false] }
      ((mid o).acc ++ [false, false, false]) = ⟨.skip, [], 3, false, [], [], o⟩ := by
    simp [St.field, mid, bitsVal, St.go]
  rw [show ([false, false, false] : List Bool).length = 3 from rfl, e]
  simp [St.bit, St.final, St.lens, St.go]

theorem bitsVal_two (a b : UInt8) (rest : List Bool) :
    bitsVal ((byteBits a ++ (byteBits b ++ rest)).take 16) = a.toNat + 256 * b.toNat := by
  rw [← List.append_assoc, List.take_left' (by simp [byteBits_length]), bitsVal_append, bitsVal_byte,
    bitsVal_byte, byteBits_length]

theorem run_len (o : Bytes) (a b c d : UInt8) (h : a.toNat + 256 * b.toNat + (c.toNat + 256 * d.toNat) = 65535) :
    St.run ⟨.storedLen, [], 0, false, [], [], o⟩ [a, b, c, d] =
      if a.toNat + 256 * b.toNat = 0 then mid o
      else ⟨.stored (a.toNat + 256 * b.toNat), [], 0, false, [], [], o⟩ := by
  have hb : ([a, b, c, d] : Bytes).flatMap byteBits =
      byteBits a ++ (byteBits b ++ (byteBits c ++ byteBits d)) := by simp
  have hl : (byteBits a ++ (byteBits b ++ (byteBits c ++ byteBits d))).length = 32 := by
    simp [byteBits_length]
  rw [run_bits, hb, bits_field _ (s := ⟨.storedLen, [], 0, false, [], [], o⟩) rfl rfl (by simp) (by simp)
    (by intro e; rw [e] at hl; simp at hl) (by rw [hl]; rfl)]
  have h1 : bitsVal ((byteBits a ++ (byteBits b ++ (byteBits c ++ byteBits d))).take 16) =
      a.toNat + 256 * b.toNat := bitsVal_two a b _
  have h2 : bitsVal ((byteBits a ++ (byteBits b ++ (byteBits c ++ byteBits d))).drop 16) =
      c.toNat + 256 * d.toNat := by
    rw [← List.append_assoc, List.drop_left' (by simp [byteBits_length])]
    rw [bitsVal_append, bitsVal_byte, bitsVal_byte, byteBits_length]
  simp only [List.nil_append, St.field, h1, h2, if_pos h, hl]
  split <;> rfl

theorem run_data (d : Bytes) : ∀ o : Bytes, d ≠ [] →
    St.run ⟨.stored d.length, [], 0, false, [], [], o⟩ d = mid (o ++ d) := by
  induction d with
  | nil => intro o h; exact absurd rfl h
  | cons b d ih =>
    intro o _
    have e : St.byte ⟨.stored (d.length + 1), [], 0, false, [], [], o⟩ b =
        if d.length + 1 ≤ 1 then mid (o ++ [b]) else ⟨.stored d.length, [], 0, false, [], [], o ++ [b]⟩ := by
      rw [St.byte, bits_field _ (s := ⟨.stored (d.length + 1), [], 0, false, [], [], o⟩) rfl rfl (by simp) (by simp)
        (by intro e; have := byteBits_length b; rw [e] at this; simp at this)
        (by rw [byteBits_length]; rfl)]
      simp only [List.nil_append, St.field, bitsVal_byte, UInt8.ofNat_toNat, byteBits_length]
      split <;> rfl
    rw [run_cons, List.length_cons, e]
    cases d with
    | nil => rfl
    | cons x d =>
      rw [if_neg (by simp), ih (o ++ [b]) (by simp)]
      simp

theorem run_block {d : Bytes} (hd : d.length ≤ 65535) (o : Bytes) :
    (mid o).run (storedBlock d) = mid (o ++ d) := by
  have t : ∀ n, n < 256 → (UInt8.ofNat n).toNat = n := by
    intro n hn
    simp only [UInt8.toNat_ofNat']
    omega
  have h1 := t (d.length % 256) (by omega)
  have h2 := t (d.length / 256) (by omega)
  have h3 := t (255 - d.length % 256) (by omega)
  have h4 := t (255 - d.length / 256) (by omega)
  have e : storedBlock d = [0] ++ ([UInt8.ofNat (d.length % 256), UInt8.ofNat (d.length / 256),
    UInt8.ofNat (255 - d.length % 256), UInt8.ofNat (255 - d.length / 256)] ++ d) := rfl
  have hn : d.length % 256 + 256 * (d.length / 256) = d.length := by omega
  rw [e, run_append, run_type, run_append, run_len _ _ _ _ _ (by omega), h1, h2, hn]
  by_cases h0 : d = []
  · subst h0; simp [St.run]
  · rw [if_neg (by simpa using h0), run_data d o h0]

theorem eq_of_prefix {a b : Bytes} (h1 : a <+: b) (h2 : b <+: a) : a = b :=
  h1.eq_of_length (Nat.le_antisymm h1.length_le h2.length_le)

theorem plain_mono (c x : Bytes) : plain c <+: plain (c ++ x) := by
  rw [plain, plain, run_append]
  generalize St.init.run c = s
  rw [run_bits]
  exact bits_out _ s

/-- What the blocks decode to, already without the last byte. -/
theorem run_blocks (d : Bytes) : ∀ o : Bytes, (mid o).run (storedBlocks d) = mid (o ++ d) ∧
    ∃ x y, storedBlocks d = x ++ y ∧ y ≠ [] ∧ (mid o).run x = mid (o ++ d) := by
  induction d using storedBlocks.induct with
  | case1 =>
    intro o
    rw [storedBlocks, dif_pos rfl]
    refine ⟨run_block (by simp) o, [], storedBlock [], rfl, by simp [storedBlock], ?_⟩
    simp [St.run]
  | case2 d h ih =>
    intro o
    rw [storedBlocks, dif_neg h]
    obtain ⟨i1, x, y, i2, i3, i4⟩ := ih (o ++ d.take 65535)
    have hb := run_block (d := d.take 65535) (by simp; omega) o
    have e : o ++ d.take 65535 ++ d.drop 65535 = o ++ d := by simp
    rw [e] at i1 i4
    refine ⟨by rw [run_append, hb, i1], storedBlock (d.take 65535) ++ x, y, by rw [i2]; simp, i3, ?_⟩
    rw [run_append, hb, i4]

/-- `storedD` has written `e`, and still holds `q`. -/
structure StoredRep (q c e : Bytes) : Prop where
  run : St.init.run (e ++ q) = mid c
  cut : plain (e ++ q).dropLast = c

theorem storedRep_more {q c e : Bytes} (h : StoredRep q c e) (d : Bytes) :
    StoredRep (q ++ storedBlocks d) (c ++ d) e := by
  obtain ⟨h1, x, y, h2, h3, h4⟩ := run_blocks d c
  have hrun : St.init.run (e ++ (q ++ storedBlocks d)) = mid (c ++ d) := by
    rw [← List.append_assoc, run_append, h.run, h1]
  refine ⟨hrun, ?_⟩
  have hx : plain (e ++ q ++ x) = c ++ d := by
    rw [plain, run_append, h.run, h4]; rfl
  have hd : (e ++ (q ++ storedBlocks d)).dropLast = e ++ q ++ x ++ y.dropLast := by
    rw [h2, show e ++ (q ++ (x ++ y)) = (e ++ q ++ x) ++ y by simp,
      List.dropLast_append_of_ne_nil h3]
  have hall : plain (e ++ (q ++ storedBlocks d)) = c ++ d := by rw [plain, hrun]; rfl
  rw [hd]
  refine eq_of_prefix ?_ ?_
  · have hy : e ++ q ++ x ++ y.dropLast ++ y.drop (y.length - 1) = e ++ (q ++ storedBlocks d) := by
      rw [List.append_assoc _ y.dropLast, List.dropLast_eq_take, List.take_append_drop, h2]
      simp
    rw [← hall, ← hy]
    exact plain_mono _ _
  · rw [← hx]
    exact plain_mono _ _

theorem storedRep_move {q c e : Bytes} (h : StoredRep q c e) (n : Nat) :
    StoredRep (q.drop n) c (e ++ q.take n) :=
  ⟨by rw [List.append_assoc, List.take_append_drop]; exact h.run,
    by rw [List.append_assoc, List.take_append_drop]; exact h.cut⟩

theorem storedRep_plain {q c e : Bytes} (h : StoredRep q c e) : plain (e ++ q) = c := by
  rw [plain, h.run]; rfl

theorem storedBlocks_ne (d : Bytes) : storedBlocks d ≠ [] := by
  obtain ⟨_, x, y, h2, h3, _⟩ := run_blocks d []
  rw [h2]
  simp [h3]

/-- Stored blocks meet the contract of `deflate`. -/
def storedDOK : DeflateOK storedD plain where
  Rep (q : Bytes) c e := StoredRep q c e
  rank (q : Bytes) := q.length
  init h := by
    simp only [storedD] at h
    split at h
    · cases h; exact ⟨run_head, head_cut⟩
    · cases h
  bounds := by
    intro (q : Bytes) c e _ inp room
    simp only [storedD]
    split
    · simp
    · simp only [List.length_take]; omega
  step := by
    intro (q : Bytes) c e h inp room
    simp only [storedD]
    split
    · simpa using h
    · simp only [List.take_length]
      by_cases hi : inp = []
      · subst hi
        rw [List.append_nil]
        exact storedRep_move h room
      · rw [offer, if_neg hi]
        exact storedRep_move (storedRep_more h inp) room
  sound := by
    intro (q : Bytes) c e h
    rw [← storedRep_plain h]
    exact plain_mono _ _
  progress := by
    intro (q : Bytes) c e _ inp room hi hr h
    have hne : ¬ (room = 0 ∨ q ++ storedBlocks inp = []) := by
      have := storedBlocks_ne inp
      simp [this]; omega
    simp only [storedD, offer, if_neg hi, if_neg hne] at h
    exact absurd (List.eq_nil_of_length_eq_zero h) hi
  noStreamError := by
    intro (q : Bytes) c e _ inp room
    simp only [storedD]
    split <;> simp only [Z_BUF_ERROR, Z_OK, Z_STREAM_ERROR] <;> decide
  complete := by
    intro (q : Bytes) c e h inp room hi hlt
    have hne : q ++ storedBlocks inp ≠ [] := by
      have := storedBlocks_ne inp
      simp [this]
    simp only [storedD, offer, if_neg hi] at hlt ⊢
    by_cases h0 : room = 0
    · rw [h0] at hlt; omega
    · have hne' : ¬ (room = 0 ∨ q ++ storedBlocks inp = []) := by simp only [not_or]; exact ⟨h0, hne⟩
      rw [if_neg hne'] at hlt ⊢
      refine ⟨rfl, ?_⟩
      have hm := storedRep_more h inp
      rw [show (q ++ storedBlocks inp).take room = q ++ storedBlocks inp from
        List.take_of_length_le (by simp only [List.length_take] at hlt; omega)]
      exact storedRep_plain hm
  noRoom := by
    intro (q : Bytes) c e _ inp
    simp [storedD]

theorem storedDOK_fits : storedDOK.Fits := by
  intro (q : Bytes) c e _ b
  refine ⟨(q ++ storedBlocks [b]).length + 1, ?_⟩
  simp only [storedD]
  split
  · simp
  · simp only [List.length_take, offer, if_neg (show ¬ [b] = ([] : Bytes) by simp)]
    omega

/-- Nothing is withheld at the end of what `storedD` has written. -/
theorem stored_prompt {c e : Bytes} (h : storedDOK.Rep ([] : Bytes) c e) :
    decoder.inflateOK.Prompt e := by
  have h : StoredRep [] c e := h
  obtain ⟨h1, h2⟩ := h
  rw [List.append_nil] at h1 h2
  refine decoder.inflateOK_prompt ?_
  rw [decoder_plain, decoder_plain, h2, plain, h1]
  rfl

end Zwt.Rfc
