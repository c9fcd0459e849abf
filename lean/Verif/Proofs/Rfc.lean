import Verif.Spec.Rfc
import Verif.Proofs.Decoder

/-! The reader of zlib streams is a `Decoder`, so `inflate` according to the RFCs meets the contract. -/

namespace Zwt.Rfc

theorem copyBack_prefix (n : Nat) : ∀ (d : Nat) (o : Bytes), o <+: copyBack n d o := by
  induction n with
  | zero => intro d o; exact List.prefix_refl _
  | succ n ih => intro d o; exact (List.prefix_append _ _).trans (ih d _)

theorem go_out (s : St) (m : Mode) : (s.go m).out = s.out := rfl

theorem endBlock_out (s : St) : s.endBlock.out = s.out := by
  unfold St.endBlock; split <;> rfl

theorem gotLens_out (s : St) (n m : Nat) (cl got : List Nat) : (s.gotLens n m cl got).out = s.out := by
  unfold St.gotLens
  repeat' split
  all_goals rfl

theorem copy_out (s : St) (n d : Nat) : s.out <+: (s.copy n d).out := by
  unfold St.copy
  split
  · exact List.prefix_refl _
  · exact copyBack_prefix _ _ _

theorem field_out (s : St) (bs : List Bool) : s.out <+: (s.field bs).out := by
  unfold St.field
  split
  · simp only; split <;> exact List.prefix_refl _
  · simp only; split <;> exact List.prefix_refl _
  · simp only
    split
    · split
      · rw [endBlock_out]; exact List.prefix_refl _
      · exact List.prefix_refl _
    · exact List.prefix_refl _
  · simp only
    split
    · rw [endBlock_out]; exact List.prefix_append _ _
    · exact List.prefix_append _ _
  · simp only; split <;> exact List.prefix_refl _
  · simp only
    split
    · exact List.prefix_refl _
    · split <;> exact List.prefix_refl _
  · rw [gotLens_out]; exact List.prefix_refl _
  · exact List.prefix_refl _
  · exact copy_out _ _ _
  · split <;> exact List.prefix_refl _
  · exact List.prefix_refl _

theorem code_out (s : St) (v : Nat) : s.out <+: (s.code v).out := by
  unfold St.code
  split
  · split
    · rw [gotLens_out]; exact List.prefix_refl _
    · split
      · split <;> exact List.prefix_refl _
      · split <;> exact List.prefix_refl _
  · split
    · exact List.prefix_append _ _
    · split
      · rw [endBlock_out]; exact List.prefix_refl _
      · split <;> exact List.prefix_refl _
  · split
    · exact List.prefix_refl _
    · exact copy_out _ _ _
    · exact List.prefix_refl _
  · exact List.prefix_refl _

theorem bit_out (s : St) (b : Bool) : s.out <+: (s.bit b).out := by
  unfold St.bit
  split
  · exact List.prefix_refl _
  · simp only
    split
    · split
      · exact code_out { s with pos := (s.pos + 1) % 8, acc := s.acc ++ [b] } _
      · split <;> exact List.prefix_refl _
    · split
      · split <;> exact List.prefix_refl _
      · split
        · split <;> exact List.prefix_refl _
        · split
          · exact List.prefix_refl _
          · exact field_out { s with pos := (s.pos + 1) % 8, acc := s.acc ++ [b] } _

theorem bits_out (bs : List Bool) : ∀ s : St, s.out <+: (bs.foldl St.bit s).out := by
  induction bs with
  | nil => intro s; exact List.prefix_refl _
  | cons b bs ih => intro s; exact (bit_out s b).trans (ih _)

theorem bits_final (bs : List Bool) : ∀ s : St, s.final = true → bs.foldl St.bit s = s := by
  induction bs with
  | nil => intro s _; rfl
  | cons b bs ih =>
    intro s h
    rw [List.foldl_cons, show s.bit b = s from by unfold St.bit; rw [if_pos h]]
    exact ih s h

/-- The zlib format. -/
def decoder : Decoder where
  σ := St
  init := .init
  byte := St.byte
  out := St.out
  final := St.final
  ended s := s.mode == .done
  mono s b := bits_out _ s
  stays s b h := bits_final _ s h

seal St.byte in
theorem decoder_run (s : St) (c : Bytes) : decoder.run s c = s.run c := by
  induction c generalizing s with
  | nil => rfl
  | cons b c ih => exact ih (s.byte b)

seal St.run in
theorem decoder_plain (c : Bytes) : decoder.plain c = plain c :=
  congrArg St.out (decoder_run .init c)

/-! ### Stored blocks -/

/-- Blocks that `storedD` writes. -/
theorem run_append (s : St) (a b : Bytes) : s.run (a ++ b) = (s.run a).run b := by
  simp [St.run, List.foldl_append]

theorem byteBits_length (b : UInt8) : (byteBits b).length = 8 := by simp [byteBits]

theorem bitsVal_append (a b : List Bool) : bitsVal (a ++ b) = bitsVal a + 2 ^ a.length * bitsVal b := by
  induction a with
  | nil => simp [bitsVal]
  | cons x a ih =>
    simp only [List.cons_append, bitsVal, ih, List.length_cons, Nat.pow_succ]
    rw [Nat.mul_add, ← Nat.mul_assoc, Nat.mul_comm 2 (2 ^ a.length), Nat.add_assoc]

theorem bitsVal_byte (b : UInt8) : bitsVal (byteBits b) = b.toNat := by
  have : ∀ n : Fin 256, bitsVal ((List.range 8).map fun i => n.val.testBit i) = n.val := by decide +kernel
  exact this ⟨b.toNat, b.toNat_lt⟩

/-- A field of fixed size, read to its end. -/
theorem bits_field (bs : List Bool) : ∀ {s : St}, s.final = false → s.lens = none → s.mode ≠ .skip →
    s.mode ≠ .align → bs ≠ [] → s.acc.length + bs.length = s.mode.size →
    bs.foldl St.bit s =
      St.field { s with pos := (s.pos + bs.length) % 8, acc := s.acc ++ bs } (s.acc ++ bs) := by
  induction bs with
  | nil => intro s _ _ _ _ h; exact absurd rfl h
  | cons b bs ih =>
    intro s hf hl h1 h2 _ hn
    have hl' : St.lens { s with pos := (s.pos + 1) % 8, acc := s.acc ++ [b] } = none := hl
    have hbit : s.bit b = if (s.acc ++ [b]).length < s.mode.size then
        { s with pos := (s.pos + 1) % 8, acc := s.acc ++ [b] }
        else St.field { s with pos := (s.pos + 1) % 8, acc := s.acc ++ [b] } (s.acc ++ [b]) := by
      unfold St.bit
      rw [if_neg (by rw [hf]; simp)]
      simp only [hl', if_neg h1, if_neg h2]
    rw [List.foldl_cons, hbit]
    simp only [List.length_cons] at hn
    by_cases hb : bs = []
    · subst hb
      rw [if_neg (by simp at hn ⊢; omega)]
      rfl
    · have hpos : 0 < bs.length := List.length_pos_iff.2 hb
      rw [if_pos (by simp; omega)]
      have := ih (s := { s with pos := (s.pos + 1) % 8, acc := s.acc ++ [b] }) hf hl' h1 h2 hb
        (by simp; omega)
      rw [show List.foldl St.bit { s with pos := (s.pos + 1) % 8, acc := s.acc ++ [b] } bs = _ from this]
      have e : (s.acc ++ [b]) ++ bs = s.acc ++ b :: bs := by simp
      have e2 : ((s.pos + 1) % 8 + bs.length) % 8 = (s.pos + (bs.length + 1)) % 8 := by omega
      simp only [e, e2, List.length_cons]

end Zwt.Rfc
