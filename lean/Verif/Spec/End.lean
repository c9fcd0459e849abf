import Verif.Spec.Toy

/-! Compressed streams that end. -/

namespace Zwt

/-- `Z_STREAM_END`: "the end of the compressed data has been reached and all uncompressed output has
been produced" (zlib.h); bytes after the end do not matter.  (Not part of `InflateOK`, which does not
tell the end of the stream from a failure.) -/
def InflateOK.Ends {Z : Inflater} {plain : Bytes → Bytes} (C : InflateOK Z plain) : Prop :=
  ∀ st c p flush inp room, C.Rep st c p → ¬ C.Dead st → (Z.run st flush inp room).ret = Z_STREAM_END →
    ∀ x, p ++ (Z.run st flush inp room).out = plain (c ++ inp ++ x)

/-- Copying decompressor that knows an end: byte `255` in its input ends the stream. -/
def endI : Inflater where
  τ := Bool
  init := false
  run q _ inp room :=
    let good := inp.takeWhile (· != 255)
    if q then ⟨Z_STREAM_END, q, 0, []⟩
    else if good.length < inp.length ∧ good.length ≤ room then
      ⟨Z_STREAM_END, true, good.length + 1, good⟩
    else if good = [] ∨ room = 0 then ⟨Z_BUF_ERROR, q, 0, []⟩
    else ⟨Z_OK, false, min good.length room, good.take room⟩

theorem takeWhile_take_succ (p : UInt8 → Bool) (a : Bytes) :
    (a.take ((a.takeWhile p).length + 1)).takeWhile p = a.takeWhile p := by
  induction a with
  | nil => rfl
  | cons x a ih =>
    rw [List.take_succ_cons, List.takeWhile_cons, List.takeWhile_cons]
    split
    · rw [List.length_cons, ih]
    · rfl

def endIOK : InflateOK endI (fun c => c.takeWhile (· != 255)) where
  Rep q c p := if (show Bool from q) = true then p = c.takeWhile (· != 255) ∧ (c.takeWhile (· != 255)).length < c.length
    else p = c ∧ ∀ x ∈ c, (x != 255) = true
  Dead q := q = true
  mono c x := takeWhile_prefix_mono _ _ _
  init := by simp [endI]
  alive := by simp [endI]
  bounds := by
    intro st c e _ flush inp room
    simp only [endI]
    split
    · simp
    · split
      · rename_i h; simp; omega
      · split
        · simp
        · simp only [List.length_take]
          have := takeWhile_le (· != 255) inp
          omega
  step := by
    intro dead c e h flush inp room
    simp only [endI]
    cases dead with
    | true => simpa using h
    | false =>
      simp only [Bool.false_eq_true, if_false] at h ⊢
      obtain ⟨rfl, h2⟩ := h
      split
      · rename_i hc
        simp only [if_true]
        rw [takeWhile_append_all h2, takeWhile_take_succ]
        refine ⟨rfl, ?_⟩
        simp only [List.length_append, List.length_take]
        omega
      · split
        · simpa using h2
        · simp only [Bool.false_eq_true, if_false]
          have hp : inp.take (min (inp.takeWhile (· != 255)).length room) =
              (inp.takeWhile (· != 255)).take room := by
            have : inp.take (inp.takeWhile (· != 255)).length = inp.takeWhile (· != 255) :=
              (List.prefix_iff_eq_take.mp (List.takeWhile_prefix _)).symm
            conv => rhs; rw [← this]
            rw [List.take_take, Nat.min_comm]
          rw [hp]
          refine ⟨rfl, ?_⟩
          intro x hx
          rcases List.mem_append.mp hx with hx | hx
          · exact h2 x hx
          · exact takeWhile_all _ _ x (List.mem_of_mem_take hx)
  sound := by
    intro dead c e h
    cases dead with
    | true => simp only [if_true] at h; rw [h.1]; exact List.prefix_refl _
    | false =>
      simp only [Bool.false_eq_true, if_false] at h
      obtain ⟨rfl, h2⟩ := h
      have : e.takeWhile (· != 255) = e := by
        have := takeWhile_append_all (b := []) h2
        simpa using this
      show e <+: e.takeWhile (· != 255)
      rw [this]
      exact List.prefix_refl _
  progress := by
    intro dead c e _ flush inp room h
    simp only [endI] at h ⊢
    cases dead with
    | true => simp only [if_true, Z_STREAM_END, Z_OK] at h; exact absurd h (by decide)
    | false =>
      simp only [Bool.false_eq_true, if_false] at h ⊢
      split
      · rename_i hc; rw [if_pos hc] at h
        simp only [Z_STREAM_END, Z_OK] at h; exact absurd h (by decide)
      · rename_i hc; rw [if_neg hc] at h
        split
        · rename_i h0; rw [if_pos h0] at h
          simp only [Z_BUF_ERROR, Z_OK] at h; exact absurd h (by decide)
        · rename_i h0
          left
          simp only [not_or] at h0
          have := List.length_pos_iff.mpr h0.1
          show 0 < min _ _
          omega
  complete := by
    intro dead c e h flush inp room _ hret hlt
    simp only [endI] at hret hlt ⊢
    cases dead with
    | true => simp only [if_true, Z_STREAM_END, Z_OK] at hret; exact absurd hret (by decide)
    | false =>
      simp only [Bool.false_eq_true, if_false] at hret hlt h ⊢
      obtain ⟨rfl, h2⟩ := h
      split
      · rename_i hc; rw [if_pos hc] at hret
        simp only [Z_STREAM_END, Z_OK] at hret; exact absurd hret (by decide)
      · rename_i hc; rw [if_neg hc] at hret hlt
        split
        · rename_i h0; rw [if_pos h0] at hret
          simp only [Z_BUF_ERROR, Z_OK] at hret; exact absurd hret (by decide)
        · rename_i h0; rw [if_neg h0] at hlt
          simp only [List.length_take] at hlt
          have hle := takeWhile_le (· != 255) inp
          refine ⟨show min (inp.takeWhile (· != 255)).length room = inp.length by omega, ?_⟩
          rw [List.take_of_length_le (by omega), takeWhile_append_all h2]
  fail := by
    intro dead c e h flush inp room _ hi hret
    simp only [endI] at hret ⊢
    cases dead with
    | true => left; rfl
    | false =>
      simp only [Bool.false_eq_true, if_false] at hret ⊢
      split
      · left; rfl
      · rename_i hc; rw [if_neg hc] at hret
        split
        · rename_i h0
          right
          refine ⟨?_, rfl⟩
          have hlen : 0 < inp.length := List.length_pos_iff.mpr hi
          rcases h0 with hq | hr
          · simp only [hq, List.length_nil] at hc
            omega
          · exact hr
        · rename_i h0; rw [if_neg h0] at hret; exact absurd rfl hret
  okAlive := by
    intro dead c e _ flush inp room h
    simp only [endI] at h ⊢
    cases dead with
    | true => simp only [if_true, Z_STREAM_END, Z_OK] at h; exact absurd h (by decide)
    | false =>
      simp only [Bool.false_eq_true, if_false] at h ⊢
      split
      · rename_i hc; rw [if_pos hc] at h
        simp only [Z_STREAM_END, Z_OK] at h; exact absurd h (by decide)
      · split <;> simp
  dead := by
    intro dead h flush inp room
    have h : dead = true := h
    subst h
    simp only [endI, if_true, Z_STREAM_END, Z_OK, and_true]
    decide

theorem endIOK_ends : endIOK.Ends := by
  intro dead c p flush inp room hr hd hret x
  have hd : dead = false := by
    cases dead with
    | false => rfl
    | true => exact absurd rfl hd
  subst hd
  replace hr : p = c ∧ ∀ x ∈ c, (x != 255) = true := hr
  obtain ⟨rfl, h2⟩ := hr
  simp only [endI, Bool.false_eq_true, if_false] at hret ⊢
  split
  · rename_i h
    rw [List.append_assoc, takeWhile_append_all h2, takeWhile_append_stop h.1]
  · rename_i h
    rw [if_neg h] at hret
    split at hret
    · simp only [Z_BUF_ERROR, Z_STREAM_END] at hret; exact absurd hret (by decide)
    · simp only [Z_OK, Z_STREAM_END] at hret; exact absurd hret (by decide)

end Zwt
