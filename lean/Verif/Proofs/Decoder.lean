import Verif.Spec.Decoder

/-! Every `Decoder` gives a decompressor that meets the contract. -/

namespace Zwt

namespace Decoder

variable (d : Decoder)

theorem run_append (s : d.σ) (a b : Bytes) : d.run s (a ++ b) = d.run (d.run s a) b := by
  simp [run, List.foldl_append]

theorem out_run (c : Bytes) : ∀ s, d.out s <+: d.out (d.run s c) := by
  induction c with
  | nil => intro s; exact List.prefix_refl _
  | cons b c ih => intro s; exact (d.mono s b).trans (ih _)

theorem run_final {s : d.σ} (h : d.final s = true) (c : Bytes) : d.run s c = s := by
  induction c with
  | nil => rfl
  | cons b c ih =>
    show d.run (d.byte s b) c = s
    rw [d.stays s b h, ih]

theorem endCode_ne (s : d.σ) : d.endCode s ≠ Z_OK := by
  unfold endCode; split <;> decide

/-- What `read` does. -/
theorem read_spec (sent room : Nat) (inp : Bytes) : ∀ s,
    (d.read sent room s inp).2 ≤ inp.length ∧
    (d.read sent room s inp).1 = d.run s (inp.take (d.read sent room s inp).2) ∧
    ((d.read sent room s inp).2 = inp.length ∨ d.final (d.read sent room s inp).1 = true ∨
      sent + room ≤ (d.out (d.read sent room s inp).1).length) ∧
    (inp ≠ [] → (d.read sent room s inp).2 = inp.length →
      (d.out (d.run s inp.dropLast)).length < sent + room) := by
  induction inp with
  | nil => intro s; simp [read, run]
  | cons b bs ih =>
    intro s
    rw [read]
    split
    · rename_i h
      refine ⟨Nat.zero_le _, rfl, .inr h, ?_⟩
      intro _ h; simp at h
    · rename_i h
      obtain ⟨h1, h2, h3, h4⟩ := ih (d.byte s b)
      refine ⟨by simp only [List.length_cons]; omega, ?_, ?_, ?_⟩
      · rw [List.take_succ_cons]; exact h2
      · rcases h3 with h3 | h3
        · left; simp only [List.length_cons]; omega
        · exact .inr h3
      · intro _ hn
        simp only [not_or, Nat.not_le] at h
        simp only [List.length_cons, Nat.add_right_cancel_iff] at hn
        cases bs with
        | nil => simpa [run] using h.2
        | cons b' bs => exact h4 (by simp) hn

theorem read_zero {sent room : Nat} {s : d.σ} {inp : Bytes} (h : (d.read sent room s inp).2 = 0) :
    (d.read sent room s inp).1 = s := by
  have := (d.read_spec sent room inp s).2.1
  rw [h] at this
  simpa [run] using this

/-- Relation between state and history. -/
structure Holds (st : DecSt d) (c p : Bytes) : Prop where
  state : st.s = d.run d.init c
  len : st.sent ≤ (d.out st.s).length
  out : p = (d.out st.s).take st.sent
  dead : st.dead = true → d.final st.s = true ∧ st.sent = (d.out st.s).length

theorem take_grow {a b : Bytes} {n m : Nat} (h : a <+: b) (hn : n ≤ a.length) :
    a.take n ++ (b.drop n).take m = b.take (n + ((b.drop n).take m).length) := by
  have h1 : a.take n = b.take n := by
    obtain ⟨t, rfl⟩ := h
    rw [List.take_append_of_le_length hn]
  rw [h1, List.take_add]
  congr 1
  rw [List.length_take, ← List.take_eq_take_min]

theorem step_holds {st : DecSt d} {c p : Bytes} (h : d.Holds st c p) (hd : st.dead = false)
    (inp : Bytes) (room : Nat) (dead : Bool) :
    let r := d.read st.sent room st.s inp
    let o := ((d.out r.1).drop st.sent).take room
    (dead = true → d.final r.1 = true ∧ (d.out r.1).length ≤ st.sent + room) →
    d.Holds ⟨r.1, st.sent + o.length, dead⟩ (c ++ inp.take r.2) (p ++ o) := by
  intro r o hf
  obtain ⟨h1, h2, h3, h4⟩ := d.read_spec st.sent room inp st.s
  have hpre : d.out st.s <+: d.out r.1 := by
    show d.out st.s <+: d.out (d.read st.sent room st.s inp).1
    rw [h2]; exact d.out_run _ _
  have hlen := hpre.length_le
  have hst := h.len
  refine ⟨?_, ?_, ?_, ?_⟩
  · show (d.read st.sent room st.s inp).1 = _
    rw [d.run_append, ← h.state]; exact h2
  · show st.sent + o.length ≤ (d.out r.1).length
    simp only [o, List.length_take, List.length_drop]; omega
  · show p ++ o = (d.out r.1).take (st.sent + o.length)
    rw [h.out]
    exact take_grow hpre h.len
  · intro hd'
    obtain ⟨f1, f2⟩ := hf hd'
    refine ⟨f1, ?_⟩
    show st.sent + o.length = (d.out r.1).length
    simp only [o, List.length_take, List.length_drop]; omega

/-- The contract of `inflate`. -/
def inflateOK : InflateOK d.inflater d.plain where
  Rep st c p := d.Holds st c p
  Dead st := (show DecSt d from st).dead = true
  mono c x := by rw [plain, plain, d.run_append]; exact d.out_run _ _
  init := ⟨rfl, Nat.zero_le _, by simp [inflater], by simp [inflater]⟩
  alive := by simp [inflater]
  bounds := by
    intro st c p h flush inp room
    simp only [inflater]
    have h1 := (d.read_spec st.sent room inp st.s).1
    split
    · simp
    · split
      · exact ⟨h1, by rw [List.length_take]; exact Nat.min_le_left _ _⟩
      · split
        · simp
        · exact ⟨h1, by rw [List.length_take]; exact Nat.min_le_left _ _⟩
  step := by
    intro st c p h flush inp room
    simp only [inflater]
    split
    · simpa using h
    · rename_i hd
      simp only [Bool.not_eq_true] at hd
      split
      · rename_i hf; exact d.step_holds h hd inp room true (fun _ => hf)
      · split
        · simpa using h
        · exact d.step_holds h hd inp room false (by simp)
  sound := by
    intro st c p h
    rw [h.out, plain, ← h.state]
    exact List.take_prefix _ _
  progress := by
    intro st c p h flush inp room hret
    simp only [inflater] at hret ⊢
    split
    · rename_i hd; rw [if_pos hd] at hret; exact absurd hret (d.endCode_ne _)
    · rename_i hd; rw [if_neg hd] at hret
      split
      · rename_i hf; rw [if_pos hf] at hret; exact absurd hret (d.endCode_ne _)
      · rename_i hf; rw [if_neg hf] at hret
        split
        · rename_i hn; rw [if_pos hn] at hret; exact absurd (show Z_BUF_ERROR = Z_OK from hret) (by decide)
        · rename_i hn
          simp only [not_and] at hn
          by_cases h0 : (d.read st.sent room st.s inp).2 = 0
          · exact .inr (hn h0)
          · exact .inl (Nat.pos_of_ne_zero h0)
  complete := by
    intro st c p h flush inp room _ hret hlt
    simp only [inflater] at hret hlt ⊢
    split
    · rename_i hd; rw [if_pos hd] at hret; exact absurd hret (d.endCode_ne _)
    · rename_i hd; rw [if_neg hd] at hret hlt
      split
      · rename_i hf; rw [if_pos hf] at hret; exact absurd hret (d.endCode_ne _)
      · rename_i hf; rw [if_neg hf] at hret hlt
        split
        · rename_i hn; rw [if_pos hn] at hret; exact absurd (show Z_BUF_ERROR = Z_OK from hret) (by decide)
        · rename_i hn; rw [if_neg hn] at hlt
          obtain ⟨h1, h2, h3, _⟩ := d.read_spec st.sent room inp st.s
          simp only [List.length_take, List.length_drop] at hlt
          have hlen : (d.out (d.read st.sent room st.s inp).1).length ≤ st.sent + room := by omega
          have hall : (d.read st.sent room st.s inp).2 = inp.length := by
            rcases h3 with h3 | h3 | h3
            · exact h3
            · exact absurd ⟨h3, hlen⟩ hf
            · omega
          refine ⟨hall, ?_⟩
          simp only [Bool.not_eq_true] at hd
          have := d.step_holds h hd inp room false (by simp)
          rw [hall, List.take_length] at this
          rw [this.out, plain, ← this.state]
          refine List.take_of_length_le ?_
          show _ ≤ st.sent + _
          simp only [List.length_take, List.length_drop]
          omega
  fail := by
    intro st c p h flush inp room _ hi hret
    simp only [inflater] at hret ⊢
    split
    · rename_i hd; left; exact hd
    · rename_i hd; rw [if_neg hd] at hret
      split
      · left; rfl
      · rename_i hf; rw [if_neg hf] at hret
        split
        · rename_i hn
          right
          refine ⟨?_, rfl⟩
          obtain ⟨_, _, h3, _⟩ := d.read_spec st.sent room inp st.s
          have hs := h.len
          have hz := d.read_zero hn.1
          have ho := congrArg List.length hn.2
          simp only [List.length_take, List.length_drop, List.length_nil, hz] at ho
          rw [hn.1, hz] at h3
          rw [hz] at hf
          rcases h3 with h3 | h3 | h3
          · exact absurd (List.length_eq_zero_iff.mp h3.symm) hi
          · simp only [h3, true_and, Nat.not_le] at hf; omega
          · omega
        · rename_i hn; rw [if_neg hn] at hret; exact absurd rfl hret
  okAlive := by
    intro st c p h flush inp room hret
    simp only [inflater] at hret ⊢
    split
    · rename_i hd; rw [if_pos hd] at hret; exact absurd hret (d.endCode_ne _)
    · rename_i hd; rw [if_neg hd] at hret
      split
      · rename_i hf; rw [if_pos hf] at hret; exact absurd hret (d.endCode_ne _)
      · split
        · exact hd
        · simp
  dead := by
    intro st h flush inp room
    simp only [inflater, h, if_true]
    exact ⟨d.endCode_ne _, trivial, trivial⟩

/-- The decompressor gives up only at the end. -/
theorem inflateOK_final : d.inflateOK.Final := by
  intro st c p h hd ⟨x, hx⟩
  have h : d.Holds st c p := h
  have hf := (h.dead hd).1
  rw [h.state] at hf
  exact hx (by rw [plain, plain, d.run_append, d.run_final hf])

/-- The end of the stream is reported when everything has been produced. -/
theorem inflateOK_ends : d.inflateOK.Ends := by
  intro st c p flush inp room h hd hret x
  have h : d.Holds st c p := h
  have hd : ¬ (show DecSt d from st).dead = true := hd
  simp only [inflater, if_neg hd] at hret ⊢
  split
  · rename_i hf
    simp only [Bool.not_eq_true] at hd
    have := d.step_holds h hd inp room true (fun _ => hf)
    have hall := this.dead rfl
    rw [this.out]
    have h2 := (d.read_spec st.sent room inp st.s).2.1
    have hs := this.state
    rw [List.take_of_length_le (Nat.le_of_eq hall.2.symm)]
    have hff : d.final (d.run d.init (c ++ inp.take (d.read st.sent room st.s inp).2)) = true := by
      rw [← hs]; exact hf.1
    rw [plain, show c ++ inp ++ x = (c ++ inp.take (d.read st.sent room st.s inp).2) ++
      (inp.drop (d.read st.sent room st.s inp).2 ++ x) by
        rw [List.append_assoc, List.append_assoc, ← List.append_assoc (List.take _ _),
          List.take_append_drop], d.run_append, d.run_final hff, ← hs]
  · rename_i hf; rw [if_neg hf] at hret
    split at hret
    · simp only [Z_BUF_ERROR, Z_STREAM_END] at hret; exact absurd hret (by decide)
    · simp only [Z_OK, Z_STREAM_END] at hret; exact absurd hret (by decide)

/-- Nothing is withheld at the end of bytes whose last one adds nothing to the output. -/
theorem inflateOK_prompt {e : Bytes} (he : d.plain e.dropLast = d.plain e) : d.inflateOK.Prompt e := by
  intro st c p flush inp room h _ hi hc hret hcons
  have h : d.Holds st c p := h
  subst hc
  have hd : ¬ (show DecSt d from st).dead = true := by
    intro hd; simp only [inflater, if_pos hd] at hret; exact d.endCode_ne _ hret
  simp only [inflater, if_neg hd] at hret hcons ⊢
  simp only [Bool.not_eq_true] at hd
  split
  · rename_i hf; rw [if_pos hf] at hret; exact absurd hret (d.endCode_ne _)
  · rename_i hf; rw [if_neg hf] at hret hcons
    split
    · rename_i hn; rw [if_pos hn] at hret; exact absurd (show Z_BUF_ERROR = Z_OK from hret) (by decide)
    · rename_i hn; rw [if_neg hn] at hcons
      have hcons : (d.read st.sent room st.s inp).2 = inp.length := hcons
      obtain ⟨_, _, _, h4⟩ := d.read_spec st.sent room inp st.s
      have h5 := h4 hi hcons
      have := d.step_holds h hd inp room false (by simp)
      rw [hcons, List.take_length] at this
      rw [this.out, plain, ← this.state]
      have hlen : (d.out (d.read st.sent room st.s inp).1).length < st.sent + room := by
        have hs := this.state
        have e1 : (c ++ inp).dropLast = c ++ inp.dropLast := List.dropLast_append_of_ne_nil hi
        rw [e1, plain, plain, d.run_append d.init c, ← h.state, ← hs] at he
        rw [← he]; exact h5
      refine List.take_of_length_le ?_
      show _ ≤ st.sent + _
      simp only [List.length_take, List.length_drop]
      omega

end Decoder

end Zwt
