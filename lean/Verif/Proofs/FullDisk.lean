import Verif.Proofs.HLTest

/-! Pieces of an archive written to a disk that does not take everything. -/

namespace Zwt

/-- A disk that fills up: once a write was not complete, later ones add nothing. -/
def Os.fills (os : Os) : Prop :=
  ∀ k, (os.refuses k = false ∧ ∀ n, n ≤ os.accepts k n) ∨
    ∀ k', k < k' → os.refuses k' = true ∨ ∀ n, os.accepts k' n = 0

theorem FS.put_self {fs : FS} {l : Loc} {n : Node} (h : fs l = some n) : fs.put l n = fs := by
  funext x
  simp only [FS.put]
  split
  · rename_i e; rw [e, h]
  · rfl

/-- One write at the end of a file: a beginning of the data is added. -/
theorem sysWrite_end (os : Os) {l : Loc} {m : Nat} {c : Bytes} {w : World} (d : Bytes)
    (h : w.fs l = some (.file m c)) :
    ∃ s w', sysWrite os w ⟨l, c.length⟩ d = (⟨l, (c ++ s).length⟩, w') ∧
      w'.fs = w.fs.put l (.file m (c ++ s)) ∧ w'.cwd = w.cwd ∧ w'.calls = w.calls + 1 ∧ s <+: d ∧
      (os.refuses w.calls = true ∨ (∀ n, os.accepts w.calls n = 0) → s = []) ∧
      (os.refuses w.calls = false → (∀ n, n ≤ os.accepts w.calls n) → s = d) := by
  by_cases hr : os.refuses w.calls = true
  · refine ⟨[], w.tick, ?_, ?_, rfl, rfl, List.nil_prefix, fun _ => rfl, fun h' => ?_⟩
    · simp only [sysWrite, hr, if_true, List.append_nil]
    · rw [List.append_nil, FS.put_self h]; rfl
    · rw [hr] at h'; cases h'
  · refine ⟨d.take (os.accepts w.calls d.length),
      (w.put l (.file m (c ++ d.take (os.accepts w.calls d.length)))).tick, ?_, rfl, rfl, rfl,
      List.take_prefix _ _, fun h' => ?_, fun _ h' => List.take_of_length_le (h' _)⟩
    · simp only [sysWrite, hr, Bool.false_eq_true, if_false, h]
      rw [pwrite_end, List.length_append]
    · rcases h' with h' | h'
      · exact absurd h' hr
      · rw [h', List.take_zero]

/-- After the disk is full nothing is added. -/
theorem writePieces_none (os : Os) {l : Loc} {m : Nat} (ds : List Bytes) :
    ∀ (c : Bytes) (w : World), w.fs l = some (.file m c) →
    (∀ k, w.calls ≤ k → os.refuses k = true ∨ ∀ n, os.accepts k n = 0) →
    (writePieces os ds ⟨l, c.length⟩ w).fs = w.fs := by
  induction ds with
  | nil => intro c w _ _; rfl
  | cons d ds ih =>
    intro c w h hk
    obtain ⟨s, w', e1, e2, _, e4, _, e6, _⟩ := sysWrite_end os d h
    have hs := e6 (hk _ (Nat.le_refl _))
    subst hs
    rw [List.append_nil] at e1 e2
    rw [FS.put_self h] at e2
    rw [writePieces, e1, ih c w' (by rw [e2]; exact h) (fun k hk' => hk k (by omega)), e2]

/-- Pieces written at the end of a file, by any system. -/
theorem writePieces_any (os : Os) {l : Loc} {m : Nat} (ds : List Bytes) :
    ∀ (c : Bytes) (w : World), w.fs l = some (.file m c) →
    ∃ s, (writePieces os ds ⟨l, c.length⟩ w).fs = w.fs.put l (.file m (c ++ s)) ∧
      (writePieces os ds ⟨l, c.length⟩ w).cwd = w.cwd ∧ s.Sublist ds.flatten ∧
      (os.fills → s <+: ds.flatten) := by
  induction ds with
  | nil =>
    intro c w h
    refine ⟨[], ?_, rfl, List.Sublist.refl _, fun _ => List.prefix_refl _⟩
    rw [writePieces, List.append_nil, FS.put_self h]
  | cons d ds ih =>
    intro c w h
    obtain ⟨s, w', e1, e2, e3, e4, e5, _, e7⟩ := sysWrite_end os d h
    have h' : w'.fs l = some (.file m (c ++ s)) := by rw [e2, FS.put_same]
    obtain ⟨t, i1, i2, i3, i4⟩ := ih (c ++ s) w' h'
    rw [writePieces, e1]
    refine ⟨s ++ t, ?_, by rw [i2, e3], ?_, fun hf => ?_⟩
    · rw [i1, e2, FS.put_put, List.append_assoc]
    · rw [List.flatten_cons]; exact e5.sublist.append i3
    · rw [List.flatten_cons]
      rcases hf w.calls with hk | hk
      · rw [e7 hk.1 hk.2]
        exact (List.prefix_append_right_inj d).2 (i4 hf)
      · have hn := writePieces_none os ds (c ++ s) w' h' (fun k hk' => hk k (by omega))
        have ht : t = [] := by
          have := congrFun (i1.symm.trans hn) l
          rw [FS.put_same, h'] at this
          simpa using this
        rw [ht, List.append_nil]
        exact e5.trans (List.prefix_append d _)

end Zwt
