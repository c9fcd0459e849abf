import Verif.Proofs.HLGrow
import Verif.Proofs.Confine

/-! What success of an extraction says about the output path. -/

namespace Zwt

/-- Nodes do not disappear. -/
theorem FsRun.old {os : Os} {t : Bool} {B : Nat} {fs fs' : FS} {n : Nat}
    (h : FsRun os t B fs n fs') {l : Loc} (hl : fs' l = none) : fs l = none := by
  cases hx : fs l with
  | none => rfl
  | some x =>
    cases x with
    | dir m => rw [h.keeps.1 _ _ hx] at hl; simp at hl
    | link m => rw [h.keeps.2 _ _ hx] at hl; simp at hl
    | file m c => obtain ⟨c', h', _⟩ := h.files hx; rw [h'] at hl; simp at hl

/-! ### Resolution of existing paths -/

theorem resolveNext_some {os : Os} {fs : FS} {follow : Bool} {n : Nat} {cur l : Loc}
    {cs : List Bytes} (h : resolveNext os fs follow n cur cs = some l) :
    ∃ k, n = k + 1 ∧ resolve os fs follow k cur cs = some l := by
  cases n with
  | zero => simp [resolveNext] at h
  | succ k => exact ⟨k, rfl, h⟩

/-- A path that leads to something leads there also later. -/
theorem resolve_stable {os : Os} {t : Bool} {B j : Nat} {fs fs' : FS} (hr : FsRun os t B fs j fs')
    (follow : Bool) (n : Nat) : ∀ cur cs l, resolve os fs follow n cur cs = some l → fs l ≠ none →
    resolve os fs' follow n cur cs = some l := by
  induction n using Nat.strongRecOn with
  | ind n ihn =>
    intro cur cs l
    induction cs generalizing cur with
    | nil => intro h _; rw [resolve_nil] at h ⊢; exact h
    | cons c cs ih =>
      intro h hl
      rw [resolve_cons] at h ⊢
      split at h
      · simp at h
      · rename_i h1
        simp only [Decidable.not_not] at h1
        rw [if_neg (by simp [hr.keeps.searchable h1])]
        split at h
        · rename_i h2; rw [if_pos h2]; exact ih _ h hl
        · rename_i h2
          rw [if_neg h2]
          split at h
          · rename_i h3; rw [if_pos h3]; exact ih _ h hl
          · rename_i h3
            rw [if_neg h3]
            split at h
            · rename_i h4
              split at h
              · cases h; exact absurd h4 hl
              · simp at h
            · rename_i tg h4
              rw [hr.keeps.2 _ _ h4]
              simp only
              split at h
              · rename_i hc; rw [if_pos hc]; exact h
              · rename_i hc
                rw [if_neg hc]
                obtain ⟨k, rfl, hk⟩ := resolveNext_some h
                exact ihn k (by omega) _ _ _ hk hl
            · rename_i x hx h4
              cases x with
              | dir md => rw [hr.keeps.1 _ _ h4]; exact ih _ h hl
              | link tg => exact absurd rfl (hx tg)
              | file md c' =>
                obtain ⟨c2, h', _⟩ := hr.files h4
                rw [h']; exact ih _ h hl

/-- Also without following a last link there is something. -/
theorem resolve_exists (os : Os) (fs : FS) (n : Nat) : ∀ cur cs l,
    resolve os fs true n cur cs = some l → fs l ≠ none →
    ∃ l', resolve os fs false n cur cs = some l' ∧ fs l' ≠ none := by
  induction n using Nat.strongRecOn with
  | ind n ihn =>
    intro cur cs l
    induction cs generalizing cur with
    | nil => intro h hl; rw [resolve_nil] at h ⊢; exact ⟨l, h, hl⟩
    | cons c cs ih =>
      intro h hl
      rw [resolve_cons] at h ⊢
      split at h
      · simp at h
      · rename_i h1
        rw [if_neg h1]
        split at h
        · rename_i h2; rw [if_pos h2]; exact ih _ h hl
        · rename_i h2
          rw [if_neg h2]
          split at h
          · rename_i h3; rw [if_pos h3]; exact ih _ h hl
          · rename_i h3
            rw [if_neg h3]
            split at h
            · rename_i h4
              split at h
              · cases h; exact absurd h4 hl
              · simp at h
            · rename_i tg h4
              by_cases hc : cs = [] ∧ ¬ false = true
              · rw [if_pos hc]; exact ⟨_, rfl, by rw [h4]; simp⟩
              · rw [if_neg hc]
                rw [if_neg (by simp)] at h
                obtain ⟨k, rfl, hk⟩ := resolveNext_some h
                exact ihn k (by omega) _ _ _ hk hl
            · rename_i x hx h4
              cases x with
              | dir md => exact ih _ h hl
              | link tg => exact absurd rfl (hx tg)
              | file md c' => exact ih _ h hl

/-- A path to a missing place, with a last component that is not empty, walks to the directory of
that place. -/
theorem resolve_absent {os : Os} {fs : FS} (ht : fs.tree) (n : Nat) : ∀ cur cs l, cs ≠ [] →
    cs.getLast? ≠ some [] → resolve os fs false n cur cs = some l → fs l = none →
    ∃ cs0 c d k, cs = cs0 ++ [c] ∧ Walks os fs n cur cs0 k d ∧ searchable os fs d = true ∧
      ¬ (c = [] ∨ c = [46]) ∧ c ≠ [46, 46] ∧ l = d ++ [c] := by
  have hend : ∀ cur l n, resolve os fs false n cur [] = some l → searchable os fs cur = true →
      fs l ≠ none := by
    intro cur l n h hs hl
    rw [resolve_nil] at h
    cases h
    simp [searchable, hl] at hs
  induction n using Nat.strongRecOn with
  | ind n ihn =>
    intro cur cs l
    induction cs generalizing cur with
    | nil => intro h; exact absurd rfl h
    | cons c cs ih =>
      intro _ hlast h hl
      have hlast' : cs ≠ [] → cs.getLast? ≠ some [] := by
        intro hne
        rw [List.getLast?_cons, ] at hlast
        cases cs with
        | nil => exact absurd rfl hne
        | cons a as => simpa [List.getLast?_cons] using hlast
      rw [resolve_cons] at h
      split at h
      · simp at h
      · rename_i h1
        simp only [Decidable.not_not] at h1
        split at h
        · rename_i h2
          by_cases hne : cs = []
          · subst hne; exact absurd hl (hend _ _ _ h h1)
          · obtain ⟨cs0, c', d, k, rfl, g1, g2⟩ := ih cur hne (hlast' hne) h hl
            exact ⟨c :: cs0, c', d, k, rfl, .skip h1 h2 g1, g2⟩
        · rename_i h2
          split at h
          · rename_i h3
            by_cases hne : cs = []
            · subst hne
              rw [resolve_nil] at h
              cases h
              exfalso
              rcases List.eq_nil_or_concat cur with rfl | ⟨k, x, rfl⟩
              · obtain ⟨m, hm⟩ := ht.1; rw [List.dropLast_nil, hm] at hl; simp at hl
              · rw [List.concat_eq_append, List.dropLast_concat] at hl
                have : ∃ y, fs (k ++ [x]) = some y := by
                  simp only [searchable, List.concat_eq_append] at h1
                  split at h1
                  · rename_i m hm; exact ⟨_, hm⟩
                  · simp at h1
                obtain ⟨y, hy⟩ := this
                obtain ⟨m, hm⟩ := ht.2 k x y hy
                rw [hm] at hl; simp at hl
            · obtain ⟨cs0, c', d, k, rfl, g1, g2⟩ := ih _ hne (hlast' hne) h hl
              subst h3
              exact ⟨[46, 46] :: cs0, c', d, k, rfl, .up h1 g1, g2⟩
          · rename_i h3
            split at h
            · rename_i h4
              split at h
              · rename_i hall
                cases h
                cases cs with
                | nil => exact ⟨[], c, cur, n, rfl, .nil, h1, h2, h3, rfl⟩
                | cons a as =>
                  exfalso
                  have hm := List.getLast?_eq_some_getLast (l := a :: as) (by simp)
                  have := List.all_eq_true.mp hall _ (List.getLast_mem (l := a :: as) (by simp))
                  rw [hm] at hlast'
                  exact hlast' (by simp) (by rw [of_decide_eq_true this])
              · simp at h
            · rename_i tg h4
              split at h
              · cases h; rw [h4] at hl; simp at hl
              · rename_i hc
                have hne : cs ≠ [] := fun e => hc ⟨e, by simp⟩
                obtain ⟨k, rfl, hk⟩ := resolveNext_some h
                have hl2 : (splitPath tg ++ cs).getLast? ≠ some [] := by
                  rw [List.getLast?_append]
                  cases hg : cs.getLast? with
                  | none => exact absurd (List.getLast?_eq_none_iff.mp hg) hne
                  | some y =>
                    have := hlast' hne
                    rw [hg] at this
                    simpa using this
                obtain ⟨cs0, c', d, k', e, g1, g2⟩ := ihn k (by omega) _ _ _
                  (by simp [hne]) hl2 hk hl
                rcases List.eq_nil_or_concat cs with e' | ⟨cs1, c1, e'⟩
                · exact absurd e' hne
                · rw [List.concat_eq_append] at e'
                  subst e'
                  rw [← List.append_assoc] at e
                  obtain ⟨e1, e2⟩ := List.append_inj' e rfl
                  rw [← e1] at g1
                  cases e2
                  exact ⟨c :: cs1, _, d, k', rfl, .link h1 h2 h3 h4 g1, g2⟩
            · rename_i x hx h4
              by_cases hne : cs = []
              · subst hne
                rw [resolve_nil] at h
                cases h
                rw [h4] at hl; simp at hl
              · cases x with
                | dir md =>
                  obtain ⟨cs0, c', d, k, rfl, g1, g2⟩ := ih _ hne (hlast' hne) h hl
                  exact ⟨c :: cs0, c', d, k, rfl, .dir h1 h2 h3 h4 g1, g2⟩
                | link tg => exact absurd rfl (hx tg)
                | file md c' =>
                  exfalso
                  cases cs with
                  | nil => exact hne rfl
                  | cons a as =>
                    rw [resolve_cons, if_pos (by simp [searchable, h4])] at h
                    simp at h

/-! ### Success of `MkdirRecurse` -/

theorem osCreate_zero {os : Os} {w w' : World} {p : Bytes} {m : Nat}
    (h : osCreate os w p m = (0, w')) : sysMkdir os w p m = (.ok, w') := by
  simp only [osCreate] at h
  generalize sysMkdir os w p m = x at h
  obtain ⟨r, w1⟩ := x
  cases r with
  | ok => cases h; rfl
  | fail => cases h
  | exist =>
    simp only at h
    generalize sysIsDir os w1 p = y at h
    obtain ⟨b, w2⟩ := y
    cases b <;> cases h

/-- The last step: `s` is the path `p` if that has neither NUL nor backslash. -/
def LastMk (os : Os) (mode : Nat) (p : Bytes) (w w' : World) : Prop :=
  ∃ w1 s, sysMkdir os w1 s mode = (.ok, w') ∧ w1.cwd = w.cwd ∧ (0 ∉ p → 92 ∉ p → s = p) ∧
    ∀ t B, ∃ k, FsRun os t B w.fs k w1.fs

theorem LastMk.before {os : Os} {mode : Nat} {p : Bytes} {w0 w w' : World}
    (h : LastMk os mode p w w') (hc : w.cwd = w0.cwd) (hf : ∀ t B, ∃ k, FsRun os t B w0.fs k w.fs) :
    LastMk os mode p w0 w' := by
  obtain ⟨w1, s, h1, h2, h3, h4⟩ := h
  refine ⟨w1, s, h1, h2.trans hc, h3, fun t B => ?_⟩
  obtain ⟨k, hk⟩ := hf t B
  obtain ⟨k', hk'⟩ := h4 t B
  exact ⟨_, hk.trans hk'⟩

theorem mkRestore_zero (os : Os) (mode : Nat) (p : Bytes) (idxs : List Nat) :
    ∀ (mem : Bytes) (w w' : World), idxs ≠ [] → (0 ∉ p → 92 ∉ p → MemOk p idxs mem) →
    mkRestore os mode idxs mem w = (0, w') → LastMk os mode p w w' := by
  induction idxs with
  | nil => intro mem w w' h; exact absurd rfl h
  | cons i idxs ih =>
    intro mem w w' _ hm h
    simp only [mkRestore] at h
    have hc := osCreate_calm os w (cString (mem.set i 47)) mode
    have hrun : ∀ t B, ∃ k, FsRun os t B w.fs k (osCreate os w (cString (mem.set i 47)) mode).2.fs := by
      intro t B
      obtain ⟨k, _, hk⟩ := osCreate_run' os t B w (cString (mem.set i 47)) mode
      exact ⟨k, hk⟩
    generalize hx : osCreate os w (cString (mem.set i 47)) mode = x at h hc hrun
    obtain ⟨r, w1⟩ := x
    simp only at h
    split at h
    · simp at h
    · rename_i hr
      have hr : r = 0 := Classical.not_not.mp hr
      subst hr
      cases idxs with
      | nil =>
        cases h
        refine ⟨w, _, osCreate_zero hx, rfl, ?_, fun t B => ⟨0, .refl⟩⟩
        intro h0 h92
        rw [(hm h0 h92).restore.cString h0]
        simp
      | cons a as =>
        exact (ih _ w1 w' (by simp) (fun h0 h92 => (hm h0 h92).restore) h).before hc.2 hrun

theorem mkCut_zero (os : Os) (mode : Nat) (p : Bytes) (n : Nat) :
    ∀ (idxs : List Nat) (mem : Bytes) (w w' : World), (0 ∉ p → 92 ∉ p → MemOk p idxs mem) →
    mkCut os mode n idxs mem w = (0, w') → LastMk os mode p w w' := by
  induction n with
  | zero => intro idxs mem w w' _ h; simp [mkCut] at h
  | succ n ih =>
    intro idxs mem w w' hm h
    simp only [mkCut] at h
    cases hd : fileDelimiter (cString mem) with
    | none => rw [hd] at h; simp at h
    | some i =>
      have hp : 0 ∉ p → 92 ∉ p → MemOk p (i :: idxs) (mem.set i 0) := by
        intro h0 h92
        refine (hm h0 h92).push h0 ?_
        simp only [fileDelimiter] at hd
        split at hd
        · rename_i j hj
          cases hd
          exact lastIndexOf_some hj
        · exfalso
          have := lastIndexOf_some hd
          rw [(hm h0 h92).cString h0] at this
          exact h92 (List.mem_of_mem_take (List.mem_of_getElem? this))
      rw [hd] at h
      simp only at h
      have hc := osCreate_calm os w (cString (mem.set i 0)) mode
      have hrun : ∀ t B, ∃ k, FsRun os t B w.fs k (osCreate os w (cString (mem.set i 0)) mode).2.fs := by
        intro t B
        obtain ⟨k, _, hk⟩ := osCreate_run' os t B w (cString (mem.set i 0)) mode
        exact ⟨k, hk⟩
      generalize osCreate os w (cString (mem.set i 0)) mode = x at h hc hrun
      obtain ⟨r, w1⟩ := x
      simp only at h
      split at h
      · simp at h
      · split at h
        · split at h
          · exact (mkRestore_zero os mode p _ _ w1 w' (by simp) hp h).before hc.2 hrun
          · simp at h
        · exact (ih _ _ w1 w' hp h).before hc.2 hrun

theorem mkdirRecurse_zero (os : Os) (mode : Nat) (p : Bytes) (w w' : World)
    (h : mkdirRecurse os mode p w = (0, w')) : LastMk os mode p w w' := by
  simp only [mkdirRecurse] at h
  split at h
  · simp at h
  · simp only [mkdirRaw] at h
    have hc := osCreate_calm os w.tick p mode
    have hrun : ∀ t B, ∃ k, FsRun os t B w.fs k (osCreate os w.tick p mode).2.fs := by
      intro t B
      obtain ⟨k, _, hk⟩ := osCreate_run' os t B w.tick p mode
      exact ⟨k, hk⟩
    generalize hx : osCreate os w.tick p mode = x at h hc hrun
    obtain ⟨r, w1⟩ := x
    simp only at h
    split at h
    · cases h
      exact ⟨w.tick, p, osCreate_zero hx, rfl, fun _ _ => rfl, fun t B => ⟨0, .refl⟩⟩
    · exact (mkCut_zero os mode p 62 [] p w1 w' (fun _ _ => ⟨rfl, by simp, by simp, by simp⟩) h).before
        hc.2 hrun

theorem sysMkdir_ok {os : Os} {w w' : World} {p : Bytes} {m : Nat}
    (h : sysMkdir os w p m = (.ok, w')) : ∃ l, locate os w false p = some l ∧ w.fs l = none ∧
      w'.fs = w.fs.put l (.dir (dirMode os m)) ∧ w'.cwd = w.cwd := by
  simp only [sysMkdir] at h
  split at h
  · simp at h
  · split at h
    · simp at h
    · rename_i l hl
      split at h
      · simp at h
      · rename_i hnone
        simp only [addNode] at h
        split at h
        · simp at h
        · rename_i w2 hw2
          split at hw2
          · cases hw2
            cases h
            exact ⟨l, hl, hnone, rfl, rfl⟩
          · simp at hw2

/-- If `MkdirRecurse` succeeds the path leads to a new directory, and not to anything that was
there before. -/
theorem mkdirRecurse_success {os : Os} {mode : Nat} {p : Bytes} {w w' : World}
    (h : mkdirRecurse os mode p w = (0, w')) :
    ∃ l, w.fs l = none ∧ w'.fs l = some (.dir (dirMode os mode)) ∧
      (0 ∉ p → 92 ∉ p →
        (∀ l', locate os w true p = some l' → w.fs l' = none) ∧
        (w.fs.tree → p.getLast? ≠ some 47 → locate os w' true p = some l ∧
          ∃ n k d c cs, splitPath p = cs ++ [c] ∧ n = MAX_LINKS ∧
            Walks os w'.fs n (pathBase w.cwd p) (cs ++ [c]) k (d ++ [c]) ∧ l = d ++ [c])) := by
  obtain ⟨w1, s, h1, h2, h3, h4⟩ := mkdirRecurse_zero os mode p w w' h
  obtain ⟨l, l1, l2, l3, l4⟩ := sysMkdir_ok h1
  obtain ⟨k0, hk0⟩ := h4 false 0
  refine ⟨l, hk0.old l2, by rw [l3, FS.put_same], ?_⟩
  intro h0 h92
  have hs := h3 h0 h92
  subst hs
  have hne : s ≠ [] := by intro e; rw [e] at l1; simp [locate] at l1
  rw [locate, if_neg hne, h2] at l1
  refine ⟨?_, ?_⟩
  · intro l' hl'
    rw [locate, if_neg hne] at hl'
    cases hx : w.fs l' with
    | none => rfl
    | some x =>
      exfalso
      obtain ⟨l2', g1, g2⟩ := resolve_exists os w.fs _ _ _ _ hl' (by rw [hx]; simp)
      have := resolve_stable hk0 false _ _ _ _ g1 g2
      rw [this] at l1
      cases l1
      exact g2 (hk0.old l2)
  · intro ht hlast
    have hsl : (splitPath s).getLast? ≠ some [] := by
      rcases List.eq_nil_or_concat s with e | ⟨q, b, e⟩
      · exact absurd e hne
      · rw [List.concat_eq_append] at e
        subst e
        have hb : b ≠ 47 := by simpa using hlast
        have : ∀ q : Bytes, (splitPath (q ++ [b])).getLast? ≠ some [] := by
          intro q
          induction q with
          | nil => simp [splitPath, hb]
          | cons c q ih =>
            simp only [List.cons_append, splitPath]
            split
            · rw [List.getLast?_cons]
              cases hq : splitPath (q ++ [b]) with
              | nil => exact absurd hq (splitPath_ne_nil _)
              | cons a as => rw [hq] at ih; simpa [List.getLast?_cons] using ih
            · cases hq : splitPath (q ++ [b]) with
              | nil => exact absurd hq (splitPath_ne_nil _)
              | cons a as =>
                simp only
                cases as with
                | nil => simp
                | cons y ys => rw [hq] at ih; simpa [List.getLast?_cons] using ih
        exact this q
    obtain ⟨cs0, c, d, k, e, g1, g2, g3, g4, rfl⟩ := resolve_absent (hk0.tree ht) _ _ _ _
      (splitPath_ne_nil s) hsl l1 l2
    have hkp : Keeps w1.fs w'.fs := by rw [l3]; exact Keeps.put l2 _
    have hw : Walks os w'.fs MAX_LINKS (pathBase w.cwd s) (cs0 ++ [c]) k (d ++ [c]) :=
      (g1.mono hkp).append (.dir (hkp.searchable g2) g3 g4 (by rw [l3, FS.put_same]) .nil)
    refine ⟨?_, MAX_LINKS, k, d, c, cs0, e, rfl, hw, rfl⟩
    rw [locate, if_neg hne, l4, h2, e]
    exact hw.resolve_end

end Zwt
