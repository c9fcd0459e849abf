import Verif.Proofs.WalkRun

/-! More about selections and the walk. -/

namespace Zwt

variable {σ : Type} {D : Deflater} {plain : Bytes → Bytes}

/-- A filter without memory prunes the tree. -/
theorem select_prune (keep : Bytes → Entry → Bool) (f : Forest) : ∀ (dir : Bytes),
    f.readable keep dir → (select (keepFilter keep) dir f ()).status = .done ∧
      (select (keepFilter keep) dir f ()).forest = f.prune keep dir := by
  induction f with
  | nil => intro dir _; exact ⟨rfl, rfl⟩
  | file n m c r ih =>
    intro dir h
    obtain ⟨i1, i2⟩ := ih dir h
    simp only [select, askFilter, keepFilter, Forest.prune]
    by_cases hk : keep dir ⟨n, .file⟩ = true
    · simp only [hk, if_true, Sel.add]; exact ⟨i1, by rw [← i2]⟩
    · simp only [hk]; exact ⟨i1, i2⟩
  | link n m c r ih =>
    intro dir h
    obtain ⟨i1, i2⟩ := ih dir h
    simp only [select, askFilter, keepFilter, Forest.prune]
    by_cases hk : keep dir ⟨n, .symlink⟩ = true
    · simp only [hk, if_true, Sel.add]; exact ⟨i1, by rw [← i2]⟩
    · simp only [hk]; exact ⟨i1, i2⟩
  | dir n m s r ihs ih =>
    intro dir h
    obtain ⟨h1, h2⟩ := h
    obtain ⟨i1, i2⟩ := ih dir h2
    simp only [select, askFilter, keepFilter, Forest.prune]
    by_cases hk : keep dir ⟨n, .dir⟩ = true
    · obtain ⟨j1, j2⟩ := ihs _ (h1 hk)
      simp only [hk, if_true]
      simp only [Sel.close, j1]
      exact ⟨i1, by rw [← i2, ← j2]⟩
    · simp only [hk]; exact ⟨i1, i2⟩
  | other n r ih =>
    intro dir h
    obtain ⟨i1, i2⟩ := ih dir h
    simp only [select, askFilter, keepFilter, Forest.prune]
    by_cases hk : keep dir ⟨n, .other⟩ = true
    · simp only [hk, if_true]; exact ⟨i1, i2⟩
    · simp only [hk]; exact ⟨i1, i2⟩
  | bad n r ih =>
    intro dir h
    obtain ⟨h1, h2⟩ := h
    obtain ⟨i1, i2⟩ := ih dir h2
    simp only [select, askFilter, keepFilter, Forest.prune, h1]
    exact ⟨i1, i2⟩

/-- Files of a selection are files of the tree. -/
theorem select_files (flt : Filter σ) (f : Forest) : ∀ (dir : Bytes) (fs : σ),
    ∀ x ∈ (select flt dir f fs).forest.files dir, x ∈ f.files dir := by
  have ask : ∀ {dir : Bytes} {e : Entry} {fs : σ} {skip take : σ → Sel σ}
      {l : List (Bytes × Bytes × Nat × Bytes)},
      (∀ fs, ∀ x ∈ (skip fs).forest.files dir, x ∈ l) →
      (∀ fs, ∀ x ∈ (take fs).forest.files dir, x ∈ l) →
      ∀ x ∈ (askFilter flt dir e fs skip take).forest.files dir, x ∈ l := by
    intro dir e fs skip take l hs ht x hx
    unfold askFilter at hx
    simp only at hx
    by_cases h0 : (flt fs dir e).1 = 0
    · rw [if_pos h0] at hx; exact ht _ x hx
    · rw [if_neg h0] at hx
      by_cases h7 : (flt fs dir e).1 = 387
      · rw [if_pos h7] at hx; simp [Forest.files] at hx
      · rw [if_neg h7] at hx; exact hs _ x hx
  induction f with
  | nil => intro dir fs x hx; exact hx
  | file n m c r ih =>
    intro dir fs
    refine ask (fun fs x hx => List.mem_cons_of_mem _ (ih dir fs x hx)) (fun fs x hx => ?_)
    rcases List.mem_cons.mp hx with rfl | hx
    · exact List.mem_cons_self
    · exact List.mem_cons_of_mem _ (ih dir fs x hx)
  | link n m c r ih =>
    intro dir fs
    exact ask (fun fs x hx => ih dir fs x hx) (fun fs x hx => ih dir fs x hx)
  | other n r ih =>
    intro dir fs
    exact ask (fun fs x hx => ih dir fs x hx) (fun fs x hx => ih dir fs x hx)
  | bad n r ih =>
    intro dir fs
    exact ask (fun fs x hx => ih dir fs x hx) (fun fs x hx => by simp [Forest.files] at hx)
  | dir n m s r ihs ih =>
    intro dir fs
    refine ask (fun fs x hx => List.mem_append_right _ (ih dir fs x hx)) (fun fs x hx => ?_)
    unfold Sel.close at hx
    split at hx
    · simp only [Forest.files] at hx
      rcases List.mem_append.mp hx with hx | hx
      · exact List.mem_append_left _ (ihs _ _ x hx)
      · exact List.mem_append_right _ (ih dir _ x hx)
    · simp only [Forest.files, List.append_nil] at hx
      exact List.mem_append_left _ (ihs _ _ x hx)

/-- The files of a tree shown by the file system are what opening their paths gives. -/
theorem Mirror.files {env : Env} {dir : Bytes} {es : List Entry} {f : Forest}
    (h : Mirror env dir es f) : ∀ x ∈ f.files dir,
      env.fopen (pathOf x.1 x.2.1) = some ⟨some (x.2.2.1, x.2.2.2.length), x.2.2.2, false⟩ := by
  induction h with
  | nil => intro x hx; simp [Forest.files] at hx
  | dot _ _ ih => exact ih
  | file _ _ ho _ ih =>
    intro x hx
    rcases List.mem_cons.mp hx with rfl | hx
    · exact ho
    · exact ih x hx
  | bad _ _ _ ih => exact ih
  | link _ _ _ _ _ ih => exact ih
  | dir _ _ _ _ _ ih1 ih2 =>
    intro x hx
    rcases List.mem_append.mp hx with hx | hx
    · exact ih1 x hx
    · exact ih2 x hx
  | other _ _ ih => exact ih

/-! ### Going on after a part of a listing -/

theorem visit_exit {env : Env} {flt : Filter σ} {fuel : Nat} {dir : Bytes} {e : Entry} {w w' : W σ}
    (h : visit env flt fuel dir e w = .ok (EXIT_ALL, w')) :
    w'.hasError = true ∨ w'.shouldExit = true := by
  cases fuel with
  | zero => simp [visit] at h
  | succ n =>
    simp only [visit] at h
    split at h
    · rename_i h1; cases h; exact h1
    · split at h
      · simp [EXIT_ALL] at h
      · split at h
        · split at h
          · cases h; right; rfl
          · simp [EXIT_ALL] at h
        · unfold visitEntry at h
          split at h
          · unfold visitDir at h
            simp only at h
            split at h
            · cases h
            · split at h
              · cases h
              · simp [EXIT_ALL] at h
          · unfold visitFile at h
            split at h
            · cases h; left; rfl
            · split at h
              · cases h; left; rfl
              · obtain ⟨_, _, c, d⟩ := asFile_flags h
                left
                rw [c]
                split at d
                · rename_i hr; simp [hr]
                · simp [EXIT_ALL] at d
          · unfold visitLink at h
            simp only at h
            split at h
            · cases h
            · split at h
              · cases h
              · split at h
                · cases h
                · split at h
                  · cases h
                  · simp [EXIT_ALL] at h
          · simp [EXIT_ALL] at h

theorem iterate_append {env : Env} {flt : Filter σ} {fuel : Nat} {dir : Bytes} (a b : List Entry) :
    ∀ {w w' : W σ}, iterate (visit env flt fuel dir) a w = .ok w' → w'.live →
      iterate (visit env flt fuel dir) (a ++ b) w = iterate (visit env flt fuel dir) b w' := by
  induction a with
  | nil => intro w w' h _; cases h; rfl
  | cons e a ih =>
    intro w w' h hl
    simp only [iterate] at h
    split at h
    · cases h
    · rename_i ret w1 h1
      rw [List.cons_append, iterate_cons h1]
      split at h
      · rename_i hret
        cases h
        subst hret
        rcases visit_exit h1 with h2 | h2
        · rw [hl.1] at h2; cases h2
        · rw [hl.2] at h2; cases h2
      · rename_i hret
        rw [if_neg hret]
        exact ih h hl

theorem putItem_out {w w' : W σ} {item name : Bytes} (h : w.putItem item name = .ok w') :
    w.out <+: w'.out := by
  unfold W.putItem at h
  split at h
  · cases h
  · cases h
    simp only [W.put, List.append_assoc]
    exact List.prefix_append _ _

theorem asFile_out {w w' : W σ} {m name : Bytes} {mode size : Nat} {ps : List Bytes} {rerr : Bool}
    {ret : Int} (h : asFile w m name mode size ps rerr = .ok (ret, w')) : w.out <+: w'.out := by
  unfold asFile at h
  split at h
  · cases h
  · rename_i w1 hw1
    have hp := putItem_out hw1
    simp only at h
    split at h
    · cases h
      exact hp.trans (List.prefix_append _ _)
    · split at h
      · cases h
      · cases h
        exact (hp.trans (List.prefix_append _ _)).trans (List.prefix_append _ _)

/-- What has been written stays written. -/
theorem visit_out (env : Env) (flt : Filter σ) (fuel : Nat) : ∀ (dir : Bytes) (e : Entry)
    (w : W σ) (ret : Int) (w' : W σ), visit env flt fuel dir e w = .ok (ret, w') →
      w.out <+: w'.out := by
  induction fuel with
  | zero => intro dir e w ret w' h; simp [visit] at h
  | succ n ih =>
    intro dir e w ret w' h
    simp only [visit] at h
    split at h
    · cases h; exact List.prefix_refl _
    · split at h
      · cases h; exact List.prefix_refl _
      · split at h
        · split at h <;> cases h <;> exact List.prefix_refl _
        · have e0 : (w.ask flt dir e).out = w.out := rfl
          rw [← e0]
          unfold visitEntry at h
          split at h
          · unfold visitDir at h
            simp only at h
            split at h
            · cases h
            · rename_i w1 hw1
              split at h
              · cases h
              · rename_i w2 hw2
                cases h
                have hp := putItem_out hw1
                have := iterate_inv (P := fun w => w1.out <+: w.out)
                  (fun e w ret w' hw hv => hw.trans (ih _ e w ret w' hv)) _ _ _
                  (List.prefix_refl _) hw2
                exact (hp.trans this).trans (List.prefix_append _ _)
          · unfold visitFile at h
            split at h
            · cases h; exact List.prefix_refl _
            · split at h
              · cases h; exact List.prefix_refl _
              · exact asFile_out h
          · unfold visitLink at h
            simp only at h
            split at h
            · cases h
            · split at h
              · cases h
              · split at h
                · cases h
                · rename_i hw1
                  have hp := putItem_out hw1
                  split at h
                  · cases h
                  · cases h
                    simp only [W.put, List.append_assoc]
                    exact hp.trans (List.prefix_append _ _)
          · cases h; exact List.prefix_refl _

theorem iterate_out (env : Env) (flt : Filter σ) (fuel : Nat) (dir : Bytes) (es : List Entry)
    {w w' : W σ} (h : iterate (visit env flt fuel dir) es w = .ok w') : w.out <+: w'.out :=
  iterate_inv (P := fun v => w.out <+: v.out)
    (fun e v ret v' hv h => hv.trans (visit_out env flt fuel dir e v ret v' h)) _ _ _
    (List.prefix_refl _) h

end Zwt
