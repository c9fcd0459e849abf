import Verif.Props.UnixWin
import Verif.Props.Again

/-! Lemmas for C116. -/

namespace Zwt

/-- What a process makes of nodes that their owner can read (directories: also enter and change). -/
def Node.sound (os : Os) : Node → Prop
  | .dir m => ∃ m0, m = dirMode os m0 ∧ m0 &&& 0o700 = 0o700
  | .file m c => (∃ m0, m = fileMode os m0 ∧ m0 &&& 0o400 ≠ 0) ∧ c.length + 8 < 2 ^ 64
  | .link _ => False

theorem Mirror.sound {env : Env} (os : Os) 
    (hd : ∀ p es, env.list p = some es → env.statMode p &&& 0o700 = 0o700)
    (hf : ∀ p o m k, env.fopen p = some o → o.fstat = some (m, k) → m &&& 0o400 ≠ 0)
    {p : Bytes} {es : List Entry} {f : Forest} (h : Mirror env p es f) :
    ∀ q nd, (f.prune noLink p).lookup os q = some nd → nd.sound os := by
  induction h with
  | nil => intro q nd h; cases h
  | dot _ _ ih => exact ih
  | file _ h2 h3 _ ih =>
    intro q nd h
    rw [Forest.prune, if_pos (noLink_file _ _), Forest.lookup] at h
    split at h
    · cases h; exact ⟨⟨_, rfl, hf _ _ _ _ h3 rfl⟩, h2⟩
    · exact ih q nd h
  | bad _ _ _ ih => exact ih
  | link _ _ _ _ _ ih =>
    intro q nd h
    rw [Forest.prune, if_neg (by rw [noLink_link]; decide)] at h
    exact ih q nd h
  | dir _ h2 h3 _ _ ih1 ih2 =>
    intro q nd h
    rw [Forest.prune, if_pos (noLink_dir _ _)] at h
    cases q with
    | nil => cases h
    | cons x xs =>
      rw [Forest.lookup] at h
      split at h
      · split at h
        · cases h; exact ⟨_, rfl, by rw [← h2]; exact hd _ _ h3⟩
        · exact ih1 _ _ h
      · exact ih2 _ _ h
  | other _ _ ih => exact ih

/-- The directory of what is found in a tree. -/
theorem Forest.lookup_parent {os : Os} (f : Forest) (hf : f.proper) : ∀ (q : List Bytes) (c : Bytes) (nd : Node),
    q ≠ [] → f.lookup os (q ++ [c]) = some nd → ∃ m, f.lookup os q = some (.dir m) := by
  induction f with
  | nil => intro q c nd _ h; cases h
  | file n m t r ih =>
    intro q c nd hq h
    cases q with
    | nil => exact absurd rfl hq
    | cons x q =>
      rw [lookup, if_neg (by simp)] at h
      obtain ⟨_, _, e, hx⟩ := lookup_head h
      simp only [List.cons_append, List.cons.injEq] at e
      obtain ⟨m', hm'⟩ := ih hf.2.2 _ c nd hq h
      refine ⟨m', ?_⟩
      rw [lookup, if_neg (by rintro ⟨⟩; exact hf.2.1 (e.1 ▸ hx))]
      exact hm'
  | link n m t r ih =>
    intro q c nd hq h
    cases q with
    | nil => exact absurd rfl hq
    | cons x q =>
      rw [lookup, if_neg (by simp)] at h
      obtain ⟨_, _, e, hx⟩ := lookup_head h
      simp only [List.cons_append, List.cons.injEq] at e
      obtain ⟨m', hm'⟩ := ih hf.2.2.2.2 _ c nd hq h
      refine ⟨m', ?_⟩
      rw [lookup, if_neg (by rintro ⟨⟩; exact hf.2.1 (e.1 ▸ hx))]
      exact hm'
  | dir n m s r ihs ih =>
    intro q c nd hq h
    cases q with
    | nil => exact absurd rfl hq
    | cons x q =>
      rw [List.cons_append, lookup] at h
      rw [lookup]
      split at h
      · rename_i e
        rw [if_pos e]
        rw [if_neg (by simp)] at h
        by_cases hq' : q = []
        · exact ⟨_, by rw [if_pos hq']⟩
        · rw [if_neg hq']; exact ihs hf.2.2.1 q c nd hq' h
      · rename_i e
        rw [if_neg e]
        exact ih hf.2.2.2 (x :: q) c nd (by simp) h
  | other n r ih => exact ih hf
  | bad n r ih => exact ih hf

theorem Forest.lookup_names {os : Os} {win : Win} (f : Forest) (hf : f.winOk win) (hl : f.noLinks) :
    ∀ (q : List Bytes) (nd : Node), f.lookup os q = some nd → ∀ x ∈ q, WinName win x := by
  induction f with
  | nil => intro q nd h; cases h
  | file n m c r ih =>
    intro q nd h
    rw [lookup] at h
    split at h
    · rename_i e; subst e; simpa using hf.1
    · exact ih hf.2.2 hl q nd h
  | link n m t r ih => exact absurd hl id
  | dir n m s r ihs ih =>
    intro q nd h
    cases q with
    | nil => simp
    | cons x q =>
      rw [lookup] at h
      split at h
      · rename_i e; subst e
        intro y hy
        rcases List.mem_cons.mp hy with rfl | hy
        · exact hf.1
        · split at h
          · rename_i e; subst e; cases hy
          · exact ihs hf.2.2.1 hl.1 q nd h y hy
      · exact ih hf.2.2.2 hl.2 _ nd h
  | other n r ih => exact ih hf hl
  | bad n r ih => exact ih hf hl

theorem Forest.lookup_winNames {os : Os} {win : Win} (f : Forest) (hl : f.noLinks) :
    ∀ (x : Bytes) (nd : Node), f.lookup os [x] = some nd → win.same x ∈ f.winNames win := by
  induction f with
  | nil => intro x nd h; cases h
  | file n m c r ih =>
    intro x nd h
    rw [lookup] at h
    split at h
    · rename_i e; cases e; exact List.mem_cons_self
    · exact List.mem_cons_of_mem _ (ih hl x nd h)
  | link n m t r ih => exact absurd hl id
  | dir n m s r ihs ih =>
    intro x nd h
    rw [lookup] at h
    split at h
    · rename_i e; subst e; exact List.mem_cons_self
    · exact List.mem_cons_of_mem _ (ih hl.2 x nd h)
  | other n r ih => exact ih hl
  | bad n r ih => exact ih hl

theorem Forest.lookup_apart {os : Os} {win : Win} (f : Forest) (hf : f.winOk win) (hl : f.noLinks) :
    ∀ (q : List Bytes) (x y : Bytes) (nd nd' : Node), f.lookup os (q ++ [x]) = some nd →
      f.lookup os (q ++ [y]) = some nd' → win.same x = win.same y → x = y := by
  induction f with
  | nil => intro q x y nd nd' h; cases h
  | file n m c r ih =>
    intro q x y nd nd' h h' e
    rw [lookup] at h h'
    cases q with
    | cons z q =>
      rw [if_neg (by simp)] at h h'
      exact ih hf.2.2 hl (z :: q) x y nd nd' h h' e
    | nil =>
      simp only [List.nil_append, List.cons.injEq, and_true] at h h'
      split at h <;> split at h'
      · rename_i a b; rw [a, b]
      · rename_i a b; subst a
        exact absurd (e ▸ lookup_winNames r hl y nd' h') hf.2.1
      · rename_i a b; subst b
        exact absurd (e ▸ lookup_winNames r hl x nd h) hf.2.1
      · exact ih hf.2.2 hl [] x y nd nd' h h' e
  | link n m t r ih => exact absurd hl id
  | dir n m s r ihs ih =>
    intro q x y nd nd' h h' e
    cases q with
    | cons z q =>
      rw [List.cons_append, lookup] at h h'
      split at h
      · rename_i a
        rw [if_pos a, if_neg (by simp)] at h'
        rw [if_neg (by simp)] at h
        exact ihs hf.2.2.1 hl.1 q x y nd nd' h h' e
      · rename_i a
        rw [if_neg a] at h'
        exact ih hf.2.2.2 hl.2 (z :: q) x y nd nd' h h' e
    | nil =>
      rw [List.nil_append, lookup] at h h'
      split at h <;> split at h'
      · rename_i a b; rw [a, b]
      · rename_i a b; subst a
        exact absurd (e ▸ lookup_winNames r hl.2 y nd' h') hf.2.1
      · rename_i a b; subst b
        exact absurd (e ▸ lookup_winNames r hl.2 x nd h) hf.2.1
      · exact ih hf.2.2.2 hl.2 [] x y nd nd' h h' e
  | other n r ih => exact ih hf hl
  | bad n r ih => exact ih hf hl

theorem SpelledIn.last {list : Bytes → Option (List Entry)} (x : Bytes) : ∀ (q : List Bytes) (p : Bytes)
    (es : List Entry), list p = some es → SpelledIn list p es (q ++ [x]) →
    ∃ es', list (p ++ slashed q) = some es' ∧ ∃ e ∈ es', e.name = x := by
  intro q
  induction q with
  | nil =>
    intro p es hl h
    exact ⟨es, by simpa [slashed] using hl, h.1⟩
  | cons y q ih =>
    intro p es hl h
    obtain ⟨_, h | ⟨es', h1, h2⟩⟩ := h
    · simp at h
    · obtain ⟨es2, a, b⟩ := ih _ _ h1 h2
      exact ⟨es2, by rw [← a]; simp [slashed], b⟩

/-- A tree as a disk of its own. -/
def Forest.disk (os : Os) (f : Forest) : World :=
  ⟨fun x => if x = [] then some (.dir 0o700) else f.lookup os x, [], 0⟩

theorem Forest.disk_at {os : Os} {f : Forest} {x : Loc} (h : x ≠ []) : (f.disk os).fs x = f.lookup os x :=
  if_neg h

theorem Forest.disk_tree {os : Os} {f : Forest} (hf : f.proper) : (f.disk os).fs.tree := by
  refine ⟨⟨_, rfl⟩, fun l c n h => ?_⟩
  rw [disk_at (by simp)] at h
  by_cases hl : l = []
  · subst hl; exact ⟨_, rfl⟩
  · rw [disk_at hl]; exact f.lookup_parent hf l c n hl h

theorem Node.sound_copied {os : Os} {nd : Node} (h : nd.sound os) : nd.copied os = nd := by
  cases nd with
  | dir m => obtain ⟨m0, rfl, _⟩ := h; exact Node.copied_copied os (.dir m0)
  | file m c => obtain ⟨⟨m0, rfl, _⟩, _⟩ := h; exact Node.copied_copied os (.file m0 c)
  | link t => exact absurd h id

/-- What landed is a copy of the tree as a disk. -/
theorem Landed.copy {os : Os} {f : Forest} (hf : f.proper) (hs : ∀ q nd, f.lookup os q = some nd → nd.sound os)
    {fs fs' : FS} {d : Loc} {n : Bytes} {ns : List Bytes} (h : Landed os fs fs' d n ns f) :
    CopyOf os (f.disk os).fs [47] [] (fun _ _ => true) fs fs' d n ns := by
  refine ⟨h.1, fun x q _ => ?_, fun x q hk => ?_, h.2.2⟩
  · rw [h.2.1, List.nil_append, Forest.disk_at (by simp)]
    cases hx : f.lookup os (x :: q) with
    | none => rfl
    | some nd => rw [Option.map_some, Node.sound_copied (hs _ _ hx)]
  · rw [h.2.1]
    cases hx : f.lookup os (x :: q) with
    | none => rfl
    | some nd =>
      refine absurd (keptAt_true _ (Forest.disk_tree hf) _ _ _ ?_) hk
      rw [List.nil_append, Forest.disk_at (by simp), hx]
      simp

theorem bits700 {m k : Nat} (hm : m &&& 0o700 = 0o700) (hk : (0o700 : Nat).testBit k = true) : m &&& 2 ^ k ≠ 0 := by
  have := congrArg (fun x => Nat.testBit x k) hm
  simp only [Nat.testBit_and, hk, Bool.and_true] at this
  exact and_of_bit this

/-- The tree as a disk can be archived. -/
theorem Forest.disk_archivable {os : Os} {win : Win} (ho : OwnerKeeps os) {f : Forest} (hwin : f.winOk win)
    (hl : f.noLinks) (hs : ∀ q nd, f.lookup os q = some nd → nd.sound os)
    (hlim : ∀ q nd, f.lookup os q = some nd → 1 + (slashed q).length ≤ 4094) :
    Archivable os (f.disk os) [47] [] := by
  have hroot : (f.disk os).fs [] = some (.dir 0o700) := rfl
  refine ⟨by decide, ?_, ⟨_, rfl⟩, ?_, ?_, ?_, ?_, ?_⟩
  · have hsr : searchable os (f.disk os).fs [] = true := by
      simp only [searchable, hroot]
      simp
    simp only [locate, MAX_LINKS, resolve, splitPath, pathBase]
    simp [resolveWith, hsr]
  · intro q m h
    rw [List.nil_append] at h
    by_cases hq : q = []
    · subst hq
      rw [hroot] at h; cases h
      exact ⟨.inr (by decide), .inr (by decide), by decide⟩
    · rw [disk_at hq] at h
      obtain ⟨m0, rfl, hm⟩ := hs _ _ h
      exact ⟨.inr (ho.dir (k := 8) (by decide) (by decide) (bits700 (k := 8) hm (by decide))),
        .inr (ho.dir (k := 6) (by decide) (by decide) (bits700 (k := 6) hm (by decide))), dirMode_small _ _⟩
  · intro q m c h
    rw [List.nil_append] at h
    by_cases hq : q = []
    · subst hq
      rw [hroot] at h; cases h
    · rw [disk_at hq] at h
      obtain ⟨⟨m0, rfl, hm⟩, hc⟩ := hs _ _ h
      exact ⟨.inr (ho.file (k := 8) (by decide) (by decide) hm), fileMode_small _ _, hc⟩
  · intro q t h
    rw [List.nil_append] at h
    by_cases hq : q = []
    · subst hq
      rw [hroot] at h; cases h
    · rw [disk_at hq] at h
      exact absurd (hs _ _ h) id
  · intro q x nd h
    rw [List.nil_append, disk_at (by simp)] at h
    exact (f.lookup_names hwin hl _ _ h x (by simp)).1
  · intro q nd h
    rw [List.nil_append] at h
    by_cases hq : q = []
    · subst hq; decide
    · rw [disk_at hq] at h
      exact hlim q nd h

end Zwt
