import Verif.Proofs.ConcPlay

/-! Extraction to an absolute path does not depend on the working directory. -/

namespace Zwt

variable {α β : Type}

/-- The same world with another working directory. -/
def World.goto (w : World) (x : Loc) : World := { w with cwd := x }

theorem locate_goto (os : Os) (w : World) (x : Loc) (follow : Bool) {s : Bytes}
    (hs : s = [] ∨ s.head? = some 47) : locate os (w.goto x) follow s = locate os w follow s := by
  rcases hs with rfl | hs
  · simp [locate]
  · simp only [locate, pathBase, hs, if_true, World.goto]

/-- The call does not depend on the working directory. -/
def Call.Free (os : Os) (c : Call) : Prop :=
  ∀ w x, c.exec os (w.goto x) = ((c.exec os w).1, (c.exec os w).2.goto x)

theorem PathCut.absolute {path s : Bytes} (h : PathCut path s) (hp : path.head? = some 47) :
    s = [] ∨ s.head? = some 47 := by
  rcases h with rfl | ⟨t, rfl⟩
  · exact .inr hp
  · cases s with
    | nil => exact .inl rfl
    | cons a s => exact .inr (by simpa using hp)

theorem goto_addNode (os : Os) (w : World) (x l : Loc) (n : Node) :
    addNode os (w.goto x) l n = (addNode os w l n).map (·.goto x) := by
  have h : addNode os (w.goto x) l n =
      if writable os w.fs l.dropLast then some ((w.put l n).goto x) else none := rfl
  rw [h, addNode]
  by_cases hw : writable os w.fs l.dropLast = true
  · rw [if_pos hw, if_pos hw]; rfl
  · rw [if_neg hw, if_neg hw]; rfl

theorem Call.Near.free {os : Os} {pre : Bytes} {d : Loc} {n : Bytes} {c : Call} (h : c.Near pre d n)
    (hp : pre.head? = some 47) : c.Free os := by
  have hpath : ∀ ns, (pre ++ n ++ slashed ns).head? = some 47 := by
    intro ns
    cases pre with
    | nil => simp at hp
    | cons a pre => simpa using hp
  have hcalls : ∀ (w : World) x, (w.goto x).calls = w.calls := fun _ _ => rfl
  have hfs : ∀ (w : World) x, (w.goto x).fs = w.fs := fun _ _ => rfl
  have htick : ∀ (w : World) x, (w.goto x).tick = w.tick.goto x := fun _ _ => rfl
  have hput : ∀ (w : World) x l y, (w.goto x).put l y = (w.put l y).goto x := fun _ _ _ _ => rfl
  intro w x
  cases c with
  | alloc => rfl
  | nop => rfl
  | mkdir s m =>
    obtain ⟨ns, _, h2⟩ := h
    simp only [Call.exec, sysMkdir, locate_goto os w x _ (h2.absolute (hpath ns)), hcalls, hfs, htick,
      goto_addNode]
    repeat' split
    all_goals simp_all
    all_goals (subst_vars; rfl)
  | isDir s =>
    obtain ⟨ns, _, h2⟩ := h
    simp only [Call.exec, sysIsDir, locate_goto os w x _ (h2.absolute (hpath ns)), hcalls, hfs, htick]
    repeat' split
    all_goals simp_all
  | openFile s m t =>
    obtain ⟨ns, _, rfl⟩ := h
    simp only [Call.exec, sysOpen, locate_goto os w x _ (.inr (hpath ns)), hcalls, hfs, htick, hput,
      goto_addNode]
    repeat' split
    all_goals simp_all
    all_goals (subst_vars; rfl)
  | write f y =>
    simp only [Call.exec, sysWrite, hcalls, hfs, htick, hput]
    repeat' split
    all_goals simp_all
  | symlink t p => exact h.elim
  | chdir p => exact h.elim
  | getcwd k => exact h.elim

/-- As `amid_local`, for calls that do not depend on the working directory, which may change. -/
theorem amid_free (os : Os) (w0 : World) (r : Loc) (acts : List (Option (World → World)))
    (hg : ∀ g, some g ∈ acts → ElsewhereFs w0 r g) : ∀ (p : Prog α) (w w' : World),
    p.All (fun c _ => c.Local os w0 r ∧ c.Free os) os w → Twin w0 r w (w'.goto w0.cwd) →
    (amid os acts p w').1 = (p.after os (acts.countP Option.isNone) w).1 ∧
      Twin w0 r (p.after os (acts.countP Option.isNone) w).2 ((amid os acts p w').2.goto w0.cwd) := by
  induction acts with
  | nil => intro p w w' _ hT; exact ⟨rfl, hT⟩
  | cons a acts ih =>
    intro p w w' hA hT
    have ih := ih fun g h => hg g (List.mem_cons_of_mem _ h)
    cases a with
    | none =>
      rw [List.countP_cons_of_pos rfl]
      cases p with
      | ret a =>
        simp only [amid, Prog.step, Prog.after]
        exact ih _ _ _ hA hT
      | call c k =>
        obtain ⟨e1, e2, e3⟩ := hA.1.1 _ _ hT
        have hfree := hA.1.2 w' w0.cwd
        rw [hfree] at e1 e2
        simp only [amid, Prog.step, Prog.after]
        have e1 : (c.exec os w').1 = (c.exec os w).1 := e1
        rw [e1]
        exact ih _ _ _ hA.2 e2
    | some g =>
      rw [List.countP_cons_of_neg (by simp)]
      simp only [amid]
      obtain ⟨g2, g3⟩ := hg g List.mem_cons_self w'
      refine ih _ _ _ hA (hT.others rfl ⟨?_, ?_⟩ g2)
      · exact fun l m h => g3 l _ h (by simp) (hT.right.keeps.1 l m h)
      · exact fun l t h => g3 l _ h (by simp) (hT.right.keeps.2 l t h)

end Zwt
