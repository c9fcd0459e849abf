import Verif.Proofs.Faults
import Verif.Proofs.WinGrow

/-! Which faults the callbacks of an archive can meet on Windows. -/

namespace Zwt

/-- Inside a file the descriptor is not a closed one. -/
def HLW.live (h : HLW) : Proto → Prop
  | .idle => True
  | .inFile _ => h.fd ≠ .closed
  | .inLink => True

theorem winEvent_live (win : Win) (out : Bytes) (h h' : HLW) (e : Ev) (p p' : Proto) (I : h.live p)
    (hst : p.step e = some p') (hr : winEvent win out h e = .ok h') :
    h'.live p' ∧ (h'.dirPath = none → h.dirPath = none) := by
  cases e with
  | flStart => cases p <;> simp [Proto.step] at hst
  | drStart => cases p <;> simp [Proto.step] at hst
  | flRead d => cases p <;> simp [Proto.step] at hst
  | dirEnd =>
    cases p <;> simp only [Proto.step, Option.some.injEq, reduceCtorEq] at hst
    subst hst
    refine ⟨trivial, ?_⟩
    simp only [winEvent, winDirEnd] at hr
    split at hr
    · cases hr
    · split at hr <;> cases hr
      simp
  | symLink t a =>
    cases p <;> simp only [Proto.step, Option.some.injEq, reduceCtorEq] at hst
    subst hst
    refine ⟨trivial, ?_⟩
    cases hr
    exact id
  | fileRead d =>
    cases p <;> simp only [Proto.step, reduceCtorEq] at hst
    split at hst <;> cases hst
    simp only [winEvent, winFileRead] at hr
    simp only [HLW.live] at I ⊢
    split at hr
    · rename_i hf; cases hr; exact ⟨by simpa [hf] using I, id⟩
    · cases hr
    · cases hr; exact ⟨by simp, id⟩
  | fileEnd =>
    cases p with
    | inFile n =>
      cases n <;> simp only [Proto.step, Option.some.injEq, reduceCtorEq] at hst
      subst hst
      refine ⟨trivial, ?_⟩
      simp only [winEvent, winFileEnd] at hr
      split at hr <;> cases hr <;> exact id
    | _ => simp [Proto.step] at hst
  | itemStart ft nm it =>
    cases p with
    | idle =>
      cases ft <;> simp only [Proto.step, Option.some.injEq, reduceCtorEq] at hst <;> subst hst
      · refine ⟨trivial, ?_⟩
        simp only [winEvent, winItemStart, winDirItem] at hr
        split at hr
        · cases hr; exact id
        · split at hr <;> cases hr
          simp
      · simp only [winEvent, winItemStart, winFileItem] at hr
        split at hr
        · cases hr
        · split at hr <;> cases hr <;> exact ⟨by simp [HLW.live], id⟩
      · simp only [winEvent, winItemStart] at hr
        cases hr
        exact ⟨by simp [HLW.live], id⟩
    | _ => simp [Proto.step] at hst

theorem winEvent_faults (win : Win) (out : Bytes) (h : HLW) (e : Ev) (p p' : Proto) (I : h.live p)
    (hst : p.step e = some p') (x : Fault) (hr : winEvent win out h e = .error x) :
    (x = .nullDeref ∧ h.dirPath = none ∧ e = .dirEnd) ∨
    (x = .assertFail ∧ e = .dirEnd ∧ ∃ q, h.dirPath = some q ∧ 47 ∉ cString q) ∨
    (x = .oobRead ∧ ∃ a ∈ e.atoms, a.overlong) := by
  have hpath : ∀ (g : HLW) (nm : Bytes) (n : Nat) (y : Fault), winItemPath g nm n = .error y →
      y = .oobRead ∧ nm.length < n := by
    intro g nm n y hy
    simp only [winItemPath] at hy
    split at hy <;> cases hy
    exact ⟨rfl, by omega⟩
  cases e with
  | flStart => cases p <;> simp [Proto.step] at hst
  | drStart => cases p <;> simp [Proto.step] at hst
  | flRead d => cases p <;> simp [Proto.step] at hst
  | dirEnd =>
    simp only [winEvent, winDirEnd] at hr
    split at hr
    · rename_i hd; cases hr; exact .inl ⟨rfl, hd, rfl⟩
    · rename_i q hd
      split at hr <;> cases hr
      rename_i hl
      exact .inr (.inl ⟨rfl, rfl, q, hd, lastIndexOf_eq_none hl⟩)
  | symLink t a =>
    cases p <;> simp only [Proto.step, Option.some.injEq, reduceCtorEq] at hst
    cases hr
  | fileRead d =>
    cases p <;> simp only [Proto.step, reduceCtorEq] at hst
    simp only [winEvent, winFileRead] at hr
    split at hr <;> cases hr
    rename_i hf
    exact absurd hf I
  | fileEnd =>
    cases p with
    | inFile n =>
      simp only [winEvent, winFileEnd] at hr
      split at hr <;> cases hr
      rename_i hf
      exact absurd hf I
    | _ => simp [Proto.step] at hst
  | itemStart ft nm it =>
    cases p with
    | idle =>
      cases ft <;> simp only [Proto.step, Option.some.injEq, reduceCtorEq] at hst
      · simp only [winEvent, winItemStart, winDirItem] at hr
        split at hr
        · cases hr
        · split at hr <;> cases hr
          rename_i hp
          obtain ⟨g1, g2⟩ := hpath _ _ _ _ hp
          exact .inr (.inr ⟨g1, _, List.mem_singleton.mpr rfl, g2⟩)
      · simp only [winEvent, winItemStart, winFileItem] at hr
        split at hr
        · rename_i hp
          cases hr
          obtain ⟨g1, g2⟩ := hpath _ _ _ _ hp
          exact .inr (.inr ⟨g1, _, List.mem_singleton.mpr rfl, g2⟩)
        · split at hr <;> cases hr
      · simp only [winEvent, winItemStart] at hr
        cases hr
    | _ => simp [Proto.step] at hst

/-- The callbacks of the entries of a directory. -/
theorem winEvents_faults (win : Win) (out : Bytes) (evs : List Ev) : ∀ (h : HLW) (p : Proto), h.live p →
    (p.run evs).isSome → ∀ x, winEvents win out h evs = .error x →
    (x = .nullDeref ∧ h.dirPath = none ∧ Atom.dirEnd ∈ atoms evs) ∨
    (x = .assertFail ∧ Atom.dirEnd ∈ atoms evs) ∨
    (x = .oobRead ∧ ∃ a ∈ atoms evs, a.overlong) := by
  induction evs with
  | nil => intro h p _ _ x hx; cases hx
  | cons e evs ih =>
    intro h p I hp x hx
    have hat : atoms (e :: evs) = e.atoms ++ atoms evs := by simp [atoms]
    rw [hat]
    simp only [Proto.run] at hp
    cases hst : p.step e with
    | none => rw [hst] at hp; simp at hp
    | some p' =>
      rw [hst] at hp
      simp only [Option.bind_some] at hp
      simp only [winEvents] at hx
      split at hx
      · rename_i y hy
        cases hx
        rcases winEvent_faults win out h e p p' I hst _ hy with ⟨a, b, rfl⟩ | ⟨a, rfl, _⟩ | ⟨a, b⟩
        · exact .inl ⟨a, b, by simp [Ev.atoms]⟩
        · exact .inr (.inl ⟨a, by simp [Ev.atoms]⟩)
        · obtain ⟨c, b, d⟩ := b
          exact .inr (.inr ⟨a, c, List.mem_append_left _ b, d⟩)
      · rename_i h1 h1e
        obtain ⟨I', hd⟩ := winEvent_live win out h h1 e p p' I hst h1e
        rcases ih h1 p' I' hp x hx with ⟨a, b, c⟩ | ⟨a, b⟩ | ⟨a, b⟩
        · exact .inl ⟨a, hd b, List.mem_append_right _ c⟩
        · exact .inr (.inl ⟨a, List.mem_append_right _ b⟩)
        · obtain ⟨c, b, d⟩ := b
          exact .inr (.inr ⟨a, c, List.mem_append_right _ b, d⟩)

/-- With memory, names without NUL and matched ends, leaving a directory is always possible. -/
theorem winEvents_leave (win : Win) (hmem : ∀ k, win.noMem k = false) (out : Bytes) (evs : List Ev) :
    ∀ (h : HLW) (p : Proto) (d : Nat), h.live p → pathDepth d h.dirPath → (p.run evs).isSome →
    (∀ a ∈ atoms evs, ¬ a.nulDir) → balance d (atoms evs) ≠ none →
    ∀ x, winEvents win out h evs = .error x → x = .oobRead := by
  induction evs with
  | nil => intro h p d _ _ _ _ _ x hx; cases hx
  | cons e evs ih =>
    intro h p d I hd hp hn hb x hx
    have hat : atoms (e :: evs) = e.atoms ++ atoms evs := by simp [atoms]
    rw [hat] at hn hb
    simp only [Proto.run] at hp
    cases hst : p.step e with
    | none => rw [hst] at hp; simp at hp
    | some p' =>
      rw [hst] at hp
      simp only [Option.bind_some] at hp
      have hn2 : ∀ a ∈ atoms evs, ¬ a.nulDir := fun a ha => hn a (List.mem_append_right _ ha)
      -- what happens to the path
      have key : (∀ h1, winEvent win out h e = .ok h1 →
          ∃ d', pathDepth d' h1.dirPath ∧ balance d' (atoms evs) ≠ none) ∧
          (e = .dirEnd → ∃ q, h.dirPath = some q ∧ 47 ∈ cString q) := by
        cases e with
        | flStart => cases p <;> simp [Proto.step] at hst
        | drStart => cases p <;> simp [Proto.step] at hst
        | flRead d => cases p <;> simp [Proto.step] at hst
        | dirEnd =>
          cases d with
          | zero => exact absurd rfl hb
          | succ d =>
            cases hq : h.dirPath with
            | none => rw [hq] at hd; exact absurd hd (by simp [pathDepth])
            | some q =>
              rw [hq] at hd
              obtain ⟨i, g1, g2⟩ := pathDepth_leave hd
              refine ⟨?_, fun _ => ⟨q, rfl, List.mem_of_getElem? (lastIndexOf_some g1)⟩⟩
              intro h1 hr
              simp only [winEvent, winDirEnd, hq, g1] at hr
              cases hr
              exact ⟨d, g2, hb⟩
        | symLink t a =>
          refine ⟨?_, fun h => by cases h⟩
          intro h1 hr
          refine ⟨d, ?_, hb⟩
          cases hr
          exact hd
        | fileRead ds =>
          refine ⟨?_, fun h => by cases h⟩
          intro h1 hr
          refine ⟨d, ?_, by
            rwa [show Ev.atoms (.fileRead ds) = ds.map .byte from rfl, balance_bytes] at hb⟩
          simp only [winEvent, winFileRead] at hr
          split at hr <;> cases hr <;> exact hd
        | fileEnd =>
          refine ⟨?_, fun h => by cases h⟩
          intro h1 hr
          refine ⟨d, ?_, hb⟩
          simp only [winEvent, winFileEnd] at hr
          split at hr <;> cases hr <;> exact hd
        | itemStart ft nm it =>
          refine ⟨?_, fun h => by cases h⟩
          intro h1 hr
          cases ft with
          | none => cases p <;> simp [Proto.step] at hst
          | dir =>
            refine ⟨d + 1, ?_, hb⟩
            simp only [winEvent, winItemStart, winDirItem, hmem] at hr
            simp only [winItemPath] at hr
            split at hr
            · rename_i hc; simp at hc
            · split at hr
              · cases hr
              · rename_i hpth
                split at hpth <;> cases hpth
                cases hr
                exact pathDepth_enter hd (hn _ (List.mem_append_left _ (List.mem_singleton.mpr rfl)))
          | file =>
            refine ⟨d, ?_, hb⟩
            simp only [winEvent, winItemStart, winFileItem] at hr
            split at hr
            · cases hr
            · split at hr <;> cases hr <;> exact hd
          | symlink =>
            refine ⟨d, ?_, hb⟩
            simp only [winEvent, winItemStart] at hr
            cases hr
            exact hd
      simp only [winEvents] at hx
      split at hx
      · rename_i y hy
        cases hx
        rcases winEvent_faults win out h e p p' I hst _ hy with ⟨_, b, he⟩ | ⟨_, he, q, b, c⟩ | ⟨a, _⟩
        · obtain ⟨q, g1, _⟩ := key.2 he
          rw [b] at g1
          cases g1
        · obtain ⟨q', g1, g2⟩ := key.2 he
          rw [b] at g1
          cases g1
          exact absurd g2 c
        · exact a
      · rename_i h1 h1e
        obtain ⟨d', k1, k2⟩ := key.1 h1 h1e
        exact ih h1 p' d' (winEvent_live win out h h1 e p p' I hst h1e).1 k1 hp hn2 k2 x hx

/-- The callbacks of a file archive. -/
theorem winEvents_file_ok (win : Win) (out : Bytes) (ds : List Bytes) : ∀ (h : HLW), h.fpOut ≠ none →
    ∃ h', winEvents win out h (ds.map .flRead) = .ok h' := by
  induction ds with
  | nil => intro h _; exact ⟨h, rfl⟩
  | cons d ds ih =>
    intro h hf
    cases hp : h.fpOut with
    | none => exact absurd hp hf
    | some f =>
      simp only [List.map_cons, winEvents, winEvent, winFileData, hp]
      exact ih _ (by simp)

theorem winEvents_file_fault (win : Win) (out : Bytes) (w : WWorld) (ds : List Bytes) (x : Fault)
    (hx : winEvents win out (HLW.init w) (.flStart :: ds.map .flRead) = .error x) :
    x = .nullDeref ∧ (winOpen win w out false true).1 = none := by
  simp only [winEvents, winEvent, winFileStart, HLW.init] at hx
  cases hs : winOpen win w out false true with
  | mk o w' =>
    rw [hs] at hx
    cases o with
    | none =>
      refine ⟨?_, rfl⟩
      cases ds with
      | nil => cases hx
      | cons d ds => simp only [List.map_cons, winEvents, winEvent, winFileData] at hx; cases hx; rfl
    | some l =>
      simp only at hx
      obtain ⟨h', hh⟩ := winEvents_file_ok win out ds
        { w := w', fpOut := some ⟨l, 0⟩, dirPath := none, hasError := false, fd := .bad, ret := CT_FILE } (by simp)
      rw [hh] at hx
      cases hx

/-- The path after the start of a directory archive. -/
theorem winDirStart_made (win : Win) (out : Bytes) (w : WWorld) :
    ((winDirStart win out (HLW.init w)).dirPath = some out ∧
      (winMkdir win out w).1 = 0) ∨
    ((winDirStart win out (HLW.init w)).dirPath = none ∧
      ((winMkdir win out w).1 ≠ 0 ∨
        win.noMem (winMkdir win out w).2.calls = true)) := by
  simp only [winDirStart, HLW.init]
  by_cases hr : (winMkdir win out w).1 = 0
  · by_cases hn : win.noMem (winMkdir win out w).2.calls = true
    · simp [hr, hn]
    · simp [hr, hn]
  · simp [hr]

end Zwt
