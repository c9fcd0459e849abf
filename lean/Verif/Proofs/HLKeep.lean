import Verif.Proofs.HLTree

/-! What no callback changes, whatever the archive and the operating system do. -/

namespace Zwt

/-! ### System calls never remove or replace directories and links -/

theorem sysMkdir_keeps (os : Os) (w : World) (p : Bytes) (m : Nat) :
    Keeps w.fs (sysMkdir os w p m).2.fs ∧ (sysMkdir os w p m).2.cwd = w.cwd := by
  simp only [sysMkdir]
  split
  · exact ⟨Keeps.refl _, rfl⟩
  · split
    · exact ⟨Keeps.refl _, rfl⟩
    · split
      · exact ⟨Keeps.refl _, rfl⟩
      · rename_i hnone
        simp only [addNode]
        split
        · exact ⟨Keeps.refl _, rfl⟩
        · rename_i w' hw'
          split at hw'
          · cases hw'; exact ⟨Keeps.put hnone _, rfl⟩
          · simp at hw'

theorem sysIsDir_same (os : Os) (w : World) (p : Bytes) :
    (sysIsDir os w p).2.fs = w.fs ∧ (sysIsDir os w p).2.cwd = w.cwd := by
  simp only [sysIsDir]
  split
  · exact ⟨rfl, rfl⟩
  · split
    · exact ⟨rfl, rfl⟩
    · split <;> exact ⟨rfl, rfl⟩

theorem sysOpen_keeps (os : Os) (w : World) (p : Bytes) (m : Nat) (t : Bool) :
    Keeps w.fs (sysOpen os w p m t).2.fs ∧ (sysOpen os w p m t).2.cwd = w.cwd := by
  simp only [sysOpen]
  split
  · exact ⟨Keeps.refl _, rfl⟩
  · split
    · exact ⟨Keeps.refl _, rfl⟩
    · split
      · rename_i hf
        split
        · exact ⟨Keeps.refl _, rfl⟩
        · split
          · exact ⟨Keeps.putFile hf _, rfl⟩
          · exact ⟨Keeps.refl _, rfl⟩
      · exact ⟨Keeps.refl _, rfl⟩
      · rename_i hnone
        split
        · exact ⟨Keeps.refl _, rfl⟩
        · simp only [addNode]
          split
          · exact ⟨Keeps.refl _, rfl⟩
          · rename_i w' hw'
            split at hw'
            · cases hw'; exact ⟨Keeps.put hnone _, rfl⟩
            · simp at hw'

theorem sysWrite_keeps (os : Os) (w : World) (f : OpenFile) (d : Bytes) :
    Keeps w.fs (sysWrite os w f d).2.fs ∧ (sysWrite os w f d).2.cwd = w.cwd := by
  simp only [sysWrite]
  split
  · exact ⟨Keeps.refl _, rfl⟩
  · split
    · rename_i hf; exact ⟨Keeps.putFile hf _, rfl⟩
    · exact ⟨Keeps.refl _, rfl⟩

theorem sysSymlink_keeps (os : Os) (w : World) (t p : Bytes) :
    Keeps w.fs (sysSymlink os w t p).2.fs ∧ (sysSymlink os w t p).2.cwd = w.cwd := by
  simp only [sysSymlink]
  split
  · exact ⟨Keeps.refl _, rfl⟩
  · split
    · exact ⟨Keeps.refl _, rfl⟩
    · split
      · exact ⟨Keeps.refl _, rfl⟩
      · rename_i hnone
        simp only [addNode]
        split
        · exact ⟨Keeps.refl _, rfl⟩
        · rename_i w' hw'
          split at hw'
          · cases hw'; exact ⟨Keeps.put hnone _, rfl⟩
          · simp at hw'

theorem sysChdir_fs (os : Os) (w : World) (p : Bytes) : (sysChdir os w p).2.fs = w.fs := by
  simp only [sysChdir]
  split
  · rfl
  · split
    · rfl
    · split <;> rfl

theorem sysChdir_fail (os : Os) (w w' : World) (p : Bytes) (h : sysChdir os w p = (false, w')) :
    w'.cwd = w.cwd := by
  simp only [sysChdir] at h
  split at h
  · cases h; rfl
  · split at h
    · cases h; rfl
    · split at h <;> cases h; rfl

/-- Keeping directories, links and the working directory. -/
def Calm (w w' : World) : Prop := Keeps w.fs w'.fs ∧ w'.cwd = w.cwd

theorem Calm.refl (w : World) : Calm w w := ⟨Keeps.refl _, rfl⟩

theorem Calm.trans {a b c : World} (h : Calm a b) (h' : Calm b c) : Calm a c :=
  ⟨h.1.trans h'.1, h'.2.trans h.2⟩

theorem osCreate_calm (os : Os) (w : World) (p : Bytes) (m : Nat) :
    Calm w (osCreate os w p m).2 := by
  have h := sysMkdir_keeps os w p m
  simp only [osCreate]
  cases hm : sysMkdir os w p m with
  | mk r w' =>
    rw [hm] at h
    cases r with
    | ok => exact h
    | fail => exact h
    | exist =>
      have h2 := sysIsDir_same os w' p
      simp only
      cases hd : sysIsDir os w' p with
      | mk b w2 =>
        rw [hd] at h2
        have : Calm w w2 := by
          refine ⟨?_, h2.2.trans h.2⟩
          have : w2.fs = w'.fs := h2.1
          rw [this]; exact h.1
        cases b <;> exact this

theorem mkRestore_calm (os : Os) (mode : Nat) (idxs : List Nat) : ∀ (mem : Bytes) (w : World),
    Calm w (mkRestore os mode idxs mem w).2 := by
  induction idxs with
  | nil => intro mem w; exact Calm.refl w
  | cons i idxs ih =>
    intro mem w
    have h := osCreate_calm os w (cString (mem.set i 47)) mode
    simp only [mkRestore]
    generalize osCreate os w (cString (mem.set i 47)) mode = x at h
    split
    · exact h
    · exact h.trans (ih _ _)

theorem mkCut_calm (os : Os) (mode : Nat) (n : Nat) : ∀ (idxs : List Nat) (mem : Bytes) (w : World),
    Calm w (mkCut os mode n idxs mem w).2 := by
  induction n with
  | zero => intro idxs mem w; exact Calm.refl w
  | succ n ih =>
    intro idxs mem w
    simp only [mkCut]
    split
    · exact Calm.refl w
    · rename_i i hi
      have h := osCreate_calm os w (cString (mem.set i 0)) mode
      generalize osCreate os w (cString (mem.set i 0)) mode = x at h
      obtain ⟨r, w'⟩ := x
      simp only
      split
      · exact h
      · split
        · split
          · exact h.trans (mkRestore_calm os mode _ _ _)
          · exact h
        · exact h.trans (ih _ _ _)

theorem mkdirRecurse_calm (os : Os) (mode : Nat) (path : Bytes) (w : World) :
    Calm w (mkdirRecurse os mode path w).2 := by
  simp only [mkdirRecurse]
  split
  · exact Calm.refl w
  · simp only [mkdirRaw]
    have h := osCreate_calm os w.tick path mode
    generalize osCreate os w.tick path mode = x at h
    obtain ⟨r, w'⟩ := x
    simp only
    split
    · exact h
    · exact Calm.trans (b := w') h (mkCut_calm os mode _ _ _ _)

/-! ### Callbacks -/

theorem CwdBack.mono {os : Os} {fs fs' : FS} {cwd : Loc} (h : CwdBack os fs cwd)
    (hk : Keeps fs fs') : CwdBack os fs' cwd := ⟨h.1, fun l hl => hk.searchable (h.2 l hl)⟩

theorem hlSymLink_keeps (os : Os) (h h' : HL) (t a : Bytes) (hh : hlSymLink os h t a = .ok h') :
    Keeps h.w.fs h'.w.fs ∧ h'.ret = h.ret ∧ h'.hasError = h.hasError ∧
      ((∀ k, os.refuses k = false) → CwdBack os h.w.fs h.w.cwd → h'.w.cwd = h.w.cwd) := by
  have hg : (sysGetcwd os h.w CWD_SIZE).2 = h.w.tick ∧
      ∀ o, (sysGetcwd os h.w CWD_SIZE).1 = some o → o = absPath h.w.cwd := by
    simp only [sysGetcwd]
    split
    · exact ⟨rfl, by simp⟩
    · split
      · exact ⟨rfl, fun o ho => by simpa using ho.symm⟩
      · exact ⟨rfl, by simp⟩
  simp only [hlSymLink] at hh
  generalize hgc : sysGetcwd os h.w CWD_SIZE = gc at hh hg
  obtain ⟨o, w1⟩ := gc
  obtain ⟨rfl, hg2⟩ := hg
  cases o with
  | none =>
    cases hh
    exact ⟨Keeps.refl _, rfl, rfl, fun _ _ => rfl⟩
  | some old =>
    have hold := hg2 old rfl
    simp only at hh
    split at hh
    · cases hh; exact ⟨Keeps.refl _, rfl, rfl, fun _ _ => rfl⟩
    · rename_i dir hdir
      generalize hc1 : sysChdir os h.w.tick (cString dir) = c1 at hh
      have hcf := sysChdir_fs os h.w.tick (cString dir)
      rw [hc1] at hcf
      obtain ⟨b, w2⟩ := c1
      have hcf' : w2.fs = h.w.fs := hcf
      cases b with
      | false =>
        cases hh
        refine ⟨?_, rfl, rfl, fun _ _ =>
          (sysChdir_fail os h.w.tick w2 (cString dir) hc1 :)⟩
        show Keeps h.w.fs w2.fs
        rw [hcf']; exact Keeps.refl _
      | true =>
        simp only at hh
        split at hh
        · simp at hh
        · rename_i name hname
          split at hh
          · rename_i t' n' _ _
            have hs := sysSymlink_keeps os w2 t' n'
            generalize sysSymlink os w2 t' n' = sl at hh hs
            obtain ⟨b2, w3⟩ := sl
            simp only at hh hs
            have hk3 : Keeps h.w.fs w3.fs := by rw [← hcf']; exact hs.1
            have hf4 := sysChdir_fs os w3 old
            generalize hc4 : sysChdir os w3 old = c4 at hh hf4
            obtain ⟨b4, w4⟩ := c4
            simp only at hh hf4
            cases hh
            refine ⟨?_, rfl, rfl, ?_⟩
            · show Keeps h.w.fs w4.fs
              rw [hf4]; exact hk3
            · intro hq hb
              have hb3 := hb.mono hk3
              have := chdir_back hq (w := w3) hb3.1 hb3.2
              rw [← hold, hc4] at this
              cases this
              rfl
          · simp at hh

/-- Neither of the two start callbacks. -/
def Ev.inner : Ev → Prop
  | .flStart => False
  | .drStart => False
  | _ => True

/-- Not a link. -/
def Ev.noLink : Ev → Prop
  | .symLink _ _ => False
  | _ => True

/-- What one callback keeps. -/
theorem hlEvent_keeps (os : Os) (out : Bytes) (h h' : HL) (e : Ev)
    (hh : hlEvent os out h e = .ok h') :
    Keeps h.w.fs h'.w.fs ∧ (e.inner → h'.ret = h.ret) ∧ (h.hasError = true → h'.hasError = true) ∧
      ((e.noLink ∨ ((∀ k, os.refuses k = false) ∧ CwdBack os h.w.fs h.w.cwd)) →
        h'.w.cwd = h.w.cwd) := by
  cases e with
  | flStart =>
    have := sysOpen_keeps os h.w out FOPEN_MODE true
    simp only [hlEvent, hlFileStart] at hh
    generalize sysOpen os h.w out FOPEN_MODE true = x at hh this
    obtain ⟨ol, w'⟩ := x
    cases ol with
    | none => cases hh; exact ⟨this.1, False.elim, fun _ => rfl, fun _ => this.2⟩
    | some l => cases hh; exact ⟨this.1, False.elim, id, fun _ => this.2⟩
  | flRead d =>
    simp only [hlEvent, hlFileData] at hh
    split at hh
    · simp at hh
    · rename_i f hf
      have := sysWrite_keeps os h.w f d
      generalize sysWrite os h.w f d = x at hh this
      obtain ⟨f', w'⟩ := x
      cases hh
      exact ⟨this.1, fun _ => rfl, id, fun _ => this.2⟩
  | drStart =>
    have := mkdirRecurse_calm os BASE_DIR_MODE out h.w
    simp only [hlEvent, hlDirStart] at hh
    generalize mkdirRecurse os BASE_DIR_MODE out h.w = x at hh this
    obtain ⟨r, w'⟩ := x
    simp only at hh
    split at hh
    · cases hh; exact ⟨this.1, False.elim, fun _ => rfl, fun _ => this.2⟩
    · split at hh
      · cases hh; exact ⟨this.1, False.elim, fun _ => rfl, fun _ => this.2⟩
      · cases hh; exact ⟨this.1, False.elim, id, fun _ => this.2⟩
  | itemStart ft nm it =>
    simp only [hlEvent, hlItemStart] at hh
    split at hh
    · simp only [hlDirItem] at hh
      split at hh
      · cases hh; exact ⟨Keeps.refl _, fun _ => rfl, fun _ => rfl, fun _ => rfl⟩
      · split at hh
        · simp at hh
        · rename_i path hpath
          have := mkdirRecurse_calm os (itMode it) (cString path) h.w.tick
          generalize mkdirRecurse os (itMode it) (cString path) h.w.tick = x at hh this
          obtain ⟨r, w'⟩ := x
          cases hh
          exact ⟨this.1, fun _ => rfl, fun h => by simp [h], fun _ => this.2⟩
    · simp only [hlFileItem] at hh
      split at hh
      · simp at hh
      · rename_i path hpath
        have := sysOpen_keeps os h.w (cString path) (modeFo (itMode it)) false
        generalize sysOpen os h.w (cString path) (modeFo (itMode it)) false = x at hh this
        obtain ⟨ol, w'⟩ := x
        cases ol with
        | none => cases hh; exact ⟨this.1, fun _ => rfl, fun _ => rfl, fun _ => this.2⟩
        | some l => cases hh; exact ⟨this.1, fun _ => rfl, id, fun _ => this.2⟩
    · cases hh; exact ⟨Keeps.refl _, fun _ => rfl, id, fun _ => rfl⟩
  | fileRead d =>
    simp only [hlEvent, hlFileRead] at hh
    split at hh
    · cases hh; exact ⟨Keeps.refl _, fun _ => rfl, id, fun _ => rfl⟩
    · simp at hh
    · rename_i f hf
      have := sysWrite_keeps os h.w f d
      generalize sysWrite os h.w f d = x at hh this
      obtain ⟨f', w'⟩ := x
      cases hh
      exact ⟨this.1, fun _ => rfl, id, fun _ => this.2⟩
  | fileEnd =>
    simp only [hlEvent, hlFileEnd] at hh
    split at hh
    · cases hh; exact ⟨Keeps.refl _, fun _ => rfl, id, fun _ => rfl⟩
    · simp at hh
    · cases hh; exact ⟨Keeps.refl _, fun _ => rfl, id, fun _ => rfl⟩
  | dirEnd =>
    simp only [hlEvent, hlDirEnd] at hh
    split at hh
    · simp at hh
    · split at hh
      · simp at hh
      · cases hh; exact ⟨Keeps.refl _, fun _ => rfl, id, fun _ => rfl⟩
  | symLink t a =>
    obtain ⟨h1, h2, h3, h4⟩ := hlSymLink_keeps os h h' t a hh
    refine ⟨h1, fun _ => h2, fun h => by rw [h3, h], ?_⟩
    rintro (h | h)
    · exact h.elim
    · exact h4 h.1 h.2

/-- What any history of callbacks keeps. -/
theorem hlEvents_keeps (os : Os) (out : Bytes) (evs : List Ev) : ∀ (h h' : HL),
    hlEvents os out h evs = .ok h' →
    Keeps h.w.fs h'.w.fs ∧ ((∀ e ∈ evs, e.inner) → h'.ret = h.ret) ∧
      (h.hasError = true → h'.hasError = true) ∧
      (((∀ e ∈ evs, e.noLink) ∨ ((∀ k, os.refuses k = false) ∧ CwdBack os h.w.fs h.w.cwd)) →
        h'.w.cwd = h.w.cwd) := by
  induction evs with
  | nil => intro h h' hh; cases hh; exact ⟨Keeps.refl _, fun _ => rfl, id, fun _ => rfl⟩
  | cons e evs ih =>
    intro h h' hh
    simp only [hlEvents] at hh
    split at hh
    · simp at hh
    · rename_i h1 he
      obtain ⟨a1, a2, a3, a4⟩ := hlEvent_keeps os out h h1 e he
      obtain ⟨b1, b2, b3, b4⟩ := ih h1 h' hh
      refine ⟨a1.trans b1, ?_, fun x => b3 (a3 x), ?_⟩
      · intro hi
        rw [b2 (fun e he => hi e (List.mem_cons_of_mem _ he)), a2 (hi e List.mem_cons_self)]
      · intro hc
        have hcw : h1.w.cwd = h.w.cwd := a4 (by
          rcases hc with h | h
          · exact .inl (h e List.mem_cons_self)
          · exact .inr h)
        rw [b4, hcw]
        rcases hc with h | ⟨h, hb⟩
        · exact .inl (fun e he => h e (List.mem_cons_of_mem _ he))
        · exact .inr ⟨h, by rw [hcw]; exact hb.mono a1⟩

end Zwt
