import Verif.Spec.Merge
import Verif.Proofs.RoundRun
import Verif.Proofs.Disk
import Verif.Proofs.ConcTree
import Verif.Proofs.HLSmall

/-! Extraction of a tree in which directories occur more than once. -/

namespace Zwt

/-! ### Adding entries where there are none -/

/-- Add an entry if there is nothing at its place. -/
def FS.addOne (fs : FS) (x : Loc × Node) : FS :=
  match fs x.1 with
  | none => fs.put x.1 x.2
  | some _ => fs

def FS.addAll (fs : FS) (L : List (Loc × Node)) : FS := L.foldl FS.addOne fs

theorem FS.addOne_new {fs : FS} {l : Loc} (n : Node) (h : fs l = none) :
    fs.addOne (l, n) = fs.put l n := by simp [FS.addOne, h]

theorem FS.addOne_old {fs : FS} {l : Loc} (n : Node) {o : Node} (h : fs l = some o) :
    fs.addOne (l, n) = fs := by simp [FS.addOne, h]

theorem FS.addAll_append (fs : FS) (a b : List (Loc × Node)) :
    fs.addAll (a ++ b) = (fs.addAll a).addAll b := by simp [FS.addAll, List.foldl_append]

theorem FS.addOne_at (fs : FS) (x : Loc × Node) (l : Loc) :
    fs.addOne x l = (fs l).or (if x.1 = l then some x.2 else none) := by
  unfold FS.addOne
  cases h : fs x.1 with
  | none =>
    by_cases e : x.1 = l
    · subst e; simp [FS.put, h]
    · have e' : ¬ l = x.1 := fun h => e h.symm
      simp [FS.put, e, e']
  | some o =>
    by_cases e : x.1 = l
    · subst e; simp [h]
    · simp [e]

theorem FS.addAll_at (L : List (Loc × Node)) : ∀ (fs : FS) (l : Loc),
    fs.addAll L l = (fs l).or (firstAt L l) := by
  induction L with
  | nil => intro fs l; simp [FS.addAll, firstAt]
  | cons x L ih =>
    intro fs l
    have : fs.addAll (x :: L) l = (fs.addOne x).addAll L l := rfl
    rw [this, ih, FS.addOne_at]
    by_cases e : x.1 = l
    · cases fs l <;> simp [e, firstAt]
    · simp [e, firstAt]

/-- The entries can be added one after the other; a directory may be there already. -/
def Joins (os : Os) : FS → List (Loc × Node) → Prop
  | _, [] => True
  | fs, x :: L =>
    (fs x.1 = none ∨ ∃ m m', fs x.1 = some (.dir m) ∧ x.2 = .dir m' ∧ Enterable os m) ∧
      (∀ m, x.2 = .dir m → Enterable os m) ∧ Joins os (fs.addOne x) L

theorem Joins.append {os : Os} {a b : List (Loc × Node)} : ∀ {fs : FS},
    Joins os fs (a ++ b) → Joins os fs a ∧ Joins os (fs.addAll a) b := by
  induction a with
  | nil => intro fs h; exact ⟨trivial, h⟩
  | cons x a ih =>
    intro fs h
    obtain ⟨h1, h2, h3⟩ := h
    exact ⟨⟨h1, h2, (ih h3).1⟩, (ih h3).2⟩

theorem Joins.of {os : Os} {L : List (Loc × Node)} : ∀ {fs : FS}, OnlyDirsTwice L →
    (∀ x ∈ L, ∀ m, x.2 = .dir m → Enterable os m) →
    (∀ x ∈ L, fs x.1 = none ∨ ∃ m m', fs x.1 = some (.dir m) ∧ x.2 = .dir m' ∧ Enterable os m) →
    Joins os fs L := by
  induction L with
  | nil => intro fs _ _ _; trivial
  | cons x L ih =>
    intro fs h1 h2 h3
    have h1' := List.pairwise_cons.mp h1
    refine ⟨h3 x List.mem_cons_self, h2 x List.mem_cons_self, ?_⟩
    refine ih h1'.2 (fun y hy => h2 y (List.mem_cons_of_mem _ hy)) (fun y hy => ?_)
    rcases h3 y (List.mem_cons_of_mem _ hy) with h | ⟨m, m', g1, g2, g3⟩
    · rw [FS.addOne_at, h, Option.none_or]
      by_cases e : x.1 = y.1
      · obtain ⟨⟨m, a⟩, m', b⟩ := h1'.1 y hy e
        rw [if_pos e]
        exact .inr ⟨m, m', by rw [a], b, h2 x List.mem_cons_self m a⟩
      · rw [if_neg e]; exact .inl rfl
    · refine .inr ⟨m, m', ?_, g2, g3⟩
      rw [FS.addOne_at, g1]; rfl

/-- The places of the entries are new, also among each other. -/
def AllNew : FS → List (Loc × Node) → Prop
  | _, [] => True
  | fs, x :: L => fs x.1 = none ∧ AllNew (fs.addOne x) L

theorem AllNew.append {a b : List (Loc × Node)} : ∀ {fs : FS},
    AllNew fs a → AllNew (fs.addAll a) b → AllNew fs (a ++ b) := by
  induction a with
  | nil => intro fs _ h; exact h
  | cons x a ih => intro fs h h'; exact ⟨h.1, ih h.2 h'⟩

theorem AllNew.absent {L : List (Loc × Node)} : ∀ {fs : FS}, AllNew fs L → ∀ x ∈ L, fs x.1 = none := by
  induction L with
  | nil => intro fs _ x hx; cases hx
  | cons y L ih =>
    intro fs h x hx
    rcases List.mem_cons.mp hx with rfl | hx
    · exact h.1
    · have := ih h.2 x hx
      rw [FS.addOne_at] at this
      cases hf : fs x.1 with
      | none => rfl
      | some o => rw [hf] at this; simp at this

theorem AllNew.once {L : List (Loc × Node)} : ∀ {fs : FS}, AllNew fs L →
    L.Pairwise fun a b => a.1 ≠ b.1 := by
  induction L with
  | nil => intro fs _; exact .nil
  | cons y L ih =>
    intro fs h
    refine List.pairwise_cons.mpr ⟨fun x hx e => ?_, ih h.2⟩
    have := h.2.absent x hx
    rw [FS.addOne_at, if_pos e] at this
    cases hf : fs x.1 <;> rw [hf] at this <;> simp at this

/-! ### Directories that exist -/

theorem mkdirRecurse_exists (os : Os) (hq : os.quiet) (mode : Nat) (w : World) (pre : Bytes) (d : Loc)
    (n : Bytes) (hf : Front os w.fs w.cwd pre d) (hs : searchable os w.fs d = true)
    (hn : PlainName n) {m : Nat} (he : w.fs (d ++ [n]) = some (.dir m)) :
    ∃ w', mkdirRecurse os mode (pre ++ n) w = (1, w') ∧ w'.fs = w.fs ∧ w'.cwd = w.cwd := by
  have l1 : locate os w.tick false (pre ++ n) = some (d ++ [n]) :=
    Front.at (w := w.tick) hf hs hn false he (by simp)
  have l2 : locate os w.tick.tick true (pre ++ n) = some (d ++ [n]) :=
    Front.at (w := w.tick.tick) hf hs hn true he (by simp)
  have hmk : sysMkdir os w.tick (pre ++ n) mode = (.exist, w.tick.tick) := by
    simp only [sysMkdir, hq.1, Bool.false_eq_true, if_false, l1]
    rw [show w.tick.fs (d ++ [n]) = some (.dir m) from he]
  have hst : sysIsDir os w.tick.tick (pre ++ n) = (true, w.tick.tick.tick) := by
    simp only [sysIsDir, hq.1, Bool.false_eq_true, if_false, l2]
    rw [show w.tick.tick.fs (d ++ [n]) = some (.dir m) from he]
  refine ⟨w.tick.tick.tick, ?_, rfl, rfl⟩
  have hoc : osCreate os w.tick (pre ++ n) mode = (1, w.tick.tick.tick) := by
    unfold osCreate
    rw [hmk]
    show (match sysIsDir os w.tick.tick (pre ++ n) with
      | (true, w) => ((1 : Int), w)
      | (false, w) => (-1, w)) = _
    rw [hst]
  rw [mkdirRecurse, if_neg (by simp [hq.2.2]), mkdirRaw, hoc]
  simp

/-- What extraction of entries keeps, whether or not directories were there. -/
structure SameButErr (h h' : HL) : Prop where
  path : h'.dirPath = h.dirPath
  ret : h'.ret = h.ret
  out : h'.fpOut = h.fpOut
  cwd : h'.w.cwd = h.w.cwd

theorem SameRest.butErr {h h' : HL} (s : SameRest h h') : SameButErr h h' :=
  ⟨s.path, s.ret, s.out, s.cwd⟩

theorem SameButErr.trans {a b c : HL} (h : SameButErr a b) (h' : SameButErr b c) : SameButErr a c :=
  ⟨h'.path.trans h.path, h'.ret.trans h.ret, h'.out.trans h.out, h'.cwd.trans h.cwd⟩

theorem AtDir.stepErr {os : Os} {h h' : HL} {p : Bytes} {l : Loc} (a : AtDir os h p l)
    (hs : SameButErr h h') (hk : Keeps h.w.fs h'.w.fs) : AtDir os h' p l := by
  refine ⟨hs.path.trans a.path, a.ne, a.nul, ?_, a.dir.mono hk⟩
  rw [hs.cwd]; exact a.front.mono hk

/-- The callbacks that convey a tree add its entries. -/
theorem tree_merge (os : Os) (hq : os.quiet) (out : Bytes) {f : Forest} {evs : List Ev}
    (he : EvsOf f evs) : ∀ (h : HL) (p : Bytes) (l : Loc), f.wellNamed →
    (f.noLinks ∨ CwdOk os h.w.fs h.w.cwd) → AtDir os h p l → h.w.fs.tree →
    Joins os h.w.fs (f.spots os l) →
    ∃ h', hlEvents os out h evs = .ok h' ∧ SameButErr h h' ∧ h'.w.fs.tree ∧
      Keeps h.w.fs h'.w.fs ∧ h'.w.fs = h.w.fs.addAll (f.spots os l) ∧
      (h'.hasError = false → h.hasError = false ∧ AllNew h.w.fs (f.spots os l)) := by
  induction he with
  | nil =>
    intro h p l _ _ _ ht _
    exact ⟨h, rfl, ⟨rfl, rfl, rfl, rfl⟩, ht, .refl _, rfl, fun h => ⟨h, trivial⟩⟩
  | @file name nm item content mode ds rest evs h1 h2 h3 h4 _ _ ih =>
    intro h p l hpr hcw A ht hj
    obtain ⟨hn, hrp⟩ := hpr
    obtain ⟨j1, _, j3⟩ := hj
    have hpath : cString (p ++ 47 :: name) = p ++ [47] ++ name := by
      rw [cString_plain]
      · simp
      · simp only [List.mem_append, List.mem_cons, not_or]
        exact ⟨A.nul, by decide, hn.2.2.2.2⟩
    have ha0 : h.w.fs (l ++ [name]) = none := by
      rcases j1 with h | ⟨_, _, _, h, _⟩
      · exact h
      · cases h
    have hop := open_new os hq h.w (p ++ [47]) l name (modeFo (itMode item)) false A.front A.dir hn ha0
    let h1' : HL :=
      { h with
        w := (h.w.put (l ++ [name]) (.file (modeFo (itMode item) &&& os.allow) [])).tick
        name := some nm
        fd := .opened ⟨l ++ [name], 0⟩ }
    have hst : hlEvent os out h (.itemStart .file nm item) = .ok h1' := by
      simp only [hlEvent, hlItemStart, hlFileItem, itemPath, if_pos h1, A.path, Option.getD_some,
        h2, hpath, hop, h1']
    obtain ⟨h2', g1, g2, g3, g4⟩ := reads_good os hq out (l ++ [name])
      (modeFo (itMode item) &&& os.allow) ds h1' [] (by simp [h1', World.tick, World.put, FS.put]) rfl
    rw [List.nil_append, h4] at g2 g4
    have hmode : modeFo (itMode item) &&& os.allow = fileMode os mode := by rw [h3]; rfl
    let h3' : HL := { h2' with w := h2'.w.tick, fd := .closed }
    have hfd : h2'.fd = .opened ⟨l ++ [name], content.length⟩ := by rw [g2]
    have hend : hlEvent os out h2' .fileEnd = .ok h3' := by
      simp only [hlEvent, hlFileEnd, hfd, h3']
    have hfs : h3'.w.fs = h.w.fs.put (l ++ [name]) (.file (fileMode os mode) content) := by
      show h2'.w.fs = _
      rw [g4]
      show ((h.w.fs.put _ _).put _ _) = _
      rw [FS.put_put, hmode]
    have hsame : SameButErr h h3' := by
      refine ⟨?_, ?_, ?_, ?_⟩
      · show h2'.dirPath = _; rw [g2]
      · show h2'.ret = _; rw [g2]
      · show h2'.fpOut = _; rw [g2]
      · show h2'.w.cwd = _; rw [g3]; rfl
    have hk : Keeps h.w.fs h3'.w.fs := by rw [hfs]; exact Keeps.put ha0 _
    have hadd : h3'.w.fs = h.w.fs.addOne (l ++ [name], .file (fileMode os mode) content) := by
      rw [FS.addOne_new _ ha0, hfs]
    have herr : h3'.hasError = h.hasError := by show h2'.hasError = _; rw [g2]
    obtain ⟨md, hmd, _⟩ := A.dir
    obtain ⟨h', i1, i2, i3, i4, i5, i6⟩ := ih h3' p l hrp (by
        rcases hcw with h | h
        · exact .inl h
        · exact .inr (by rw [hsame.cwd]; exact h.mono hk)) (A.stepErr hsame hk)
        (by rw [hfs]; exact tree_put ht hmd ha0) (by rw [hadd]; exact j3)
    refine ⟨h', ?_, hsame.trans i2, i3, hk.trans i4, ?_, fun he => ?_⟩
    · rw [hlEvents, hst]
      simp only
      rw [hlEvents_append, g1]
      simp only
      rw [hlEvents, hend]
      exact i1
    · rw [i5, hadd]; rfl
    · obtain ⟨k1, k2⟩ := i6 he
      exact ⟨herr.symm.trans k1, ha0, by rw [← hadd]; exact k2⟩
  | @link name nm item target after mode rest evs h1 h2 _ _ ih =>
    intro h p l hpr hcw A ht hj
    obtain ⟨hn, htn, ht0, hrp⟩ := hpr
    obtain ⟨j1, _, j3⟩ := hj
    have ha0 : h.w.fs (l ++ [name]) = none := by
      rcases j1 with h | ⟨_, _, _, h, _⟩
      · exact h
      · cases h
    have hcw' : CwdOk os h.w.fs h.w.cwd := by
      rcases hcw with h | h
      · exact h.elim
      · exact h
    let h1' : HL := { h with name := some nm }
    obtain ⟨w', g1, g2, g3⟩ := symLink_good os hq h1' p l nm name target after A.path A.ne A.nul
      A.front A.dir hn ha0 hcw' rfl h1 htn ht0 h2
    let h2' : HL := { h1' with w := w' }
    have hsame : SameButErr h h2' := ⟨rfl, rfl, rfl, g2⟩
    have hk : Keeps h.w.fs h2'.w.fs := by
      show Keeps h.w.fs w'.fs
      rw [g3]; exact Keeps.put ha0 _
    have hadd : h2'.w.fs = h.w.fs.addOne (l ++ [name], .link target) := by
      rw [FS.addOne_new _ ha0]; exact g3
    obtain ⟨md, hmd, _⟩ := A.dir
    obtain ⟨h', i1, i2, i3, i4, i5, i6⟩ := ih h2' p l hrp
      (.inr (by rw [hsame.cwd]; exact hcw'.mono hk)) (A.stepErr hsame hk)
      (by show w'.fs.tree; rw [g3]; exact tree_put ht hmd ha0) (by rw [hadd]; exact j3)
    refine ⟨h', ?_, hsame.trans i2, i3, hk.trans i4, ?_, fun he => ?_⟩
    · simp only [hlEvents, hlEvent, hlItemStart]
      rw [show ({ h with name := some nm } : HL) = h1' from rfl, g1]
      exact i1
    · rw [i5, hadd]; rfl
    · obtain ⟨k1, k2⟩ := i6 he
      exact ⟨k1, ha0, by rw [← hadd]; exact k2⟩
  | @dir name nm item mode sub rest evs evs' h1 h2 h3 _ _ ihs ih =>
    intro h p l hpr hcw A ht hj
    obtain ⟨hn, hsp, hrp⟩ := hpr
    obtain ⟨j1, j2, j3⟩ := hj
    obtain ⟨j3, j4⟩ := j3.append
    have h0 : 0 ∉ p ++ 47 :: name := by
      simp only [List.mem_append, List.mem_cons, not_or]
      exact ⟨A.nul, by decide, hn.2.2.2.2⟩
    -- a new directory, or one that was there
    have hmk : ∃ (r : Int) (w' : World) (m : Nat),
        mkdirRecurse os mode (p ++ 47 :: name) h.w.tick = (r, w') ∧
        w'.fs = h.w.fs.addOne (l ++ [name], .dir (dirMode os mode)) ∧ w'.cwd = h.w.cwd ∧
        Keeps h.w.fs w'.fs ∧ w'.fs.tree ∧ w'.fs (l ++ [name]) = some (.dir m) ∧ Enterable os m ∧
        (r = 0 → h.w.fs (l ++ [name]) = none) := by
      rcases j1 with ha0 | ⟨m, m', g1, _, g3⟩
      · obtain ⟨w', m1, m2, m3⟩ := mkdirRecurse_new os hq mode h.w.tick (p ++ [47]) l name [] A.front
          A.dir (by simpa using hn) (ht.absent ha0) (.inl rfl) (by simp)
        have m2' : w'.fs = h.w.fs.put (l ++ [name]) (.dir (dirMode os mode)) := m2
        obtain ⟨md, hmd, _⟩ := A.dir
        refine ⟨0, w', dirMode os mode, by simpa [joinNames] using m1, ?_, m3, ?_, ?_, ?_, j2 _ rfl, fun _ => ha0⟩
        · rw [FS.addOne_new _ ha0]; exact m2'
        · rw [m2']; exact Keeps.put ha0 _
        · rw [m2']; exact tree_put ht hmd ha0
        · rw [m2', FS.put_same]
      · obtain ⟨w', m1, m2, m3⟩ := mkdirRecurse_exists os hq mode h.w.tick (p ++ [47]) l name A.front
          A.dir.searchable hn g1
        have m2' : w'.fs = h.w.fs := m2
        refine ⟨1, w', m, by simpa using m1, ?_, m3, ?_, ?_, ?_, g3, fun h => by cases h⟩
        · rw [FS.addOne_old _ g1]; exact m2'
        · rw [m2']; exact .refl _
        · rw [m2']; exact ht
        · rw [m2']; exact g1
    obtain ⟨r, w', m, m1', m2', m3, hk, ht', hdir, hent, hzero⟩ := hmk
    let h1' : HL := { h with w := w', name := some nm, dirPath := some (p ++ 47 :: name),
                             hasError := h.hasError || r != 0 }
    have hst : hlEvent os out h (.itemStart .dir nm item) = .ok h1' := by
      simp only [hlEvent, hlItemStart, hlDirItem, itemPath, if_pos h1, A.path, Option.getD_some,
        h2, hq.2.2, Bool.false_eq_true, if_false, cString_plain _ h0, h3, m1']
      rfl
    have A1 : AtDir os h1' (p ++ 47 :: name) (l ++ [name]) := by
      refine ⟨rfl, by simp, h0, ?_, _, hdir, hent⟩
      have hfr : Front os w'.fs h.w.cwd (p ++ [47]) l := A.front.mono hk
      have := hfr.extend (A.dir.mono hk).searchable hn hdir
      simp only [List.append_assoc, List.singleton_append, List.cons_append] at this ⊢
      show Front os w'.fs w'.cwd _ _
      rw [m3]; exact this
    have hcw1 : sub.noLinks ∨ CwdOk os h1'.w.fs h1'.w.cwd := by
      rcases hcw with h | h
      · exact .inl h.1
      · refine .inr ?_
        show CwdOk os w'.fs w'.cwd
        rw [m3]; exact h.mono hk
    obtain ⟨h2', i1, i2, i3, i4, i5, i6⟩ := ihs h1' (p ++ 47 :: name) (l ++ [name]) hsp hcw1 A1 ht'
      (by show Joins os w'.fs _; rw [m2']; exact j3)
    have i5' : h2'.w.fs = (h.w.fs.addOne (l ++ [name], .dir (dirMode os mode))).addAll
        (sub.spots os (l ++ [name])) := by rw [i5, ← m2']
    -- leaving the directory
    let h3' : HL := { h2' with dirPath := some p }
    have hend : hlEvent os out h2' .dirEnd = .ok h3' := by
      have hp2 : h2'.dirPath = some (p ++ 47 :: name) := i2.path
      simp only [hlEvent, hlDirEnd, hp2, cString_plain _ h0,
        lastIndexOf_append 47 p name hn.2.2.2.1, List.take_left', h3']
    have hsame : SameButErr h h3' :=
      ⟨A.path.symm, i2.ret, i2.out, i2.cwd.trans m3⟩
    have hk2 : Keeps h.w.fs h3'.w.fs := hk.trans i4
    obtain ⟨h', k1, k2, k3, k4, k5, k6⟩ := ih h3' p l hrp (by
        rcases hcw with h | h
        · exact .inl h.2
        · exact .inr (by rw [hsame.cwd]; exact h.mono hk2)) (A.stepErr hsame hk2) i3
        (by show Joins os h2'.w.fs _; rw [i5']; exact j4)
    refine ⟨h', ?_, hsame.trans k2, k3, hk2.trans k4, ?_, fun he => ?_⟩
    · rw [hlEvents, hst]
      simp only
      rw [hlEvents_append, i1]
      simp only
      rw [hlEvents, hend]
      exact k1
    · rw [k5]
      show h2'.w.fs.addAll _ = _
      rw [i5', Forest.spots, ← List.cons_append, FS.addAll_append]
      rfl
    · obtain ⟨e1, e2⟩ := k6 he
      obtain ⟨e3, e4⟩ := i6 e1
      have e3' : (h.hasError || r != 0) = false := e3
      simp only [Bool.or_eq_false_iff, bne_eq_false_iff_eq] at e3'
      refine ⟨e3'.1, hzero e3'.2, AllNew.append ?_ ?_⟩
      · have e4' : AllNew w'.fs _ := e4
        rw [m2'] at e4'; exact e4'
      · have e2' : AllNew h2'.w.fs _ := e2
        rw [i5'] at e2'; exact e2'

/-! ### Places -/

theorem Forest.spots_shift (os : Os) (f : Forest) : ∀ (b p : Loc),
    f.spots os (b ++ p) = (f.spots os p).map fun x => (b ++ x.1, x.2) := by
  induction f with
  | nil => intro b p; rfl
  | file n m c r ih => intro b p; simp [spots, ih]
  | link n m t r ih => intro b p; simp [spots, ih]
  | dir n m s r ihs ih =>
    intro b p
    have := ihs b (p ++ [n])
    rw [← List.append_assoc] at this
    simp [spots, ih, ihs]
  | other n r ih => intro b p; exact ih b p
  | bad n r ih => intro b p; exact ih b p

theorem Forest.spots_base (os : Os) (f : Forest) (b : Loc) :
    f.spots os b = (f.spots os []).map fun x => (b ++ x.1, x.2) := by
  have := f.spots_shift os b []
  rwa [List.append_nil] at this

theorem Forest.spots_ne (os : Os) (f : Forest) : ∀ (p : Loc) (x : Loc × Node),
    x ∈ f.spots os p → ∃ a q, x.1 = p ++ a :: q := by
  induction f with
  | nil => intro p x h; cases h
  | file n m c r ih =>
    intro p x h
    rcases List.mem_cons.mp h with rfl | h
    · exact ⟨n, [], rfl⟩
    · exact ih p x h
  | link n m t r ih =>
    intro p x h
    rcases List.mem_cons.mp h with rfl | h
    · exact ⟨n, [], rfl⟩
    · exact ih p x h
  | dir n m s r ihs ih =>
    intro p x h
    rcases List.mem_cons.mp h with rfl | h
    · exact ⟨n, [], rfl⟩
    · rcases List.mem_append.mp h with h | h
      · obtain ⟨a, q, e⟩ := ihs _ _ h
        exact ⟨n, a :: q, by rw [e]; simp⟩
      · exact ih p x h
  | other n r ih => intro p x h; exact ih p x h
  | bad n r ih => intro p x h; exact ih p x h

theorem firstAt_shift (b : Loc) (L : List (Loc × Node)) (q : Loc) :
    firstAt (L.map fun x => (b ++ x.1, x.2)) (b ++ q) = firstAt L q := by
  induction L with
  | nil => rfl
  | cons x L ih =>
    simp only [firstAt, List.map_cons, List.find?_cons, List.append_cancel_left_eq] at ih ⊢
    by_cases e : x.1 = q
    · simp [e]
    · simpa [e] using ih

theorem firstAt_none {L : List (Loc × Node)} {l : Loc} (h : ∀ x ∈ L, x.1 ≠ l) :
    firstAt L l = none := by
  have : (L.find? fun x => decide (x.1 = l)) = none := by
    rw [List.find?_eq_none]
    intro x hx
    simpa using h x hx
  rw [firstAt, this]; rfl

theorem OnlyDirsTwice.shift {L : List (Loc × Node)} (h : OnlyDirsTwice L) (b : Loc) :
    OnlyDirsTwice (L.map fun x => (b ++ x.1, x.2)) := by
  refine List.pairwise_map.mpr (h.imp ?_)
  intro x y hxy e
  exact hxy (List.append_cancel_left e)

theorem Forest.spots_enterable (os : Os) (f : Forest) : ∀ (p : Loc), f.enterable os →
    ∀ x ∈ f.spots os p, ∀ m, x.2 = .dir m → Enterable os m := by
  induction f with
  | nil => intro p _ x h; cases h
  | file n m c r ih =>
    intro p he x h
    rcases List.mem_cons.mp h with rfl | h
    · intro m h; cases h
    · exact ih p he x h
  | link n m t r ih =>
    intro p he x h
    rcases List.mem_cons.mp h with rfl | h
    · intro m h; cases h
    · exact ih p he x h
  | dir n m s r ihs ih =>
    intro p he x h
    rcases List.mem_cons.mp h with rfl | h
    · intro m' h
      simp only [Node.dir.injEq] at h
      rw [← h]; exact he.1
    · rcases List.mem_append.mp h with h | h
      · exact ihs _ he.2.1 _ h
      · exact ih p he.2.2 x h
  | other n r ih => intro p he x h; exact ih p he x h
  | bad n r ih => intro p he x h; exact ih p he x h

theorem EvsOf.inner {f : Forest} {evs : List Ev} (h : EvsOf f evs) : ∀ e ∈ evs, e.inner := by
  induction h with
  | nil => intro e he; cases he
  | file _ _ _ _ _ _ ih =>
    intro e he
    simp only [List.mem_cons, List.mem_append, List.mem_map] at he
    rcases he with rfl | ⟨_, _, rfl⟩ | rfl | he
    · trivial
    · trivial
    · trivial
    · exact ih e he
  | link _ _ _ _ ih =>
    intro e he
    simp only [List.mem_cons] at he
    rcases he with rfl | rfl | he
    · trivial
    · trivial
    · exact ih e he
  | dir _ _ _ _ _ ihs ih =>
    intro e he
    simp only [List.mem_cons, List.mem_append] at he
    rcases he with rfl | he | rfl | he
    · trivial
    · exact ihs e he
    · trivial
    · exact ih e he

/-- The callbacks that convey a tree, after the start callback, in a fresh place; also the first
ones of such callbacks. -/
theorem tree_fresh_merge (os : Os) (hq : os.quiet) (w : World) (ht : w.fs.tree) (pre : Bytes)
    (h0 : 0 ∉ pre) (d : Loc) (hd : InDir os w pre d) (ho : OpenDir os w.fs d) (n : Bytes)
    (ns : List Bytes) (hn : ∀ x ∈ n :: ns, PlainName x) (hnew : w.fs (d ++ [n]) = none)
    (hen : Enterable os (dirMode os 0o775)) (hlen : ns.length ≤ 61) {f : Forest} (hf : f.wellNamed)
    (htw : OnlyDirsTwice (f.spots os []))
    (hfe : f.enterable os) (hcw : f.noLinks ∨ CwdOk os w.fs w.cwd) {evs rest : List Ev}
    (he : EvsOf f (evs ++ rest)) :
    ∃ h', hlEvents os (pre ++ joinNames (n :: ns)) (HL.init w) (.drStart :: evs) = .ok h' ∧
      h'.ret = CT_DIRECTORY ∧
      (rest = [] → h'.hasError = false → (f.spots os []).Pairwise fun a b => a.1 ≠ b.1) ∧
      (rest = [] → h'.ret = CT_DIRECTORY ∧ h'.w.cwd = w.cwd ∧
        LandedAll os w.fs h'.w.fs d n ns f) := by
  obtain ⟨h1, g1, g2, g3, g4, g5, g6, g7, _, g8, g9⟩ := tree_start os hq w ht pre h0 d hd ho n ns hn
    hnew hen hlen
  have hplaces : ∀ x ∈ f.spots os (d ++ n :: ns), h1.w.fs x.1 = none := by
    intro x hx
    obtain ⟨a, q, e⟩ := f.spots_ne os _ x hx
    rw [e]; exact g5 a q
  obtain ⟨h2, k1, k2, _, _, k5, k6⟩ := tree_merge os hq (pre ++ joinNames (n :: ns)) he h1 _ _ hf
    (by
      rcases hcw with h | h
      · exact .inl h
      · exact .inr (by rw [g4]; exact h.mono g3)) g2 g6
    (Joins.of (by rw [f.spots_base]; exact htw.shift _) (f.spots_enterable os _ hfe)
      (fun x hx => .inl (hplaces x hx)))
  rw [hlEvents_append] at k1
  cases hr : hlEvents os (pre ++ joinNames (n :: ns)) h1 evs with
  | error e => rw [hr] at k1; simp at k1
  | ok h' =>
    rw [hr] at k1
    have k1' : hlEvents os (pre ++ joinNames (n :: ns)) h' rest = .ok h2 := k1
    refine ⟨h', ?_, ?_, ?_, ?_⟩
    · rw [hlEvents, g1]; exact hr
    · exact ((hlEvents_keeps os _ evs h1 h' hr).2.1 (fun e hm =>
        he.inner e (List.mem_append_left _ hm))).trans g7
    · intro hrest herr
      subst hrest
      simp only [hlEvents, Except.ok.injEq] at k1'
      subst k1'
      have := (k6 herr).2.once
      rw [f.spots_base, List.pairwise_map] at this
      exact this.imp fun h e => h (by rw [e])
    · intro hrest
      subst hrest
      simp only [hlEvents, Except.ok.injEq] at k1'
      subst k1'
      have hout : ∀ l, (∀ x q, l ≠ d ++ n :: ns ++ x :: q) →
          firstAt (f.spots os (d ++ n :: ns)) l = none := by
        intro l hl
        refine firstAt_none fun x hx e => ?_
        obtain ⟨a, q, e'⟩ := f.spots_ne os _ x hx
        exact hl a q (by rw [← e, e'])
      refine ⟨k2.ret.trans g7, k2.cwd.trans g4, ?_, ?_, ?_⟩
      · intro j hj
        rw [k5, FS.addAll_at, g8 j hj]; rfl
      · intro x q
        rw [k5, FS.addAll_at, g5, Option.none_or, f.spots_base, firstAt_shift]
      · intro l hl1 hl2
        rw [k5, FS.addAll_at, hout l hl2, Option.or_none]
        exact g9 l hl1

end Zwt
