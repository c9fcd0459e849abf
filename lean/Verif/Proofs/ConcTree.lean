import Verif.Proofs.ConcRun
import Verif.Proofs.RoundRun
import Verif.Spec.Conc

/-! The disk during the extraction of a tree. -/

namespace Zwt

variable {α β : Type}

theorem Node.partOf.refl (a : Node) : a.partOf a := by
  cases a with
  | dir m => rfl
  | link t => rfl
  | file m c => exact ⟨c, rfl, List.prefix_refl _⟩

theorem Node.partOf.trans {a b c : Node} (h : a.partOf b) (h' : b.partOf c) : a.partOf c := by
  cases a with
  | dir m => cases h; exact h'
  | link t => cases h; exact h'
  | file m x =>
    obtain ⟨y, rfl, h1⟩ := h
    obtain ⟨z, rfl, h2⟩ := h'
    exact ⟨z, rfl, h1.trans h2⟩

theorem Node.partOf.antisymm {a b : Node} (h : a.partOf b) (h' : b.partOf a) : a = b := by
  cases a with
  | dir m => cases h; rfl
  | link t => cases h; rfl
  | file m x =>
    obtain ⟨y, rfl, h1⟩ := h
    obtain ⟨z, h3, h2⟩ := h'
    cases h3
    rw [h1.eq_of_length_le h2.length_le]

theorem FS.partOf.refl (fs : FS) : fs.partOf fs := fun _ a h => ⟨a, h, .refl a⟩

theorem FS.partOf.trans {a b c : FS} (h : a.partOf b) (h' : b.partOf c) : a.partOf c := by
  intro l x hx
  obtain ⟨y, h1, h2⟩ := h l x hx
  obtain ⟨z, h3, h4⟩ := h' l y h1
  exact ⟨z, h3, h2.trans h4⟩

theorem FS.partOf.put {fs : FS} {l : Loc} (h : fs l = none) (n : Node) : fs.partOf (fs.put l n) := by
  intro x a ha
  refine ⟨a, ?_, .refl a⟩
  rw [FS.put, if_neg (fun he => by rw [he, h] at ha; simp at ha), ha]

theorem FS.partOf.append {fs : FS} {l : Loc} {m : Nat} {c : Bytes} (h : fs l = some (.file m c))
    (d : Bytes) : fs.partOf (fs.put l (.file m (c ++ d))) := by
  intro x a ha
  by_cases hx : x = l
  · subst hx
    rw [h] at ha
    cases ha
    exact ⟨_, FS.put_same _ _ _, _, rfl, List.prefix_append _ _⟩
  · exact ⟨a, by rw [FS.put, if_neg hx, ha], .refl a⟩

/-- The call only adds to the disk. -/
def Adds (os : Os) (c : Call) (w : World) : Prop := w.fs.partOf (c.exec os w).2.fs

theorem addNode_adds {os : Os} {w w' : World} {l : Loc} {n : Node} (hl : w.fs l = none)
    (h : addNode os w l n = some w') : w.fs.partOf w'.fs := by
  simp only [addNode] at h
  split at h
  · cases h; exact .put hl n
  · simp at h

/-- Calls that add whatever the world. -/
def Call.mild : Call → Prop
  | .openFile _ _ t => t = false
  | .write _ _ => False
  | _ => True

theorem Call.mild.adds {c : Call} (hc : c.mild) (os : Os) (w : World) : Adds os c w := by
  unfold Adds
  cases c with
  | alloc => exact .refl _
  | nop => exact .refl _
  | mkdir p m =>
    simp only [exec, sysMkdir]
    split
    · exact .refl _
    · split
      · exact .refl _
      · split
        · exact .refl _
        · rename_i hl
          split
          · exact .refl _
          · rename_i h; exact (addNode_adds hl h :)
  | isDir p =>
    have := sysIsDir_tick os w p
    simp only [exec, this]
    exact .refl _
  | openFile p m t =>
    cases hc
    simp only [exec, sysOpen]
    split
    · exact .refl _
    · split
      · exact .refl _
      · split
        · split
          · exact .refl _
          · simp only [Bool.false_eq_true, if_false]; exact .refl _
        · exact .refl _
        · rename_i hl
          split
          · exact .refl _
          · split
            · exact .refl _
            · rename_i h; exact (addNode_adds hl h :)
  | write f d => exact hc.elim
  | symlink t p =>
    simp only [exec, sysSymlink]
    split
    · exact .refl _
    · split
      · exact .refl _
      · split
        · exact .refl _
        · rename_i hl
          split
          · exact .refl _
          · rename_i h; exact (addNode_adds hl h :)
  | chdir p => simp only [exec, sysChdir_fs]; exact .refl _
  | getcwd n =>
    simp only [exec, sysGetcwd]
    split
    · exact .refl _
    · split <;> exact .refl _

/-- Programs of mild calls. -/
def Prog.mild : Prog α → Prop
  | .ret _ => True
  | .call c k => c.mild ∧ ∀ r, (k r).mild

theorem Prog.mild.bind {p : Prog α} {k : α → Prog β} (hp : p.mild) (hk : ∀ a, (k a).mild) :
    (p.bind k).mild := by
  induction p with
  | ret a => exact hk a
  | call c f ih => exact ⟨hp.1, fun r => ih r (hp.2 r)⟩

theorem Prog.mild.all {p : Prog α} (hp : p.mild) (os : Os) (w : World) : p.All (Adds os) os w := by
  induction p generalizing w with
  | ret a => trivial
  | call c f ih => exact ⟨hp.1.adds os w, ih _ (hp.2 _) _⟩

theorem osCreateP_mild (path : Bytes) (mode : Nat) : (osCreateP path mode).mild := by
  refine ⟨trivial, fun r => ?_⟩
  cases r with
  | ok => trivial
  | fail => trivial
  | exist => exact ⟨trivial, fun _ => trivial⟩

theorem mkRestoreP_mild (mode : Nat) (idxs : List Nat) : ∀ (mem : Bytes),
    (mkRestoreP mode idxs mem).mild := by
  induction idxs with
  | nil => intro mem; trivial
  | cons i idxs ih =>
    intro mem
    refine (osCreateP_mild _ _).bind fun r => ?_
    split
    · trivial
    · exact ih _

theorem mkCutP_mild (mode : Nat) (n : Nat) : ∀ (idxs : List Nat) (mem : Bytes),
    (mkCutP mode n idxs mem).mild := by
  induction n with
  | zero => intro idxs mem; trivial
  | succ n ih =>
    intro idxs mem
    simp only [mkCutP]
    split
    · trivial
    · refine (osCreateP_mild _ _).bind fun r => ?_
      split
      · trivial
      · split
        · split
          · exact mkRestoreP_mild _ _ _
          · trivial
        · exact ih _ _

theorem mkdirRecurseP_mild (mode : Nat) (path : Bytes) : (mkdirRecurseP mode path).mild := by
  refine ⟨trivial, fun (bad : Bool) => ?_⟩
  cases bad with
  | true => trivial
  | false =>
    refine (osCreateP_mild _ _).bind fun r => ?_
    split
    · trivial
    · exact mkCutP_mild _ _ _ _

/-- Callbacks other than those that deliver file content. -/
theorem hlEventP_mild (out : Bytes) (v : HLv) (e : Ev) (h1 : e ≠ .flStart)
    (h2 : ∀ d, e ≠ .flRead d) (h3 : ∀ d, e ≠ .fileRead d) : (hlEventP out v e).mild := by
  cases e with
  | flStart => exact absurd rfl h1
  | flRead d => exact absurd rfl (h2 d)
  | fileRead d => exact absurd rfl (h3 d)
  | drStart =>
    refine Prog.mild.bind ((mkdirRecurseP_mild _ _).bind fun r => ?_) fun _ => trivial
    split
    · trivial
    · refine ⟨trivial, fun (bad : Bool) => ?_⟩
      cases bad <;> trivial
  | itemStart ft nm it =>
    cases ft with
    | none => trivial
    | symlink => trivial
    | file =>
      simp only [hlEventP, hlItemStartP, hlFileItemP]
      split
      · trivial
      · refine ⟨rfl, fun (r : Option Loc) => ?_⟩
        cases r <;> trivial
    | dir =>
      refine ⟨trivial, fun (bad : Bool) => ?_⟩
      cases bad with
      | true => trivial
      | false =>
        simp only [Bool.false_eq_true, if_false]
        split
        · trivial
        · exact (mkdirRecurseP_mild _ _).bind fun _ => trivial
  | fileEnd =>
    simp only [hlEventP, hlFileEndP]
    split
    · exact ⟨trivial, fun _ => trivial⟩
    · trivial
    · exact ⟨trivial, fun _ => trivial⟩
  | dirEnd =>
    simp only [hlEventP, hlDirEndP]
    split
    · trivial
    · split <;> trivial
  | symLink t a =>
    refine ⟨trivial, fun (r : Option Bytes) => ?_⟩
    cases r with
    | none => trivial
    | some old =>
      simp only
      split
      · exact ⟨trivial, fun _ => trivial⟩
      · refine ⟨trivial, fun (b : Bool) => ?_⟩
        cases b with
        | false => trivial
        | true =>
          simp only
          split
          · trivial
          · split
            · exact ⟨trivial, fun _ => ⟨trivial, fun _ => trivial⟩⟩
            · trivial

/-! ### From the functions to the programs -/

/-- The state of the callbacks without the world. -/
def HL.view (h : HL) : HLv :=
  { fpOut := h.fpOut, dirPath := h.dirPath, hasError := h.hasError, fd := h.fd, ret := h.ret,
    name := h.name }

theorem toHL_ok {x : Run HLv × World} {h : HL} (hx : toHL x = .ok h) : x = (.ok h.view, h.w) := by
  obtain ⟨r, w⟩ := x
  cases r with
  | error e => simp [toHL, Except.map] at hx
  | ok v =>
    simp only [toHL, Except.map, Except.ok.injEq] at hx
    subst hx
    rfl

theorem hlEventsP_ok {os : Os} {out : Bytes} {h h' : HL} {es : List Ev}
    (hr : hlEvents os out h es = .ok h') :
    (hlEventsP out h.view es).run os h.w = (.ok h'.view, h'.w) := by
  refine toHL_ok ?_
  rw [hlEventsP_run]
  exact hr

theorem hlEventP_ok {os : Os} {out : Bytes} {h h' : HL} {e : Ev}
    (hr : hlEvent os out h e = .ok h') :
    (hlEventP out h.view e).run os h.w = (.ok h'.view, h'.w) := by
  refine toHL_ok ?_
  rw [hlEventP_run]
  exact hr

/-- Every call of the callbacks adds. -/
def AddsAll (os : Os) (out : Bytes) (h : HL) (es : List Ev) : Prop :=
  (hlEventsP out h.view es).All (Adds os) os h.w

theorem AddsAll.append {os : Os} {out : Bytes} {h h' : HL} {es es' : List Ev}
    (h1 : AddsAll os out h es) (hr : hlEvents os out h es = .ok h') (h2 : AddsAll os out h' es') :
    AddsAll os out h (es ++ es') := by
  rw [AddsAll, hlEventsP_append, all_andThen, hlEventsP_ok hr]
  refine ⟨h1, ?_⟩
  intro v hv
  cases hv
  exact h2

theorem AddsAll.before {os : Os} {out : Bytes} {h : HL} {es es' : List Ev}
    (h1 : AddsAll os out h (es ++ es')) : AddsAll os out h es := by
  rw [AddsAll, hlEventsP_append, all_andThen] at h1
  exact h1.1

theorem AddsAll.cons {os : Os} {out : Bytes} {h h' : HL} {e : Ev} {es : List Ev}
    (h1 : (hlEventP out h.view e).mild) (hr : hlEvent os out h e = .ok h')
    (h2 : AddsAll os out h' es) : AddsAll os out h (e :: es) := by
  rw [AddsAll, hlEventsP, all_andThen, hlEventP_ok hr]
  refine ⟨h1.all os _, ?_⟩
  intro v hv
  cases hv
  exact h2

theorem reads_add (os : Os) (hq : os.quiet) (out : Bytes) (l : Loc) (m : Nat) (ds : List Bytes) :
    ∀ (h : HL) (c : Bytes), h.w.fs l = some (.file m c) → h.fd = .opened ⟨l, c.length⟩ →
    AddsAll os out h (ds.map .fileRead) := by
  induction ds with
  | nil => intro h c _ _; trivial
  | cons d ds ih =>
    intro h c hc hfd
    have hw := write_end os hq h.w l m c d hc
    have hr : hlEvent os out h (.fileRead d) = .ok
        { h with w := (h.w.put l (.file m (c ++ d))).tick, fd := .opened ⟨l, (c ++ d).length⟩ } := by
      simp only [hlEvent, hlFileRead, hfd, hw]
    rw [List.map_cons, AddsAll, hlEventsP, all_andThen, hlEventP_ok hr]
    refine ⟨?_, ?_⟩
    · have hv : h.view.fd = .opened ⟨l, c.length⟩ := hfd
      simp only [hlEventP, hlFileReadP, hv]
      refine ⟨?_, trivial⟩
      simp only [Adds, Call.exec, hw]
      exact FS.partOf.append hc d
    · intro v hv
      cases hv
      exact ih _ (c ++ d) (by simp [World.tick, World.put, FS.put]) rfl

/-- The callbacks that convey a tree only add to the disk. -/
theorem tree_adds (os : Os) (hq : os.quiet) (out : Bytes) {f : Forest} {evs : List Ev}
    (he : EvsOf f evs) : ∀ (h : HL) (p : Bytes) (l : Loc), f.proper → f.enterable os →
    (f.noLinks ∨ CwdOk os h.w.fs h.w.cwd) → AtDir os h p l →
    (∀ n ∈ f.names, Absent h.w.fs (l ++ [n])) → AddsAll os out h evs := by
  induction he with
  | nil => intro h p l _ _ _ _ _; trivial
  | @file name nm item content mode ds rest evs h1 h2 h3 h4 _ _ ih =>
    intro h p l hpr hen hcw A hab
    obtain ⟨hn, hnr, hrp⟩ := hpr
    have hpath : cString (p ++ 47 :: name) = p ++ [47] ++ name := by
      rw [cString_plain]
      · simp
      · simp only [List.mem_append, List.mem_cons, not_or]
        exact ⟨A.nul, by decide, hn.2.2.2.2⟩
    have ha0 : h.w.fs (l ++ [name]) = none := by simpa using hab name List.mem_cons_self []
    have hop := open_new os hq h.w (p ++ [47]) l name (modeFo (itMode item)) false A.front A.dir hn ha0
    let h1' : HL :=
      { h with
        w := (h.w.put (l ++ [name]) (.file (modeFo (itMode item) &&& os.allow) [])).tick
        name := some nm
        fd := .opened ⟨l ++ [name], 0⟩ }
    have hst : hlEvent os out h (.itemStart .file nm item) = .ok h1' := by
      simp only [hlEvent, hlItemStart, hlFileItem, itemPath, if_pos h1, A.path, Option.getD_some,
        h2, hpath, hop, h1']
    have hc0 : h1'.w.fs (l ++ [name]) = some (.file (modeFo (itMode item) &&& os.allow) []) := by
      simp [h1', World.tick, World.put, FS.put]
    obtain ⟨h2', g1, g2, g3, g4⟩ := reads_good os hq out (l ++ [name])
      (modeFo (itMode item) &&& os.allow) ds h1' [] hc0 rfl
    have hadd := reads_add os hq out (l ++ [name]) (modeFo (itMode item) &&& os.allow) ds h1' [] hc0 rfl
    rw [List.nil_append, h4] at g2 g4
    have hmode : modeFo (itMode item) &&& os.allow = fileMode os mode := by rw [h3]; rfl
    let h3' : HL := { h2' with w := h2'.w.tick, fd := .closed }
    have hfd : h2'.fd = .opened ⟨l ++ [name], content.length⟩ := by rw [g2]
    have hend : hlEvent os out h2' .fileEnd = .ok h3' := by
      simp only [hlEvent, hlFileEnd, hfd, h3']
    have hfs : h3'.w.fs = h.w.fs.put (l ++ [name]) (.file (fileMode os mode) content) := by
      show h2'.w.fs = _
      rw [g4]
      show ((h.w.fs.put _ _).put _ _) = _
      rw [FS.put_put, hmode]
    have hsame : SameRest h h3' := by
      refine ⟨?_, ?_, ?_, ?_, ?_⟩
      · show h2'.dirPath = _; rw [g2]
      · show h2'.hasError = _; rw [g2]
      · show h2'.ret = _; rw [g2]
      · show h2'.fpOut = _; rw [g2]
      · show h2'.w.cwd = _; rw [g3]; rfl
    have hk : Keeps h.w.fs h3'.w.fs := by rw [hfs]; exact Keeps.put ha0 _
    have := ih h3' p l hrp hen (by
        rcases hcw with h | h
        · exact .inl h
        · exact .inr (by rw [hsame.cwd]; exact h.mono hk)) (A.step hsame hk) (by
        intro x hx q
        have hne : x ≠ name := fun h => hnr (h ▸ hx)
        rw [hfs, FS.put, if_neg (by simp [hne])]
        exact hab x (List.mem_cons_of_mem _ hx) q)
    refine .cons (hlEventP_mild _ _ _ (by simp) (by simp) (by simp)) hst (hadd.append g1 ?_)
    exact .cons (hlEventP_mild _ _ _ (by simp) (by simp) (by simp)) hend this
  | @link name nm item target after mode rest evs h1 h2 _ _ ih =>
    intro h p l hpr hen hcw A hab
    obtain ⟨hn, hnr, ht, ht0, hrp⟩ := hpr
    have ha0 : h.w.fs (l ++ [name]) = none := by simpa using hab name List.mem_cons_self []
    have hcw' : CwdOk os h.w.fs h.w.cwd := by
      rcases hcw with h | h
      · exact h.elim
      · exact h
    let h1' : HL := { h with name := some nm }
    obtain ⟨w', g1, g2, g3⟩ := symLink_good os hq h1' p l nm name target after A.path A.ne A.nul
      A.front A.dir hn ha0 hcw' rfl h1 ht ht0 h2
    let h2' : HL := { h1' with w := w' }
    have hsame : SameRest h h2' := ⟨rfl, rfl, rfl, rfl, g2⟩
    have hk : Keeps h.w.fs h2'.w.fs := by
      show Keeps h.w.fs w'.fs
      rw [g3]; exact Keeps.put ha0 _
    have := ih h2' p l hrp hen (.inr (by rw [hsame.cwd]; exact hcw'.mono hk))
      (A.step hsame hk) (by
        intro x hx q
        have hne : x ≠ name := fun h => hnr (h ▸ hx)
        show w'.fs _ = _
        rw [g3, FS.put, if_neg (by simp [hne])]
        exact hab x (List.mem_cons_of_mem _ hx) q)
    refine .cons (h' := h1') (hlEventP_mild _ _ _ (by simp) (by simp) (by simp)) rfl ?_
    exact .cons (h' := h2') (hlEventP_mild _ _ _ (by simp) (by simp) (by simp)) g1 this
  | @dir name nm item mode sub rest evs evs' h1 h2 h3 hsub _ ihs ih =>
    intro h p l hpr hen hcw A hab
    obtain ⟨hn, hnr, hsp, hrp⟩ := hpr
    obtain ⟨e1, e2, e3⟩ := hen
    have h0 : 0 ∉ p ++ 47 :: name := by
      simp only [List.mem_append, List.mem_cons, not_or]
      exact ⟨A.nul, by decide, hn.2.2.2.2⟩
    have ha0 : h.w.fs (l ++ [name]) = none := by simpa using hab name List.mem_cons_self []
    obtain ⟨w', m1, m2, m3⟩ := mkdirRecurse_new os hq mode h.w.tick (p ++ [47]) l name [] A.front
      A.dir (by simpa using hn) (hab name List.mem_cons_self) (.inl rfl) (by simp)
    have m1' : mkdirRecurse os mode (p ++ 47 :: name) h.w.tick = (0, w') := by
      simpa [joinNames] using m1
    have m2' : w'.fs = h.w.fs.put (l ++ [name]) (.dir (dirMode os mode)) := m2
    let h1' : HL := { h with w := w', name := some nm, dirPath := some (p ++ 47 :: name) }
    have hst : hlEvent os out h (.itemStart .dir nm item) = .ok h1' := by
      simp only [hlEvent, hlItemStart, hlDirItem, itemPath, if_pos h1, A.path, Option.getD_some,
        h2, hq.2.2, Bool.false_eq_true, if_false, cString_plain _ h0, h3, m1']
      simp [h1']
    have hk : Keeps h.w.fs w'.fs := by rw [m2']; exact Keeps.put ha0 _
    have hdir : w'.fs (l ++ [name]) = some (.dir (dirMode os mode)) := by rw [m2', FS.put_same]
    have A1 : AtDir os h1' (p ++ 47 :: name) (l ++ [name]) := by
      refine ⟨rfl, by simp, h0, ?_, _, hdir, e1⟩
      have hfr : Front os w'.fs h.w.cwd (p ++ [47]) l := A.front.mono hk
      have := hfr.extend (A.dir.mono hk).searchable hn hdir
      simp only [List.append_assoc, List.singleton_append, List.cons_append] at this ⊢
      show Front os w'.fs w'.cwd _ _
      rw [m3]; exact this
    have hcw1 : sub.noLinks ∨ CwdOk os h1'.w.fs h1'.w.cwd := by
      rcases hcw with h | h
      · exact .inl h.1
      · refine .inr ?_
        show CwdOk os w'.fs w'.cwd
        rw [m3]; exact h.mono hk
    have hab1 : ∀ n ∈ sub.names, Absent h1'.w.fs (l ++ [name] ++ [n]) := by
      intro x hx q
      show w'.fs _ = none
      rw [m2', FS.put, if_neg (by simp)]
      have := hab name List.mem_cons_self (x :: q)
      simpa using this
    have hsadd := ihs h1' (p ++ 47 :: name) (l ++ [name]) hsp e2 hcw1 A1 hab1
    obtain ⟨h2', i1, i2, i3⟩ := tree_good os hq out hsub h1' (p ++ 47 :: name) (l ++ [name]) hsp e2
      hcw1 A1 hab1
    have i3' : h2'.w.fs = sub.place os w'.fs (l ++ [name]) := i3
    -- leaving the directory
    let h3' : HL := { h2' with dirPath := some p }
    have hend : hlEvent os out h2' .dirEnd = .ok h3' := by
      have hp2 : h2'.dirPath = some (p ++ 47 :: name) := i2.path
      simp only [hlEvent, hlDirEnd, hp2, cString_plain _ h0,
        lastIndexOf_append 47 p name hn.2.2.2.1, List.take_left', h3']
    have hsame : SameRest h h3' :=
      ⟨A.path.symm, i2.err, i2.ret, i2.out, i2.cwd.trans m3⟩
    have hk2 : Keeps h.w.fs h3'.w.fs := by
      refine hk.trans ?_
      show Keeps w'.fs h2'.w.fs
      rw [i3']; exact place_keeps os sub _ _ hsp hab1
    have := ih h3' p l hrp e3 (by
        rcases hcw with h | h
        · exact .inl h.2
        · exact .inr (by rw [hsame.cwd]; exact h.mono hk2)) (A.step hsame hk2) (by
        intro x hx q
        have hne : x ≠ name := fun h => hnr (h ▸ hx)
        show h2'.w.fs _ = none
        rw [i3', Forest.place_other os sub _ _ _ (by simp [hne]), m2', FS.put,
          if_neg (by simp [hne])]
        exact hab x (List.mem_cons_of_mem _ hx) q)
    refine .cons (hlEventP_mild _ _ _ (by simp) (by simp) (by simp)) hst (hsadd.append i1 ?_)
    exact .cons (hlEventP_mild _ _ _ (by simp) (by simp) (by simp)) hend this

/-- The callbacks that convey a tree, with the start callback, in a fresh place only add. -/
theorem tree_fresh_adds (os : Os) (hq : os.quiet) (w : World) (ht : w.fs.tree) (pre : Bytes)
    (h0 : 0 ∉ pre) (d : Loc) (hd : InDir os w pre d) (ho : OpenDir os w.fs d) (n : Bytes)
    (ns : List Bytes) (hn : ∀ x ∈ n :: ns, PlainName x) (hnew : w.fs (d ++ [n]) = none)
    (hen : Enterable os (dirMode os 0o775)) (hlen : ns.length ≤ 61) {f : Forest} (hf : f.proper)
    (hfe : f.enterable os) (hcw : f.noLinks ∨ CwdOk os w.fs w.cwd) {evs : List Ev}
    (he : EvsOf f evs) :
    AddsAll os (pre ++ joinNames (n :: ns)) (HL.init w) (.drStart :: evs) := by
  obtain ⟨h1, g1, g2, g3, g4, g5, _⟩ := tree_start os hq w ht pre h0 d hd ho n ns hn hnew hen hlen
  refine .cons (hlEventP_mild _ _ _ (by simp) (by simp) (by simp)) g1
    (tree_adds os hq _ he h1 _ _ hf hfe ?_ g2 ?_)
  · rcases hcw with h | h
    · exact .inl h
    · exact .inr (by rw [g4]; exact h.mono g3)
  · intro x _ q
    have := g5 x q
    simpa using this

theorem Landed.unique {os : Os} {fs a b : FS} {d : Loc} {n : Bytes} {ns : List Bytes} {f : Forest}
    (ha : Landed os fs a d n ns f) (hb : Landed os fs b d n ns f) : a = b := by
  funext l
  by_cases h1 : ∃ j, j ≤ ns.length ∧ l = d ++ n :: ns.take j
  · obtain ⟨j, hj, rfl⟩ := h1
    rw [ha.1 j hj, hb.1 j hj]
  · by_cases h2 : ∃ x q, l = d ++ n :: ns ++ x :: q
    · obtain ⟨x, q, rfl⟩ := h2
      rw [ha.2.1, hb.2.1]
    · have e1 : ∀ j, j ≤ ns.length → l ≠ d ++ n :: ns.take j := fun j hj h => h1 ⟨j, hj, h⟩
      have e2 : ∀ x q, l ≠ d ++ n :: ns ++ x :: q := fun x q h => h2 ⟨x, q, h⟩
      rw [ha.2.2 l e1 e2, hb.2.2 l e1 e2]

/-- During a run of calls that add, the disk is a part of the final one and contains the initial
one. -/
theorem Prog.between (os : Os) (k : Nat) : ∀ (p : Prog α) (w : World), p.All (Adds os) os w →
    w.fs.partOf (p.after os k w).2.fs ∧ (p.after os k w).2.fs.partOf (p.run os w).2.fs := by
  have hrun : ∀ (p : Prog α) (w : World), p.All (Adds os) os w → w.fs.partOf (p.run os w).2.fs := by
    intro p
    induction p with
    | ret a => intro w _; exact .refl _
    | call c f ih => intro w h; exact h.1.trans (ih _ _ h.2)
  induction k with
  | zero => intro p w h; exact ⟨.refl _, hrun p w h⟩
  | succ k ih =>
    intro p w h
    cases p with
    | ret a => exact ih (.ret a) w h
    | call c f =>
      obtain ⟨h1, h2⟩ := ih (f (c.exec os w).1) (c.exec os w).2 h.2
      exact ⟨h.1.trans h1, h2⟩

end Zwt
