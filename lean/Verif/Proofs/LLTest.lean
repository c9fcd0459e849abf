import Verif.Model.LLTest
import Verif.Spec.LLTest
import Verif.Proofs.Relink
import Verif.Proofs.RoundRun
import Verif.Proofs.HLEnd

/-! The second test program: its callbacks, its loop. -/

namespace Zwt

variable {Z : Inflater} {plain : Bytes → Bytes}

theorem ltEvents_append (os : Os) (out : Bytes) (es es' : List Ev) (h : LT) :
    ltEvents os out h (es ++ es') =
      match ltEvents os out h es with
      | .error e => .error e
      | .ok h => ltEvents os out h es' := by
  induction es generalizing h with
  | nil => rfl
  | cons e es ih =>
    simp only [List.cons_append, ltEvents]
    split
    · rfl
    · exact ih _

theorem ltEvents_closed (os : Os) (out : Bytes) (es : List Ev) : ∀ (h : LT),
    ltEvents os out h (es.map Ev.closed) = ltEvents os out h es := by
  induction es with
  | nil => intro h; rfl
  | cons e es ih =>
    intro h
    have he : ltEvent os out h e.closed = ltEvent os out h e := by
      unfold Ev.closed; split <;> rfl
    simp only [List.map_cons, ltEvents, he]
    split
    · rfl
    · exact ih _

/-! ### Errors stay -/

theorem ltEvent_error (os : Os) (out : Bytes) (h h' : LT) (e : Ev) (hr : ltEvent os out h e = .ok h')
    (he : h.hasError = true) : h'.hasError = true := by
  cases e with
  | flStart =>
    simp only [ltEvent, ltFileStart] at hr
    cases hr
    split
    · rfl
    · exact he
  | flRead d =>
    simp only [ltEvent, ltFileData] at hr
    split at hr
    · simp at hr
    · cases hr; exact he
  | drStart =>
    simp only [ltEvent, ltDirStart] at hr
    cases hr
    split
    · split
      · rfl
      · exact he
    · rfl
  | itemStart ft name item =>
    have key : ltOtherItem os h name item = .ok h' → h'.hasError = true := by
      intro hr
      simp only [ltOtherItem] at hr
      split at hr
      · simp at hr
      · split at hr
        · simp at hr
        · split at hr
          · cases hr; rfl
          · cases hr; exact he
    cases ft with
    | dir =>
      simp only [ltEvent, ltDirItem] at hr
      split at hr
      · cases hr; rfl
      · split at hr
        · split at hr
          · cases hr; exact he
          · cases hr; rfl
        · simp at hr
    | file => exact key hr
    | symlink => exact key hr
    | _ => exact key hr
  | fileRead d =>
    simp only [ltEvent, ltFileRead] at hr
    split at hr
    · cases hr; exact he
    · simp at hr
    · cases hr; exact he
  | fileEnd =>
    simp only [ltEvent, ltFileEnd] at hr
    split at hr
    · cases hr; exact he
    · simp at hr
    · cases hr; exact he
  | dirEnd =>
    simp only [ltEvent, ltDirEnd] at hr
    split at hr
    · simp at hr
    · split at hr
      · simp at hr
      · cases hr; exact he
  | symLink t a => simp only [ltEvent] at hr; cases hr; exact he

theorem ltEvents_error (os : Os) (out : Bytes) (es : List Ev) : ∀ (h h' : LT),
    ltEvents os out h es = .ok h' → h.hasError = true → h'.hasError = true := by
  induction es with
  | nil => intro h h' hr he; cases hr; exact he
  | cons e es ih =>
    intro h h' hr he
    simp only [ltEvents] at hr
    cases hx : ltEvent os out h e with
    | error x => rw [hx] at hr; simp at hr
    | ok h1 =>
      rw [hx] at hr
      exact ih h1 h' hr (ltEvent_error os out h h1 e hx he)

/-! ### A tree -/

theorem LT.lose_eq (h : LT) : h.lose = h.lost + h.held := by
  simp only [LT.lose, LT.held]
  cases h.fd <;> rfl

/-- State between entries. -/
structure LtAt (os : Os) (h : LT) (p : Bytes) (l : Loc) : Prop where
  path : h.dirPath = some p
  nul : 0 ∉ p
  front : Front os h.w.fs h.w.cwd (p ++ [47]) l
  dir : OpenDir os h.w.fs l

/-- What the extraction of entries keeps. -/
structure LtSame (h h' : LT) : Prop where
  path : h'.dirPath = h.dirPath
  err : h'.hasError = h.hasError
  cwd : h'.w.cwd = h.w.cwd

theorem LtSame.trans {a b c : LT} (h : LtSame a b) (h' : LtSame b c) : LtSame a c :=
  ⟨h'.path.trans h.path, h'.err.trans h.err, h'.cwd.trans h.cwd⟩

theorem LtAt.step {os : Os} {h h' : LT} {p : Bytes} {l : Loc} (a : LtAt os h p l)
    (hs : LtSame h h') (hk : Keeps h.w.fs h'.w.fs) : LtAt os h' p l := by
  refine ⟨hs.path.trans a.path, a.nul, ?_, a.dir.mono hk⟩
  rw [hs.cwd]; exact a.front.mono hk

theorem ltReads_good (os : Os) (hq : os.quiet) (out : Bytes) (l : Loc) (m : Nat) (ds : List Bytes) :
    ∀ (h : LT) (c : Bytes), h.w.fs l = some (.file m c) → h.fd = .opened ⟨l, c.length⟩ →
    ∃ h', ltEvents os out h (ds.map .fileRead) = .ok h' ∧
      h' = { h with w := h'.w, fd := .opened ⟨l, (c ++ ds.flatten).length⟩ } ∧
      h'.w.cwd = h.w.cwd ∧ h'.w.fs = h.w.fs.put l (.file m (c ++ ds.flatten)) := by
  induction ds with
  | nil =>
    intro h c hc hfd
    refine ⟨h, rfl, ?_, rfl, ?_⟩
    · simp [← hfd]
    · funext x
      simp only [FS.put, List.flatten_nil, List.append_nil]
      split
      · rename_i hx; rw [hx, hc]
      · rfl
  | cons d ds ih =>
    intro h c hc hfd
    have hw := write_end os hq h.w l m c d hc
    obtain ⟨h', g1, g2, g3, g4⟩ := ih
      { h with w := (h.w.put l (.file m (c ++ d))).tick, fd := .opened ⟨l, (c ++ d).length⟩ }
      (c ++ d) (by simp [World.tick, World.put, FS.put]) rfl
    refine ⟨h', ?_, ?_, g3, ?_⟩
    · simp only [List.map_cons, ltEvents, ltEvent, ltFileRead, hfd, hw]
      exact g1
    · rw [g2]; simp
    · rw [g4]
      simp only [World.tick, World.put, FS.put_put, List.flatten_cons, List.append_assoc]

theorem sysMkdir_new (os : Os) (hq : os.quiet) (w : World) (pre : Bytes) (d : Loc) (n : Bytes)
    (mode : Nat) (hf : Front os w.fs w.cwd pre d) (ho : OpenDir os w.fs d) (hn : PlainName n)
    (ha : w.fs (d ++ [n]) = none) :
    sysMkdir os w (pre ++ n) mode = (.ok, (w.put (d ++ [n]) (.dir (dirMode os mode))).tick) := by
  obtain ⟨m, hl⟩ := hf.locate false hn
  rw [resolve_missing os w.fs false m d n [] hn ho.searchable ha] at hl
  simp only [List.all_nil, if_true] at hl
  simp only [sysMkdir, hq.1, Bool.false_eq_true, if_false, hl, ha, addNode,
    List.dropLast_concat, ho.writable, if_true, dirMode]

/-- A file or link: an empty file is created and its descriptor kept. -/
theorem ltOther_good (os : Os) (hq : os.quiet) (h : LT) (p : Bytes) (l : Loc) (nm name item : Bytes)
    (A : LtAt os h p l) (hn : PlainName name) (ha : h.w.fs (l ++ [name]) = none)
    (hnm : cstr? nm = some name) (hw : p.length + 1 + name.length ≤ 4094) :
    ltOtherItem os h nm item = .ok
      { h with
        w := (h.w.put (l ++ [name]) (.file (modeFo (itMode item) &&& os.allow) [])).tick
        fd := .opened ⟨l ++ [name], 0⟩
        lost := h.lost + h.held } := by
  have hop := open_new os hq h.w (p ++ [47]) l name (modeFo (itMode item)) false A.front A.dir hn ha
  have hpath : (cString p ++ 47 :: name).take (LT_NAME_SIZE - 1) = p ++ [47] ++ name := by
    rw [cString_plain p A.nul, List.take_of_length_le]
    · simp
    · have : LT_NAME_SIZE = 4095 := rfl
      simp only [List.length_append, List.length_cons]
      omega
  simp only [ltOtherItem, A.path, hnm, hpath, hop, LT.lose_eq]

theorem delinked_names (f : Forest) : f.delinked.names = f.names := by
  induction f with
  | nil => rfl
  | file n m c r ih => simp only [Forest.delinked, Forest.names, ih]
  | link n m t r ih => simp only [Forest.delinked, Forest.names, ih]
  | dir n m s r _ ih => simp only [Forest.delinked, Forest.names, ih]
  | other n r ih => simp only [Forest.delinked, Forest.names, ih]
  | bad n r ih => simp only [Forest.delinked, Forest.names, ih]

theorem delinked_proper (f : Forest) : f.proper → f.delinked.proper := by
  induction f with
  | nil => exact id
  | file n m c r ih => exact fun h => ⟨h.1, by rw [delinked_names]; exact h.2.1, ih h.2.2⟩
  | link n m t r ih => exact fun h => ⟨h.1, by rw [delinked_names]; exact h.2.1, ih h.2.2.2.2⟩
  | dir n m s r ihs ih =>
    exact fun h => ⟨h.1, by rw [delinked_names]; exact h.2.1, ihs h.2.2.1, ih h.2.2.2⟩
  | other n r ih => exact ih
  | bad n r ih => exact ih

theorem ltTree_good (os : Os) (hq : os.quiet) (out : Bytes) {f : Forest} {evs : List Ev}
    (he : EvsOf f evs) : ∀ (h : LT) (p : Bytes) (l : Loc), f.proper → f.enterable os →
    f.within 4094 p.length → LtAt os h p l →
    (∀ n ∈ f.names, Absent h.w.fs (l ++ [n])) →
    ∃ h', ltEvents os out h evs = .ok h' ∧ LtSame h h' ∧
      h'.w.fs = f.delinked.place os h.w.fs l ∧ h'.lost + h'.held = h.lost + h.held + f.links := by
  induction he with
  | nil => intro h p l _ _ _ _ _; exact ⟨h, rfl, ⟨rfl, rfl, rfl⟩, rfl, rfl⟩
  | @file name nm item content mode ds rest evs h1 h2 h3 h4 h5 _ ih =>
    intro h p l hpr hen hwi A hab
    obtain ⟨hn, hnr, hrp⟩ := hpr
    have ha0 : h.w.fs (l ++ [name]) = none := by simpa using hab name List.mem_cons_self []
    have hst := ltOther_good os hq h p l nm name item A hn ha0 h5 hwi.1
    generalize hh1 : LT.mk (h.w.put (l ++ [name]) (.file (modeFo (itMode item) &&& os.allow) [])).tick
      h.fpOut h.dirPath h.hasError (.opened ⟨l ++ [name], 0⟩) (h.lost + h.held) = h1' at hst
    obtain ⟨h2', g1, g2, g3, g4⟩ := ltReads_good os hq out (l ++ [name])
      (modeFo (itMode item) &&& os.allow) ds h1' [] (by simp [← hh1, World.tick, World.put, FS.put])
      (by simp [← hh1])
    rw [List.nil_append, h4] at g2 g4
    have hmode : modeFo (itMode item) &&& os.allow = fileMode os mode := by rw [h3]; rfl
    let h3' : LT := { h2' with w := h2'.w.tick, fd := .closed }
    have hfd : h2'.fd = .opened ⟨l ++ [name], content.length⟩ := by rw [g2]
    have hend : ltEvent os out h2' .fileEnd = .ok h3' := by
      simp only [ltEvent, ltFileEnd, hfd, h3']
    have hfs : h3'.w.fs = h.w.fs.put (l ++ [name]) (.file (fileMode os mode) content) := by
      show h2'.w.fs = _
      rw [g4, ← hh1]
      show ((h.w.fs.put _ _).put _ _) = _
      rw [FS.put_put, hmode]
    have hsame : LtSame h h3' := by
      refine ⟨?_, ?_, ?_⟩
      · show h2'.dirPath = _; rw [g2, ← hh1]
      · show h2'.hasError = _; rw [g2, ← hh1]
      · show h2'.w.cwd = _; rw [g3, ← hh1]; rfl
    have hlost : h3'.lost + h3'.held = h.lost + h.held := by
      show h2'.lost + 0 = _
      rw [g2, ← hh1]; rfl
    have hk : Keeps h.w.fs h3'.w.fs := by rw [hfs]; exact Keeps.put ha0 _
    obtain ⟨h', i1, i2, i3, i4⟩ := ih h3' p l hrp hen hwi.2 (A.step hsame hk) (by
        intro x hx q
        have hne : x ≠ name := fun h => hnr (h ▸ hx)
        rw [hfs, FS.put, if_neg (by simp [hne])]
        exact hab x (List.mem_cons_of_mem _ hx) q)
    refine ⟨h', ?_, hsame.trans i2, ?_, ?_⟩
    · have hst' : ltEvent os out h (.itemStart .file nm item) = .ok h1' := hst
      rw [ltEvents, hst']
      simp only
      rw [ltEvents_append, g1]
      simp only
      rw [ltEvents, hend]
      exact i1
    · rw [i3, hfs]; rfl
    · rw [i4, hlost]; rfl
  | @link name nm item target after mode rest evs h1 h2 h3 _ ih =>
    intro h p l hpr hen hwi A hab
    obtain ⟨hn, hnr, ht, ht0, hrp⟩ := hpr
    have ha0 : h.w.fs (l ++ [name]) = none := by simpa using hab name List.mem_cons_self []
    have hst := ltOther_good os hq h p l nm name item A hn ha0 h1 hwi.1
    generalize hh1 : LT.mk (h.w.put (l ++ [name]) (.file (modeFo (itMode item) &&& os.allow) [])).tick
      h.fpOut h.dirPath h.hasError (.opened ⟨l ++ [name], 0⟩) (h.lost + h.held) = h1' at hst
    have hmode : modeFo (itMode item) &&& os.allow = fileMode os mode := by rw [h3]; rfl
    have hsame : LtSame h h1' := by rw [← hh1]; exact ⟨rfl, rfl, rfl⟩
    have hfs : h1'.w.fs = h.w.fs.put (l ++ [name]) (.file (fileMode os mode) []) := by
      rw [← hh1, ← hmode]; rfl
    have hk : Keeps h.w.fs h1'.w.fs := by rw [hfs]; exact Keeps.put ha0 _
    obtain ⟨h', i1, i2, i3, i4⟩ := ih h1' p l hrp hen hwi.2 (A.step hsame hk) (by
        intro x hx q
        have hne : x ≠ name := fun h => hnr (h ▸ hx)
        rw [hfs, FS.put, if_neg (by simp [hne])]
        exact hab x (List.mem_cons_of_mem _ hx) q)
    refine ⟨h', ?_, hsame.trans i2, ?_, ?_⟩
    · have hst' : ltEvent os out h (.itemStart .symlink nm item) = .ok h1' := hst
      rw [ltEvents, hst']
      simp only [ltEvents, ltEvent]
      exact i1
    · rw [i3, hfs]; rfl
    · rw [i4, ← hh1]
      simp only [Forest.links, LT.held]
      omega
  | @dir name nm item mode sub rest evs evs' h1 h2 h3 _ _ ihs ih =>
    intro h p l hpr hen hwi A hab
    obtain ⟨hn, hnr, hsp, hrp⟩ := hpr
    obtain ⟨e1, e2, e3⟩ := hen
    have h0 : 0 ∉ p ++ 47 :: name := by
      simp only [List.mem_append, List.mem_cons, not_or]
      exact ⟨A.nul, by decide, hn.2.2.2.2⟩
    have ha0 : h.w.fs (l ++ [name]) = none := by simpa using hab name List.mem_cons_self []
    have m1 := sysMkdir_new os hq h.w.tick (p ++ [47]) l name mode A.front A.dir hn ha0
    rw [List.append_assoc, List.singleton_append] at m1
    generalize hw' : ((h.w.tick.put (l ++ [name]) (.dir (dirMode os mode))).tick) = w' at m1
    have m2' : w'.fs = h.w.fs.put (l ++ [name]) (.dir (dirMode os mode)) := by rw [← hw']; rfl
    have m3 : w'.cwd = h.w.cwd := by rw [← hw']; rfl
    let h1' : LT := { h with w := w', dirPath := some (p ++ 47 :: name) }
    have hst : ltEvent os out h (.itemStart .dir nm item) = .ok h1' := by
      simp only [ltEvent, ltDirItem, hq.2.2, Bool.false_eq_true, if_false, if_pos h1, A.path,
        Option.getD_some, h2, cString_plain _ h0, h3, m1, h1']
    have hk : Keeps h.w.fs w'.fs := by rw [m2']; exact Keeps.put ha0 _
    have hdir : w'.fs (l ++ [name]) = some (.dir (dirMode os mode)) := by rw [m2', FS.put_same]
    have A1 : LtAt os h1' (p ++ 47 :: name) (l ++ [name]) := by
      refine ⟨rfl, h0, ?_, _, hdir, e1⟩
      have hfr : Front os w'.fs h.w.cwd (p ++ [47]) l := A.front.mono hk
      have := hfr.extend (A.dir.mono hk).searchable hn hdir
      simp only [List.append_assoc, List.singleton_append, List.cons_append] at this ⊢
      show Front os w'.fs w'.cwd _ _
      rw [m3]; exact this
    have hab1 : ∀ n ∈ sub.names, Absent h1'.w.fs (l ++ [name] ++ [n]) := by
      intro x hx q
      show w'.fs _ = none
      rw [m2', FS.put, if_neg (by simp)]
      have := hab name List.mem_cons_self (x :: q)
      simpa using this
    obtain ⟨h2', i1, i2, i3, i4⟩ := ihs h1' (p ++ 47 :: name) (l ++ [name]) hsp e2 (by
      have := hwi.1
      rw [List.length_append, List.length_cons]
      rwa [show p.length + (name.length + 1) = p.length + 1 + name.length by omega]) A1 hab1
    have i3' : h2'.w.fs = sub.delinked.place os w'.fs (l ++ [name]) := i3
    let h3' : LT := { h2' with dirPath := some p }
    have hend : ltEvent os out h2' .dirEnd = .ok h3' := by
      have hp2 : h2'.dirPath = some (p ++ 47 :: name) := i2.path
      simp only [ltEvent, ltDirEnd, hp2, cString_plain _ h0,
        lastIndexOf_append 47 p name hn.2.2.2.1, List.take_left', h3']
    have hsame : LtSame h h3' := ⟨A.path.symm, i2.err, i2.cwd.trans m3⟩
    have hk2 : Keeps h.w.fs h3'.w.fs := by
      refine hk.trans ?_
      show Keeps w'.fs h2'.w.fs
      rw [i3']
      exact place_keeps os sub.delinked _ _ (delinked_proper sub hsp) (by
        rw [delinked_names]; exact hab1)
    obtain ⟨h', j1, j2, j3, j4⟩ := ih h3' p l hrp e3 hwi.2 (A.step hsame hk2) (by
        intro x hx q
        have hne : x ≠ name := fun h => hnr (h ▸ hx)
        show h2'.w.fs _ = none
        rw [i3', Forest.place_other os sub.delinked _ _ _ (by simp [hne]), m2', FS.put,
          if_neg (by simp [hne])]
        exact hab x (List.mem_cons_of_mem _ hx) q)
    refine ⟨h', ?_, hsame.trans j2, ?_, ?_⟩
    · rw [ltEvents, hst]
      simp only
      rw [ltEvents_append, i1]
      simp only
      rw [ltEvents, hend]
      exact j1
    · rw [j3]
      show rest.delinked.place os h2'.w.fs l = _
      rw [i3', m2']; rfl
    · rw [j4]
      show h2'.lost + h2'.held + rest.links = _
      rw [i4]
      show h.lost + h.held + sub.links + rest.links = _
      simp only [Forest.links]; omega

/-- The callbacks that convey a tree, after the start callback, with a new name in a directory; also
the first ones of such callbacks. -/
theorem ltTree_fresh (os : Os) (hq : os.quiet) (w : World) (ht : w.fs.tree) (pre : Bytes)
    (h0 : 0 ∉ pre) (d : Loc) (hd : InDir os w pre d) (ho : OpenDir os w.fs d) (n : Bytes)
    (hn : PlainName n) (hnew : w.fs (d ++ [n]) = none) (hen : Enterable os (dirMode os 0o775))
    {f : Forest} (hf : f.proper) (hfe : f.enterable os) (hwi : f.within 4094 (pre ++ n).length)
    {evs rest : List Ev} (he : EvsOf f (evs ++ rest)) :
    ∃ h', ltEvents os (pre ++ n) (LT.init w) (.drStart :: evs) = .ok h' ∧
      h'.hasError = false ∧
      (rest = [] → h'.w.cwd = w.cwd ∧ Landed os w.fs h'.w.fs d n [] f.delinked ∧
        h'.lost + h'.held = f.links) := by
  have hfr := hd.front ho.searchable h0
  have m1 := sysMkdir_new os hq w pre d n 0o775 hfr ho hn hnew
  generalize hw1 : (w.put (d ++ [n]) (.dir (dirMode os 0o775))).tick = w1 at m1
  have m2 : w1.fs = w.fs.put (d ++ [n]) (.dir (dirMode os 0o775)) := by rw [← hw1]; rfl
  have m3 : w1.cwd = w.cwd := by rw [← hw1]; rfl
  have hk : Keeps w.fs w1.fs := by rw [m2]; exact Keeps.put hnew _
  have hdir : w1.fs (d ++ [n]) = some (.dir (dirMode os 0o775)) := by rw [m2, FS.put_same]
  have hbelow : ∀ x q, w1.fs (d ++ [n] ++ x :: q) = none := by
    intro x q
    rw [m2, FS.put, if_neg (by simp)]
    have := ht.absent hnew (x :: q)
    simpa using this
  let h1 : LT := { LT.init w with w := w1.tick, dirPath := some (pre ++ n) }
  have hst : ltEvent os (pre ++ n) (LT.init w) .drStart = .ok h1 := by
    simp only [ltEvent, ltDirStart, LT.init, m1, hq.2.2]
    simp [h1, LT.init]
  have hnul : 0 ∉ pre ++ n := by
    simp only [List.mem_append, not_or]
    exact ⟨h0, hn.2.2.2.2⟩
  have A : LtAt os h1 (pre ++ n) (d ++ [n]) := by
    refine ⟨rfl, hnul, ?_, _, hdir, hen⟩
    show Front os w1.fs w1.cwd _ _
    rw [m3]
    exact (hfr.mono hk).extend (ho.mono hk).searchable hn hdir
  obtain ⟨h2, g1, g2, g3, g4⟩ := ltTree_good os hq (pre ++ n) he h1 _ _ hf hfe hwi A (by
      intro x _ q
      have := hbelow x q
      show w1.fs _ = none
      simpa using this)
  rw [ltEvents_append] at g1
  cases hr : ltEvents os (pre ++ n) h1 evs with
  | error e => rw [hr] at g1; simp at g1
  | ok h' =>
    rw [hr] at g1
    have g1' : ltEvents os (pre ++ n) h' rest = .ok h2 := g1
    refine ⟨h', ?_, ?_, ?_⟩
    · rw [ltEvents, hst]; exact hr
    · have e2 : h2.hasError = false := g2.err
      cases hh : h'.hasError with
      | false => rfl
      | true => rw [ltEvents_error os _ rest h' h2 g1' hh] at e2; simp at e2
    · intro hrest
      subst hrest
      simp only [ltEvents, Except.ok.injEq] at g1'
      subst g1'
      refine ⟨g2.cwd.trans m3, ⟨?_, ?_, ?_⟩, ?_⟩
      · intro j hj
        rw [show j = 0 by simpa using hj, g3, Forest.place_other]
        · exact hdir
        · intro x _ q h
          have := congrArg List.length h
          simp at this
      · intro x q
        have : h1.w.fs (d ++ [n] ++ x :: q) = none := hbelow x q
        rw [g3, Forest.place_lookup os f.delinked _ _ _ _ (delinked_proper f hf), this,
          Option.or_none]
      · intro l hl1 hl2
        rw [g3, Forest.place_other os f.delinked _ _ _ (fun x _ q => hl2 x q)]
        show w1.fs l = _
        rw [m2, FS.put, if_neg]
        have := hl1 0 (Nat.le_refl _)
        simpa using this
      · rw [g4]
        show 0 + 0 + f.links = _
        omega

end Zwt
