import Verif.Proofs.ConcTree
import Verif.Proofs.ConcRun
import Verif.Spec.OneLeft

/-! Callbacks that are cut off leave at most one file incomplete. -/

namespace Zwt

theorem FS.within.trans {a b c : FS} (h : a.within b) (h' : b.within c) : a.within c :=
  fun l x hx => h' l x (h l x hx)

theorem within_put {fs : FS} {l : Loc} (h : fs l = none) (n : Node) : fs.within (fs.put l n) := by
  intro x a ha
  rw [FS.put, if_neg (fun he => by rw [he, h] at ha; simp at ha), ha]

theorem place_within (os : Os) (f : Forest) (fs : FS) (l : Loc)
    (hab : ∀ n ∈ f.names, Absent fs (l ++ [n])) : fs.within (f.place os fs l) := by
  intro x a ha
  rw [Forest.place_other os f fs l x, ha]
  rintro n hn p rfl
  have := hab n hn p
  simp only [List.append_assoc, List.singleton_append] at this
  rw [this] at ha
  cases ha

theorem FS.within.nearly {a b : FS} (h : a.within b) : a.nearly b := ⟨[], fun l _ x hx => h l x hx⟩

/-- Between two disks that differ in one place. -/
theorem nearly_between {a m b final : FS} (h1 : a.partOf m) (h2 : m.partOf b) (y : Loc)
    (hy : ∀ l, l ≠ y → b l = a l) (hb : b.within final) : m.nearly final := by
  refine ⟨y, fun l hl x hx => ?_⟩
  obtain ⟨z, hz, hxz⟩ := h2 l x hx
  have hz' := hz
  rw [hy l hl] at hz'
  obtain ⟨u, hu, hzu⟩ := h1 l z hz'
  rw [hx] at hu
  cases hu
  rw [hxz.antisymm hzu]
  exact hb l z hz

/-- Between two disks that differ in directories. -/
theorem within_between {a m b final : FS} (h1 : a.partOf m) (h2 : m.partOf b)
    (hd : ∀ l, b l = a l ∨ ∃ k, b l = some (.dir k)) (hb : b.within final) : m.within final := by
  intro l x hx
  obtain ⟨z, hz, hxz⟩ := h2 l x hx
  rcases hd l with e | ⟨k, e⟩
  · have hz' := hz
    rw [e] at hz'
    obtain ⟨u, hu, hzu⟩ := h1 l z hz'
    rw [hx] at hu
    cases hu
    rw [hxz.antisymm hzu]
    exact hb l z hz
  · rw [e] at hz
    cases hz
    cases x with
    | dir _ => cases hxz; exact hb l _ e
    | link _ => cases hxz
    | file _ _ => obtain ⟨_, h, _⟩ := hxz; cases h

theorem Landed.within {os : Os} {fs fs' : FS} {d : Loc} {n : Bytes} {ns : List Bytes} {f : Forest}
    (h : Landed os fs fs' d n ns f) (ha : Absent fs (d ++ [n])) : fs.within fs' := by
  have hno : ∀ q, fs (d ++ n :: q) = none := fun q => by simpa using ha q
  intro l a hl
  rw [h.2.2 l, hl]
  · rintro j _ rfl
    rw [hno] at hl
    cases hl
  · rintro x q rfl
    rw [List.append_assoc, List.cons_append, hno] at hl
    cases hl

/-- After every call of the callbacks at most one file is incomplete. -/
def OneAll (os : Os) (out : Bytes) (final : FS) (h : HL) (es : List Ev) : Prop :=
  (hlEventsP out h.view es).All (fun c w => (c.exec os w).2.fs.nearly final) os h.w

theorem OneAll.append {os : Os} {out : Bytes} {final : FS} {h h' : HL} {es es' : List Ev}
    (h1 : OneAll os out final h es) (hr : hlEvents os out h es = .ok h') (h2 : OneAll os out final h' es') :
    OneAll os out final h (es ++ es') := by
  rw [OneAll, hlEventsP_append, all_andThen, hlEventsP_ok hr]
  refine ⟨h1, ?_⟩
  intro v hv
  cases hv
  exact h2

theorem OneAll.before {os : Os} {out : Bytes} {final : FS} {h : HL} {es es' : List Ev}
    (h1 : OneAll os out final h (es ++ es')) : OneAll os out final h es := by
  rw [OneAll, hlEventsP_append, all_andThen] at h1
  exact h1.1

theorem OneAll.of_adds {os : Os} {out : Bytes} {final : FS} {h h' : HL} {es : List Ev}
    (ha : AddsAll os out h es) (hr : hlEvents os out h es = .ok h') (y : Loc)
    (hy : ∀ l, l ≠ y → h'.w.fs l = h.w.fs l) (hF : h'.w.fs.within final) : OneAll os out final h es := by
  refine Prog.all_of_after os (fun w => w.fs.nearly final) _ _ fun k => ?_
  have b := Prog.between os k _ _ ha
  rw [hlEventsP_ok hr] at b
  exact nearly_between b.1 b.2 y hy hF

theorem OneAll.cons {os : Os} {out : Bytes} {final : FS} {h h' : HL} {e : Ev} {es : List Ev}
    (h1 : (hlEventP out h.view e).mild) (hr : hlEvent os out h e = .ok h') (y : Loc)
    (hy : ∀ l, l ≠ y → h'.w.fs l = h.w.fs l) (hF : h'.w.fs.within final)
    (h2 : OneAll os out final h' es) : OneAll os out final h (e :: es) := by
  have hr' : hlEvents os out h [e] = .ok h' := by rw [hlEvents, hr]; rfl
  have := OneAll.of_adds (AddsAll.cons (es := []) h1 hr trivial) hr' y hy hF
  exact this.append hr' h2

/-- The callbacks that convey a tree leave at most one file incomplete, wherever they are cut off. -/
theorem tree_one (os : Os) (hq : os.quiet) (out : Bytes) {final : FS} {f : Forest} {evs : List Ev}
    (he : EvsOf f evs) : ∀ (h : HL) (p : Bytes) (l : Loc), f.proper → f.enterable os →
    (f.noLinks ∨ CwdOk os h.w.fs h.w.cwd) → AtDir os h p l →
    (∀ n ∈ f.names, Absent h.w.fs (l ++ [n])) → (f.place os h.w.fs l).within final →
    OneAll os out final h evs := by
  induction he with
  | nil => intro h p l _ _ _ _ _ _; trivial
  | @file name nm item content mode ds rest evs h1 h2 h3 h4 _ _ ih =>
    intro h p l hpr hen hcw A hab hfin
    obtain ⟨hn, hnr, hrp⟩ := hpr
    have hpath : cString (p ++ 47 :: name) = p ++ [47] ++ name := by
      rw [cString_plain]
      · simp
      · simp only [List.mem_append, List.mem_cons, not_or]
        exact ⟨A.nul, by decide, hn.2.2.2.2⟩
    have ha0 : h.w.fs (l ++ [name]) = none := by simpa using hab name List.mem_cons_self []
    have hop := open_new os hq h.w (p ++ [47]) l name (modeFo (itMode item)) false A.front A.dir hn ha0
    let h1' : HL :=
      { h with
        w := (h.w.put (l ++ [name]) (.file (modeFo (itMode item) &&& os.allow) [])).tick
        name := some nm
        fd := .opened ⟨l ++ [name], 0⟩ }
    have hst : hlEvent os out h (.itemStart .file nm item) = .ok h1' := by
      simp only [hlEvent, hlItemStart, hlFileItem, itemPath, if_pos h1, A.path, Option.getD_some,
        h2, hpath, hop, h1']
    have hc0 : h1'.w.fs (l ++ [name]) = some (.file (modeFo (itMode item) &&& os.allow) []) := by
      simp [h1', World.tick, World.put, FS.put]
    obtain ⟨h2', g1, g2, g3, g4⟩ := reads_good os hq out (l ++ [name])
      (modeFo (itMode item) &&& os.allow) ds h1' [] hc0 rfl
    have hadd := reads_add os hq out (l ++ [name]) (modeFo (itMode item) &&& os.allow) ds h1' [] hc0 rfl
    rw [List.nil_append, h4] at g2 g4
    have hmode : modeFo (itMode item) &&& os.allow = fileMode os mode := by rw [h3]; rfl
    let h3' : HL := { h2' with w := h2'.w.tick, fd := .closed }
    have hfd : h2'.fd = .opened ⟨l ++ [name], content.length⟩ := by rw [g2]
    have hend : hlEvent os out h2' .fileEnd = .ok h3' := by
      simp only [hlEvent, hlFileEnd, hfd, h3']
    have hfs : h3'.w.fs = h.w.fs.put (l ++ [name]) (.file (fileMode os mode) content) := by
      show h2'.w.fs = _
      rw [g4]
      show ((h.w.fs.put _ _).put _ _) = _
      rw [FS.put_put, hmode]
    have hsame : SameRest h h3' := by
      refine ⟨?_, ?_, ?_, ?_, ?_⟩
      · show h2'.dirPath = _; rw [g2]
      · show h2'.hasError = _; rw [g2]
      · show h2'.ret = _; rw [g2]
      · show h2'.fpOut = _; rw [g2]
      · show h2'.w.cwd = _; rw [g3]; rfl
    have hk : Keeps h.w.fs h3'.w.fs := by rw [hfs]; exact Keeps.put ha0 _
    have hab' : ∀ x ∈ rest.names, Absent h3'.w.fs (l ++ [x]) := by
      intro x hx q
      have hne : x ≠ name := fun h => hnr (h ▸ hx)
      rw [hfs, FS.put, if_neg (by simp [hne])]
      exact hab x (List.mem_cons_of_mem _ hx) q
    have hfin' : (rest.place os h3'.w.fs l).within final := by rw [hfs]; exact hfin
    have := ih h3' p l hrp hen (by
        rcases hcw with h | h
        · exact .inl h
        · exact .inr (by rw [hsame.cwd]; exact h.mono hk)) (A.step hsame hk) hab' hfin'
    have hblock : AddsAll os out h (.itemStart .file nm item :: (ds.map .fileRead ++ [.fileEnd])) :=
      .cons (hlEventP_mild _ _ _ (by simp) (by simp) (by simp)) hst (hadd.append g1
        (.cons (hlEventP_mild _ _ _ (by simp) (by simp) (by simp)) hend trivial))
    have hrun : hlEvents os out h (.itemStart .file nm item :: (ds.map .fileRead ++ [.fileEnd])) = .ok h3' := by
      rw [hlEvents, hst]
      show hlEvents os out h1' _ = _
      rw [hlEvents_append, g1]
      show hlEvents os out h2' _ = _
      rw [hlEvents, hend]
      rfl
    have hone := OneAll.of_adds hblock hrun (l ++ [name]) (fun x hx => by rw [hfs, FS.put, if_neg hx])
      ((place_within os rest _ _ hab').trans hfin')
    have := hone.append hrun this
    simpa using this
  | @link name nm item target after mode rest evs h1 h2 _ _ ih =>
    intro h p l hpr hen hcw A hab hfin
    obtain ⟨hn, hnr, ht, ht0, hrp⟩ := hpr
    have ha0 : h.w.fs (l ++ [name]) = none := by simpa using hab name List.mem_cons_self []
    have hcw' : CwdOk os h.w.fs h.w.cwd := by
      rcases hcw with h | h
      · exact h.elim
      · exact h
    let h1' : HL := { h with name := some nm }
    obtain ⟨w', g1, g2, g3⟩ := symLink_good os hq h1' p l nm name target after A.path A.ne A.nul
      A.front A.dir hn ha0 hcw' rfl h1 ht ht0 h2
    let h2' : HL := { h1' with w := w' }
    have hsame : SameRest h h2' := ⟨rfl, rfl, rfl, rfl, g2⟩
    have hk : Keeps h.w.fs h2'.w.fs := by
      show Keeps h.w.fs w'.fs
      rw [g3]; exact Keeps.put ha0 _
    have hab' : ∀ x ∈ rest.names, Absent h2'.w.fs (l ++ [x]) := by
      intro x hx q
      have hne : x ≠ name := fun h => hnr (h ▸ hx)
      show w'.fs _ = _
      rw [g3, FS.put, if_neg (by simp [hne])]
      exact hab x (List.mem_cons_of_mem _ hx) q
    have hfin' : (rest.place os h2'.w.fs l).within final := by
      show (rest.place os w'.fs l).within final
      rw [g3]; exact hfin
    have := ih h2' p l hrp hen (.inr (by rw [hsame.cwd]; exact hcw'.mono hk))
      (A.step hsame hk) hab' hfin'
    have hw2 := (place_within os rest _ _ hab').trans hfin'
    have hw1 : h1'.w.fs.within final := (within_put ha0 _).trans (by
      show (h.w.fs.put (l ++ [name]) (.link target)).within final
      rw [← g3]; exact hw2)
    refine .cons (h' := h1') (hlEventP_mild _ _ _ (by simp) (by simp) (by simp)) rfl (l ++ [name])
      (fun _ _ => rfl) hw1 ?_
    exact .cons (h' := h2') (hlEventP_mild _ _ _ (by simp) (by simp) (by simp)) g1 (l ++ [name])
      (fun x hx => by show w'.fs x = _; rw [g3, FS.put, if_neg hx]) hw2 this
  | @dir name nm item mode sub rest evs evs' h1 h2 h3 hsub _ ihs ih =>
    intro h p l hpr hen hcw A hab hfin
    obtain ⟨hn, hnr, hsp, hrp⟩ := hpr
    obtain ⟨e1, e2, e3⟩ := hen
    have h0 : 0 ∉ p ++ 47 :: name := by
      simp only [List.mem_append, List.mem_cons, not_or]
      exact ⟨A.nul, by decide, hn.2.2.2.2⟩
    have ha0 : h.w.fs (l ++ [name]) = none := by simpa using hab name List.mem_cons_self []
    obtain ⟨w', m1, m2, m3⟩ := mkdirRecurse_new os hq mode h.w.tick (p ++ [47]) l name [] A.front
      A.dir (by simpa using hn) (hab name List.mem_cons_self) (.inl rfl) (by simp)
    have m1' : mkdirRecurse os mode (p ++ 47 :: name) h.w.tick = (0, w') := by
      simpa [joinNames] using m1
    have m2' : w'.fs = h.w.fs.put (l ++ [name]) (.dir (dirMode os mode)) := m2
    let h1' : HL := { h with w := w', name := some nm, dirPath := some (p ++ 47 :: name) }
    have hst : hlEvent os out h (.itemStart .dir nm item) = .ok h1' := by
      simp only [hlEvent, hlItemStart, hlDirItem, itemPath, if_pos h1, A.path, Option.getD_some,
        h2, hq.2.2, Bool.false_eq_true, if_false, cString_plain _ h0, h3, m1']
      simp [h1']
    have hk : Keeps h.w.fs w'.fs := by rw [m2']; exact Keeps.put ha0 _
    have hdir : w'.fs (l ++ [name]) = some (.dir (dirMode os mode)) := by rw [m2', FS.put_same]
    have A1 : AtDir os h1' (p ++ 47 :: name) (l ++ [name]) := by
      refine ⟨rfl, by simp, h0, ?_, _, hdir, e1⟩
      have hfr : Front os w'.fs h.w.cwd (p ++ [47]) l := A.front.mono hk
      have := hfr.extend (A.dir.mono hk).searchable hn hdir
      simp only [List.append_assoc, List.singleton_append, List.cons_append] at this ⊢
      show Front os w'.fs w'.cwd _ _
      rw [m3]; exact this
    have hcw1 : sub.noLinks ∨ CwdOk os h1'.w.fs h1'.w.cwd := by
      rcases hcw with h | h
      · exact .inl h.1
      · refine .inr ?_
        show CwdOk os w'.fs w'.cwd
        rw [m3]; exact h.mono hk
    have hab1 : ∀ n ∈ sub.names, Absent h1'.w.fs (l ++ [name] ++ [n]) := by
      intro x hx q
      show w'.fs _ = none
      rw [m2', FS.put, if_neg (by simp)]
      have := hab name List.mem_cons_self (x :: q)
      simpa using this
    obtain ⟨h2', i1, i2, i3⟩ := tree_good os hq out hsub h1' (p ++ 47 :: name) (l ++ [name]) hsp e2
      hcw1 A1 hab1
    have i3' : h2'.w.fs = sub.place os w'.fs (l ++ [name]) := i3
    -- leaving the directory
    let h3' : HL := { h2' with dirPath := some p }
    have hend : hlEvent os out h2' .dirEnd = .ok h3' := by
      have hp2 : h2'.dirPath = some (p ++ 47 :: name) := i2.path
      simp only [hlEvent, hlDirEnd, hp2, cString_plain _ h0,
        lastIndexOf_append 47 p name hn.2.2.2.1, List.take_left', h3']
    have hsame : SameRest h h3' :=
      ⟨A.path.symm, i2.err, i2.ret, i2.out, i2.cwd.trans m3⟩
    have hk2 : Keeps h.w.fs h3'.w.fs := by
      refine hk.trans ?_
      show Keeps w'.fs h2'.w.fs
      rw [i3']; exact place_keeps os sub _ _ hsp hab1
    have hab' : ∀ x ∈ rest.names, Absent h3'.w.fs (l ++ [x]) := by
      intro x hx q
      have hne : x ≠ name := fun h => hnr (h ▸ hx)
      show h2'.w.fs _ = none
      rw [i3', Forest.place_other os sub _ _ _ (by simp [hne]), m2', FS.put,
        if_neg (by simp [hne])]
      exact hab x (List.mem_cons_of_mem _ hx) q
    have hfin' : (rest.place os h3'.w.fs l).within final := by
      show (rest.place os h2'.w.fs l).within final
      rw [i3', m2']; exact hfin
    have := ih h3' p l hrp e3 (by
        rcases hcw with h | h
        · exact .inl h.2
        · exact .inr (by rw [hsame.cwd]; exact h.mono hk2)) (A.step hsame hk2) hab' hfin'
    have hw3 : h2'.w.fs.within final := (place_within os rest _ _ hab').trans hfin'
    have hsub1 : (sub.place os h1'.w.fs (l ++ [name])).within final := by rw [← i3]; exact hw3
    have hsone := ihs h1' (p ++ 47 :: name) (l ++ [name]) hsp e2 hcw1 A1 hab1 hsub1
    refine .cons (hlEventP_mild _ _ _ (by simp) (by simp) (by simp)) hst (l ++ [name])
      (fun x hx => by show w'.fs x = _; rw [m2', FS.put, if_neg hx])
      ((place_within os sub _ _ hab1).trans hsub1) (hsone.append i1 ?_)
    exact .cons (hlEventP_mild _ _ _ (by simp) (by simp) (by simp)) hend (l ++ [name]) (fun _ _ => rfl) hw3 this

/-- The callbacks that convey a tree, with the start callback, in a fresh place. -/
theorem tree_fresh_one (os : Os) (hq : os.quiet) (w : World) (ht : w.fs.tree) (pre : Bytes)
    (h0 : 0 ∉ pre) (d : Loc) (hd : InDir os w pre d) (ho : OpenDir os w.fs d) (n : Bytes)
    (ns : List Bytes) (hn : ∀ x ∈ n :: ns, PlainName x) (hnew : w.fs (d ++ [n]) = none)
    (hen : Enterable os (dirMode os 0o775)) (hlen : ns.length ≤ 61) {f : Forest} (hf : f.proper)
    (hfe : f.enterable os) (hcw : f.noLinks ∨ CwdOk os w.fs w.cwd) {evs : List Ev}
    (he : EvsOf f evs) {hG : HL}
    (hG1 : hlEvents os (pre ++ joinNames (n :: ns)) (HL.init w) (.drStart :: evs) = .ok hG) :
    OneAll os (pre ++ joinNames (n :: ns)) hG.w.fs (HL.init w) (.drStart :: evs) := by
  obtain ⟨h1, g1, g2, g3, g4, g5, _, _, _, g6, g7⟩ := tree_start os hq w ht pre h0 d hd ho n ns hn hnew hen hlen
  have hcw1 : f.noLinks ∨ CwdOk os h1.w.fs h1.w.cwd := by
    rcases hcw with h | h
    · exact .inl h
    · exact .inr (by rw [g4]; exact h.mono g3)
  have hab : ∀ x ∈ f.names, Absent h1.w.fs (d ++ n :: ns ++ [x]) := by
    intro x _ q
    have := g5 x q
    simpa using this
  obtain ⟨h2, i1, _, i3⟩ := tree_good os hq (pre ++ joinNames (n :: ns)) he h1 _ _ hf hfe hcw1 g2 hab
  have hr' : hlEvents os (pre ++ joinNames (n :: ns)) (HL.init w) [.drStart] = .ok h1 := by rw [hlEvents, g1]; rfl
  have hGe : hG = h2 := by
    rw [hlEvents, g1] at hG1
    replace hG1 : hlEvents os (pre ++ joinNames (n :: ns)) h1 evs = .ok hG := hG1
    rw [i1] at hG1
    cases hG1
    rfl
  subst hGe
  have hfin : (f.place os h1.w.fs (d ++ n :: ns)).within hG.w.fs := by rw [← i3]; exact fun _ _ h => h
  have h2 := tree_one os hq (pre ++ joinNames (n :: ns)) he h1 _ _ hf hfe hcw1 g2 hab hfin
  have hstart : OneAll os (pre ++ joinNames (n :: ns)) hG.w.fs (HL.init w) [.drStart] := by
    refine Prog.all_of_after os (fun w => w.fs.nearly hG.w.fs) _ _ fun k => ?_
    have b := Prog.between os k _ _ (AddsAll.cons (es := []) (hlEventP_mild _ _ _ (by simp) (by simp) (by simp)) g1
      trivial)
    rw [hlEventsP_ok hr'] at b
    refine (within_between b.1 b.2 (fun l => ?_) ((place_within os f _ _ hab).trans hfin)).nearly
    by_cases hl : ∃ j, j ≤ ns.length ∧ l = d ++ n :: ns.take j
    · obtain ⟨j, hj, rfl⟩ := hl
      exact .inr ⟨_, g6 j hj⟩
    · exact .inl (g7 l fun j hj e => hl ⟨j, hj, e⟩)
  exact hstart.append hr' h2

end Zwt
