import Verif.Proofs.Mkdir
import Verif.Proofs.HLRun

/-! Extraction of a tree by the callbacks, on a quiet system. -/

namespace Zwt

/-- `evs` is a callback history that conveys the tree; link targets are followed by a NUL. -/
inductive EvsOf : Forest → List Ev → Prop
  | nil : EvsOf .nil []
  | file {name nm item content : Bytes} {mode : Nat} {ds : List Bytes} {rest : Forest}
      {evs : List Ev} : itNameLen item ≤ nm.length → nm.take (itNameLen item) = name →
      itMode item = mode → ds.flatten = content → cstr? nm = some name → EvsOf rest evs →
      EvsOf (.file name mode content rest)
        (.itemStart .file nm item :: (ds.map .fileRead ++ .fileEnd :: evs))
  | link {name nm item target after : Bytes} {mode : Nat} {rest : Forest} {evs : List Ev} :
      cstr? nm = some name → after.head? = some 0 → itMode item = mode → EvsOf rest evs →
      EvsOf (.link name mode target rest)
        (.itemStart .symlink nm item :: .symLink target after :: evs)
  | dir {name nm item : Bytes} {mode : Nat} {sub rest : Forest} {evs evs' : List Ev} :
      itNameLen item ≤ nm.length → nm.take (itNameLen item) = name → itMode item = mode →
      EvsOf sub evs → EvsOf rest evs' →
      EvsOf (.dir name mode sub rest) (.itemStart .dir nm item :: (evs ++ .dirEnd :: evs'))

/-- The tree added below `l`. -/
def Forest.place (os : Os) : Forest → FS → Loc → FS
  | .nil, fs, _ => fs
  | .file n m c r, fs, l => r.place os (fs.put (l ++ [n]) (.file (fileMode os m) c)) l
  | .link n _ t r, fs, l => r.place os (fs.put (l ++ [n]) (.link t)) l
  | .dir n m s r, fs, l =>
    r.place os (s.place os (fs.put (l ++ [n]) (.dir (dirMode os m))) (l ++ [n])) l
  | .other _ r, fs, l => r.place os fs l
  | .bad _ r, fs, l => r.place os fs l

/-- Places outside the new entries are not touched. -/
theorem Forest.place_other (os : Os) (f : Forest) : ∀ (fs : FS) (l x : Loc),
    (∀ n ∈ f.names, ∀ p, x ≠ l ++ n :: p) → f.place os fs l x = fs x := by
  induction f with
  | nil => intro fs l x _; rfl
  | file n m c r ih =>
    intro fs l x h
    rw [place, ih _ _ _ (fun n' hn' => h n' (List.mem_cons_of_mem _ hn')), FS.put,
      if_neg (h n List.mem_cons_self [])]
  | link n m t r ih =>
    intro fs l x h
    rw [place, ih _ _ _ (fun n' hn' => h n' (List.mem_cons_of_mem _ hn')), FS.put,
      if_neg (h n List.mem_cons_self [])]
  | dir n m s r ihs ih =>
    intro fs l x h
    rw [place, ih _ _ _ (fun n' hn' => h n' (List.mem_cons_of_mem _ hn')), ihs, FS.put,
      if_neg (h n List.mem_cons_self [])]
    intro n' _ p
    have := h n List.mem_cons_self (n' :: p)
    simpa using this
  | other n r ih => intro fs l x h; exact ih fs l x h
  | bad n r ih => intro fs l x h; exact ih fs l x h

theorem Forest.lookup_none (os : Os) (f : Forest) (n : Bytes) (q : List Bytes)
    (h : n ∉ f.names) : f.lookup os (n :: q) = none := by
  induction f with
  | nil => rfl
  | file a b c r ih =>
    simp only [names, List.mem_cons, not_or] at h
    rw [lookup, if_neg (by simp [h.1]), ih h.2]
  | link a b c r ih =>
    simp only [names, List.mem_cons, not_or] at h
    rw [lookup, if_neg (by simp [h.1]), ih h.2]
  | dir a b c r _ ih =>
    simp only [names, List.mem_cons, not_or] at h
    simp only [lookup]
    rw [if_neg h.1, ih h.2]
  | other a r ih => exact ih h
  | bad a r ih => exact ih h

/-- The nodes after adding a tree: those of the tree, and what was there. -/
theorem Forest.place_lookup (os : Os) (f : Forest) : ∀ (fs : FS) (l : Loc) (n : Bytes)
    (q : List Bytes), f.proper →
    f.place os fs l (l ++ n :: q) = (f.lookup os (n :: q)).or (fs (l ++ n :: q)) := by
  induction f with
  | nil => intro fs l n q _; rfl
  | file n m c r ih =>
    intro fs l n' q hp
    obtain ⟨_, hnr, hr⟩ := hp
    rw [place, lookup, ih _ _ _ _ hr, FS.put]
    by_cases h : n' :: q = [n]
    · obtain ⟨rfl, rfl⟩ : n' = n ∧ q = [] := by simpa using h
      rw [lookup_none os r n' [] hnr]; simp
    · rw [if_neg (by simpa using h), if_neg h]
  | link n m t r ih =>
    intro fs l n' q hp
    obtain ⟨_, hnr, _, _, hr⟩ := hp
    rw [place, lookup, ih _ _ _ _ hr, FS.put]
    by_cases h : n' :: q = [n]
    · obtain ⟨rfl, rfl⟩ : n' = n ∧ q = [] := by simpa using h
      rw [lookup_none os r n' [] hnr]; simp
    · rw [if_neg (by simpa using h), if_neg h]
  | dir n m s r ihs ih =>
    intro fs l n' q hp
    obtain ⟨_, hnr, hs, hr⟩ := hp
    rw [place, ih _ _ _ _ hr]
    simp only [lookup]
    by_cases h : n' = n
    · subst h
      rw [lookup_none os r n' q hnr, if_pos rfl, Option.none_or]
      cases q with
      | nil =>
        rw [place_other os s _ _ _ (by simp)]
        simp [FS.put]
      | cons a as =>
        have e : l ++ n' :: a :: as = l ++ [n'] ++ a :: as := by simp
        rw [if_neg (by simp), e, ihs _ _ _ _ hs, FS.put, if_neg (by simp)]
    · rw [if_neg h, place_other os s _ _ _ (by simp [h]), FS.put, if_neg (by simp [h])]
  | other n r ih => intro fs l n' q hp; exact ih fs l n' q hp
  | bad n r ih => intro fs l n' q hp; exact ih fs l n' q hp

/-! ### System calls -/

theorem FS.put_same (fs : FS) (l : Loc) (n : Node) : fs.put l n l = some n := by simp [FS.put]

theorem FS.put_put (fs : FS) (l : Loc) (n n' : Node) : (fs.put l n).put l n' = fs.put l n' := by
  funext x
  simp only [FS.put]
  split <;> rfl

theorem pwrite_end (c d : Bytes) : pwrite c c.length d = c ++ d := by
  unfold pwrite overwrite
  split
  · simp [*]
  · simp

theorem PlainName.notSlash {n : Bytes} (h : PlainName n) (p : Bytes) :
    (p ++ n).getLast? ≠ some 47 := by
  obtain ⟨h1, _, _, h4, _⟩ := h
  rw [List.getLast?_append]
  intro hl
  cases hg : n.getLast? with
  | none => exact h1 (List.getLast?_eq_none_iff.mp hg)
  | some x =>
    rw [hg] at hl
    simp only [Option.some_or, Option.some.injEq] at hl
    exact h4 (hl ▸ List.mem_of_getLast? hg)

/-- `open` of a missing file. -/
theorem open_new (os : Os) (hq : os.quiet) (w : World) (pre : Bytes) (d : Loc) (n : Bytes)
    (mode : Nat) (trunc : Bool) (hf : Front os w.fs w.cwd pre d) (ho : OpenDir os w.fs d)
    (hn : PlainName n) (ha : w.fs (d ++ [n]) = none) :
    sysOpen os w (pre ++ n) mode trunc =
      (some (d ++ [n]), (w.put (d ++ [n]) (.file (mode &&& os.allow) [])).tick) := by
  obtain ⟨m, hl⟩ := hf.locate true hn
  rw [resolve_missing os w.fs true m d n [] hn ho.searchable ha] at hl
  simp only [List.all_nil, if_true] at hl
  simp only [sysOpen, hq.1, Bool.false_eq_true, if_false, hl, ha, if_neg (hn.notSlash pre), addNode,
    List.dropLast_concat, ho.writable, if_true]

/-- A write appends. -/
theorem write_end (os : Os) (hq : os.quiet) (w : World) (l : Loc) (m : Nat) (c d : Bytes)
    (h : w.fs l = some (.file m c)) :
    sysWrite os w ⟨l, c.length⟩ d = (⟨l, (c ++ d).length⟩, (w.put l (.file m (c ++ d))).tick) := by
  simp only [sysWrite, hq.1, Bool.false_eq_true, if_false, h,
    List.take_of_length_le (hq.2.1 w.calls d.length), pwrite_end, List.length_append]

theorem reads_good (os : Os) (hq : os.quiet) (out : Bytes) (l : Loc) (m : Nat) (ds : List Bytes) :
    ∀ (h : HL) (c : Bytes), h.w.fs l = some (.file m c) → h.fd = .opened ⟨l, c.length⟩ →
    ∃ h', hlEvents os out h (ds.map .fileRead) = .ok h' ∧
      h' = { h with w := h'.w, fd := .opened ⟨l, (c ++ ds.flatten).length⟩ } ∧
      h'.w.cwd = h.w.cwd ∧ h'.w.fs = h.w.fs.put l (.file m (c ++ ds.flatten)) := by
  induction ds with
  | nil =>
    intro h c hc hfd
    refine ⟨h, rfl, ?_, rfl, ?_⟩
    · simp [← hfd]
    · funext x
      simp only [FS.put, List.flatten_nil, List.append_nil]
      split
      · rename_i hx; rw [hx, hc]
      · rfl
  | cons d ds ih =>
    intro h c hc hfd
    have hw := write_end os hq h.w l m c d hc
    obtain ⟨h', g1, g2, g3, g4⟩ := ih
      { h with w := (h.w.put l (.file m (c ++ d))).tick, fd := .opened ⟨l, (c ++ d).length⟩ }
      (c ++ d) (by simp [World.tick, World.put, FS.put]) rfl
    refine ⟨h', ?_, ?_, g3, ?_⟩
    · simp only [List.map_cons, hlEvents, hlEvent, hlFileRead, hfd, hw]
      exact g1
    · rw [g2]; simp
    · rw [g4]
      simp only [World.tick, World.put, FS.put_put, List.flatten_cons, List.append_assoc]

/-! ### Changing to a directory and back -/

theorem Front.walks {os : Os} {fs : FS} {cwd : Loc} {p : Bytes} {l : Loc} (hp : p ≠ [])
    (h : Front os fs cwd (p ++ [47]) l) :
    ∃ m, Walks os fs MAX_LINKS (pathBase cwd p) (splitPath p) m l := by
  obtain ⟨_, b, cs, m, h1, h2⟩ := h
  have := h2 [46] (by simp) (by simp)
  rw [List.append_assoc, pathBase_append _ _ _ hp, List.singleton_append, splitPath_append] at this
  obtain ⟨rfl, h3⟩ := this
  have := List.append_cancel_right h3
  rw [this]
  exact ⟨m, h1⟩

theorem splitPath_abs (l : Loc) (h : ∀ c ∈ l, 47 ∉ c) :
    splitPath ((l.map (47 :: ·)).flatten) = [] :: l := by
  induction l with
  | nil => rfl
  | cons c cs ih =>
    have hc := h c List.mem_cons_self
    have ih' := ih (fun x hx => h x (List.mem_cons_of_mem _ hx))
    cases cs with
    | nil =>
      simp only [List.map_cons, List.map_nil, List.flatten_cons, List.flatten_nil, List.append_nil]
      simp [splitPath, splitPath_plain c hc]
    | cons d ds =>
      simp only [List.map_cons, List.flatten_cons, List.cons_append] at ih' ⊢
      have e := splitPath_append c (d ++ (List.map (47 :: ·) ds).flatten)
      simp only [splitPath, if_true] at ih' ⊢
      rw [e, splitPath_plain c hc]
      simp only [List.cons.injEq, true_and, List.singleton_append]
      simpa using ih'

theorem searchable_dir {os : Os} {fs : FS} {l : Loc} (h : searchable os fs l = true) :
    ∃ m, fs l = some (.dir m) := by
  simp only [searchable] at h
  split at h
  · rename_i m hm; exact ⟨m, hm⟩
  · simp at h

theorem walks_down (os : Os) (fs : FS) (n : Nat) (l : Loc) : ∀ (a : Loc),
    (∀ c ∈ l, PlainName c) → (∀ x, x <+: l → searchable os fs (a ++ x) = true) →
    Walks os fs n a l n (a ++ l) := by
  induction l with
  | nil => intro a _ _; rw [List.append_nil]; exact .nil
  | cons c cs ih =>
    intro a hc hs
    have h0 := hs [] List.nil_prefix
    rw [List.append_nil] at h0
    have h1 := hs [c] ⟨cs, rfl⟩
    obtain ⟨m, hm⟩ := searchable_dir h1
    have hp := hc c List.mem_cons_self
    refine .dir h0 (by simp [hp.1, hp.2.1]) hp.2.2.1 hm ?_
    have := ih (a ++ [c]) (fun x hx => hc x (List.mem_cons_of_mem _ hx)) (by
      rintro x ⟨t, ht⟩
      have := hs (c :: x) ⟨t, by simp [← ht]⟩
      simpa using this)
    simpa using this

theorem chdir_back {os : Os} (hq : ∀ k, os.refuses k = false) {w : World} {cwd : Loc}
    (h2 : ∀ c ∈ cwd, PlainName c) (h3 : ∀ l, l <+: cwd → searchable os w.fs l = true) :
    sysChdir os w (absPath cwd) = (true, { w.tick with cwd := cwd }) := by
  have hl : locate os w true (absPath cwd) = some cwd := by
    by_cases hc : cwd = []
    · subst hc
      have h0 := h3 [] List.nil_prefix
      rw [locate, absPath, if_pos rfl, if_neg (by simp)]
      exact Walks.resolve_end (m := MAX_LINKS) (.skip h0 (.inl rfl) (.skip h0 (.inl rfl) .nil))
    · rw [locate, absPath, if_neg hc]
      have hne : (cwd.map (47 :: ·)).flatten ≠ [] := by
        cases cwd with
        | nil => exact absurd rfl hc
        | cons a as => simp
      have hb : pathBase w.cwd (cwd.map (47 :: ·)).flatten = [] := by
        cases cwd with
        | nil => exact absurd rfl hc
        | cons a as => simp [pathBase]
      rw [if_neg hne, hb, splitPath_abs cwd (fun c hc => (h2 c hc).2.2.2.1)]
      have := walks_down os w.fs MAX_LINKS cwd [] h2 (by simpa using h3)
      exact Walks.resolve_end (.skip (h3 [] List.nil_prefix) (.inl rfl) this)
  simp only [sysChdir, hq, Bool.false_eq_true, if_false, hl, h3 cwd (List.prefix_refl _), if_true]

theorem CwdOk.back {os : Os} (hq : os.quiet) {w : World} {cwd : Loc} (h : CwdOk os w.fs cwd) :
    sysChdir os w (absPath cwd) = (true, { w.tick with cwd := cwd }) :=
  chdir_back hq.1 h.2.1 h.2.2

theorem CwdOk.mono {os : Os} {fs fs' : FS} {cwd : Loc} (h : CwdOk os fs cwd) (hk : Keeps fs fs') :
    CwdOk os fs' cwd := ⟨h.1, h.2.1, fun l hl => hk.searchable (h.2.2 l hl)⟩

/-- A link is created. -/
theorem symLink_good (os : Os) (hq : os.quiet) (h : HL) (p : Bytes) (l : Loc) (nm n t a : Bytes)
    (hd : h.dirPath = some p) (hp : p ≠ []) (h0 : 0 ∉ p)
    (hf : Front os h.w.fs h.w.cwd (p ++ [47]) l) (ho : OpenDir os h.w.fs l)
    (hn : PlainName n) (ha : h.w.fs (l ++ [n]) = none) (hc : CwdOk os h.w.fs h.w.cwd)
    (hnm : h.name = some nm) (hcs : cstr? nm = some n) (ht : t ≠ []) (ht0 : 0 ∉ t)
    (haf : a.head? = some 0) :
    ∃ w', hlSymLink os h t a = .ok { h with w := w' } ∧ w'.cwd = h.w.cwd ∧
      w'.fs = h.w.fs.put (l ++ [n]) (.link t) := by
  obtain ⟨m, hw⟩ := hf.walks hp
  have hcd : sysChdir os h.w.tick (cString p) = (true, { h.w.tick.tick with cwd := l }) := by
    have hl : locate os h.w.tick true p = some l := by
      rw [locate, if_neg hp]; exact hw.resolve_end
    have hs : searchable os h.w.tick.fs l = true := ho.searchable
    rw [cString_plain p h0]
    simp only [sysChdir, hq.1, Bool.false_eq_true, if_false, hl, hs, if_true]
  have hct : cstr? (t ++ a) = some t := by
    cases a with
    | nil => simp at haf
    | cons b bs =>
      simp only [List.head?_cons, Option.some.injEq] at haf
      subst haf
      rw [cstr?, if_pos (by simp)]
      exact congrArg some (cString_zero t bs ht0)
  let w1 : World := { h.w.tick.tick with cwd := l }
  have hf1 : Front os w1.fs w1.cwd [] l := by
    refine ⟨by simp, l, [], MAX_LINKS, .nil, ?_⟩
    intro x hx hh
    have : pathBase w1.cwd ([] ++ x) = l := by simp [pathBase, hh, w1]
    exact ⟨this, rfl⟩
  have hsl : sysSymlink os w1 t n = (true, (w1.put (l ++ [n]) (.link t)).tick) := by
    obtain ⟨m, hl⟩ := Front.locate (w := w1) hf1 false hn
    rw [resolve_missing os w1.fs false m l n [] hn ho.searchable ha] at hl
    simp only [List.all_nil, if_true, List.nil_append] at hl
    have hns : n.getLast? ≠ some 47 := by simpa using hn.notSlash []
    have hwr : writable os w1.fs l = true := ho.writable
    have ha' : w1.fs (l ++ [n]) = none := ha
    simp only [sysSymlink, hq.1, ht, hns, Bool.false_eq_true, or_self, if_false, hl, ha', addNode,
      List.dropLast_concat, hwr, if_true]
  let w2 : World := (w1.put (l ++ [n]) (.link t)).tick
  have hk : Keeps h.w.fs w2.fs := Keeps.put ha _
  have hb : sysChdir os w2 (absPath h.w.cwd) = (true, { w2.tick with cwd := h.w.cwd }) :=
    (hc.mono hk).back hq
  refine ⟨{ w2.tick with cwd := h.w.cwd }, ?_, rfl, rfl⟩
  have hg : sysGetcwd os h.w CWD_SIZE = (some (absPath h.w.cwd), h.w.tick) := by
    simp only [sysGetcwd, hq.1, Bool.false_eq_true, if_false]
    rw [if_pos]
    exact hc.1
  simp only [hlSymLink, hg, hd, hcd, hnm, hct, hcs]
  rw [show ({ h.w.tick.tick with cwd := l } : World) = w1 from rfl, hsl]
  simp only
  rw [show (w1.put (l ++ [n]) (.link t)).tick = w2 from rfl, hb]

/-! ### The tree -/

/-- State between entries: path `p` of the current directory `l`. -/
structure AtDir (os : Os) (h : HL) (p : Bytes) (l : Loc) : Prop where
  path : h.dirPath = some p
  ne : p ≠ []
  nul : 0 ∉ p
  front : Front os h.w.fs h.w.cwd (p ++ [47]) l
  dir : OpenDir os h.w.fs l

/-- What extraction of entries keeps. -/
structure SameRest (h h' : HL) : Prop where
  path : h'.dirPath = h.dirPath
  err : h'.hasError = h.hasError
  ret : h'.ret = h.ret
  out : h'.fpOut = h.fpOut
  cwd : h'.w.cwd = h.w.cwd

theorem SameRest.trans {a b c : HL} (h : SameRest a b) (h' : SameRest b c) : SameRest a c :=
  ⟨h'.path.trans h.path, h'.err.trans h.err, h'.ret.trans h.ret, h'.out.trans h.out,
    h'.cwd.trans h.cwd⟩

theorem AtDir.step {os : Os} {h h' : HL} {p : Bytes} {l : Loc} (a : AtDir os h p l)
    (hs : SameRest h h') (hk : Keeps h.w.fs h'.w.fs) : AtDir os h' p l := by
  refine ⟨hs.path.trans a.path, a.ne, a.nul, ?_, a.dir.mono hk⟩
  rw [hs.cwd]; exact a.front.mono hk

theorem place_keeps (os : Os) (f : Forest) : ∀ (fs : FS) (l : Loc), f.proper →
    (∀ n ∈ f.names, Absent fs (l ++ [n])) → Keeps fs (f.place os fs l) := by
  induction f with
  | nil => intro fs l _ _; exact Keeps.refl fs
  | file n m c r ih =>
    intro fs l hp ha
    refine (Keeps.put (by simpa using ha n List.mem_cons_self []) _).trans (ih _ _ hp.2.2 ?_)
    intro x hx p
    have hne : x ≠ n := fun h => hp.2.1 (h ▸ hx)
    rw [FS.put, if_neg (by simp [hne])]
    exact ha x (List.mem_cons_of_mem _ hx) p
  | link n m t r ih =>
    intro fs l hp ha
    refine (Keeps.put (by simpa using ha n List.mem_cons_self []) _).trans (ih _ _ hp.2.2.2.2 ?_)
    intro x hx p
    have hne : x ≠ n := fun h => hp.2.1 (h ▸ hx)
    rw [FS.put, if_neg (by simp [hne])]
    exact ha x (List.mem_cons_of_mem _ hx) p
  | dir n m s r ihs ih =>
    intro fs l hp ha
    refine (Keeps.put (by simpa using ha n List.mem_cons_self []) _).trans
      ((ihs _ _ hp.2.2.1 ?_).trans (ih _ _ hp.2.2.2 ?_))
    · intro x hx p
      rw [FS.put, if_neg (by simp)]
      have := ha n List.mem_cons_self (x :: p)
      simpa using this
    · intro x hx p
      have hne : x ≠ n := fun h => hp.2.1 (h ▸ hx)
      rw [Forest.place_other os s _ _ _ (by simp [hne]), FS.put, if_neg (by simp [hne])]
      exact ha x (List.mem_cons_of_mem _ hx) p
  | other n r ih => intro fs l hp ha; exact ih fs l hp ha
  | bad n r ih => intro fs l hp ha; exact ih fs l hp ha

/-- The callbacks that convey a tree create it. -/
theorem tree_good (os : Os) (hq : os.quiet) (out : Bytes) {f : Forest} {evs : List Ev}
    (he : EvsOf f evs) : ∀ (h : HL) (p : Bytes) (l : Loc), f.proper → f.enterable os →
    (f.noLinks ∨ CwdOk os h.w.fs h.w.cwd) → AtDir os h p l →
    (∀ n ∈ f.names, Absent h.w.fs (l ++ [n])) →
    ∃ h', hlEvents os out h evs = .ok h' ∧ SameRest h h' ∧ h'.w.fs = f.place os h.w.fs l := by
  induction he with
  | nil => intro h p l _ _ _ _ _; exact ⟨h, rfl, ⟨rfl, rfl, rfl, rfl, rfl⟩, rfl⟩
  | @file name nm item content mode ds rest evs h1 h2 h3 h4 _ _ ih =>
    intro h p l hpr hen hcw A hab
    obtain ⟨hn, hnr, hrp⟩ := hpr
    have hpath : cString (p ++ 47 :: name) = p ++ [47] ++ name := by
      rw [cString_plain]
      · simp
      · simp only [List.mem_append, List.mem_cons, not_or]
        exact ⟨A.nul, by decide, hn.2.2.2.2⟩
    have ha0 : h.w.fs (l ++ [name]) = none := by simpa using hab name List.mem_cons_self []
    have hop := open_new os hq h.w (p ++ [47]) l name (modeFo (itMode item)) false A.front A.dir hn ha0
    let h1' : HL :=
      { h with
        w := (h.w.put (l ++ [name]) (.file (modeFo (itMode item) &&& os.allow) [])).tick
        name := some nm
        fd := .opened ⟨l ++ [name], 0⟩ }
    have hst : hlEvent os out h (.itemStart .file nm item) = .ok h1' := by
      simp only [hlEvent, hlItemStart, hlFileItem, itemPath, if_pos h1, A.path, Option.getD_some,
        h2, hpath, hop, h1']
    obtain ⟨h2', g1, g2, g3, g4⟩ := reads_good os hq out (l ++ [name])
      (modeFo (itMode item) &&& os.allow) ds h1' [] (by simp [h1', World.tick, World.put, FS.put]) rfl
    rw [List.nil_append, h4] at g2 g4
    have hmode : modeFo (itMode item) &&& os.allow = fileMode os mode := by rw [h3]; rfl
    let h3' : HL := { h2' with w := h2'.w.tick, fd := .closed }
    have hfd : h2'.fd = .opened ⟨l ++ [name], content.length⟩ := by rw [g2]
    have hend : hlEvent os out h2' .fileEnd = .ok h3' := by
      simp only [hlEvent, hlFileEnd, hfd, h3']
    have hfs : h3'.w.fs = h.w.fs.put (l ++ [name]) (.file (fileMode os mode) content) := by
      show h2'.w.fs = _
      rw [g4]
      show ((h.w.fs.put _ _).put _ _) = _
      rw [FS.put_put, hmode]
    have hsame : SameRest h h3' := by
      refine ⟨?_, ?_, ?_, ?_, ?_⟩
      · show h2'.dirPath = _; rw [g2]
      · show h2'.hasError = _; rw [g2]
      · show h2'.ret = _; rw [g2]
      · show h2'.fpOut = _; rw [g2]
      · show h2'.w.cwd = _; rw [g3]; rfl
    have hk : Keeps h.w.fs h3'.w.fs := by rw [hfs]; exact Keeps.put ha0 _
    obtain ⟨h', i1, i2, i3⟩ := ih h3' p l hrp hen (by
        rcases hcw with h | h
        · exact .inl h
        · exact .inr (by rw [hsame.cwd]; exact h.mono hk)) (A.step hsame hk) (by
        intro x hx q
        have hne : x ≠ name := fun h => hnr (h ▸ hx)
        rw [hfs, FS.put, if_neg (by simp [hne])]
        exact hab x (List.mem_cons_of_mem _ hx) q)
    refine ⟨h', ?_, hsame.trans i2, ?_⟩
    · rw [hlEvents, hst]
      simp only
      rw [hlEvents_append, g1]
      simp only
      rw [hlEvents, hend]
      exact i1
    · rw [i3, hfs]; rfl
  | @link name nm item target after mode rest evs h1 h2 _ _ ih =>
    intro h p l hpr hen hcw A hab
    obtain ⟨hn, hnr, ht, ht0, hrp⟩ := hpr
    have ha0 : h.w.fs (l ++ [name]) = none := by simpa using hab name List.mem_cons_self []
    have hcw' : CwdOk os h.w.fs h.w.cwd := by
      rcases hcw with h | h
      · exact h.elim
      · exact h
    let h1' : HL := { h with name := some nm }
    obtain ⟨w', g1, g2, g3⟩ := symLink_good os hq h1' p l nm name target after A.path A.ne A.nul
      A.front A.dir hn ha0 hcw' rfl h1 ht ht0 h2
    let h2' : HL := { h1' with w := w' }
    have hsame : SameRest h h2' := ⟨rfl, rfl, rfl, rfl, g2⟩
    have hk : Keeps h.w.fs h2'.w.fs := by
      show Keeps h.w.fs w'.fs
      rw [g3]; exact Keeps.put ha0 _
    obtain ⟨h', i1, i2, i3⟩ := ih h2' p l hrp hen (.inr (by rw [hsame.cwd]; exact hcw'.mono hk))
      (A.step hsame hk) (by
        intro x hx q
        have hne : x ≠ name := fun h => hnr (h ▸ hx)
        show w'.fs _ = _
        rw [g3, FS.put, if_neg (by simp [hne])]
        exact hab x (List.mem_cons_of_mem _ hx) q)
    refine ⟨h', ?_, hsame.trans i2, ?_⟩
    · simp only [hlEvents, hlEvent, hlItemStart]
      rw [show ({ h with name := some nm } : HL) = h1' from rfl, g1]
      exact i1
    · rw [i3]
      show rest.place os w'.fs l = _
      rw [g3]; rfl
  | @dir name nm item mode sub rest evs evs' h1 h2 h3 _ _ ihs ih =>
    intro h p l hpr hen hcw A hab
    obtain ⟨hn, hnr, hsp, hrp⟩ := hpr
    obtain ⟨e1, e2, e3⟩ := hen
    have h0 : 0 ∉ p ++ 47 :: name := by
      simp only [List.mem_append, List.mem_cons, not_or]
      exact ⟨A.nul, by decide, hn.2.2.2.2⟩
    have ha0 : h.w.fs (l ++ [name]) = none := by simpa using hab name List.mem_cons_self []
    obtain ⟨w', m1, m2, m3⟩ := mkdirRecurse_new os hq mode h.w.tick (p ++ [47]) l name [] A.front
      A.dir (by simpa using hn) (hab name List.mem_cons_self) (.inl rfl) (by simp)
    have m1' : mkdirRecurse os mode (p ++ 47 :: name) h.w.tick = (0, w') := by
      simpa [joinNames] using m1
    have m2' : w'.fs = h.w.fs.put (l ++ [name]) (.dir (dirMode os mode)) := m2
    let h1' : HL := { h with w := w', name := some nm, dirPath := some (p ++ 47 :: name) }
    have hst : hlEvent os out h (.itemStart .dir nm item) = .ok h1' := by
      simp only [hlEvent, hlItemStart, hlDirItem, itemPath, if_pos h1, A.path, Option.getD_some,
        h2, hq.2.2, Bool.false_eq_true, if_false, cString_plain _ h0, h3, m1']
      simp [h1']
    have hk : Keeps h.w.fs w'.fs := by rw [m2']; exact Keeps.put ha0 _
    have hdir : w'.fs (l ++ [name]) = some (.dir (dirMode os mode)) := by rw [m2', FS.put_same]
    have A1 : AtDir os h1' (p ++ 47 :: name) (l ++ [name]) := by
      refine ⟨rfl, by simp, h0, ?_, _, hdir, e1⟩
      have hfr : Front os w'.fs h.w.cwd (p ++ [47]) l := A.front.mono hk
      have := hfr.extend (A.dir.mono hk).searchable hn hdir
      simp only [List.append_assoc, List.singleton_append, List.cons_append] at this ⊢
      show Front os w'.fs w'.cwd _ _
      rw [m3]; exact this
    have hcw1 : sub.noLinks ∨ CwdOk os h1'.w.fs h1'.w.cwd := by
      rcases hcw with h | h
      · exact .inl h.1
      · refine .inr ?_
        show CwdOk os w'.fs w'.cwd
        rw [m3]; exact h.mono hk
    have hab1 : ∀ n ∈ sub.names, Absent h1'.w.fs (l ++ [name] ++ [n]) := by
      intro x hx q
      show w'.fs _ = none
      rw [m2', FS.put, if_neg (by simp)]
      have := hab name List.mem_cons_self (x :: q)
      simpa using this
    obtain ⟨h2', i1, i2, i3⟩ := ihs h1' (p ++ 47 :: name) (l ++ [name]) hsp e2 hcw1 A1 hab1
    have i3' : h2'.w.fs = sub.place os w'.fs (l ++ [name]) := i3
    -- leaving the directory
    let h3' : HL := { h2' with dirPath := some p }
    have hend : hlEvent os out h2' .dirEnd = .ok h3' := by
      have hp2 : h2'.dirPath = some (p ++ 47 :: name) := i2.path
      simp only [hlEvent, hlDirEnd, hp2, cString_plain _ h0,
        lastIndexOf_append 47 p name hn.2.2.2.1, List.take_left', h3']
    have hsame : SameRest h h3' :=
      ⟨A.path.symm, i2.err, i2.ret, i2.out, i2.cwd.trans m3⟩
    have hk2 : Keeps h.w.fs h3'.w.fs := by
      refine hk.trans ?_
      show Keeps w'.fs h2'.w.fs
      rw [i3']; exact place_keeps os sub _ _ hsp hab1
    obtain ⟨h', j1, j2, j3⟩ := ih h3' p l hrp e3 (by
        rcases hcw with h | h
        · exact .inl h.2
        · exact .inr (by rw [hsame.cwd]; exact h.mono hk2)) (A.step hsame hk2) (by
        intro x hx q
        have hne : x ≠ name := fun h => hnr (h ▸ hx)
        show h2'.w.fs _ = none
        rw [i3', Forest.place_other os sub _ _ _ (by simp [hne]), m2', FS.put,
          if_neg (by simp [hne])]
        exact hab x (List.mem_cons_of_mem _ hx) q)
    refine ⟨h', ?_, hsame.trans j2, ?_⟩
    · rw [hlEvents, hst]
      simp only
      rw [hlEvents_append, i1]
      simp only
      rw [hlEvents, hend]
      exact j1
    · rw [j3]
      show rest.place os h2'.w.fs l = _
      rw [i3', m2']; rfl

end Zwt
