import Verif.Spec.Win
import Verif.Proofs.WinRun
import Verif.Proofs.RoundRun
import Verif.Proofs.Relink

/-! Extraction of a tree by the callbacks, on Windows. -/

namespace Zwt

variable {Z : Inflater} {plain : Bytes → Bytes}

/-! ### Paths -/

theorem winSplit_ne (p : Bytes) : winSplit p ≠ [] := by
  induction p with
  | nil => simp [winSplit]
  | cons c cs ih =>
    rw [winSplit]
    split
    · simp
    · split <;> simp

theorem winSplit_append (p q : Bytes) : winSplit (p ++ 47 :: q) = winSplit p ++ winSplit q := by
  induction p with
  | nil => rfl
  | cons c cs ih =>
    rw [List.cons_append, winSplit, ih, winSplit]
    split
    · rfl
    · cases h : winSplit cs with
      | nil => exact absurd h (winSplit_ne cs)
      | cons a as => rfl

theorem winSplit_plain (n : Bytes) (h : 47 ∉ n) (h' : 92 ∉ n) : winSplit n = [n] := by
  induction n with
  | nil => rfl
  | cons c cs ih =>
    simp only [List.mem_cons, not_or] at h h'
    have : winSep c = false := by
      simp only [winSep, Bool.or_eq_false_iff, beq_eq_false_iff_ne, ne_eq]
      exact ⟨fun e => h.1 e.symm, fun e => h'.1 e.symm⟩
    rw [winSplit, this, ih h.2 h'.2]
    rfl

theorem winWalk_append (win : Win) (a b : List Bytes) : ∀ cur : Loc,
    winWalk win cur (a ++ b) = (winWalk win cur a).bind fun l => winWalk win l b := by
  induction a with
  | nil => intro cur; rfl
  | cons c cs ih =>
    intro cur
    rw [List.cons_append, winWalk, winWalk]
    split
    · exact ih _
    · split
      · exact ih _
      · split
        · rfl
        · exact ih _

theorem winLocate_child (win : Win) (cwd : Loc) (p : Bytes) (l : Loc) (n : Bytes) (hn : WinName win n)
    (h : winLocate win cwd p = some l) :
    winLocate win cwd (p ++ 47 :: n) = some (l ++ [win.same n]) := by
  obtain ⟨⟨h1, h2, h3, h4, _⟩, h5, h6⟩ := hn
  have hp : p ≠ [] := by intro e; simp [winLocate, e] at h
  obtain ⟨a, as, rfl⟩ : ∃ a as, p = a :: as := by
    cases p with
    | nil => exact absurd rfl hp
    | cons a as => exact ⟨a, as, rfl⟩
  rw [winLocate, if_neg hp] at h
  rw [winLocate, if_neg (by simp), winSplit_append, winWalk_append]
  have : winBase cwd (a :: as ++ 47 :: n) = winBase cwd (a :: as) := rfl
  rw [this, h, Option.bind_some, winSplit_plain n h4 h5, winWalk, if_neg (by simp [h1, h2]), if_neg h3]
  cases hk : win.key n with
  | none => exact absurd hk h6
  | some k => simp [winWalk, Win.same, hk]

/-! ### Placing a tree -/

/-- The tree added below `l`. -/
def Forest.winPlace (win : Win) : Forest → WFS → Loc → WFS
  | .nil, fs, _ => fs
  | .file n m c r, fs, l => r.winPlace win (fs.put (l ++ [win.same n]) (.file (winReadOnly m) c)) l
  | .link _ _ _ r, fs, l => r.winPlace win fs l
  | .dir n _ s r, fs, l =>
    r.winPlace win (s.winPlace win (fs.put (l ++ [win.same n]) .dir) (l ++ [win.same n])) l
  | .other _ r, fs, l => r.winPlace win fs l
  | .bad _ r, fs, l => r.winPlace win fs l

theorem Forest.winSpots_under (win : Win) (f : Forest) : ∀ (p : Loc), ∀ x ∈ f.winSpots win p,
    ∃ n ∈ f.winNames win, ∃ q, x.1 = p ++ n :: q := by
  induction f with
  | nil => intro p x h; cases h
  | file n m c r ih =>
    intro p x h
    rcases List.mem_cons.mp h with rfl | h
    · exact ⟨_, List.mem_cons_self, [], rfl⟩
    · obtain ⟨a, b, c⟩ := ih p x h
      exact ⟨a, List.mem_cons_of_mem _ b, c⟩
  | link n m t r ih => exact ih
  | dir n m s r ihs ih =>
    intro p x h
    rcases List.mem_cons.mp h with rfl | h
    · exact ⟨_, List.mem_cons_self, [], rfl⟩
    · rcases List.mem_append.mp h with h | h
      · obtain ⟨a, _, q, hq⟩ := ihs _ x h
        exact ⟨_, List.mem_cons_self, a :: q, by rw [hq]; simp⟩
      · obtain ⟨a, b, c⟩ := ih p x h
        exact ⟨a, List.mem_cons_of_mem _ b, c⟩
  | other n r ih => exact ih
  | bad n r ih => exact ih

theorem Forest.winPlace_other (win : Win) (f : Forest) : ∀ (fs : WFS) (p l : Loc),
    (∀ x ∈ f.winSpots win p, l ≠ x.1) → f.winPlace win fs p l = fs l := by
  induction f with
  | nil => intro fs p l _; rfl
  | file n m c r ih =>
    intro fs p l h
    rw [winPlace, ih _ _ _ (fun x hx => h x (List.mem_cons_of_mem _ hx)), WFS.put,
      if_neg (h _ List.mem_cons_self)]
  | link n m t r ih => exact ih
  | dir n m s r ihs ih =>
    intro fs p l h
    rw [winPlace, ih _ _ _ (fun x hx => h x (List.mem_cons_of_mem _ (List.mem_append_right _ hx))),
      ihs _ _ _ (fun x hx => h x (List.mem_cons_of_mem _ (List.mem_append_left _ hx))), WFS.put,
      if_neg (h _ List.mem_cons_self)]
  | other n r ih => exact ih
  | bad n r ih => exact ih

theorem Forest.winPlace_spots (win : Win) (f : Forest) : ∀ (fs : WFS) (p : Loc), f.winOk win →
    ∀ x ∈ f.winSpots win p, f.winPlace win fs p x.1 = some x.2 := by
  induction f with
  | nil => intro fs p _ x h; cases h
  | file n m c r ih =>
    intro fs p hok x h
    obtain ⟨_, h2, h3⟩ := hok
    rcases List.mem_cons.mp h with rfl | h
    · rw [winPlace, winPlace_other]
      · simp only [WFS.put, if_true]
        rfl
      · intro y hy e
        obtain ⟨a, ha, q, hq⟩ := r.winSpots_under win p y hy
        rw [hq] at e
        have := List.append_cancel_left e
        simp only [List.cons.injEq] at this
        exact h2 (this.1 ▸ ha)
    · exact ih _ p h3 x h
  | link n m t r ih => exact ih
  | dir n m s r ihs ih =>
    intro fs p hok x h
    obtain ⟨_, h2, h3, h4⟩ := hok
    have hne : ∀ q, ∀ y ∈ r.winSpots win p, p ++ win.same n :: q ≠ y.1 := by
      intro q y hy e
      obtain ⟨a, ha, q', hq⟩ := r.winSpots_under win p y hy
      rw [hq] at e
      have := List.append_cancel_left e
      simp only [List.cons.injEq] at this
      exact h2 (this.1 ▸ ha)
    rcases List.mem_cons.mp h with rfl | h
    · rw [winPlace, winPlace_other _ _ _ _ _ (hne []), winPlace_other]
      · simp [WFS.put]
      · intro y hy e
        obtain ⟨a, _, q, hq⟩ := s.winSpots_under win _ y hy
        rw [hq] at e
        simp at e
    · rcases List.mem_append.mp h with h | h
      · obtain ⟨a, _, q, hq⟩ := s.winSpots_under win _ x h
        rw [winPlace, winPlace_other _ _ _ _ _ (by
          have := hne (a :: q)
          rw [hq]; simpa using this)]
        exact ihs _ _ h3 x h
      · exact ih _ p h4 x h
  | other n r ih => exact ih
  | bad n r ih => exact ih

/-! ### System calls -/

theorem WFS.put_put (fs : WFS) (l : Loc) (n n' : WNode) : (fs.put l n).put l n' = fs.put l n' := by
  funext x
  simp only [WFS.put]
  split <;> rfl

theorem winCreate_new (win : Win) (hq : win.quiet) (w : WWorld) (path : Bytes) (l : Loc) (k : Bytes)
    (hl : winLocate win w.cwd path = some (l ++ [k])) (hd : w.fs l = some .dir)
    (ha : w.fs (l ++ [k]) = none) :
    winCreate win w path = (0, (w.put (l ++ [k]) .dir).tick) := by
  simp [winCreate, hq.1, hl, ha, winParent, hd]

theorem winMkdir_new (win : Win) (hq : win.quiet) (w : WWorld) (path : Bytes) (l : Loc) (k : Bytes)
    (hl : winLocate win w.cwd path = some (l ++ [k])) (hd : w.fs l = some .dir)
    (ha : w.fs (l ++ [k]) = none) :
    winMkdir win path w = (0, (w.tick.put (l ++ [k]) .dir).tick) := by
  have := winCreate_new win hq w.tick path l k hl hd ha
  simp [winMkdir, hq.2.2, winMkdirRaw, this]

theorem winOpen_new (win : Win) (hq : win.quiet) (w : WWorld) (path : Bytes) (l : Loc) (k : Bytes)
    (ro tr : Bool) (hl : winLocate win w.cwd path = some (l ++ [k])) (hd : w.fs l = some .dir)
    (hs : path.getLast?.map winSep ≠ some true) (ha : w.fs (l ++ [k]) = none) :
    winOpen win w path ro tr = (some (l ++ [k]), (w.put (l ++ [k]) (.file ro [])).tick) := by
  simp [winOpen, hq.1, hl, ha, winParent, hd, hs]

theorem WinName.last {win : Win} {n : Bytes} (h : WinName win n) (p : Bytes) :
    (p ++ 47 :: n).getLast?.map winSep ≠ some true := by
  obtain ⟨⟨h1, _, _, h4, _⟩, h5, _⟩ := h
  intro e
  cases hg : n.getLast? with
  | none => exact h1 (List.getLast?_eq_none_iff.mp hg)
  | some x =>
    have hx := List.mem_of_getLast? hg
    rw [List.getLast?_append, List.getLast?_cons, hg] at e
    simp only [Option.getD_some, Option.some_or, Option.map_some, Option.some.injEq, winSep,
      Bool.or_eq_true, beq_iff_eq] at e
    rcases e with rfl | rfl
    · exact h4 hx
    · exact h5 hx

theorem winReads_good (win : Win) (hq : win.quiet) (out : Bytes) (l : Loc) (ro : Bool)
    (ds : List Bytes) : ∀ (h : HLW) (c : Bytes), h.w.fs l = some (.file ro c) →
    h.fd = .opened ⟨l, c.length⟩ →
    ∃ h', winEvents win out h (ds.map .fileRead) = .ok h' ∧
      h' = { h with w := h'.w, fd := .opened ⟨l, (c ++ ds.flatten).length⟩ } ∧
      h'.w.cwd = h.w.cwd ∧ h'.w.fs = h.w.fs.put l (.file ro (c ++ ds.flatten)) := by
  induction ds with
  | nil =>
    intro h c hc hfd
    refine ⟨h, rfl, ?_, rfl, ?_⟩
    · simp [← hfd]
    · funext x
      simp only [WFS.put, List.flatten_nil, List.append_nil]
      split
      · rename_i hx; rw [hx, hc]
      · rfl
  | cons d ds ih =>
    intro h c hc hfd
    have hw : winWrite win h.w ⟨l, c.length⟩ d =
        (⟨l, (c ++ d).length⟩, (h.w.put l (.file ro (c ++ d))).tick) := by
      simp only [winWrite, hq.1, Bool.false_eq_true, if_false, hc,
        List.take_of_length_le (hq.2.1 h.w.calls d.length), pwrite_end, List.length_append]
    obtain ⟨h', g1, g2, g3, g4⟩ := ih
      { h with w := (h.w.put l (.file ro (c ++ d))).tick, fd := .opened ⟨l, (c ++ d).length⟩ }
      (c ++ d) (by simp [WWorld.tick, WWorld.put, WFS.put]) rfl
    refine ⟨h', ?_, ?_, g3, ?_⟩
    · simp only [List.map_cons, winEvents, winEvent, winFileRead, hfd, hw]
      exact g1
    · rw [g2]; simp
    · rw [g4]
      simp only [WWorld.tick, WWorld.put, WFS.put_put, List.flatten_cons, List.append_assoc]

/-! ### The callbacks of a tree -/

/-- The callbacks are in the directory `l`, whose path is `p`. -/
structure AtW (win : Win) (h : HLW) (p : Bytes) (l : Loc) : Prop where
  path : h.dirPath = some p
  noNul : 0 ∉ p
  loc : winLocate win h.w.cwd p = some l
  dir : h.w.fs l = some .dir

/-- What the callbacks of a tree leave alone. -/
structure WSame (h h' : HLW) : Prop where
  path : h'.dirPath = h.dirPath
  err : h'.hasError = h.hasError
  ret : h'.ret = h.ret
  cwd : h'.w.cwd = h.w.cwd

theorem tree_win (win : Win) (hq : win.quiet) (out : Bytes) {f : Forest} {evs : List Ev}
    (he : EvsOf f evs) : ∀ (h : HLW) (p : Bytes) (l : Loc), f.winOk win → AtW win h p l →
    (∀ k ∈ f.winNames win, ∀ q, h.w.fs (l ++ k :: q) = none) →
    ∃ h', winEvents win out h evs = .ok h' ∧ WSame h h' ∧ h'.w.fs = f.winPlace win h.w.fs l := by
  induction he with
  | nil => intro h p l _ _ _; exact ⟨h, rfl, ⟨rfl, rfl, rfl, rfl⟩, rfl⟩
  | @file name nm item content mode ds rest evs h1 h2 h3 h4 h5 _ ih =>
    intro h p l hok A hnew
    obtain ⟨hn, hk, hr⟩ := hok
    have h0 : 0 ∉ p ++ 47 :: name := by
      have := hn.1.2.2.2.2
      have := A.noNul
      simp_all
    have hl := winLocate_child win _ p l name hn A.loc
    have ho := winOpen_new win hq h.w (p ++ 47 :: name) l _ (winReadOnly mode) false hl A.dir
      (hn.last p) (hnew _ List.mem_cons_self [])
    have hst : winEvent win out h (.itemStart .file nm item) = .ok
        { h with w := (h.w.put (l ++ [win.same name]) (.file (winReadOnly mode) [])).tick,
                 fd := .opened ⟨l ++ [win.same name], 0⟩ } := by
      simp only [winEvent, winItemStart, winFileItem, winItemPath, A.path, Option.getD_some, if_pos h1,
        h2, cString_plain _ h0, h3, ho]
    obtain ⟨h', g1, g2, g3, g4⟩ := winReads_good win hq out (l ++ [win.same name]) (winReadOnly mode) ds
      { h with w := (h.w.put (l ++ [win.same name]) (.file (winReadOnly mode) [])).tick,
               fd := .opened ⟨l ++ [win.same name], 0⟩ } []
      (by simp [WWorld.tick, WWorld.put, WFS.put]) rfl
    have hend : winEvent win out h' .fileEnd = .ok { h' with w := h'.w.tick, fd := .closed } := by
      rw [winEvent, winFileEnd, g2]
    have hfs : h'.w.fs = h.w.fs.put (l ++ [win.same name]) (.file (winReadOnly mode) content) := by
      rw [g4]
      simp only [WWorld.tick, WWorld.put, WFS.put_put, List.nil_append, h4]
    obtain ⟨h2', k1, k2, k3⟩ := ih { h' with w := h'.w.tick, fd := .closed } p l hr
      ⟨by rw [g2]; exact A.path, A.noNul,
        by show winLocate win h'.w.cwd p = _; rw [g3]; exact A.loc,
        by
          show h'.w.fs l = _
          rw [hfs, WFS.put, if_neg (by simp)]; exact A.dir⟩
      (by
        intro k hk' q
        show h'.w.fs _ = _
        rw [hfs, WFS.put, if_neg]
        · exact hnew k (List.mem_cons_of_mem _ hk') q
        · intro e
          have := List.append_cancel_left e
          simp only [List.cons.injEq] at this
          exact hk (this.1 ▸ hk'))
    refine ⟨h2', ?_, ⟨k2.path.trans (by rw [g2]), k2.err.trans (by rw [g2]), k2.ret.trans (by rw [g2]),
      k2.cwd.trans g3⟩, ?_⟩
    · rw [winEvents, hst]
      dsimp only
      rw [winEvents_append, g1]
      dsimp only
      rw [winEvents, hend]
      exact k1
    · rw [k3]
      show rest.winPlace win h'.w.fs l = _
      rw [hfs]; rfl
  | @link name nm item target after mode rest evs _ _ _ _ ih =>
    intro h p l hok A hnew
    obtain ⟨h', g1, g2, g3⟩ := ih h p l hok A hnew
    exact ⟨h', by simpa [winEvents, winEvent, winItemStart] using g1, g2, g3⟩
  | @dir name nm item mode sub rest evs evs' h1 h2 h3 _ _ ihs ih =>
    intro h p l hok A hnew
    obtain ⟨hn, hk, hs, hr⟩ := hok
    have h0 : 0 ∉ p ++ 47 :: name := by
      have := hn.1.2.2.2.2
      have := A.noNul
      simp_all
    have hl := winLocate_child win _ p l name hn A.loc
    have hm := winMkdir_new win hq h.w.tick (p ++ 47 :: name) l _ hl A.dir (hnew _ List.mem_cons_self [])
    have hst : winEvent win out h (.itemStart .dir nm item) = .ok
        { h with w := (h.w.tick.tick.put (l ++ [win.same name]) .dir).tick,
                 dirPath := some (p ++ 47 :: name) } := by
      simp only [winEvent, winItemStart, winDirItem, hq.2.2, Bool.false_eq_true, if_false, winItemPath,
        A.path, Option.getD_some, if_pos h1, h2, cString_plain _ h0, hm]
      simp
    obtain ⟨h', g1, g2, g3⟩ := ihs
      { h with w := (h.w.tick.tick.put (l ++ [win.same name]) .dir).tick,
               dirPath := some (p ++ 47 :: name) } (p ++ 47 :: name) (l ++ [win.same name]) hs
      ⟨rfl, h0, hl, by simp [WWorld.tick, WWorld.put, WFS.put]⟩
      (by
        intro k _ q
        have := hnew (win.same name) List.mem_cons_self (k :: q)
        simp only [WWorld.tick, WWorld.put, WFS.put]
        rw [if_neg (by simp)]
        simpa using this)
    have hend : winEvent win out h' .dirEnd = .ok { h' with dirPath := some p } := by
      have : h'.dirPath = some (p ++ 47 :: name) := g2.path
      rw [winEvent, winDirEnd, this]
      simp only [cString_plain _ h0]
      rw [lastIndexOf_append 47 p name hn.1.2.2.2.1]
      simp
    have hfs : ∀ x, (∀ q, x ≠ l ++ win.same name :: q) → h'.w.fs x = h.w.fs x := by
      intro x hx
      rw [g3, Forest.winPlace_other]
      · show h.w.fs.put _ _ x = _
        rw [WFS.put, if_neg (hx [])]
      · intro y hy e
        obtain ⟨a, _, q, hq'⟩ := sub.winSpots_under win _ y hy
        refine hx (a :: q) ?_
        rw [e, hq']; simp
    obtain ⟨h2', k1, k2, k3⟩ := ih { h' with dirPath := some p } p l hr
      ⟨rfl, A.noNul, by show winLocate win h'.w.cwd p = _; rw [g2.cwd]; exact A.loc,
        by
          show h'.w.fs l = _
          rw [hfs l (by simp)]; exact A.dir⟩
      (by
        intro k hk' q
        show h'.w.fs _ = _
        rw [hfs]
        · exact hnew k (List.mem_cons_of_mem _ hk') q
        · intro q' e
          have := List.append_cancel_left e
          simp only [List.cons.injEq] at this
          exact hk (this.1 ▸ hk'))
    refine ⟨h2', ?_, ⟨k2.path.trans A.path.symm, k2.err.trans g2.err, k2.ret.trans g2.ret,
      k2.cwd.trans g2.cwd⟩, ?_⟩
    · rw [winEvents, hst]
      dsimp only
      rw [winEvents_append, g1]
      dsimp only
      rw [winEvents, hend]
      exact k1
    · rw [k3]
      show rest.winPlace win h'.w.fs l = _
      rw [g3]; rfl

/-! ### Errors are kept, links do not matter -/

theorem winEvent_err (win : Win) (out : Bytes) (h h' : HLW) (e : Ev)
    (hr : winEvent win out h e = .ok h') : h.hasError = true → h'.hasError = true := by
  intro he
  cases e with
  | flStart =>
    simp only [winEvent, winFileStart] at hr
    split at hr <;> cases hr <;> simp [he]
  | flRead d =>
    simp only [winEvent, winFileData] at hr
    split at hr
    · cases hr
    · cases hr; exact he
  | drStart =>
    simp only [winEvent, winDirStart] at hr
    split at hr
    · cases hr; rfl
    · split at hr <;> cases hr <;> simp [he]
  | itemStart ft nm it =>
    simp only [winEvent, winItemStart] at hr
    split at hr
    · simp only [winDirItem] at hr
      split at hr
      · cases hr; rfl
      · split at hr
        · cases hr
        · cases hr; simp [he]
    · simp only [winFileItem] at hr
      split at hr
      · cases hr
      · split at hr <;> cases hr <;> simp [he]
    · cases hr; exact he
  | fileRead d =>
    simp only [winEvent, winFileRead] at hr
    split at hr <;> cases hr <;> exact he
  | fileEnd =>
    simp only [winEvent, winFileEnd] at hr
    split at hr <;> cases hr <;> exact he
  | dirEnd =>
    simp only [winEvent, winDirEnd] at hr
    split at hr
    · cases hr
    · split at hr <;> cases hr
      exact he
  | symLink t a => cases hr; exact he

theorem winEvents_err (win : Win) (out : Bytes) (es : List Ev) : ∀ (h h' : HLW),
    winEvents win out h es = .ok h' → h.hasError = true → h'.hasError = true := by
  induction es with
  | nil => intro h h' hr he; cases hr; exact he
  | cons e es ih =>
    intro h h' hr he
    rw [winEvents] at hr
    split at hr
    · cases hr
    · rename_i h1 hh
      exact ih _ _ hr (winEvent_err win out h h1 e hh he)

theorem winEvents_closed (win : Win) (out : Bytes) (es : List Ev) : ∀ (h : HLW),
    winEvents win out h (es.map Ev.closed) = winEvents win out h es := by
  induction es with
  | nil => intro h; rfl
  | cons e es ih =>
    intro h
    have : winEvent win out h e.closed = winEvent win out h e := by
      unfold Ev.closed
      split <;> rfl
    rw [List.map_cons, winEvents, winEvents, this]
    split
    · rfl
    · exact ih _

theorem Relinked.winOk {f g : Forest} (h : Relinked f g) (win : Win) :
    g.winNames win = f.winNames win ∧ (f.winOk win → g.winOk win) ∧
      ∀ p, g.winSpots win p = f.winSpots win p := by
  induction h with
  | nil => exact ⟨rfl, id, fun _ => rfl⟩
  | file _ ih =>
    obtain ⟨a, b, c⟩ := ih
    exact ⟨by simp [Forest.winNames, a], fun h => ⟨h.1, by rw [a]; exact h.2.1, b h.2.2⟩,
      fun p => by simp [Forest.winSpots, c]⟩
  | link _ _ _ ih => exact ih
  | dir _ _ ihs ih =>
    obtain ⟨a, b, c⟩ := ih
    obtain ⟨_, bs, cs⟩ := ihs
    exact ⟨by simp [Forest.winNames, a], fun h => ⟨h.1, by rw [a]; exact h.2.1, bs h.2.2.1, b h.2.2.2⟩,
      fun p => by simp [Forest.winSpots, c, cs]⟩

end Zwt
