import Verif.Spec.WinLossy
import Verif.Proofs.WinHalt
import Verif.Proofs.WinMkdir

/-! Extraction of a tree on Windows while calls fail. -/

namespace Zwt

/-- Directories were added, from `t` down to `l`. -/
def WDirsAdded (fs fs' : WFS) (t l : Loc) : Prop :=
  ∀ x, fs' x = fs x ∨ (fs x = none ∧ fs' x = some .dir ∧ t <+: x ∧ x <+: l)

theorem winCreate_added {win : Win} {w0 w : WWorld} {t l y : Loc} {s : Bytes}
    (h : w.cwd = w0.cwd ∧ WDirsAdded w0.fs w.fs t l) (hs : winLocate win w0.cwd s = some y) (h1 : t <+: y)
    (h2 : y <+: l) :
    (winCreate win w s).2.cwd = w0.cwd ∧ WDirsAdded w0.fs (winCreate win w s).2.fs t l := by
  simp only [winCreate]
  split
  · exact h
  · rw [h.1, hs]
    simp only
    split
    · exact h
    · rename_i hn
      split
      · refine ⟨h.1, fun x => ?_⟩
        simp only [WWorld.tick, WWorld.put, WFS.put]
        split
        · rename_i hx
          subst hx
          rcases h.2 x with e | e
          · exact .inr ⟨e ▸ hn, rfl, h1, h2⟩
          · rw [e.2.1] at hn; cases hn
        · exact h.2 x
      · exact h

theorem winCreate_code (win : Win) (w : WWorld) (s : Bytes) :
    (winCreate win w s).1 = 0 ∨ (winCreate win w s).1 = 1 ∨ (winCreate win w s).1 = 2 ∨
      (winCreate win w s).1 = -1 := by
  simp only [winCreate]
  split
  · simp
  · split
    · simp
    · split
      · simp
      · split <;> simp

theorem winMkdir_added {win : Win} (w : WWorld) {p : Bytes} {top : Loc} (h0 : 0 ∉ p)
    (hl : winLocate win w.cwd p = some top) (htop : w.fs top ≠ none ∨ w.fs top.dropLast = some .dir)
    (ns : List Bytes) (hn : ∀ x ∈ ns, WinName win x) :
    (winMkdir win (p ++ slashed ns) w).2.cwd = w.cwd ∧
      WDirsAdded w.fs (winMkdir win (p ++ slashed ns) w).2.fs top (top ++ ns.map win.same) := by
  have hloc : ∀ ms, ms <+: ns → winLocate win w.cwd (p ++ slashed ms) = some (top ++ ms.map win.same) := by
    intro ms hm
    have := winLocate_extend win w.cwd ms p top (fun x hx => hn x (hm.subset hx)) hl
    rw [extendPath_eq] at this
    exact this
  have hpre : ∀ ms, ms <+: ns → top ++ ms.map win.same <+: top ++ ns.map win.same := by
    rintro ms ⟨t, rfl⟩
    exact ⟨t.map win.same, by simp⟩
  have hq : ∀ w1 : WWorld, w1.cwd = w.cwd ∧ WDirsAdded w.fs w1.fs top (top ++ ns.map win.same) →
      w1.fs top ≠ none ∨ w1.fs top.dropLast = some .dir := by
    intro w1 h
    rcases htop with e | e
    · left
      rcases h.2 top with e' | e'
      · rw [e']; exact e
      · exact absurd e'.1 e
    · right
      rcases h.2 top.dropLast with e' | e'
      · rw [e']; exact e
      · rw [e] at e'; cases e'.1
  have hstop : ∀ w1 : WWorld, w1.cwd = w.cwd ∧ WDirsAdded w.fs w1.fs top (top ++ ns.map win.same) →
      (winCreate win w1 p).1 ≠ 2 := by
    intro w1 h
    have := hq w1 h
    simp only [winCreate]
    split
    · simp
    · rw [h.1, hl]
      simp only
      split
      · simp
      · rename_i hno
        have hd : winParent w1.fs top = true := by
          rcases this with e | e
          · exact absurd hno e
          · simp [winParent, e]
        rw [if_pos hd]; simp
  cases ns with
  | nil =>
    simp only [slashed, List.map_nil, List.flatten_nil, List.append_nil, winMkdir]
    have hb : w.tick.cwd = w.cwd ∧ WDirsAdded w.fs w.tick.fs top top := ⟨rfl, fun x => .inl rfl⟩
    simp only [List.map_nil, List.append_nil] at hstop
    split
    · exact hb
    · simp only [winMkdirRaw]
      have k := winCreate_added (win := win) (w := w.tick) hb hl List.prefix_rfl List.prefix_rfl
      have k2 := hstop w.tick hb
      have k3 := winCreate_code win w.tick p
      generalize winCreate win w.tick p = r at k k2 k3
      obtain ⟨r, w1⟩ := r
      simp only at k k2 k3 ⊢
      rw [if_pos (by omega)]
      exact k
  | cons n ns =>
    have hnul : 0 ∉ p ++ slashed (n :: ns) := by
      rw [List.mem_append, not_or]
      exact ⟨h0, slashed_nul _ (fun x hx => ⟨(hn x hx).1, (hn x hx).2.1⟩)⟩
    refine winMkdir_inv win (fun w1 => w1.cwd = w.cwd ∧ WDirsAdded w.fs w1.fs top _) _ p (n ++ slashed ns) hnul
      (by rw [slashed_cons]; simp) (fun w h => h) hstop ?_ w ⟨rfl, fun x => .inl rfl⟩
    intro s w1 hc hp h
    obtain ⟨t, rfl⟩ := hp
    have hc' : ∃ ms, ms <+: n :: ns ∧ t = slashed ms := by
      rcases hc with hc | ⟨u, hu⟩
      · exact ⟨_, List.prefix_rfl, List.append_cancel_left hc⟩
      · rw [List.append_assoc] at hu
        exact slashed_cut (n :: ns) (fun x hx => (hn x hx).1.2.2.2.1) t u (List.append_cancel_left hu)
    obtain ⟨ms, hms, rfl⟩ := hc'
    exact winCreate_added h (hloc ms hms) (List.prefix_append _ _) (hpre ms hms)

/-! ### Files -/

theorem winReads_any (win : Win) (out : Bytes) (l : Loc) (ro : Bool) (ds : List Bytes) :
    ∀ (h : HLW) (c : Bytes), h.w.fs l = some (.file ro c) → h.fd = .opened ⟨l, c.length⟩ →
    ∃ h' e, e.Sublist ds.flatten ∧ winEvents win out h (ds.map .fileRead) = .ok h' ∧
      h' = { h with w := h'.w, fd := .opened ⟨l, (c ++ e).length⟩ } ∧
      h'.w.cwd = h.w.cwd ∧ h'.w.fs = h.w.fs.put l (.file ro (c ++ e)) := by
  induction ds with
  | nil =>
    intro h c hc hfd
    refine ⟨h, [], List.nil_sublist _, rfl, ?_, rfl, ?_⟩
    · simp [← hfd]
    · funext x
      simp only [WFS.put, List.append_nil]
      split
      · rename_i hx; rw [hx, hc]
      · rfl
  | cons d ds ih =>
    intro h c hc hfd
    have key : ∃ e1 w1, e1 <+: d ∧ winWrite win h.w ⟨l, c.length⟩ d = (⟨l, (c ++ e1).length⟩, w1) ∧
        w1.cwd = h.w.cwd ∧ w1.fs = h.w.fs.put l (.file ro (c ++ e1)) := by
      simp only [winWrite]
      split
      · refine ⟨[], h.w.tick, List.nil_prefix, by simp, rfl, ?_⟩
        funext x
        simp only [WFS.put, List.append_nil]
        split
        · rename_i hx; rw [hx]; exact hc
        · rfl
      · simp only [hc, pwrite_end]
        exact ⟨_, (h.w.put l (.file ro (c ++ d.take (win.accepts h.w.calls d.length)))).tick,
          List.take_prefix (win.accepts h.w.calls d.length) d, by rw [List.length_append], rfl, rfl⟩
    obtain ⟨e1, w1, a1, a2, a3, a4⟩ := key
    obtain ⟨h', e, g0, g1, g2, g3, g4⟩ := ih
      { h with w := w1, fd := .opened ⟨l, (c ++ e1).length⟩ }
      (c ++ e1) (by show w1.fs l = _; rw [a4]; simp [WFS.put]) rfl
    refine ⟨h', e1 ++ e, ?_, ?_, ?_, ?_, ?_⟩
    · rw [List.flatten_cons]; exact a1.sublist.append g0
    · simp only [List.map_cons, winEvents, winEvent, winFileRead, hfd, a2]
      exact g1
    · rw [g2]; simp
    · rw [g3]; exact a3
    · rw [g4]
      show (w1.fs.put _ _) = _
      rw [a4, WFS.put_put, List.append_assoc]

theorem winReads_bad (win : Win) (out : Bytes) (ds : List Bytes) : ∀ (h : HLW), h.fd = .bad →
    ∃ h', winEvents win out h (ds.map .fileRead) = .ok h' ∧ h' = { h with w := h'.w } ∧
      h'.w.cwd = h.w.cwd ∧ h'.w.fs = h.w.fs := by
  induction ds with
  | nil => intro h _; exact ⟨h, rfl, rfl, rfl, rfl⟩
  | cons d ds ih =>
    intro h hfd
    obtain ⟨h', g1, g2, g3, g4⟩ := ih { h with w := h.w.tick } hfd
    refine ⟨h', ?_, g2, g3, g4⟩
    simp only [List.map_cons, winEvents, winEvent, winFileRead, hfd]
    rw [hfd] at g1
    exact g1

theorem winOpen_any {win : Win} {w : WWorld} {p : Bytes} {l : Loc} (ro : Bool)
    (hl : winLocate win w.cwd p = some l) (ha : w.fs l = none) :
    (winOpen win w p ro false = (none, w.tick)) ∨
      winOpen win w p ro false = (some l, (w.put l (.file ro [])).tick) := by
  simp only [winOpen]
  split
  · exact .inl rfl
  · rw [hl]
    simp only [ha]
    split
    · exact .inr rfl
    · exact .inl rfl

/-! ### The callbacks of a tree -/

/-- What the writing calls for one file leave of its content. -/
def WReads (win : Win) (part : Bytes → Bytes → Prop) : Prop :=
  ∀ (out : Bytes) (l : Loc) (ro : Bool) (ds : List Bytes) (h : HLW), h.w.fs l = some (.file ro []) →
    h.fd = .opened ⟨l, 0⟩ →
    ∃ h' e, part e ds.flatten ∧ winEvents win out h (ds.map .fileRead) = .ok h' ∧
      h' = { h with w := h'.w, fd := .opened ⟨l, e.length⟩ } ∧
      h'.w.cwd = h.w.cwd ∧ h'.w.fs = h.w.fs.put l (.file ro e) ∧
      ∀ K, win.stopsAt K → e = ds.flatten ∨ K ≤ h'.w.calls

theorem wreads_any (win : Win) : WReads win List.Sublist := by
  intro out l ro ds h hc hfd
  obtain ⟨h', e, g0, g1, g2, g3, g4⟩ := winReads_any win out l ro ds h [] hc hfd
  rw [List.nil_append] at g2 g4
  refine ⟨h', e, g0, g1, g2, g3, g4, fun K hs => ?_⟩
  obtain ⟨h2, e2, _, _, k, k1, _, _, k4⟩ := winReads_stop hs out l ro ds h [] hc hfd
  rw [g1] at k1
  cases k1
  have he : e2 = e := by
    have := congrFun (k4.symm.trans g4) l
    simpa [WFS.put] using this
  rw [← he]
  exact k _ g1

/-- What the callbacks of (part of) the tree `f` in the directory `l` have done. -/
structure WLossy (win : Win) (part : Bytes → Bytes → Prop) (b l : Loc) (f : Forest) (fs fs' : WFS) : Prop where
  other : ∀ x, (∀ k ∈ f.winNames win, ∀ p, x ≠ l ++ k :: p) →
    fs' x = fs x ∨ (fs x = none ∧ fs' x = some .dir ∧ b <+: x ∧ x <+: l)
  kept : ∀ k ∈ f.winNames win, ∀ p, f.winRemains win part l (l ++ k :: p) (fs' (l ++ k :: p))

theorem WLossy.refl {win : Win} {part : Bytes → Bytes → Prop} {b l : Loc} {f : Forest} {fs : WFS}
    (h : ∀ k ∈ f.winNames win, ∀ p, fs (l ++ k :: p) = none) : WLossy win part b l f fs fs :=
  ⟨fun _ _ => .inl rfl, fun k hk p => by rw [h k hk p]; trivial⟩

/-- After an entry `k` of its own, the rest. -/
theorem WLossy.cons {win : Win} {part : Bytes → Bytes → Prop} {b l : Loc} {f rest : Forest} {k : Bytes} {fs fs1 fs2 : WFS}
    (hnm : f.winNames win = k :: rest.winNames win) (hk : k ∉ rest.winNames win)
    (hsp : ∀ x ∈ rest.winSpots win l, x ∈ f.winSpots win l)
    (h1 : ∀ x, (∀ p, x ≠ l ++ k :: p) → fs1 x = fs x ∨ (fs x = none ∧ fs1 x = some .dir ∧ b <+: x ∧ x <+: l))
    (h2 : ∀ p, f.winRemains win part l (l ++ k :: p) (fs1 (l ++ k :: p)))
    (h3 : WLossy win part b l rest fs1 fs2) : WLossy win part b l f fs fs2 := by
  refine ⟨fun x hx => ?_, fun k' hk' p => ?_⟩
  · rw [hnm] at hx
    have a := h3.other x (fun k' hk' => hx k' (List.mem_cons_of_mem _ hk'))
    have c := h1 x (hx k List.mem_cons_self)
    rcases a with a | ⟨a1, a2, a3⟩
    · rw [a]; exact c
    · rcases c with c | ⟨_, c2, _⟩
      · exact .inr ⟨c ▸ a1, a2, a3⟩
      · rw [c2] at a1; cases a1
  · rw [hnm] at hk'
    rcases List.mem_cons.mp hk' with rfl | hk'
    · rcases h3.other (l ++ k' :: p) (by
        intro k2 hk2 p2 e
        have := List.append_cancel_left e
        simp only [List.cons.injEq] at this
        exact hk (this.1 ▸ hk2)) with a | ⟨_, _, _, a⟩
      · rw [a]; exact h2 p
      · have := a.length_le
        simp at this
        omega
    · have := h3.kept k' hk' p
      revert this
      cases fs2 (l ++ k' :: p) with
      | none => exact id
      | some n =>
        cases n with
        | dir => exact hsp _
        | file ro c => rintro ⟨c', h, h'⟩; exact ⟨c', hsp _ h, h'⟩

/-- The state between callbacks, in the directory `q` below the output directory. -/
structure WAny (win : Win) (w0 : WWorld) (out : Bytes) (b : Loc) (h : HLW) (q : List Bytes) : Prop where
  path : h.dirPath = some (out ++ slashed q)
  names : ∀ x ∈ q, WinName win x
  cwd : h.w.cwd = w0.cwd
  here : h.w.fs b ≠ none

theorem prefix_cons_app {α : Type} {P A B : List α} {a : α} (h : P <+: A ++ a :: B) :
    P <+: A ∨ ∃ P', P = A ++ a :: P' ∧ P' <+: B := by
  obtain ⟨t, ht⟩ := h
  rcases List.append_eq_append_iff.mp ht with ⟨u, h1, _⟩ | ⟨u, h1, h2⟩
  · exact .inl ⟨u, h1.symm⟩
  · cases u with
    | nil => exact .inl ⟨[], by simp [h1]⟩
    | cons c u =>
      simp only [List.cons_append, List.cons.injEq] at h2
      exact .inr ⟨u, by rw [h1, h2.1], ⟨t, h2.2.symm⟩⟩

theorem tree_any_win {win : Win} {part : Bytes → Bytes → Prop} (hreads : WReads win part)
    (hmore : ∀ e a c, part e a → a <+: c → part e c) (hmem : ∀ k, win.noMem k = false) {w0 : WWorld} {out : Bytes} {b : Loc}
    (h0 : 0 ∉ out) (hout : winLocate win w0.cwd out = some b) (o : Bytes) {f : Forest} {evs : List Ev}
    (he : EvsOf f evs) : ∀ (h : HLW) (q : List Bytes) (P : List Ev), P <+: evs → f.winOk win →
    WAny win w0 out b h q →
    (∀ k ∈ f.winNames win, ∀ p, h.w.fs (b ++ q.map win.same ++ k :: p) = none) →
    ∃ h', winEvents win o h P = .ok h' ∧ h'.ret = h.ret ∧ h'.w.cwd = w0.cwd ∧
      WLossy win part b (b ++ q.map win.same) f h.w.fs h'.w.fs ∧
      (P = evs → WAny win w0 out b h' q ∧ (h'.hasError = false →
        ∀ x ∈ f.winSpots win (b ++ q.map win.same), h'.w.fs x.1 ≠ none)) ∧
      ∀ K, win.stopsAt K → AtMostOne (f.winSpots win (b ++ q.map win.same)) h'.w.fs ∧
        (P = evs → Whole (f.winSpots win (b ++ q.map win.same)) h'.w.fs ∨ K ≤ h'.w.calls) := by
  induction he with
  | nil =>
    intro h q P hP _ A _
    have : P = [] := List.prefix_nil.mp hP
    subst this
    exact ⟨h, rfl, rfl, A.cwd, WLossy.refl (fun k hk => by cases hk), fun _ => ⟨A, fun _ x hx => by cases hx⟩,
      fun _ _ => ⟨Whole.one (fun x hx => by cases hx), fun _ => .inl (fun x hx => by cases hx)⟩⟩
  | @link name nm item target after mode rest evs _ _ _ _ ih =>
    intro h q P hP hok A hnew
    match P, hP with
    | [], _ =>
      exact ⟨h, rfl, rfl, A.cwd, WLossy.refl hnew, (fun e => by cases e),
        fun _ _ => ⟨(Whole.new hnew).one, (fun e => by cases e)⟩⟩
    | [e], hP =>
      obtain ⟨t, ht⟩ := hP
      simp only [List.cons_append, List.nil_append, List.cons.injEq] at ht
      obtain ⟨rfl, rfl⟩ := ht
      exact ⟨h, rfl, rfl, A.cwd, WLossy.refl hnew, (fun e => by cases e),
        fun _ _ => ⟨(Whole.new hnew).one, (fun e => by cases e)⟩⟩
    | e :: e' :: P, hP =>
      obtain ⟨t, ht⟩ := hP
      simp only [List.cons_append, List.cons.injEq] at ht
      obtain ⟨rfl, rfl, rfl⟩ := ht
      obtain ⟨h', g1, g2, g3, g4, g5, g6⟩ := ih h q P ⟨t, rfl⟩ hok A hnew
      exact ⟨h', by simpa [winEvents, winEvent, winItemStart] using g1, g2, g3, ⟨g4.other, g4.kept⟩, fun e => g5 (by simpa using e),
        fun K hs => ⟨(g6 K hs).1, fun e => (g6 K hs).2 (by simpa using e)⟩⟩
  | @file name nm item content mode ds rest evs h1 h2 h3 h4 h5 _ ih =>
    intro h q P hP hok A hnew
    obtain ⟨hn, hk, hr⟩ := hok
    have hnul : 0 ∉ out ++ slashed q ++ 47 :: name := by
      have a := slashed_nul q (fun x hx => ⟨(A.names x hx).1, (A.names x hx).2.1⟩)
      have := hn.1.2.2.2.2
      simp_all
    have hl : winLocate win h.w.cwd (out ++ slashed q ++ 47 :: name) =
        some (b ++ q.map win.same ++ [win.same name]) := by
      refine winLocate_child win _ _ _ name hn ?_
      have := winLocate_extend win w0.cwd q out b A.names hout
      rw [extendPath_eq] at this
      rw [A.cwd]; exact this
    replace ih := fun h P => ih h q P
    generalize b ++ q.map win.same = l at hl hnew ih ⊢
    match P, hP with
    | [], _ => exact ⟨h, rfl, rfl, A.cwd, WLossy.refl hnew, (fun e => by cases e),
        fun _ _ => ⟨(Whole.new hnew).one, (fun e => by cases e)⟩⟩
    | e :: P, hP =>
      obtain ⟨t, ht⟩ := hP
      simp only [List.cons_append, List.cons.injEq] at ht
      obtain ⟨rfl, ht⟩ := ht
      have hP : P <+: ds.map Ev.fileRead ++ Ev.fileEnd :: evs := ⟨t, ht⟩
      -- opening and writing
      have step : ∀ ds' : List Bytes, ds' <+: ds → ∃ h', winEvents win o h
            (.itemStart .file nm item :: ds'.map .fileRead) = .ok h' ∧ h'.ret = h.ret ∧
          h'.dirPath = h.dirPath ∧ h'.w.cwd = h.w.cwd ∧ h'.fd ≠ .closed ∧
          (h'.w.fs = h.w.fs ∧ h'.hasError = true ∨
            ∃ e, part e content ∧
              h'.w.fs = h.w.fs.put (l ++ [win.same name]) (.file (winReadOnly mode) e) ∧
              ∀ K, win.stopsAt K → e = ds'.flatten ∨ K ≤ h'.w.calls) := by
        rintro ds' ⟨u, hu⟩
        have hsub : ds'.flatten <+: content := by
          rw [← h4, ← hu, List.flatten_append]
          exact List.prefix_append _ _
        rcases winOpen_any (winReadOnly mode) hl (hnew _ List.mem_cons_self []) with ho | ho
        · have hst : winEvent win o h (.itemStart .file nm item) = .ok
              { h with w := h.w.tick, fd := .bad, hasError := true } := by
            simp only [winEvent, winItemStart, winFileItem, winItemPath, A.path, Option.getD_some, if_pos h1,
              h2, cString_plain _ hnul, h3, ho]
          obtain ⟨h', g1, g2, g3, g4⟩ := winReads_bad win o ds'
            { h with w := h.w.tick, fd := .bad, hasError := true } rfl
          refine ⟨h', by rw [winEvents, hst]; exact g1, by rw [g2], by rw [g2], g3, by rw [g2]; simp,
            .inl ⟨g4, by rw [g2]⟩⟩
        · have hst : winEvent win o h (.itemStart .file nm item) = .ok
              { h with w := (h.w.put (l ++ [win.same name]) (.file (winReadOnly mode) [])).tick,
                       fd := .opened ⟨l ++ [win.same name], 0⟩ } := by
            simp only [winEvent, winItemStart, winFileItem, winItemPath, A.path, Option.getD_some, if_pos h1,
              h2, cString_plain _ hnul, h3, ho]
          obtain ⟨h', e, g0, g1, g2, g3, g4, g7⟩ := hreads o (l ++ [win.same name]) (winReadOnly mode) ds'
            { h with w := (h.w.put (l ++ [win.same name]) (.file (winReadOnly mode) [])).tick,
                     fd := .opened ⟨l ++ [win.same name], 0⟩ }
            (by simp [WWorld.tick, WWorld.put, WFS.put]) rfl
          refine ⟨h', by rw [winEvents, hst]; exact g1, by rw [g2], by rw [g2], g3, by rw [g2]; simp,
            .inr ⟨e, hmore _ _ _ g0 hsub, ?_, g7⟩⟩
          rw [g4]
          simp only [WWorld.tick, WWorld.put, WFS.put_put]
      have mid : ∀ fs1 fs2 : WFS, (fs1 = h.w.fs ∨ ∃ e, part e content ∧
          fs1 = h.w.fs.put (l ++ [win.same name]) (.file (winReadOnly mode) e)) →
          WLossy win part b l rest fs1 fs2 → WLossy win part b l (.file name mode content rest) h.w.fs fs2 := by
        intro fs1 fs2 hfs hr'
        refine WLossy.cons (k := win.same name) rfl hk (fun x hx => List.mem_cons_of_mem _ hx) ?_ ?_ hr'
        · intro x hx
          left
          rcases hfs with e | ⟨e, _, e'⟩
          · rw [e]
          · rw [e', WFS.put, if_neg (hx [])]
        · intro p
          rcases hfs with e | ⟨e, he, e'⟩
          · rw [e, hnew _ List.mem_cons_self p]; trivial
          · rw [e', WFS.put]
            split
            · rename_i hx
              rw [hx]
              exact ⟨content, List.mem_cons_self, he⟩
            · rw [hnew _ List.mem_cons_self p]; trivial
      have absent : ∀ fs1 : WFS, (fs1 = h.w.fs ∨ ∃ e, part e content ∧
          fs1 = h.w.fs.put (l ++ [win.same name]) (.file (winReadOnly mode) e)) →
          ∀ k ∈ rest.winNames win, ∀ p, fs1 (l ++ k :: p) = none := by
        intro fs1 hfs k hk' p
        have := hnew k (List.mem_cons_of_mem _ hk') p
        rcases hfs with e | ⟨e, _, e'⟩
        · rw [e]; exact this
        · rw [e', WFS.put, if_neg]
          · exact this
          · intro e
            have := List.append_cancel_left e
            simp only [List.cons.injEq] at this
            exact hk (this.1 ▸ hk')
      rcases prefix_cons_app hP with hP | ⟨P', rfl, hP'⟩
      · obtain ⟨ds', hds, rfl⟩ : ∃ ds', ds' <+: ds ∧ P = ds'.map Ev.fileRead := by
          refine ⟨ds.take P.length, List.take_prefix _ _, ?_⟩
          rw [List.map_take]
          exact List.prefix_iff_eq_take.mp hP
        obtain ⟨h', a1, a2, a3, a4, a5, a6⟩ := step ds' hds
        have hfs : h'.w.fs = h.w.fs ∨ ∃ e, part e content ∧
            h'.w.fs = h.w.fs.put (l ++ [win.same name]) (.file (winReadOnly mode) e) := by
          rcases a6 with a | ⟨e, a, a', _⟩
          · exact .inl a.1
          · exact .inr ⟨e, a, a'⟩
        have hpart : Ev.itemStart .file nm item :: ds'.map Ev.fileRead ≠
            .itemStart .file nm item :: (ds.map .fileRead ++ .fileEnd :: evs) := by
          intro e
          simp only [List.cons.injEq, true_and] at e
          have := congrArg List.length e
          have hl1 := hds.length_le
          simp at this
          omega
        exact ⟨h', a1, a2, a4.trans A.cwd, mid _ _ hfs (WLossy.refl (absent _ hfs)), fun e => absurd e hpart,
          fun K _ => ⟨(AtMostOne.single _ _).append (Whole.new (absent _ hfs)), fun e => absurd e hpart⟩⟩
      · obtain ⟨h', a1, a2, a3, a4, a5, a6⟩ := step ds List.prefix_rfl
        have hfs : h'.w.fs = h.w.fs ∨ ∃ e, part e content ∧
            h'.w.fs = h.w.fs.put (l ++ [win.same name]) (.file (winReadOnly mode) e) := by
          rcases a6 with a | ⟨e, a, a', _⟩
          · exact .inl a.1
          · exact .inr ⟨e, a, a'⟩
        obtain ⟨h2', hend, e1, e2, e3, e4, e5, e6⟩ : ∃ h2', winEvent win o h' .fileEnd = .ok h2' ∧
            h2'.w.fs = h'.w.fs ∧ h2'.w.cwd = h'.w.cwd ∧ h2'.ret = h'.ret ∧ h2'.dirPath = h'.dirPath ∧
            h2'.hasError = h'.hasError ∧ h'.w.calls ≤ h2'.w.calls := by
          rw [winEvent, winFileEnd]
          cases hfd : h'.fd with
          | bad => exact ⟨_, rfl, rfl, rfl, rfl, rfl, rfl, Nat.le_succ _⟩
          | closed => exact absurd hfd a5
          | opened _ => exact ⟨_, rfl, rfl, rfl, rfl, rfl, rfl, Nat.le_succ _⟩
        have hhere : h'.w.fs b ≠ none := by
          rcases hfs with e | ⟨e, _, e'⟩
          · rw [e]; exact A.here
          · rw [e', WFS.put]
            split
            · simp
            · exact A.here
        obtain ⟨h3', k1, k2, k3, k4, k5, k6⟩ := ih h2' P' hP' hr
          ⟨e4.trans (a3.trans A.path), A.names, e2.trans (a4.trans A.cwd), by rw [e1]; exact hhere⟩
          (by rw [e1]; exact absent _ hfs)
        have hrun : winEvents win o h (.itemStart .file nm item :: (ds.map .fileRead ++ .fileEnd :: P')) =
            .ok h3' := by
          rw [show (Ev.itemStart .file nm item :: (ds.map Ev.fileRead ++ Ev.fileEnd :: P')) =
            (Ev.itemStart .file nm item :: ds.map Ev.fileRead) ++ Ev.fileEnd :: P' from rfl, winEvents_append, a1]
          dsimp only
          rw [winEvents, hend]
          exact k1
        have hx0 : h3'.w.fs (l ++ [win.same name]) = h'.w.fs (l ++ [win.same name]) := by
          rcases k4.other (l ++ [win.same name]) (by
            intro k hk' p e
            have := List.append_cancel_left e
            simp only [List.cons.injEq] at this
            exact hk (this.1 ▸ hk')) with a | ⟨_, _, _, a⟩
          · rw [a, e1]
          · have := a.length_le
            rw [List.length_append, List.length_singleton] at this
            omega
        have hone : ∀ K, win.stopsAt K →
            AtMostOne ((Forest.file name mode content rest).winSpots win l) h3'.w.fs ∧
            (P' = evs → Whole ((Forest.file name mode content rest).winSpots win l) h3'.w.fs ∨ K ≤ h3'.w.calls) := by
          intro K hs
          have hcase : Whole [(l ++ [win.same name], WNode.file (winReadOnly mode) content)] h3'.w.fs ∨
              K ≤ h'.w.calls := by
            rcases a6 with a | ⟨e, _, a, a'⟩
            · left
              intro s hs
              rw [List.mem_singleton.mp hs]
              left
              show h3'.w.fs (l ++ [win.same name]) = none
              rw [hx0, a.1]
              exact hnew _ List.mem_cons_self []
            · rcases a' K hs with a' | a'
              · left
                intro s hs
                rw [List.mem_singleton.mp hs]
                right
                show h3'.w.fs (l ++ [win.same name]) = _
                rw [hx0, a, a', h4]
                simp [WFS.put]
              · exact .inr a'
          rcases hcase with hc | hc
          · exact ⟨hc.append_one (k6 K hs).1, fun e => ((k6 K hs).2 e).imp (fun w => hc.append w) id⟩
          · obtain ⟨z1, z2⟩ := winEvents_gone hs o P' h2' h3' k1 (Nat.le_trans hc e6)
            refine ⟨(AtMostOne.single _ _).append (Whole.new ?_), fun _ => .inr z2⟩
            rw [z1, e1]
            exact absent _ hfs
        refine ⟨h3', hrun, k2.trans (e3.trans a2), k3, mid _ _ hfs (by rw [← e1]; exact k4), fun e => ?_,
          fun K hs => ⟨(hone K hs).1, fun e => (hone K hs).2 (by simpa using e)⟩⟩
        have he' : P' = evs := by simpa using e
        obtain ⟨m1, m2⟩ := k5 he'
        refine ⟨m1, fun hne x hx => ?_⟩
        rcases List.mem_cons.mp hx with rfl | hx
        · have herr : h'.hasError = false := by
            cases hh : h'.hasError with
            | false => rfl
            | true =>
              have := winEvents_err win o P' h2' h3' k1 (e5.trans hh)
              rw [hne] at this; cases this
          rcases a6 with a | ⟨e, _, a, _⟩
          · rw [herr] at a; cases a.2
          · have hkp := (winEvents_keeps win o P' h2' h3' k1).1
            obtain ⟨n', hn', _⟩ := hkp (l ++ [win.same name]) (.file (winReadOnly mode) e)
              (by rw [e1, a]; simp [WFS.put])
            rw [hn']; simp
        · exact m2 hne x hx
  | @dir name nm item mode sub rest evs evs' h1 h2 h3 _ _ ihs ih =>
    intro h q P hP hok A hnew
    obtain ⟨hn, hk, hs, hr⟩ := hok
    have hqn : ∀ x ∈ q ++ [name], WinName win x := by
      intro x hx
      rcases List.mem_append.mp hx with hx | hx
      · exact A.names x hx
      · rw [List.mem_singleton.mp hx]; exact hn
    have hpe : out ++ slashed q ++ 47 :: name = out ++ slashed (q ++ [name]) := by
      rw [slashed_snoc]; simp
    have hnul : 0 ∉ out ++ slashed q ++ 47 :: name := by
      have a := slashed_nul q (fun x hx => ⟨(A.names x hx).1, (A.names x hx).2.1⟩)
      have := hn.1.2.2.2.2
      simp only [List.mem_append, List.mem_cons, not_or]
      exact ⟨⟨h0, a⟩, by decide, this⟩
    obtain ⟨d1, d2⟩ := winMkdir_added h.w.tick h0 (by rw [← hout, ← A.cwd]; rfl) (.inl A.here) (q ++ [name]) hqn
    have hsucc : (winMkdir win (out ++ slashed (q ++ [name])) h.w.tick).1 = 0 →
        (winMkdir win (out ++ slashed (q ++ [name])) h.w.tick).2.fs
          (b ++ (q ++ [name]).map win.same) = some .dir := by
      intro h'
      obtain ⟨x, e1, _, e3⟩ := winMkdir_success (by rw [← hpe]; exact hnul)
        (show winMkdir win (out ++ slashed (q ++ [name])) h.w.tick = (0, _) from Prod.ext h' rfl)
      have := winLocate_extend win w0.cwd (q ++ [name]) out b hqn hout
      rw [extendPath_eq] at this
      have e1' : winLocate win w0.cwd (out ++ slashed (q ++ [name])) = some x := by rw [← A.cwd]; exact e1
      have : x = b ++ (q ++ [name]).map win.same := Option.some.inj (e1'.symm.trans this)
      rw [← this]; exact e3
    have hst : winEvent win o h (.itemStart .dir nm item) = .ok
        { h with w := (winMkdir win (out ++ slashed (q ++ [name])) h.w.tick).2,
                 dirPath := some (out ++ slashed (q ++ [name])),
                 hasError := h.hasError || (winMkdir win (out ++ slashed (q ++ [name])) h.w.tick).1 != 0 } := by
      simp only [winEvent, winItemStart, winDirItem, hmem, Bool.false_eq_true, if_false, winItemPath,
        A.path, Option.getD_some, if_pos h1, h2, hpe, cString_plain _ (hpe ▸ hnul)]
    generalize winMkdir win (out ++ slashed (q ++ [name])) h.w.tick = mk at d1 d2 hst hsucc
    obtain ⟨r, w1⟩ := mk
    dsimp only at d1 d2 hst hsucc
    replace ihs := fun h => ihs h (q ++ [name])
    replace ih := fun h => ih h q
    have hln : b ++ (q ++ [name]).map win.same = b ++ q.map win.same ++ [win.same name] := by simp
    rw [hln] at d2 ihs hsucc
    have hbl : b <+: b ++ q.map win.same := List.prefix_append _ _
    generalize b ++ q.map win.same = l at d2 ihs ih hnew hsucc hbl ⊢
    have hw1 : ∀ x, w1.fs x = h.w.fs x ∨ (h.w.fs x = none ∧ w1.fs x = some .dir ∧ b <+: x ∧
        x <+: l ++ [win.same name]) := d2
    have hb1 : w1.fs b ≠ none := by
      rcases hw1 b with e | e
      · rw [e]; exact A.here
      · rw [e.2.1]; simp
    have hsubnew : ∀ k ∈ sub.winNames win, ∀ p, w1.fs (l ++ [win.same name] ++ k :: p) = none := by
      intro k _ p
      rcases hw1 (l ++ [win.same name] ++ k :: p) with e | e
      · rw [e]
        have := hnew (win.same name) List.mem_cons_self (k :: p)
        simpa using this
      · have := e.2.2.2.length_le
        simp at this
    have mid1 : ∀ fs1 : WFS, WLossy win part b (l ++ [win.same name]) sub w1.fs fs1 →
        ∀ x, (∀ p, x ≠ l ++ win.same name :: p) →
          fs1 x = h.w.fs x ∨ (h.w.fs x = none ∧ fs1 x = some .dir ∧ b <+: x ∧ x <+: l) := by
      intro fs1 L x hx
      have hcut : x <+: l ++ [win.same name] → x <+: l := by
        intro hp
        rcases List.prefix_concat_iff.mp hp with e | e
        · exact absurd e (hx [])
        · exact e
      rcases L.other x (by
        intro k _ p e
        exact hx (k :: p) (by rw [e]; simp)) with a | ⟨a1, a2, a3, a4⟩
      · rw [a]
        rcases hw1 x with c | ⟨c1, c2, c3, c4⟩
        · exact .inl c
        · exact .inr ⟨c1, c2, c3, hcut c4⟩
      · rcases hw1 x with c | ⟨c1, c2, _⟩
        · exact .inr ⟨c ▸ a1, a2, a3, hcut a4⟩
        · rw [c2] at a1; cases a1
    have own : ∀ fs1 : WFS, WLossy win part b (l ++ [win.same name]) sub w1.fs fs1 →
        Whole [(l ++ [win.same name], WNode.dir)] fs1 := by
      intro fs1 L s hs
      rw [List.mem_singleton.mp hs]
      show fs1 (l ++ [win.same name]) = none ∨ fs1 (l ++ [win.same name]) = some .dir
      rcases L.other (l ++ [win.same name]) (by
        intro k _ p e
        have := congrArg List.length e
        simp at this) with a | a
      · rw [a]
        rcases hw1 (l ++ [win.same name]) with c | c
        · left; rw [c]; exact hnew _ List.mem_cons_self []
        · right; exact c.2.1
      · right; exact a.2.1
    have mid2 : ∀ fs1 : WFS, WLossy win part b (l ++ [win.same name]) sub w1.fs fs1 →
        ∀ p, (Forest.dir name mode sub rest).winRemains win part l (l ++ win.same name :: p)
          (fs1 (l ++ win.same name :: p)) := by
      intro fs1 L p
      have hself : ∀ n : Option WNode, n = none ∨ n = some .dir →
          (Forest.dir name mode sub rest).winRemains win part l (l ++ [win.same name]) n := by
        rintro n (rfl | rfl)
        · trivial
        · exact List.mem_cons_self
      cases p with
      | nil =>
        refine hself _ ?_
        rcases L.other (l ++ [win.same name]) (by
          intro k _ p e
          have := congrArg List.length e
          simp at this) with a | a
        · rw [a]
          rcases hw1 (l ++ [win.same name]) with c | c
          · left; rw [c]; exact hnew _ List.mem_cons_self []
          · right; exact c.2.1
        · right; exact a.2.1
      | cons k p =>
        have e : l ++ win.same name :: k :: p = l ++ [win.same name] ++ k :: p := by simp
        rw [e]
        by_cases hkn : k ∈ sub.winNames win
        · have := L.kept k hkn p
          revert this
          cases fs1 (l ++ [win.same name] ++ k :: p) with
          | none => exact id
          | some n =>
            cases n with
            | dir => exact fun h => List.mem_cons_of_mem _ (List.mem_append_left _ h)
            | file ro c =>
              rintro ⟨c', h, h'⟩
              exact ⟨c', List.mem_cons_of_mem _ (List.mem_append_left _ h), h'⟩
        · rcases L.other (l ++ [win.same name] ++ k :: p) (by
            intro k' hk' p' e
            have := List.append_cancel_left e
            simp only [List.cons.injEq] at this
            exact hkn (this.1 ▸ hk')) with a | a
          · rw [a]
            rcases hw1 (l ++ [win.same name] ++ k :: p) with c | c
            · rw [c]
              have := hnew (win.same name) List.mem_cons_self (k :: p)
              rw [e] at this
              rw [this]; trivial
            · have := c.2.2.2.length_le
              simp at this
          · have := a.2.2.2.length_le
            simp at this
    have absent : ∀ fs1 : WFS, WLossy win part b (l ++ [win.same name]) sub w1.fs fs1 →
        ∀ k ∈ rest.winNames win, ∀ p, fs1 (l ++ k :: p) = none := by
      intro fs1 L k hk' p
      rcases mid1 fs1 L (l ++ k :: p) (by
        intro p' e
        have := List.append_cancel_left e
        simp only [List.cons.injEq] at this
        exact hk (this.1 ▸ hk')) with a | a
      · rw [a]; exact hnew k (List.mem_cons_of_mem _ hk') p
      · have := a.2.2.2.length_le
        simp at this
        omega
    have mid : ∀ fs1 fs2 : WFS, WLossy win part b (l ++ [win.same name]) sub w1.fs fs1 →
        WLossy win part b l rest fs1 fs2 → WLossy win part b l (.dir name mode sub rest) h.w.fs fs2 := fun fs1 fs2 L L' =>
      WLossy.cons (k := win.same name) rfl hk
        (fun x hx => List.mem_cons_of_mem _ (List.mem_append_right _ hx)) (mid1 fs1 L) (mid2 fs1 L) L'
    match P, hP with
    | [], _ => exact ⟨h, rfl, rfl, A.cwd, WLossy.refl hnew, (fun e => by cases e),
        fun _ _ => ⟨(Whole.new hnew).one, (fun e => by cases e)⟩⟩
    | e :: P, hP =>
      obtain ⟨t, ht⟩ := hP
      simp only [List.cons_append, List.cons.injEq] at ht
      obtain ⟨rfl, ht⟩ := ht
      have hP : P <+: evs ++ Ev.dirEnd :: evs' := ⟨t, ht⟩
      have A1 : WAny win w0 out b
          { h with w := w1, dirPath := some (out ++ slashed (q ++ [name])),
                   hasError := h.hasError || r != 0 } (q ++ [name]) :=
        ⟨rfl, hqn, d1.trans A.cwd, hb1⟩
      rcases prefix_cons_app hP with hP | ⟨P', rfl, hP'⟩
      · obtain ⟨h', g1, g2, g3, g4, g5, g6⟩ := ihs _ P hP hs A1 hsubnew
        have hpart : Ev.itemStart .dir nm item :: P ≠ .itemStart .dir nm item :: (evs ++ .dirEnd :: evs') := by
          intro e
          simp only [List.cons.injEq, true_and] at e
          have := congrArg List.length e
          have := hP.length_le
          simp at *
          omega
        exact ⟨h', by rw [winEvents, hst]; exact g1, g2, g3, mid _ _ g4 (WLossy.refl (absent _ g4)),
          fun e => absurd e hpart, fun K hs =>
          ⟨(own _ g4).append_one ((g6 K hs).1.append (Whole.new (absent _ g4))), fun e => absurd e hpart⟩⟩
      · obtain ⟨h', g1, g2, g3, g4, g5, g7⟩ := ihs _ evs List.prefix_rfl hs A1 hsubnew
        obtain ⟨A2, g6⟩ := g5 rfl
        have hend : winEvent win o h' .dirEnd = .ok { h' with dirPath := some (out ++ slashed q) } := by
          rw [winEvent, winDirEnd, A2.path, ← hpe]
          dsimp only
          rw [cString_plain _ hnul, lastIndexOf_append 47 (out ++ slashed q) name hn.1.2.2.2.1]
          dsimp only
          rw [List.take_left' rfl]
        obtain ⟨h3', k1, k2, k3, k4, k5, k6⟩ := ih { h' with dirPath := some (out ++ slashed q) } P' hP' hr
          ⟨rfl, A.names, A2.cwd, A2.here⟩ (absent _ g4)
        have hrun : winEvents win o h (.itemStart .dir nm item :: (evs ++ .dirEnd :: P')) = .ok h3' := by
          rw [winEvents, hst]
          dsimp only
          rw [winEvents_append, g1]
          dsimp only
          rw [winEvents, hend]
          exact k1
        have hx0 : ∀ p, h3'.w.fs (l ++ win.same name :: p) = h'.w.fs (l ++ win.same name :: p) := by
          intro p
          rcases k4.other (l ++ win.same name :: p) (by
            intro k hk' p' e
            have := List.append_cancel_left e
            simp only [List.cons.injEq] at this
            exact hk (this.1 ▸ hk')) with a | ⟨_, _, _, a⟩
          · exact a
          · have := a.length_le
            simp at this
            omega
        have hsub : ∀ s ∈ sub.winSpots win (l ++ [win.same name]), h3'.w.fs s.1 = h'.w.fs s.1 := by
          intro s hs
          obtain ⟨k, _, p, e⟩ := sub.winSpots_under win _ s hs
          rw [e, List.append_assoc]
          exact hx0 _
        have hown : Whole [(l ++ [win.same name], WNode.dir)] h3'.w.fs :=
          (own _ g4).congr fun s hs => by rw [List.mem_singleton.mp hs]; exact hx0 []
        have hone : ∀ K, win.stopsAt K →
            AtMostOne ((Forest.dir name mode sub rest).winSpots win l) h3'.w.fs ∧
            (P' = evs' → Whole ((Forest.dir name mode sub rest).winSpots win l) h3'.w.fs ∨ K ≤ h3'.w.calls) := by
          intro K hs
          rcases (g7 K hs).2 rfl with hc | hc
          · have hc := hc.congr hsub
            exact ⟨hown.append_one (hc.append_one (k6 K hs).1), fun e =>
              ((k6 K hs).2 e).imp (fun w => hown.append (hc.append w)) id⟩
          · obtain ⟨z1, z2⟩ := winEvents_gone hs o P' _ h3' k1 hc
            refine ⟨hown.append_one (((g7 K hs).1.congr hsub).append (Whole.new ?_)), fun _ => .inr z2⟩
            rw [z1]
            exact absent _ g4
        refine ⟨h3', hrun, k2.trans g2, k3, mid _ _ g4 k4, fun e => ?_,
          fun K hs => ⟨(hone K hs).1, fun e => (hone K hs).2 (by simpa using e)⟩⟩
        have he' : P' = evs' := by simpa using e
        obtain ⟨m1, m2⟩ := k5 he'
        refine ⟨m1, fun hne x hx => ?_⟩
        have herr : h'.hasError = false := by
          cases hh : h'.hasError with
          | false => rfl
          | true =>
            have := winEvents_err win o P' _ h3' k1 hh
            rw [hne] at this; cases this
        have hkp := (winEvents_keeps win o P' _ h3' k1).1
        rcases List.mem_cons.mp hx with rfl | hx
        · have hr0 : r = 0 := by
            rcases Decidable.em (r = 0) with e | e
            · exact e
            · have := winEvents_err win o evs _ h' g1 (by simp [e])
              rw [herr] at this; cases this
          have := hsucc hr0
          obtain ⟨n', hn', _⟩ := (winEvents_keeps win o evs _ h' g1).1 (l ++ [win.same name]) .dir this
          obtain ⟨n'', hn'', _⟩ := hkp (l ++ [win.same name]) n' hn'
          rw [hn'']; simp
        · rcases List.mem_append.mp hx with hx | hx
          · have := g6 herr x hx
            cases hxx : h'.w.fs x.1 with
            | none => exact absurd hxx this
            | some n =>
              obtain ⟨n', hn', _⟩ := hkp x.1 n hxx
              rw [hn']; simp
          · exact m2 hne x hx

end Zwt
