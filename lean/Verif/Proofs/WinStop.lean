import Verif.Proofs.WinLossy
import Verif.Proofs.WinFile

/-! Extraction of a tree on Windows that is cut off. -/

namespace Zwt

/-- The same, not cut off. -/
def Win.freed (win : Win) : Win := { win with refuses := fun _ => false }

theorem Win.stopsAt.freed {win : Win} {K : Nat} (h : win.stopsAt K) : win.freed.quiet :=
  ⟨fun _ => rfl, h.accepts, h.mem⟩

theorem winWalk_freed (win : Win) (cs : List Bytes) : ∀ l, winWalk win.freed l cs = winWalk win l cs := by
  induction cs with
  | nil => intro l; rfl
  | cons c cs ih => intro l; simp only [winWalk, ih, show win.freed.key = win.key from rfl]

theorem winLocate_freed (win : Win) (cwd : Loc) (p : Bytes) : winLocate win.freed cwd p = winLocate win cwd p := by
  simp only [winLocate, winWalk_freed]

/-! ### Calls -/

theorem winCreate_free {win : Win} {K : Nat} (hs : win.stopsAt K) {w : WWorld} (hc : w.calls < K) (s : Bytes) :
    winCreate win w s = winCreate win.freed w s := by
  simp only [winCreate, winLocate_freed]
  rw [hs.refuses]
  simp [Win.freed, Nat.not_le.mpr hc]

theorem winRestore_free {win : Win} {K : Nat} (hs : win.stopsAt K) :
    ∀ (idxs : List Nat) (mem : Bytes) (w : WWorld),
    K ≤ (winRestore win idxs mem w).2.calls ∨ winRestore win idxs mem w = winRestore win.freed idxs mem w := by
  intro idxs
  induction idxs with
  | nil => intro mem w; exact .inr rfl
  | cons i idxs ih =>
    intro mem w
    by_cases hc : w.calls < K
    · rw [winRestore, winRestore, ← winCreate_free hs hc]
      generalize winCreate win w (cString (mem.set i 47)) = x
      obtain ⟨r, w1⟩ := x
      dsimp only
      split
      · exact .inr rfl
      · exact ih _ _
    · left
      have := winRestore_calls win (i :: idxs) mem w
      omega

theorem winCut_free {win : Win} {K : Nat} (hs : win.stopsAt K) :
    ∀ (n : Nat) (idxs : List Nat) (mem : Bytes) (w : WWorld),
    K ≤ (winCut win n idxs mem w).2.calls ∨ winCut win n idxs mem w = winCut win.freed n idxs mem w := by
  intro n
  induction n with
  | zero => intro idxs mem w; exact .inr rfl
  | succ n ih =>
    intro idxs mem w
    by_cases hc : w.calls < K
    · rw [winCut, winCut]
      split
      · exact .inr rfl
      · rename_i i _
        rw [← winCreate_free hs hc]
        generalize winCreate win w (cString (mem.set i 0)) = x
        obtain ⟨r, w1⟩ := x
        dsimp only
        split
        · exact .inr rfl
        · split
          · split
            · exact winRestore_free hs _ _ _
            · exact .inr rfl
          · exact ih _ _ _
    · left
      have := winCut_calls win (n + 1) idxs mem w
      omega

/-- Either the calls have run out, or the directory is created as if they never would. -/
theorem winMkdir_free {win : Win} {K : Nat} (hs : win.stopsAt K) (path : Bytes) (w : WWorld) :
    K ≤ (winMkdir win path w).2.calls ∨ winMkdir win path w = winMkdir win.freed path w := by
  simp only [winMkdir]
  rw [show win.freed.noMem = win.noMem from rfl]
  split
  · exact .inr rfl
  · simp only [winMkdirRaw]
    by_cases hc : w.tick.calls < K
    · rw [← winCreate_free hs hc]
      generalize winCreate win w.tick path = x
      obtain ⟨r, w1⟩ := x
      dsimp only
      split
      · exact .inr rfl
      · exact winCut_free hs _ _ _ _
    · left
      have h := winCreate_calls win w.tick path
      generalize winCreate win w.tick path = x at h
      obtain ⟨r, w1⟩ := x
      dsimp only at h ⊢
      split
      · dsimp only; omega
      · have := winCut_calls win 62 [] path w1; omega

/-! ### Files -/

theorem wreads_stop {win : Win} {K : Nat} (hs : win.stopsAt K) : WReads win (· <+: ·) := by
  intro out l ro ds h hc hfd
  obtain ⟨h', e, g0, _, _, g⟩ := winReads_stop hs out l ro ds h [] hc hfd
  rw [List.nil_append] at g
  obtain ⟨h2, e2, _, g1, g2, g3, g4, g5⟩ := wreads_any win out l ro ds h hc hfd
  have hh := g.1
  rw [g1] at hh
  cases hh
  have he : e2 = e := by
    have := congrFun (g4.symm.trans g.2.2.2) l
    simpa [WFS.put] using this
  subst he
  exact ⟨h', e2, g0, g1, g2, g3, g4, g5⟩

theorem winFlReads_stop {win : Win} {K : Nat} (hs : win.stopsAt K) (out : Bytes) (l : Loc) (ro : Bool)
    (ds : List Bytes) :
    ∀ (h : HLW) (c : Bytes), h.w.fs l = some (.file ro c) → h.fpOut = some ⟨l, c.length⟩ →
    ∃ h' e, e <+: ds.flatten ∧ (K ≤ h.w.calls → e = []) ∧ winEvents win out h (ds.map .flRead) = .ok h' ∧
      h'.w.cwd = h.w.cwd ∧ h'.w.fs = h.w.fs.put l (.file ro (c ++ e)) := by
  induction ds with
  | nil =>
    intro h c hc hfd
    refine ⟨h, [], List.nil_prefix, fun _ => rfl, rfl, rfl, ?_⟩
    funext x
    simp only [WFS.put, List.append_nil]
    split
    · rename_i hx; rw [hx, hc]
    · rfl
  | cons d ds ih =>
    intro h c hc hfd
    by_cases hk : K ≤ h.w.calls
    · have hw : winWrite win h.w ⟨l, c.length⟩ d = (⟨l, c.length⟩, h.w.tick) := by
        simp [winWrite, hs.refuses, hk]
      obtain ⟨h', e, g0, g, g1, g3, g4⟩ := ih { h with w := h.w.tick, fpOut := some ⟨l, c.length⟩ } c hc rfl
      have he := g (by show K ≤ h.w.calls + 1; omega)
      subst he
      refine ⟨h', [], List.nil_prefix, fun _ => rfl, ?_, g3, g4⟩
      simp only [List.map_cons, winEvents, winEvent, winFileData, hfd, hw]
      exact g1
    · have hw : winWrite win h.w ⟨l, c.length⟩ d =
          (⟨l, (c ++ d).length⟩, (h.w.put l (.file ro (c ++ d))).tick) := by
        simp only [winWrite, hs.refuses, hk, decide_false, Bool.false_eq_true, if_false, hc,
          List.take_of_length_le (hs.accepts _ _), pwrite_end, List.length_append]
      obtain ⟨h', e, g0, g, g1, g3, g4⟩ := ih
        { h with w := (h.w.put l (.file ro (c ++ d))).tick, fpOut := some ⟨l, (c ++ d).length⟩ } (c ++ d)
        (by simp [WWorld.tick, WWorld.put, WFS.put]) rfl
      refine ⟨h', d ++ e, ?_, fun h => absurd h hk, ?_, g3, ?_⟩
      · rw [List.flatten_cons]; exact (List.prefix_append_right_inj d).mpr g0
      · simp only [List.map_cons, winEvents, winEvent, winFileData, hfd, hw]
        exact g1
      · rw [g4]
        show ((h.w.put l (.file ro (c ++ d))).tick.fs.put _ _) = _
        simp only [WWorld.tick, WWorld.put, WFS.put_put, List.append_assoc]

/-- The callbacks of a file archive, cut off after the opening of the file. -/
theorem win_file_stop {win : Win} {K : Nat} (hs : win.stopsAt K) (out : Bytes) (w : WWorld) (l : Loc)
    (ds : List Bytes) (ho : (winOpen win w out false true).1 = some l) :
    ∃ h' e, winEvents win out (HLW.init w) (.flStart :: ds.map .flRead) = .ok h' ∧
      e <+: ds.flatten ∧ h'.w.cwd = w.cwd ∧ h'.w.fs = w.fs.put l (.file false e) := by
  cases hop : winOpen win w out false true with
  | mk ol w' =>
    rw [hop] at ho
    cases ho
    obtain ⟨_, h2, h3, _⟩ := winOpen_trunc hop
    obtain ⟨h', e, g0, _, g1, g3, g4⟩ := winFlReads_stop hs out l false ds
      { HLW.init w with w := w', fpOut := some ⟨l, 0⟩, ret := CT_FILE } [] (by
        show w'.fs l = _
        rw [h3]; simp [WFS.put]) rfl
    refine ⟨h', e, ?_, g0, g3.trans h2, ?_⟩
    · simp only [winEvents, winEvent, winFileStart, HLW.init, hop]
      exact g1
    · rw [g4]
      show w'.fs.put _ _ = _
      rw [h3, WFS.put_put, List.nil_append]

/-! ### Callbacks after the last call -/

/-- The process when all calls are refused. -/
structure WGone (K : Nat) (w0 : WWorld) (h : HLW) : Prop where
  fs : h.w.fs = w0.fs
  cwd : h.w.cwd = w0.cwd
  err : h.hasError = true
  calls : K ≤ h.w.calls

theorem winReads_gone {win : Win} {K : Nat} {w0 : WWorld} (o : Bytes) (ds : List Bytes) : ∀ (h : HLW),
    h.fd = .bad → WGone K w0 h →
    ∃ h', winEvents win o h (ds.map .fileRead) = .ok h' ∧ h'.fd = .bad ∧ h'.dirPath = h.dirPath ∧ WGone K w0 h' := by
  induction ds with
  | nil => intro h hf g; exact ⟨h, rfl, hf, rfl, g⟩
  | cons d ds ih =>
    intro h hf g
    obtain ⟨h', a1, a2, a3, a4⟩ := ih { h with w := h.w.tick } hf
      ⟨g.fs, g.cwd, g.err, by show K ≤ h.w.calls + 1; have := g.calls; omega⟩
    refine ⟨h', ?_, a2, a3, a4⟩
    simp only [List.map_cons, winEvents, winEvent, winFileRead, hf]
    rw [hf] at a1
    exact a1

theorem tree_gone {win : Win} {K : Nat} (hs : win.stopsAt K) {w0 : WWorld} (o : Bytes) {f : Forest}
    {evs : List Ev} (he : EvsOf f evs) : ∀ (h : HLW) (q : List Bytes) (P : List Ev), P <+: evs → f.winOk win →
    (∀ x ∈ q, WinName win x) → h.dirPath.getD [] = slashed q → WGone K w0 h →
    ∃ h', winEvents win o h P = .ok h' ∧ WGone K w0 h' ∧ (P = evs → h'.dirPath.getD [] = slashed q ∧
      (h.dirPath ≠ none → h'.dirPath ≠ none)) := by
  induction he with
  | nil =>
    intro h q P hP _ _ hd g
    have : P = [] := List.prefix_nil.mp hP
    subst this
    exact ⟨h, rfl, g, fun _ => ⟨hd, id⟩⟩
  | @link name nm item target after mode rest evs _ _ _ _ ih =>
    intro h q P hP hok hq hd g
    match P, hP with
    | [], _ => exact ⟨h, rfl, g, fun e => by cases e⟩
    | [e], hP =>
      obtain ⟨t, ht⟩ := hP
      simp only [List.cons_append, List.nil_append, List.cons.injEq] at ht
      obtain ⟨rfl, rfl⟩ := ht
      exact ⟨h, rfl, g, fun e => by cases e⟩
    | e :: e' :: P, hP =>
      obtain ⟨t, ht⟩ := hP
      simp only [List.cons_append, List.cons.injEq] at ht
      obtain ⟨rfl, rfl, rfl⟩ := ht
      obtain ⟨h', g1, g2, g3⟩ := ih h q P ⟨t, rfl⟩ hok hq hd g
      exact ⟨h', by simpa [winEvents, winEvent, winItemStart] using g1, g2, fun e => g3 (by simpa using e)⟩
  | @file name nm item content mode ds rest evs h1 h2 h3 h4 h5 _ ih =>
    intro h q P hP hok hq hd g
    obtain ⟨hn, hk, hr⟩ := hok
    match P, hP with
    | [], _ => exact ⟨h, rfl, g, fun e => by cases e⟩
    | e :: P, hP =>
      obtain ⟨t, ht⟩ := hP
      simp only [List.cons_append, List.cons.injEq] at ht
      obtain ⟨rfl, ht⟩ := ht
      have hP : P <+: ds.map Ev.fileRead ++ Ev.fileEnd :: evs := ⟨t, ht⟩
      have hst : winEvent win o h (.itemStart .file nm item) = .ok
          { h with w := h.w.tick, fd := .bad, hasError := true } := by
        simp only [winEvent, winItemStart, winFileItem, winItemPath, if_pos h1]
        rw [winOpen, if_pos (.inl (by simp [hs.refuses, g.calls]))]
      have g0 : WGone K w0 { h with w := h.w.tick, fd := .bad, hasError := true } :=
        ⟨g.fs, g.cwd, rfl, by show K ≤ h.w.calls + 1; have := g.calls; omega⟩
      rcases prefix_cons_app hP with hP | ⟨P', rfl, hP'⟩
      · obtain ⟨ds', hds, rfl⟩ : ∃ ds', ds' <+: ds ∧ P = ds'.map Ev.fileRead := by
          refine ⟨ds.take P.length, List.take_prefix _ _, ?_⟩
          rw [List.map_take]
          exact List.prefix_iff_eq_take.mp hP
        obtain ⟨h', a1, a2, a3, a4⟩ := winReads_gone (win := win) o ds' _ rfl g0
        refine ⟨h', by rw [winEvents, hst]; exact a1, a4, fun e => ?_⟩
        exfalso
        simp only [List.cons.injEq, true_and] at e
        have := congrArg List.length e
        have hl1 := hds.length_le
        simp at this
        omega
      · obtain ⟨h', a1, a2, a3, a4⟩ := winReads_gone (win := win) o ds _ rfl g0
        obtain ⟨h3', k1, k2, k3⟩ := ih { h' with w := h'.w.tick } q P' hP' hr hq (by rw [a3]; exact hd)
          ⟨a4.fs, a4.cwd, a4.err, by show K ≤ h'.w.calls + 1; have := a4.calls; omega⟩
        refine ⟨h3', ?_, k2, fun e => ?_⟩
        · rw [winEvents, hst]
          dsimp only
          rw [winEvents_append, a1]
          dsimp only
          rw [winEvents, winEvent, winFileEnd, a2]
          rw [a2] at k1
          exact k1
        · obtain ⟨m1, m2⟩ := k3 (by simpa using e)
          exact ⟨m1, fun hne => m2 (by rw [a3]; exact hne)⟩
  | @dir name nm item mode sub rest evs evs' h1 h2 h3 _ _ ihs ih =>
    intro h q P hP hok hq hd g
    obtain ⟨hn, hk, hs', hr⟩ := hok
    have hqn : ∀ x ∈ q ++ [name], WinName win x := by
      intro x hx
      rcases List.mem_append.mp hx with hx | hx
      · exact hq x hx
      · rw [List.mem_singleton.mp hx]; exact hn
    have hpe : slashed q ++ 47 :: name = slashed (q ++ [name]) := by
      rw [slashed_snoc]
    have hst : winEvent win o h (.itemStart .dir nm item) = .ok
        { h with w := h.w.tick.tick.tick, dirPath := some (slashed (q ++ [name])), hasError := true } := by
      have hmk : winMkdir win (cString (slashed (q ++ [name]))) h.w.tick = (-1, h.w.tick.tick.tick) := by
        have hcr : winCreate win h.w.tick.tick (cString (slashed (q ++ [name]))) = (-1, h.w.tick.tick.tick) := by
          rw [winCreate, if_pos]
          simp only [hs.refuses, decide_eq_true_eq, WWorld.tick]
          have := g.calls
          omega
        simp [winMkdir, hs.mem, winMkdirRaw, hcr]
      simp [winEvent, winItemStart, winDirItem, hs.mem, winItemPath, hd, h1, h2, hpe, hmk]
    have g0 : WGone K w0
        { h with w := h.w.tick.tick.tick, dirPath := some (slashed (q ++ [name])), hasError := true } :=
      ⟨g.fs, g.cwd, rfl, by show K ≤ h.w.calls + 1 + 1 + 1; have := g.calls; omega⟩
    match P, hP with
    | [], _ => exact ⟨h, rfl, g, fun e => by cases e⟩
    | e :: P, hP =>
      obtain ⟨t, ht⟩ := hP
      simp only [List.cons_append, List.cons.injEq] at ht
      obtain ⟨rfl, ht⟩ := ht
      have hP : P <+: evs ++ Ev.dirEnd :: evs' := ⟨t, ht⟩
      rcases prefix_cons_app hP with hP | ⟨P', rfl, hP'⟩
      · obtain ⟨h', a1, a2, a3⟩ := ihs _ (q ++ [name]) P hP hs' hqn rfl g0
        refine ⟨h', by rw [winEvents, hst]; exact a1, a2, fun e => ?_⟩
        exfalso
        simp only [List.cons.injEq, true_and] at e
        have := congrArg List.length e
        have := hP.length_le
        simp at *
        omega
      · obtain ⟨h', a1, a2, a3⟩ := ihs _ (q ++ [name]) evs List.prefix_rfl hs' hqn rfl g0
        obtain ⟨b1, b2⟩ := a3 rfl
        have hpath : h'.dirPath = some (slashed (q ++ [name])) := by
          have := b2 (by simp)
          cases hx : h'.dirPath with
          | none => exact absurd hx this
          | some p => rw [hx] at b1; rw [← b1]; rfl
        have hnul : 0 ∉ slashed q ++ 47 :: name := by
          have a := slashed_nul q (fun x hx => ⟨(hq x hx).1, (hq x hx).2.1⟩)
          have := hn.1.2.2.2.2
          simp only [List.mem_append, List.mem_cons, not_or]
          exact ⟨a, by decide, this⟩
        have hend : winEvent win o h' .dirEnd = .ok { h' with dirPath := some (slashed q) } := by
          rw [winEvent, winDirEnd, hpath, ← hpe]
          dsimp only
          rw [cString_plain _ hnul, lastIndexOf_append 47 (slashed q) name hn.1.2.2.2.1]
          dsimp only
          rw [List.take_left' rfl]
        obtain ⟨h3', k1, k2, k3⟩ := ih { h' with dirPath := some (slashed q) } q P' hP' hr hq rfl
          ⟨a2.fs, a2.cwd, a2.err, a2.calls⟩
        refine ⟨h3', ?_, k2, fun e => ?_⟩
        · rw [winEvents, hst]
          dsimp only
          rw [winEvents_append, a1]
          dsimp only
          rw [winEvents, hend]
          exact k1
        · obtain ⟨m1, m2⟩ := k3 (by simpa using e)
          exact ⟨m1, fun _ => m2 (by simp)⟩

end Zwt
