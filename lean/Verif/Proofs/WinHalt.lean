import Verif.Spec.WinLossy
import Verif.Proofs.WinKeep

/-! Calls on Windows that are refused from some point on. -/

namespace Zwt

/-! ### Calls -/

theorem winCreate_calls (win : Win) (w : WWorld) (s : Bytes) : (winCreate win w s).2.calls = w.calls + 1 := by
  simp only [winCreate]
  split
  · rfl
  · split
    · rfl
    · split
      · rfl
      · split <;> rfl

theorem winRestore_calls (win : Win) : ∀ (idxs : List Nat) (mem : Bytes) (w : WWorld),
    w.calls ≤ (winRestore win idxs mem w).2.calls := by
  intro idxs
  induction idxs with
  | nil => intro mem w; exact Nat.le_refl _
  | cons i idxs ih =>
    intro mem w
    have h := winCreate_calls win w (cString (mem.set i 47))
    rw [winRestore]
    generalize winCreate win w (cString (mem.set i 47)) = x at h
    obtain ⟨r, w1⟩ := x
    dsimp only at h ⊢
    split
    · dsimp only; omega
    · have := ih (mem.set i 47) w1; omega

theorem winCut_calls (win : Win) : ∀ (n : Nat) (idxs : List Nat) (mem : Bytes) (w : WWorld),
    w.calls ≤ (winCut win n idxs mem w).2.calls := by
  intro n
  induction n with
  | zero => intro idxs mem w; exact Nat.le_refl _
  | succ n ih =>
    intro idxs mem w
    rw [winCut]
    split
    · exact Nat.le_refl _
    · rename_i i _
      have h := winCreate_calls win w (cString (mem.set i 0))
      generalize winCreate win w (cString (mem.set i 0)) = x at h
      obtain ⟨r, w1⟩ := x
      dsimp only at h ⊢
      split
      · dsimp only; omega
      · split
        · split
          · have := winRestore_calls win (i :: idxs) (mem.set i 0) w1; omega
          · dsimp only; omega
        · have := ih (i :: idxs) (mem.set i 0) w1; omega

theorem winMkdir_calls (win : Win) (path : Bytes) (w : WWorld) : w.calls ≤ (winMkdir win path w).2.calls := by
  simp only [winMkdir]
  split
  · exact Nat.le_succ _
  · simp only [winMkdirRaw]
    have h := winCreate_calls win w.tick path
    generalize winCreate win w.tick path = x at h
    obtain ⟨r, w1⟩ := x
    have h' : w1.calls = w.calls + 1 + 1 := h
    dsimp only
    split
    · dsimp only; omega
    · have := winCut_calls win 62 [] path w1; omega

theorem winCreate_gone {win : Win} {K : Nat} (hs : win.stopsAt K) {w : WWorld} (h : K ≤ w.calls) (s : Bytes) :
    winCreate win w s = (-1, w.tick) := by
  rw [winCreate, if_pos (by simp [hs.refuses, h])]

theorem winMkdir_gone {win : Win} {K : Nat} (hs : win.stopsAt K) {w : WWorld} (h : K ≤ w.calls) (p : Bytes) :
    winMkdir win p w = (-1, w.tick.tick) := by
  have : K ≤ w.tick.calls := Nat.le_succ_of_le h
  simp [winMkdir, hs.mem, winMkdirRaw, winCreate_gone hs this]

theorem winOpen_gone {win : Win} {K : Nat} (hs : win.stopsAt K) {w : WWorld} (h : K ≤ w.calls) (p : Bytes)
    (ro tr : Bool) : winOpen win w p ro tr = (none, w.tick) := by
  rw [winOpen, if_pos (.inl (by simp [hs.refuses, h]))]

theorem winWrite_gone {win : Win} {K : Nat} (hs : win.stopsAt K) {w : WWorld} (h : K ≤ w.calls) (f : OpenFile)
    (d : Bytes) : winWrite win w f d = (f, w.tick) := by
  rw [winWrite, if_pos (by simp [hs.refuses, h])]

/-- When no call is carried out any more, callbacks change nothing. -/
theorem winEvent_gone {win : Win} {K : Nat} (hs : win.stopsAt K) (out : Bytes) (e : Ev) (h h' : HLW)
    (hr : winEvent win out h e = .ok h') (hc : K ≤ h.w.calls) : h'.w.fs = h.w.fs ∧ K ≤ h'.w.calls := by
  have up : K ≤ h.w.calls + 1 := by omega
  have up2 : K ≤ h.w.calls + 1 + 1 := by omega
  have up3 : K ≤ h.w.calls + 1 + 1 + 1 := by omega
  cases e with
  | flStart =>
    simp only [winEvent, winFileStart, winOpen_gone hs hc, Except.ok.injEq] at hr
    subst hr
    exact ⟨rfl, up⟩
  | flRead d =>
    simp only [winEvent, winFileData] at hr
    split at hr
    · cases hr
    · simp only [winWrite_gone hs hc, Except.ok.injEq] at hr
      subst hr
      exact ⟨rfl, up⟩
  | drStart =>
    simp only [winEvent, winDirStart, winMkdir_gone hs hc, Except.ok.injEq] at hr
    rw [if_pos (by decide)] at hr
    subst hr
    exact ⟨rfl, up2⟩
  | itemStart ft name item =>
    simp only [winEvent, winItemStart] at hr
    split at hr
    · simp only [winDirItem] at hr
      split at hr
      · cases hr; exact ⟨rfl, up⟩
      · split at hr
        · cases hr
        · rw [winMkdir_gone hs (w := h.w.tick) up] at hr
          cases hr
          exact ⟨rfl, up3⟩
    · simp only [winFileItem] at hr
      split at hr
      · cases hr
      · rw [winOpen_gone hs hc] at hr
        cases hr
        exact ⟨rfl, up⟩
    · cases hr; exact ⟨rfl, hc⟩
  | fileRead d =>
    simp only [winEvent, winFileRead] at hr
    split at hr
    · cases hr; exact ⟨rfl, up⟩
    · cases hr
    · simp only [winWrite_gone hs hc, Except.ok.injEq] at hr
      subst hr
      exact ⟨rfl, up⟩
  | fileEnd =>
    simp only [winEvent, winFileEnd] at hr
    split at hr
    · cases hr; exact ⟨rfl, up⟩
    · cases hr
    · cases hr; exact ⟨rfl, up⟩
  | dirEnd =>
    simp only [winEvent, winDirEnd] at hr
    split at hr
    · cases hr
    · split at hr
      · cases hr
      · cases hr; exact ⟨rfl, hc⟩
  | symLink t a => cases hr; exact ⟨rfl, hc⟩

theorem winEvents_gone {win : Win} {K : Nat} (hs : win.stopsAt K) (out : Bytes) (es : List Ev) : ∀ (h h' : HLW),
    winEvents win out h es = .ok h' → K ≤ h.w.calls → h'.w.fs = h.w.fs ∧ K ≤ h'.w.calls := by
  induction es with
  | nil => intro h h' hr hc; cases hr; exact ⟨rfl, hc⟩
  | cons e es ih =>
    intro h h' hr hc
    rw [winEvents] at hr
    split at hr
    · cases hr
    · rename_i h1 hh
      obtain ⟨a, b⟩ := winEvent_gone hs out e h h1 hh hc
      obtain ⟨c, d⟩ := ih _ _ hr b
      exact ⟨c.trans a, d⟩

theorem winReads_stop {win : Win} {K : Nat} (hs : win.stopsAt K) (out : Bytes) (l : Loc) (ro : Bool)
    (ds : List Bytes) :
    ∀ (h : HLW) (c : Bytes), h.w.fs l = some (.file ro c) → h.fd = .opened ⟨l, c.length⟩ →
    ∃ h' e, e <+: ds.flatten ∧ (K ≤ h.w.calls → e = []) ∧
      (∀ h', winEvents win out h (ds.map .fileRead) = .ok h' → e = ds.flatten ∨ K ≤ h'.w.calls) ∧
      winEvents win out h (ds.map .fileRead) = .ok h' ∧
      h' = { h with w := h'.w, fd := .opened ⟨l, (c ++ e).length⟩ } ∧
      h'.w.cwd = h.w.cwd ∧ h'.w.fs = h.w.fs.put l (.file ro (c ++ e)) := by
  induction ds with
  | nil =>
    intro h c hc hfd
    refine ⟨h, [], List.nil_prefix, fun _ => rfl, fun _ _ => .inl rfl, rfl, ?_, rfl, ?_⟩
    · simp [← hfd]
    · funext x
      simp only [WFS.put, List.append_nil]
      split
      · rename_i hx; rw [hx, hc]
      · rfl
  | cons d ds ih =>
    intro h c hc hfd
    by_cases hk : K ≤ h.w.calls
    · have hw : winWrite win h.w ⟨l, c.length⟩ d = (⟨l, c.length⟩, h.w.tick) := by
        simp [winWrite, hs.refuses, hk]
      obtain ⟨h', e, g0, g, gg, g1, g2, g3, g4⟩ := ih { h with w := h.w.tick, fd := .opened ⟨l, c.length⟩ } c hc rfl
      have he := g (by show K ≤ h.w.calls + 1; omega)
      subst he
      have hrun : winEvents win out h ((d :: ds).map .fileRead) = .ok h' := by
        simp only [List.map_cons, winEvents, winEvent, winFileRead, hfd, hw]
        exact g1
      refine ⟨h', [], List.nil_prefix, fun _ => rfl, fun h2 e2 => ?_, hrun, g2, g3, g4⟩
      rw [hrun] at e2
      cases e2
      right
      exact (winEvents_gone hs out _ _ _ g1 (by show K ≤ h.w.calls + 1; omega)).2
    · have hw : winWrite win h.w ⟨l, c.length⟩ d =
          (⟨l, (c ++ d).length⟩, (h.w.put l (.file ro (c ++ d))).tick) := by
        simp only [winWrite, hs.refuses, hk, decide_false, Bool.false_eq_true, if_false, hc,
          List.take_of_length_le (hs.accepts _ _), pwrite_end, List.length_append]
      obtain ⟨h', e, g0, g, gg, g1, g2, g3, g4⟩ := ih
        { h with w := (h.w.put l (.file ro (c ++ d))).tick, fd := .opened ⟨l, (c ++ d).length⟩ } (c ++ d)
        (by simp [WWorld.tick, WWorld.put, WFS.put]) rfl
      have hrun : winEvents win out h ((d :: ds).map .fileRead) = .ok h' := by
        simp only [List.map_cons, winEvents, winEvent, winFileRead, hfd, hw]
        exact g1
      refine ⟨h', d ++ e, ?_, fun h => absurd h hk, fun h2 e2 => ?_, hrun, ?_, g3, ?_⟩
      · rw [List.flatten_cons]; exact (List.prefix_append_right_inj d).mpr g0
      · rw [hrun] at e2
        cases e2
        rcases gg _ g1 with e | e
        · left; rw [e, List.flatten_cons]
        · exact .inr e
      · rw [g2]; simp
      · rw [g4]
        show ((h.w.put l (.file ro (c ++ d))).tick.fs.put _ _) = _
        simp only [WWorld.tick, WWorld.put, WFS.put_put, List.append_assoc]

/-! ### What is complete -/

theorem Whole.one {A : List (Loc × WNode)} {now : WFS} (h : Whole A now) : AtMostOne A now :=
  ⟨[], fun s hs _ => h s hs⟩

theorem Whole.append {A B : List (Loc × WNode)} {now : WFS} (ha : Whole A now) (hb : Whole B now) :
    Whole (A ++ B) now := fun s hs => (List.mem_append.mp hs).elim (ha s) (hb s)

theorem Whole.append_one {A B : List (Loc × WNode)} {now : WFS} (ha : Whole A now) (hb : AtMostOne B now) :
    AtMostOne (A ++ B) now := by
  obtain ⟨y, hb⟩ := hb
  exact ⟨y, fun s hs hy => (List.mem_append.mp hs).elim (ha s) fun h => hb s h hy⟩

theorem AtMostOne.append {A B : List (Loc × WNode)} {now : WFS} (ha : AtMostOne A now) (hb : Whole B now) :
    AtMostOne (A ++ B) now := by
  obtain ⟨y, ha⟩ := ha
  exact ⟨y, fun s hs hy => (List.mem_append.mp hs).elim (fun h => ha s h hy) (hb s)⟩

theorem AtMostOne.single (s : Loc × WNode) (now : WFS) : AtMostOne [s] now :=
  ⟨s.1, fun x hx hy => absurd (by rw [List.mem_singleton.mp hx]) hy⟩

theorem Whole.congr {A : List (Loc × WNode)} {now now' : WFS} (h : Whole A now)
    (he : ∀ s ∈ A, now' s.1 = now s.1) : Whole A now' := fun s hs => by rw [he s hs]; exact h s hs

theorem AtMostOne.congr {A : List (Loc × WNode)} {now now' : WFS} (h : AtMostOne A now)
    (he : ∀ s ∈ A, now' s.1 = now s.1) : AtMostOne A now' := by
  obtain ⟨y, h⟩ := h
  exact ⟨y, fun s hs hy => by rw [he s hs]; exact h s hs hy⟩

theorem Whole.new {win : Win} {f : Forest} {l : Loc} {now : WFS}
    (h : ∀ k ∈ f.winNames win, ∀ p, now (l ++ k :: p) = none) : Whole (f.winSpots win l) now := by
  intro s hs
  obtain ⟨k, hk, p, e⟩ := f.winSpots_under win l s hs
  left
  rw [e]
  exact h k hk p

end Zwt
