import Verif.Proofs.BegunLog
import Verif.Proofs.Merge
import Verif.Proofs.WinGrow
import Verif.Proofs.WinKeep
import Verif.Proofs.WinMkdir
import Verif.Props.WinStop

/-! What is on a Windows drive after the callbacks for the beginning of an archive. -/

namespace Zwt

theorem Begun.winNames (win : Win) {f g : Forest} {t u : Bytes} (h : Begun f g t u) :
    ∀ n ∈ g.winNames win, n ∈ f.winNames win := by
  induction h with
  | here h => intro n hn; cases hn
  | file _ _ _ _ _ _ _ _ _ _ ih =>
    intro n hn
    simp only [Forest.winNames, List.mem_cons] at hn ⊢
    exact hn.imp id (ih n)
  | dir _ _ _ _ _ _ _ _ _ _ ih =>
    intro n hn
    simp only [Forest.winNames, List.mem_cons] at hn ⊢
    exact hn.imp id (ih n)
  | inside _ _ _ _ _ _ _ _ _ _ ih =>
    intro n hn
    simp only [Forest.winNames, List.mem_cons, List.not_mem_nil, or_false] at hn ⊢
    exact .inl hn

theorem Begun.winOk {win : Win} {f g : Forest} {t u : Bytes} (h : Begun f g t u) : f.winOk win → g.winOk win := by
  induction h with
  | here h => intro _; trivial
  | file _ _ _ _ _ _ _ _ _ hb ih => intro h; exact ⟨h.1, fun hn => h.2.1 (hb.winNames win _ hn), ih h.2.2⟩
  | dir _ _ _ _ _ _ _ _ _ hb ih =>
    intro h; exact ⟨h.1, fun hn => h.2.1 (hb.winNames win _ hn), h.2.2.1, ih h.2.2.2⟩
  | inside _ _ _ _ _ _ _ _ _ _ ih => intro h; exact ⟨h.1, by simp [Forest.winNames], ih h.2.2.1, trivial⟩

theorem Begun.winSpots (win : Win) {f g : Forest} {t u : Bytes} (h : Begun f g t u) :
    ∀ p, ∀ s ∈ g.winSpots win p, s ∈ f.winSpots win p := by
  induction h with
  | here h => intro p s hs; cases hs
  | file _ _ _ _ _ _ _ _ _ _ ih =>
    intro p s hs
    simp only [Forest.winSpots, List.mem_cons] at hs ⊢
    exact hs.imp id (ih p s)
  | dir _ _ _ _ _ _ _ _ _ _ ih =>
    intro p s hs
    simp only [Forest.winSpots, List.mem_cons, List.mem_append] at hs ⊢
    exact hs.imp id (Or.imp id (ih p s))
  | inside _ _ _ _ _ _ _ _ _ _ ih =>
    intro p s hs
    simp only [Forest.winSpots, List.mem_cons, List.mem_append, List.not_mem_nil, or_false] at hs ⊢
    exact hs.imp id fun h => .inl (ih _ s h)

theorem Forest.winSpots_shift (win : Win) (b : Loc) (f : Forest) : ∀ p,
    f.winSpots win (b ++ p) = (f.winSpots win p).map fun s => (b ++ s.1, s.2) := by
  induction f with
  | nil => intro p; rfl
  | file n m c r ih => intro p; simp only [Forest.winSpots, List.map_cons, ih, List.append_assoc]
  | link n m t r ih => intro p; simp only [Forest.winSpots, ih]
  | dir n m s r ihs ih =>
    intro p
    simp only [Forest.winSpots, List.map_cons, List.map_append, ih, List.append_assoc, ihs]
  | other n r ih => intro p; simp only [Forest.winSpots, ih]
  | bad n r ih => intro p; simp only [Forest.winSpots, ih]

theorem WfsRun.empty {fs fs' : WFS} {n : Nat} (h : WfsRun false 0 fs n fs') :
    ∀ l ro c, fs' l = some (.file ro c) → c ≠ [] → fs l = some (.file ro c) := by
  induction h with
  | refl => intro l m c h _; exact h
  | @new n fs' l x _ h1 _ h3 ih =>
    intro l' m c h hc
    rw [WFS.put] at h
    split at h
    · cases h; exact absurd (h3 _ _ rfl) hc
    · exact ih _ _ _ h hc
  | @write n fs' l m off c d _ h1 h2 ih =>
    intro l' m' c' h hc
    have hd : d = [] := List.length_eq_zero_iff.mp (by omega)
    subst hd
    rw [WFS.put] at h
    split at h
    · next e =>
      rw [e]
      refine ih _ _ _ ?_ hc
      rw [h1]; simpa [pwrite] using h
    · exact ih _ _ _ h hc
  | trunc _ h _ => cases h

/-- Callbacks that announce or close entries write nothing. -/
theorem winEvent_empty {win : Win} {out : Bytes} {h h' : HLW} {e : Ev}
    (he : (∃ ft nm it, e = .itemStart ft nm it) ∨ e = .fileEnd ∨ e = .dirEnd)
    (hr : winEvent win out h e = .ok h') :
    ∀ l ro c, h'.w.fs l = some (.file ro c) → c ≠ [] → h.w.fs l = some (.file ro c) := by
  rcases he with ⟨ft, nm, it, rfl⟩ | rfl | rfl
  · simp only [winEvent, winItemStart] at hr
    split at hr
    · simp only [winDirItem] at hr
      split at hr
      · cases hr; exact fun l m c h _ => h
      · split at hr
        · simp at hr
        · rename_i path hpath
          obtain ⟨k, k1, k2⟩ := winMkdir_run win false 0 (cString path) h.w.tick
          generalize winMkdir win (cString path) h.w.tick = x at hr k2
          obtain ⟨r, w'⟩ := x
          cases hr
          exact k2.empty
    · simp only [winFileItem] at hr
      split at hr
      · simp at hr
      · rename_i path hpath
        obtain ⟨k, k1, k2⟩ := winOpen_run win false 0 h.w (cString path) (winReadOnly (itMode it)) false (by simp)
        generalize winOpen win h.w (cString path) (winReadOnly (itMode it)) false = x at hr k2
        obtain ⟨r, w'⟩ := x
        cases r with
        | none => cases hr; exact k2.empty
        | some l => cases hr; exact k2.empty
    · cases hr; exact fun l m c h _ => h
  · simp only [winEvent, winFileEnd] at hr
    split at hr
    · cases hr; exact fun l m c h _ => h
    · simp at hr
    · cases hr; exact fun l m c h _ => h
  · simp only [winEvent, winDirEnd] at hr
    split at hr
    · simp at hr
    · split at hr
      · simp at hr
      · cases hr; exact fun l m c h _ => h

theorem winCanon_empty {win : Win} {out : Bytes} : ∀ (as : List Atom) (h h' : HLW),
    (∀ a ∈ as, (∃ ft nm it, a = .start ft nm it) ∨ a = .fileEnd ∨ a = .dirEnd) →
    winEvents win out h (canon as) = .ok h' →
    ∀ l ro c, h'.w.fs l = some (.file ro c) → c ≠ [] → h.w.fs l = some (.file ro c) := by
  intro as
  induction as with
  | nil => intro h h' _ hr; cases hr; exact fun l m c h _ => h
  | cons a as ih =>
    intro h h' ha hr l m c hl hc
    have key : ∀ e : Ev, ((∃ ft nm it, e = .itemStart ft nm it) ∨ e = .fileEnd ∨ e = .dirEnd) →
        winEvents win out h (e :: canon as) = .ok h' → h.w.fs l = some (.file m c) := by
      intro e he hr
      rw [winEvents] at hr
      cases h1 : winEvent win out h e with
      | error x => rw [h1] at hr; cases hr
      | ok hm =>
        rw [h1] at hr
        exact winEvent_empty he h1 l m c
          (ih hm h' (fun a h => ha a (List.mem_cons_of_mem _ h)) hr l m c hl hc) hc
    rcases ha a List.mem_cons_self with ⟨ft, nm, it, rfl⟩ | rfl | rfl
    · exact key _ (.inl ⟨_, _, _, rfl⟩) hr
    · exact key _ (.inr (.inl rfl)) hr
    · exact key _ (.inr (.inr rfl)) hr

theorem winCanon_ends {win : Win} {out : Bytes} : ∀ (as : List Atom) (h h' : HLW), (∀ a ∈ as, a = .dirEnd) →
    winEvents win out h (canon as) = .ok h' → h'.w.fs = h.w.fs := by
  intro as
  induction as with
  | nil => intro h h' _ hr; cases hr; rfl
  | cons a as ih =>
    intro h h' ha hr
    have := ha a List.mem_cons_self
    subst this
    simp only [canon] at hr
    rw [winEvents] at hr
    cases h1 : winEvent win out h .dirEnd with
    | error x => rw [h1] at hr; cases hr
    | ok hm =>
      rw [h1] at hr
      rw [ih hm h' (fun a h => ha a (List.mem_cons_of_mem _ h)) hr]
      simp only [winEvent, winDirEnd] at h1
      split at h1
      · simp at h1
      · split at h1
        · simp at h1
        · cases h1; rfl

theorem HLW.upto_some (h : HLW) : ∃ B, h.upto B := by
  refine ⟨(match h.fpOut with | some f => f.off | none => 0) + (match h.fd with | .opened f => f.off | _ => 0),
    fun f hf => ?_, fun f hf => ?_⟩
  · rw [hf]; simp
  · rw [hf]; simp

theorem wreads_quiet {win : Win} (hq : win.quiet) : WReads win (· <+: ·) := by
  intro out l ro ds h hc hfd
  obtain ⟨h', g1, g2, g3, g4⟩ := winReads_good win hq out l ro ds h [] hc hfd
  rw [List.nil_append] at g2 g4
  exact ⟨h', ds.flatten, List.prefix_refl _, g1, g2, g3, g4, fun _ _ => .inl rfl⟩

/-- The callbacks of a beginning of an archive, carried out on Windows. -/
theorem begun_run_win (win : Win) (hq : win.quiet) (w : WWorld) (out : Bytes) (top : Loc)
    (ns : List Bytes) (hw : WFresh win w out top ns) {f g : Forest} {t u : Bytes}
    (hb : Begun f g t u) (hf : f.winOk win) {e1 e2 rest : List Ev}
    {more : List Atom} (hev : EvsOf f (e1 ++ e2 ++ rest)) (hg : EvsOf g (e1 ++ canon more))
    (hm : ∀ a ∈ more, (∃ ft nm it, a = .start ft nm it) ∨ a = .fileEnd ∨ a = .dirEnd) :
    ∃ h', winEvents win out (HLW.init w) (.drStart :: (e1 ++ e2)) = .ok h' ∧ h'.hasError = false ∧
      (∀ x ro c, (x, .file ro c) ∈ g.winSpots win (top ++ ns.map win.same) → c ≠ [] →
        h'.w.fs x = some (.file ro c)) ∧
      ((∀ a ∈ more, a = .dirEnd) → ∀ s ∈ g.winSpots win (top ++ ns.map win.same), h'.w.fs s.1 = some s.2) := by
  obtain ⟨h', r1, r2, _⟩ := fresh_win win hq w out top ns hw hf hev
  obtain ⟨hF, _, _, f3⟩ := fresh_win win hq w out top ns hw hf (evs := e1 ++ e2 ++ rest) (rest := []) (by simpa using hev)
  obtain ⟨_, _, f6⟩ := f3 rfl
  obtain ⟨hM, m1, _⟩ := fresh_win win hq w out top ns hw (hb.winOk hf) hg
  obtain ⟨hG, g1, _, g3⟩ := fresh_win win hq w out top ns hw (hb.winOk hf) (evs := e1 ++ canon more) (rest := [])
    (by simpa using hg)
  obtain ⟨_, _, g6⟩ := g3 rfl
  have hMG : winEvents win out hM (canon more) = .ok hG := by
    rw [← List.cons_append, winEvents_append, m1] at g1; exact g1
  have hM' : winEvents win out hM e2 = .ok h' := by
    rw [← List.cons_append, winEvents_append, m1] at r1; exact r1
  have hmk : (winMkdir win out w).1 = 0 := by
    obtain ⟨p, hp, h0, hloc⟩ := hw.front
    have htop : top.dropLast ++ [top.getLast hw.ne] = top := List.dropLast_concat_getLast hw.ne
    obtain ⟨w', e, _⟩ := winMkdir_chain win hq w p h0 top.dropLast (top.getLast hw.ne) ns
      (by rw [htop]; exact hloc) hw.parent hw.names (by rw [htop]; exact hw.absent) hw.few
    rw [extendPath_eq, ← hp] at e
    rw [e]
  obtain ⟨h2, l1, _, _, l4, _⟩ := leftOver_win (wreads_quiet hq) (fun _ _ _ h h' => h.trans h') hq.2.2 hw hmk hf hev
  rw [r1] at l1
  cases l1
  obtain ⟨B, hB⟩ := hM.upto_some
  obtain ⟨k, _, hrun⟩ := winEvents_run win false out e2 B hM h' (fun hmem => by
    exact absurd (hev.inner .flStart (by simp [hmem])) (by simp [Ev.inner])) hB hM'
  have hkeep := (winEvents_keeps win out e2 hM h' hM').1
  have one : ∀ x n n', (x, n) ∈ f.winSpots win (top ++ ns.map win.same) →
      (x, n') ∈ f.winSpots win (top ++ ns.map win.same) → n = n' := by
    intro x n n' h1 h2
    have a := f6.2.1 _ h1
    have b := f6.2.1 _ h2
    rw [a] at b
    simpa using b
  have key : ∀ s ∈ g.winSpots win (top ++ ns.map win.same), hM.w.fs s.1 = some s.2 → h'.w.fs s.1 = some s.2 := by
    rintro ⟨x, nd⟩ hs hMx
    cases nd with
    | dir =>
      obtain ⟨n', a, b⟩ := hkeep _ _ hMx
      cases n' with
      | dir => exact a
      | file => cases b
    | file ro c =>
      obtain ⟨c', a, b, _⟩ := hrun.files hMx
      have hsf := hb.winSpots win _ _ hs
      have hin : top <+: x := by
        obtain ⟨_, _, q, hq'⟩ := f.winSpots_under win _ _ hsf
        have hx : x = _ := hq'
        rw [hx]
        simp only [List.append_assoc]
        exact List.prefix_append _ _
      rcases l4.inside x hin with e | e | e
      · rw [a] at e; cases e
      · rw [a] at e; cases e.2
      · rw [a] at e
        obtain ⟨c2, e1, e2⟩ := e
        cases one _ _ _ e1 hsf
        dsimp only at a
        rw [a, e2.eq_of_length_le (b rfl)]
  refine ⟨h', r1, r2, fun x ro c hx hc => ?_, fun hall s hs => ?_⟩
  · exact key _ hx (winCanon_empty more hM hG hm hMG _ _ _ (g6.2.1 _ hx) hc)
  · exact key _ hs (by rw [← winCanon_ends more hM hG hall hMG]; exact g6.2.1 _ hs)

end Zwt
