import Verif.Proofs.WinConfine

/-! What extraction on Windows leaves alone, and what a successful creation of a directory means. -/

namespace Zwt

theorem WKeeps.refl (fs : WFS) : WKeeps fs fs := fun _ n h => ⟨n, h, by cases n <;> simp [WNode.alike]⟩

theorem WNode.alike_trans {a b c : WNode} (h1 : a.alike b) (h2 : b.alike c) : a.alike c := by
  cases a <;> cases b <;> cases c <;> simp_all [WNode.alike]

theorem WKeeps.trans {a b c : WFS} (h1 : WKeeps a b) (h2 : WKeeps b c) : WKeeps a c := by
  intro l n h
  obtain ⟨n1, g1, g2⟩ := h1 l n h
  obtain ⟨n2, g3, g4⟩ := h2 l n1 g1
  exact ⟨n2, g3, WNode.alike_trans g2 g4⟩

theorem WKeeps.put_new {fs : WFS} {l : Loc} (h : fs l = none) (n : WNode) : WKeeps fs (fs.put l n) := by
  intro l' n' h'
  have : l' ≠ l := by rintro rfl; rw [h] at h'; cases h'
  exact ⟨n', by rw [WFS.put, if_neg this]; exact h', by cases n' <;> simp [WNode.alike]⟩

theorem WKeeps.put_file {fs : WFS} {l : Loc} {ro : Bool} {c : Bytes} (h : fs l = some (.file ro c))
    (c' : Bytes) : WKeeps fs (fs.put l (.file ro c')) := by
  intro l' n' h'
  by_cases e : l' = l
  · subst e
    rw [h] at h'
    cases h'
    exact ⟨.file ro c', by rw [WFS.put, if_pos rfl], rfl⟩
  · exact ⟨n', by rw [WFS.put, if_neg e]; exact h', by cases n' <;> simp [WNode.alike]⟩

/-! ### Creation of directories -/

/-- What `winCreate` does. -/
theorem winCreate_cases (win : Win) (w : WWorld) (p : Bytes) :
    ((winCreate win w p).1 ≠ 0 ∧ (winCreate win w p).2 = w.tick) ∨
      ∃ l, winLocate win w.cwd p = some l ∧ w.fs l = none ∧
        winCreate win w p = (0, (w.put l .dir).tick) := by
  unfold winCreate
  split
  · left; simp
  · split
    · left; simp
    · rename_i l hl
      split
      · left; simp
      · rename_i hn
        split
        · right; exact ⟨l, hl, hn, rfl⟩
        · left; simp

/-- Only directories are added. -/
def WGrown (w w' : WWorld) : Prop :=
  w'.cwd = w.cwd ∧ ∀ l, w'.fs l = w.fs l ∨ (w.fs l = none ∧ w'.fs l = some .dir)

theorem WGrown.refl (w : WWorld) : WGrown w w := ⟨rfl, fun _ => .inl rfl⟩

theorem WGrown.trans {a b c : WWorld} (h1 : WGrown a b) (h2 : WGrown b c) : WGrown a c := by
  refine ⟨h2.1.trans h1.1, fun l => ?_⟩
  rcases h1.2 l with g1 | ⟨g1, g1'⟩ <;> rcases h2.2 l with g2 | ⟨g2, g2'⟩
  · left; rw [g2, g1]
  · right; exact ⟨by rw [← g1]; exact g2, g2'⟩
  · right; exact ⟨g1, by rw [g2]; exact g1'⟩
  · rw [g1'] at g2; cases g2

theorem WGrown.keeps {w w' : WWorld} (h : WGrown w w') : WKeeps w.fs w'.fs := by
  intro l n hn
  rcases h.2 l with g | ⟨g, _⟩
  · exact ⟨n, by rw [g]; exact hn, by cases n <;> simp [WNode.alike]⟩
  · rw [g] at hn; cases hn

theorem winCreate_grown (win : Win) (w : WWorld) (p : Bytes) : WGrown w (winCreate win w p).2 := by
  rcases winCreate_cases win w p with ⟨_, h⟩ | ⟨l, _, h, e⟩
  · rw [h]; exact ⟨rfl, fun _ => .inl rfl⟩
  · rw [e]
    refine ⟨rfl, fun l' => ?_⟩
    simp only [WWorld.tick, WWorld.put, WFS.put]
    split
    · rename_i e; subst e; exact .inr ⟨h, rfl⟩
    · exact .inl rfl

/-- Slashes and backslashes made equal. -/
def winNorm (p : Bytes) : Bytes := p.map fun c => if winSep c then 47 else c

theorem winSplit_norm (p : Bytes) : winSplit (winNorm p) = winSplit p := by
  induction p with
  | nil => rfl
  | cons c cs ih =>
    simp only [winNorm, List.map_cons, winSplit] at ih ⊢
    by_cases h : winSep c = true
    · simp only [h, if_true, show winSep 47 = true from by decide, ih]
    · simp only [h, Bool.false_eq_true, if_false, ih]

theorem winLocate_norm (win : Win) (cwd : Loc) {p q : Bytes} (h : winNorm p = winNorm q) :
    winLocate win cwd p = winLocate win cwd q := by
  have hs : winSplit p = winSplit q := by rw [← winSplit_norm p, h, winSplit_norm]
  have hl : p.length = q.length := by have := congrArg List.length h; simpa [winNorm] using this
  have hb : winBase cwd p = winBase cwd q := by
    cases p with
    | nil => cases q with
      | nil => rfl
      | cons b q => simp at hl
    | cons a p => cases q with
      | nil => simp at hl
      | cons b q =>
        simp only [winNorm, List.map_cons, List.cons.injEq] at h
        have h1 := h.1
        have : winSep a = winSep b := by
          by_cases ha : winSep a = true <;> by_cases hb : winSep b = true
          · rw [ha, hb]
          · rw [if_pos ha, if_neg hb] at h1
            exact absurd (by rw [← h1]; decide) hb
          · rw [if_neg ha, if_pos hb] at h1
            exact absurd (by rw [h1]; decide) ha
          · simp only [Bool.not_eq_true] at ha hb; rw [ha, hb]
        cases hb : winSep b <;> rw [hb] at this <;> simp [winBase, this, hb]
  have hn : (p = []) ↔ (q = []) := by
    rw [← List.length_eq_zero_iff, ← List.length_eq_zero_iff, hl]
  simp only [winLocate, hs, hb, hn]

theorem winNorm_set (p : Bytes) (i : Nat) : winNorm (p.set i 47) = (winNorm p).set i 47 := by
  rw [winNorm, winNorm, List.map_set]
  rfl

theorem winNorm_sep {p : Bytes} {i : Nat} {c : UInt8} (h : p[i]? = some c) (hc : winSep c = true) :
    winNorm (p.set i 47) = winNorm p := by
  rw [winNorm_set]
  apply List.ext_getElem?
  intro j
  rw [List.getElem?_set]
  split
  · rename_i e
    subst e
    simp only [winNorm, List.getElem?_map, List.length_map, h, Option.map_some, hc, if_true]
    rw [if_pos (List.getElem?_eq_some_iff.mp h).1]
  · rfl

/-- All cut places restored. -/
def unCut (idxs : List Nat) (mem : Bytes) : Bytes := idxs.foldl (fun m i => m.set i 47) mem

theorem unCut_norm (idxs : List Nat) : ∀ {a b : Bytes}, winNorm a = winNorm b →
    winNorm (unCut idxs a) = winNorm (unCut idxs b) := by
  induction idxs with
  | nil => intro a b h; exact h
  | cons i idxs ih =>
    intro a b h
    exact ih (by rw [winNorm_set, winNorm_set, h])

theorem winRestore_made (win : Win) (idxs : List Nat) : ∀ (i : Nat) (mem : Bytes) (w w' : WWorld),
    winRestore win (i :: idxs) mem w = (0, w') →
    ∃ w1, WGrown w w1 ∧ winCreate win w1 (cString (unCut (i :: idxs) mem)) = (0, w') := by
  induction idxs with
  | nil =>
    intro i mem w w' h
    rw [winRestore] at h
    split at h
    rename_i r w1 hc
    split at h
    · simp at h
    · rename_i hr
      simp only [winRestore, Prod.mk.injEq, true_and] at h
      subst h
      refine ⟨w, WGrown.refl w, ?_⟩
      rw [show unCut [i] mem = mem.set i 47 from rfl, hc]
      simp only [ne_eq, Decidable.not_not] at hr
      rw [hr]
  | cons j idxs ih =>
    intro i mem w w' h
    rw [winRestore] at h
    split at h
    rename_i r w1 hc
    split at h
    · simp at h
    · obtain ⟨w2, g1, g2⟩ := ih j (mem.set i 47) w1 w' h
      refine ⟨w2, WGrown.trans ?_ g1, g2⟩
      have := winCreate_grown win w (cString (mem.set i 47))
      rw [hc] at this
      exact this

theorem winRestore_grown (win : Win) (idxs : List Nat) : ∀ (mem : Bytes) (w : WWorld),
    WGrown w (winRestore win idxs mem w).2 := by
  induction idxs with
  | nil => intro mem w; exact WGrown.refl w
  | cons i idxs ih =>
    intro mem w
    rw [winRestore]
    have := winCreate_grown win w (cString (mem.set i 47))
    split
    rename_i r w1 hc
    rw [hc] at this
    split
    · exact this
    · exact this.trans (ih _ _)

theorem fileDelimiter_sep {p : Bytes} {i : Nat} (h : fileDelimiter p = some i) :
    ∃ c, p[i]? = some c ∧ winSep c = true := by
  simp only [fileDelimiter] at h
  split at h
  · rename_i j hj
    cases h
    exact ⟨47, lastIndexOf_some hj, by decide⟩
  · exact ⟨92, lastIndexOf_some h, by decide⟩

theorem cString_prefix (b : Bytes) : cString b <+: b := List.takeWhile_prefix _

theorem winCut_grown (win : Win) (n : Nat) : ∀ (idxs : List Nat) (mem : Bytes) (w : WWorld),
    WGrown w (winCut win n idxs mem w).2 := by
  induction n with
  | zero => intro idxs mem w; exact WGrown.refl w
  | succ n ih =>
    intro idxs mem w
    rw [winCut]
    split
    · exact WGrown.refl w
    · rename_i i hi
      have := winCreate_grown win w (cString (mem.set i 0))
      split
      rename_i r w1 hc
      rw [hc] at this
      split
      · exact this
      · split
        · split
          · exact this.trans (winRestore_grown win _ _ _)
          · exact this
        · exact this.trans (ih _ _ _)

theorem winCut_made (win : Win) (n : Nat) : ∀ (idxs : List Nat) (mem : Bytes) (w w' : WWorld),
    winCut win n idxs mem w = (0, w') →
    ∃ w1 p, WGrown w w1 ∧ winNorm p = winNorm (unCut idxs mem) ∧
      winCreate win w1 (cString p) = (0, w') := by
  induction n with
  | zero => intro idxs mem w w' h; simp [winCut] at h
  | succ n ih =>
    intro idxs mem w w' h
    rw [winCut] at h
    split at h
    · simp at h
    · rename_i i hi
      obtain ⟨c, hc1, hc2⟩ := fileDelimiter_sep hi
      have hmem : mem[i]? = some c := by
        obtain ⟨t, ht⟩ := cString_prefix mem
        rw [← ht, List.getElem?_append_left (List.getElem?_eq_some_iff.mp hc1).1]
        exact hc1
      have hg := winCreate_grown win w (cString (mem.set i 0))
      have hn : winNorm (unCut (i :: idxs) (mem.set i 0)) = winNorm (unCut idxs mem) := by
        show winNorm (unCut idxs ((mem.set i 0).set i 47)) = _
        rw [List.set_set]
        exact unCut_norm idxs (winNorm_sep hmem hc2)
      split at h
      rename_i r w1 hcr
      rw [hcr] at hg
      split at h
      · simp at h
      · split at h
        · split at h
          · obtain ⟨w2, g1, g2⟩ := winRestore_made win idxs i _ _ _ h
            exact ⟨w2, _, hg.trans g1, hn, g2⟩
          · simp at h
        · obtain ⟨w2, p, g1, g2, g3⟩ := ih _ _ _ _ h
          exact ⟨w2, p, hg.trans g1, g2.trans hn, g3⟩

theorem winNorm_zero {p q : Bytes} (h : winNorm p = winNorm q) (h0 : 0 ∉ q) : 0 ∉ p := by
  intro hm
  have : (0 : UInt8) ∈ winNorm p := List.mem_map.mpr ⟨0, hm, by decide⟩
  rw [h] at this
  obtain ⟨c, hc, e⟩ := List.mem_map.mp this
  split at e
  · exact absurd e (by decide)
  · exact h0 (e ▸ hc)

theorem winMkdir_grown (win : Win) (p : Bytes) (w : WWorld) : WGrown w (winMkdir win p w).2 := by
  unfold winMkdir
  split
  · exact ⟨rfl, fun _ => .inl rfl⟩
  · unfold winMkdirRaw
    have := winCreate_grown win w.tick p
    split
    rename_i r w1 hc
    rw [hc] at this
    have h0 : WGrown w w1 := ⟨this.1, this.2⟩
    split
    · exact h0
    · exact h0.trans (winCut_grown win _ _ _ _)

/-- A directory that has been created successfully was not there, and is. -/
theorem winMkdir_success {win : Win} {p : Bytes} {w w' : WWorld} (h0 : 0 ∉ p)
    (h : winMkdir win p w = (0, w')) :
    ∃ l, winLocate win w.cwd p = some l ∧ w.fs l = none ∧ w'.fs l = some .dir := by
  unfold winMkdir at h
  split at h
  · simp at h
  · unfold winMkdirRaw at h
    have hg := winCreate_grown win w.tick p
    rcases winCreate_cases win w.tick p with ⟨g1, g2⟩ | ⟨l, g1, g2, g3⟩
    · split at h
      rename_i r w1 hc
      rw [hc] at g1 g2 hg
      split at h
      · simp only [Prod.mk.injEq] at h; exact absurd h.1 g1
      · obtain ⟨w2, q, k1, k2, k3⟩ := winCut_made win _ _ _ _ _ h
        have hq : cString q = q := cString_plain _ (winNorm_zero k2 h0)
        rw [hq] at k3
        rcases winCreate_cases win w2 q with ⟨m1, _⟩ | ⟨l, m1, m2, m3⟩
        · rw [k3] at m1; exact absurd rfl m1
        · have hc2 : w2.cwd = w.cwd := k1.1.trans hg.1
          rw [hc2, winLocate_norm win _ k2] at m1
          refine ⟨l, m1, ?_, ?_⟩
          · rcases (hg.trans k1).2 l with e | ⟨e, _⟩
            · rw [m2] at e; exact e.symm
            · exact e
          · rw [k3] at m3
            simp only [Prod.mk.injEq, true_and] at m3
            rw [m3]
            simp [WWorld.tick, WWorld.put, WFS.put]
    · rw [g3] at h
      simp only [Int.reduceNeg, true_or, or_true, if_true, Prod.mk.injEq, true_and] at h
      refine ⟨l, g1, g2, ?_⟩
      rw [← h]
      simp [WWorld.tick, WWorld.put, WFS.put]

/-! ### Files and callbacks -/

theorem winOpen_keeps (win : Win) (w : WWorld) (p : Bytes) (ro tr : Bool) :
    WKeeps w.fs (winOpen win w p ro tr).2.fs ∧ (winOpen win w p ro tr).2.cwd = w.cwd := by
  unfold winOpen
  split
  · exact ⟨WKeeps.refl _, rfl⟩
  · split
    · exact ⟨WKeeps.refl _, rfl⟩
    · rename_i l hl
      split
      · rename_i ro' c hf
        split
        · exact ⟨WKeeps.refl _, rfl⟩
        · split
          · exact ⟨WKeeps.put_file hf _, rfl⟩
          · exact ⟨WKeeps.refl _, rfl⟩
      · exact ⟨WKeeps.refl _, rfl⟩
      · rename_i hn
        split
        · exact ⟨WKeeps.put_new hn _, rfl⟩
        · exact ⟨WKeeps.refl _, rfl⟩

theorem winWrite_keeps (win : Win) (w : WWorld) (f : OpenFile) (d : Bytes) :
    WKeeps w.fs (winWrite win w f d).2.fs ∧ (winWrite win w f d).2.cwd = w.cwd := by
  unfold winWrite
  split
  · exact ⟨WKeeps.refl _, rfl⟩
  · split
    · rename_i ro c hf
      exact ⟨WKeeps.put_file hf _, rfl⟩
    · exact ⟨WKeeps.refl _, rfl⟩

theorem winEvent_keeps (win : Win) (out : Bytes) (h h' : HLW) (e : Ev)
    (hh : winEvent win out h e = .ok h') :
    WKeeps h.w.fs h'.w.fs ∧ h'.w.cwd = h.w.cwd ∧ (e.inner → h'.ret = h.ret) := by
  cases e with
  | flStart =>
    simp only [winEvent, winFileStart, Except.ok.injEq] at hh
    have := winOpen_keeps win h.w out false true
    split at hh <;> rename_i ho <;> rw [ho] at this <;> subst hh <;> exact ⟨this.1, this.2, fun h => h.elim⟩
  | flRead d =>
    simp only [winEvent, winFileData] at hh
    split at hh
    · cases hh
    · rename_i f _
      have := winWrite_keeps win h.w f d
      cases hh
      exact ⟨this.1, this.2, fun _ => rfl⟩
  | drStart =>
    simp only [winEvent, winDirStart, Except.ok.injEq] at hh
    have := winMkdir_grown win out h.w
    by_cases h1 : (winMkdir win out h.w).1 ≠ 0
    · rw [if_pos h1] at hh; subst hh; exact ⟨this.keeps, this.1, fun h => h.elim⟩
    · rw [if_neg h1] at hh
      split at hh <;> subst hh <;> exact ⟨this.keeps, this.1, fun h => h.elim⟩
  | itemStart ft name item =>
    simp only [winEvent, winItemStart] at hh
    split at hh
    · simp only [winDirItem] at hh
      split at hh
      · cases hh; exact ⟨WKeeps.refl _, rfl, fun _ => rfl⟩
      · split at hh
        · cases hh
        · rename_i path _
          have := winMkdir_grown win (cString path) h.w.tick
          cases hh
          exact ⟨this.keeps, this.1, fun _ => rfl⟩
    · simp only [winFileItem] at hh
      split at hh
      · cases hh
      · rename_i path _
        have := winOpen_keeps win h.w (cString path) (winReadOnly (itMode item)) false
        split at hh <;> rename_i ho <;> rw [ho] at this <;> cases hh <;> exact ⟨this.1, this.2, fun _ => rfl⟩
    · cases hh; exact ⟨WKeeps.refl _, rfl, fun _ => rfl⟩
  | fileRead d =>
    simp only [winEvent, winFileRead] at hh
    split at hh
    · cases hh; exact ⟨WKeeps.refl _, rfl, fun _ => rfl⟩
    · cases hh
    · rename_i f _
      have := winWrite_keeps win h.w f d
      cases hh
      exact ⟨this.1, this.2, fun _ => rfl⟩
  | fileEnd =>
    simp only [winEvent, winFileEnd] at hh
    split at hh
    · cases hh; exact ⟨WKeeps.refl _, rfl, fun _ => rfl⟩
    · cases hh
    · cases hh; exact ⟨WKeeps.refl _, rfl, fun _ => rfl⟩
  | dirEnd =>
    simp only [winEvent, winDirEnd] at hh
    split at hh
    · cases hh
    · split at hh
      · cases hh
      · cases hh; exact ⟨WKeeps.refl _, rfl, fun _ => rfl⟩
  | symLink a b =>
    simp only [winEvent] at hh
    cases hh
    exact ⟨WKeeps.refl _, rfl, fun _ => rfl⟩

theorem winEvents_keeps (win : Win) (out : Bytes) (evs : List Ev) : ∀ (h h' : HLW),
    winEvents win out h evs = .ok h' →
    WKeeps h.w.fs h'.w.fs ∧ h'.w.cwd = h.w.cwd ∧ ((∀ e ∈ evs, e.inner) → h'.ret = h.ret) := by
  induction evs with
  | nil => intro h h' hh; cases hh; exact ⟨WKeeps.refl _, rfl, fun _ => rfl⟩
  | cons e evs ih =>
    intro h h' hh
    simp only [winEvents] at hh
    split at hh
    · simp at hh
    · rename_i h1 he
      obtain ⟨a1, a2, a3⟩ := winEvent_keeps win out h h1 e he
      obtain ⟨b1, b2, b3⟩ := ih h1 h' hh
      exact ⟨a1.trans b1, b2.trans a2, fun hi =>
        (b3 (fun e he => hi e (List.mem_cons_of_mem _ he))).trans (a3 (hi e List.mem_cons_self))⟩

/-- `fopen` with mode "wb" that succeeds leaves a file. -/
theorem winOpen_made {win : Win} {w w' : WWorld} {p : Bytes} {ro : Bool} {l : Loc}
    (h : winOpen win w p ro true = (some l, w')) :
    winLocate win w.cwd p = some l ∧ ∃ ro', w'.fs l = some (.file ro' []) := by
  unfold winOpen at h
  split at h
  · cases h
  · split at h
    · cases h
    · rename_i l' hl
      split at h
      · rename_i ro' c hf
        split at h
        · cases h
        · simp only [if_true, Prod.mk.injEq, Option.some.injEq] at h
          obtain ⟨rfl, rfl⟩ := h
          exact ⟨hl, ro', by simp [WWorld.tick, WWorld.put, WFS.put]⟩
      · cases h
      · split at h
        · simp only [Prod.mk.injEq, Option.some.injEq] at h
          obtain ⟨rfl, rfl⟩ := h
          exact ⟨hl, ro, by simp [WWorld.tick, WWorld.put, WFS.put]⟩
        · cases h

end Zwt
