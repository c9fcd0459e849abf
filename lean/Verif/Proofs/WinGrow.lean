import Verif.Proofs.WinRun
import Verif.Proofs.HLGrow

/-! What an extraction on Windows adds to the drive: as `Proofs/HLGrow.lean`. -/

namespace Zwt

/-- `k` new nodes and any number of writes, none of them beyond offset `B`; files are emptied only if
`t`. -/
inductive WfsRun (t : Bool) (B : Nat) (fs : WFS) : Nat → WFS → Prop
  | refl : WfsRun t B fs 0 fs
  | new {n : Nat} {fs' : WFS} {l : Loc} {x : WNode} : WfsRun t B fs n fs' → fs' l = none →
      fs' l.dropLast = some .dir → (∀ ro c, x = .file ro c → c = []) →
      WfsRun t B fs (n + 1) (fs'.put l x)
  | write {n : Nat} {fs' : WFS} {l : Loc} {ro : Bool} {off : Nat} {c d : Bytes} :
      WfsRun t B fs n fs' → fs' l = some (.file ro c) → off + d.length ≤ B →
      WfsRun t B fs n (fs'.put l (.file ro (pwrite c off d)))
  | trunc {n : Nat} {fs' : WFS} {l : Loc} {ro : Bool} {c : Bytes} : WfsRun t B fs n fs' → t = true →
      fs' l = some (.file ro c) → WfsRun t B fs n (fs'.put l (.file ro []))

namespace WfsRun

variable {t : Bool} {B : Nat} {fs fs' : WFS} {n : Nat}

theorem trans {k : Nat} {fs'' : WFS} (h : WfsRun t B fs n fs') (h' : WfsRun t B fs' k fs'') :
    WfsRun t B fs (n + k) fs'' := by
  induction h' with
  | refl => exact h
  | new _ h1 h2 h3 ih => exact .new ih h1 h2 h3
  | write _ h1 h2 ih => exact .write ih h1 h2
  | trunc _ h1 h2 ih => exact .trunc ih h1 h2

theorem mono {B' : Nat} (h : WfsRun t B fs n fs') (hB : B ≤ B') : WfsRun t B' fs n fs' := by
  induction h with
  | refl => exact .refl
  | new _ h1 h2 h3 ih => exact .new ih h1 h2 h3
  | write _ h1 h2 ih => exact .write ih h1 (by omega)
  | trunc _ h1 h2 ih => exact .trunc ih h1 h2

/-- Files are shortened only if `t`, and lengthened at most to `B`. -/
theorem files (h : WfsRun t B fs n fs') {l : Loc} {ro : Bool} {c : Bytes}
    (hf : fs l = some (.file ro c)) : ∃ c', fs' l = some (.file ro c') ∧
      (t = false → c.length ≤ c'.length) ∧ (c'.length ≤ c.length ∨ c'.length ≤ B) := by
  induction h with
  | refl => exact ⟨c, hf, fun _ => Nat.le_refl _, .inl (Nat.le_refl _)⟩
  | @new n fs' l' x _ h1 _ _ ih =>
    obtain ⟨c', g1, g2⟩ := ih
    refine ⟨c', ?_, g2⟩
    simp only [WFS.put]
    rw [if_neg (by intro e; rw [e, h1] at g1; simp at g1)]
    exact g1
  | @write n fs' l' m' off c1 d _ h1 h2 ih =>
    obtain ⟨c', g1, g2, g3⟩ := ih
    by_cases e : l = l'
    · subst e
      rw [g1] at h1
      simp only [Option.some.injEq, WNode.file.injEq] at h1
      obtain ⟨rfl, rfl⟩ := h1
      have := FsRun.pwrite_grows c' off d
      refine ⟨pwrite c' off d, by simp [WFS.put], fun ht => ?_, ?_⟩
      · have := g2 ht; omega
      · omega
    · refine ⟨c', ?_, g2, g3⟩
      simp only [WFS.put, if_neg e]; exact g1
  | @trunc n fs' l' m' c1 _ h1 h2 ih =>
    obtain ⟨c', g1, g2, g3⟩ := ih
    by_cases e : l = l'
    · subst e
      rw [g1] at h2
      simp only [Option.some.injEq, WNode.file.injEq] at h2
      obtain ⟨rfl, rfl⟩ := h2
      refine ⟨[], by simp [WFS.put], fun ht => ?_, .inl (by simp)⟩
      rw [ht] at h1; simp at h1
    · refine ⟨c', ?_, g2, g3⟩
      simp only [WFS.put, if_neg e]; exact g1

/-- Directories stay. -/
theorem dirs (h : WfsRun t B fs n fs') {l : Loc} (hf : fs l = some .dir) : fs' l = some .dir := by
  induction h with
  | refl => exact hf
  | new _ h1 _ _ ih =>
    simp only [WFS.put]; rw [if_neg (by intro e; rw [e, h1] at ih; simp at ih)]; exact ih
  | write _ h1 _ ih =>
    simp only [WFS.put]; rw [if_neg (by intro e; rw [e, h1] at ih; simp at ih)]; exact ih
  | trunc _ _ h1 ih =>
    simp only [WFS.put]; rw [if_neg (by intro e; rw [e, h1] at ih; simp at ih)]; exact ih

/-- New files. -/
theorem added (h : WfsRun t B fs n fs') {l : Loc} (hf : fs l = none) {ro : Bool} {c : Bytes}
    (hx : fs' l = some (.file ro c)) : c.length ≤ B := by
  induction h generalizing ro c with
  | refl => rw [hf] at hx; simp at hx
  | @new n fs' l' y _ h1 _ h3 ih =>
    simp only [WFS.put] at hx
    split at hx
    · cases hx
      rw [h3 _ _ rfl]; simp
    · exact ih hx
  | @write n fs' l' m' off c1 d _ h1 h2 ih =>
    simp only [WFS.put] at hx
    split at hx
    · rename_i e
      cases hx
      subst e
      have := FsRun.pwrite_grows c1 off d
      have := ih h1
      omega
    · exact ih hx
  | @trunc n fs' l' m' c1 _ h1 h2 ih =>
    simp only [WFS.put] at hx
    split at hx
    · cases hx; simp
    · exact ih hx

/-- How many nodes are new. -/
theorem count (h : WfsRun t B fs n fs') :
    ∃ L : List Loc, L.length = n ∧ ∀ l, fs l = none → fs' l ≠ none → l ∈ L := by
  induction h with
  | refl => exact ⟨[], rfl, fun l h h' => absurd h h'⟩
  | @new n fs' l' y _ h1 _ h3 ih =>
    obtain ⟨L, g1, g2⟩ := ih
    refine ⟨l' :: L, by simp [g1], fun l hl hx => ?_⟩
    simp only [WFS.put] at hx
    split at hx
    · rename_i e; rw [e]; exact List.mem_cons_self
    · exact List.mem_cons_of_mem _ (g2 l hl hx)
  | @write n fs' l' m' off c1 d _ h1 h2 ih =>
    obtain ⟨L, g1, g2⟩ := ih
    refine ⟨L, g1, fun l hl hx => ?_⟩
    simp only [WFS.put] at hx
    split at hx
    · rename_i e; exact g2 l hl (by rw [e, h1]; simp)
    · exact g2 l hl hx
  | @trunc n fs' l' m' c1 _ h1 h2 ih =>
    obtain ⟨L, g1, g2⟩ := ih
    refine ⟨L, g1, fun l hl hx => ?_⟩
    simp only [WFS.put] at hx
    split at hx
    · rename_i e; exact g2 l hl (by rw [e, h2]; simp)
    · exact g2 l hl hx

end WfsRun

theorem winParent_dir {fs : WFS} {l : Loc} (h : winParent fs l = true) : fs l.dropLast = some .dir := by
  simpa [winParent] using h

theorem winCreate_run (win : Win) (t : Bool) (B : Nat) (w : WWorld) (p : Bytes) :
    ((winCreate win w p).1 = 0 → WfsRun t B w.fs 1 (winCreate win w p).2.fs) ∧
      ((winCreate win w p).1 ≠ 0 → (winCreate win w p).2.fs = w.fs) := by
  simp only [winCreate]
  split
  · exact ⟨by simp, fun _ => rfl⟩
  · split
    · exact ⟨by simp, fun _ => rfl⟩
    · split
      · exact ⟨by simp, fun _ => rfl⟩
      · rename_i hn
        split
        · rename_i hp
          exact ⟨fun _ => .new .refl hn (winParent_dir hp) (fun _ _ h => by cases h), by simp⟩
        · exact ⟨by simp, fun _ => rfl⟩

theorem winCreate_run' (win : Win) (t : Bool) (B : Nat) (w : WWorld) (p : Bytes) :
    ∃ k, k ≤ 1 ∧ WfsRun t B w.fs k (winCreate win w p).2.fs := by
  have h := winCreate_run win t B w p
  by_cases h0 : (winCreate win w p).1 = 0
  · exact ⟨1, by omega, h.1 h0⟩
  · exact ⟨0, by omega, by rw [h.2 h0]; exact .refl⟩

theorem winRestore_run (win : Win) (t : Bool) (B : Nat) (idxs : List Nat) :
    ∀ (mem : Bytes) (w : WWorld),
    ∃ k, k ≤ idxs.length ∧ WfsRun t B w.fs k (winRestore win idxs mem w).2.fs := by
  induction idxs with
  | nil => intro mem w; exact ⟨0, by simp, .refl⟩
  | cons i idxs ih =>
    intro mem w
    obtain ⟨k, h1, h2⟩ := winCreate_run' win t B w (cString (mem.set i 47))
    simp only [winRestore]
    generalize winCreate win w (cString (mem.set i 47)) = x at h2
    split
    · exact ⟨k, by simp; omega, h2⟩
    · obtain ⟨k', g1, g2⟩ := ih (mem.set i 47) x.2
      exact ⟨k + k', by simp; omega, h2.trans g2⟩

theorem winCut_run (win : Win) (t : Bool) (B : Nat) (n : Nat) :
    ∀ (idxs : List Nat) (mem : Bytes) (w : WWorld),
    ∃ k, k ≤ 62 ∧ WfsRun t B w.fs k (winCut win n idxs mem w).2.fs := by
  induction n with
  | zero => intro idxs mem w; exact ⟨0, by omega, .refl⟩
  | succ n ih =>
    intro idxs mem w
    simp only [winCut]
    split
    · exact ⟨0, by omega, .refl⟩
    · rename_i i hi
      have h := winCreate_run win t B w (cString (mem.set i 0))
      obtain ⟨k, k1, k2⟩ := winCreate_run' win t B w (cString (mem.set i 0))
      generalize winCreate win w (cString (mem.set i 0)) = x at h k2
      obtain ⟨r, w'⟩ := x
      simp only at h k2 ⊢
      split
      · exact ⟨k, by omega, k2⟩
      · split
        · split
          · rename_i hl
            obtain ⟨k', g1, g2⟩ := winRestore_run win t B (i :: idxs) (mem.set i 0) w'
            exact ⟨k + k', by omega, k2.trans g2⟩
          · exact ⟨k, by omega, k2⟩
        · rename_i hr
          have : w'.fs = w.fs := h.2 (fun e => hr (.inl e))
          obtain ⟨k', g1, g2⟩ := ih (i :: idxs) (mem.set i 0) w'
          rw [this] at g2
          exact ⟨k', g1, g2⟩

theorem winMkdir_run (win : Win) (t : Bool) (B : Nat) (path : Bytes) (w : WWorld) :
    ∃ k, k ≤ 62 ∧ WfsRun t B w.fs k (winMkdir win path w).2.fs := by
  simp only [winMkdir]
  split
  · exact ⟨0, by omega, .refl⟩
  · simp only [winMkdirRaw]
    have h := winCreate_run win t B w.tick path
    obtain ⟨k, k1, k2⟩ := winCreate_run' win t B w.tick path
    generalize winCreate win w.tick path = x at h k2
    obtain ⟨r, w'⟩ := x
    simp only at h k2 ⊢
    split
    · exact ⟨k, by omega, k2⟩
    · rename_i hr
      have : w'.fs = w.fs := h.2 (fun e => hr (.inr (.inl e)))
      obtain ⟨k', g1, g2⟩ := winCut_run win t B 62 [] path w'
      rw [this] at g2
      exact ⟨k', g1, g2⟩

theorem winOpen_run (win : Win) (t : Bool) (B : Nat) (w : WWorld) (p : Bytes) (ro tr : Bool)
    (ht : tr = true → t = true) : ∃ k, k ≤ 1 ∧ WfsRun t B w.fs k (winOpen win w p ro tr).2.fs := by
  have r0 : ∃ k, k ≤ 1 ∧ WfsRun t B w.fs k w.fs := ⟨0, by omega, .refl⟩
  simp only [winOpen]
  split
  · exact r0
  · split
    · exact r0
    · split
      · rename_i hf
        split
        · exact r0
        · split
          · rename_i h
            exact ⟨0, by omega, .trunc .refl (ht h) hf⟩
          · exact r0
      · exact r0
      · rename_i hnone
        split
        · rename_i hp
          exact ⟨1, by omega, .new .refl hnone (winParent_dir hp) (fun _ _ h => by cases h; rfl)⟩
        · exact r0

theorem winWrite_run (win : Win) (t : Bool) (B : Nat) (w : WWorld) (f : OpenFile) (d : Bytes)
    (hB : f.off + d.length ≤ B) :
    WfsRun t B w.fs 0 (winWrite win w f d).2.fs ∧ (winWrite win w f d).1.off ≤ B := by
  simp only [winWrite]
  split
  · exact ⟨.refl, by simp only; omega⟩
  · split
    · rename_i hf
      have : (d.take (win.accepts w.calls d.length)).length ≤ d.length := by
        rw [List.length_take]; omega
      exact ⟨.write .refl hf (by omega), by simp only; omega⟩
    · exact ⟨.refl, by simp only; omega⟩

/-- The offsets of open files. -/
def HLW.upto (h : HLW) (B : Nat) : Prop :=
  (∀ f, h.fpOut = some f → f.off ≤ B) ∧ ∀ f, h.fd = .opened f → f.off ≤ B

theorem HLW.upto.mono {h : HLW} {B B' : Nat} (u : h.upto B) (hB : B ≤ B') : h.upto B' :=
  ⟨fun f hf => by have := u.1 f hf; omega, fun f hf => by have := u.2 f hf; omega⟩

theorem winEvent_run (win : Win) (t : Bool) (B : Nat) (out : Bytes) (h h' : HLW) (e : Ev)
    (ht : e = .flStart → t = true) (u : h.upto B) (hh : winEvent win out h e = .ok h') :
    (∃ k, k ≤ e.adds ∧ WfsRun t (B + e.bytes) h.w.fs k h'.w.fs) ∧ h'.upto (B + e.bytes) := by
  cases e with
  | flStart =>
    obtain ⟨k, k1, k2⟩ := winOpen_run win t B h.w out false true (fun _ => ht rfl)
    simp only [winEvent, winFileStart] at hh
    generalize winOpen win h.w out false true = x at hh k2
    obtain ⟨ol, w'⟩ := x
    cases ol with
    | none => cases hh; exact ⟨⟨k, k1, k2⟩, by simp, u.2⟩
    | some l =>
      cases hh
      refine ⟨⟨k, k1, k2⟩, ?_, u.2⟩
      intro f hf; cases hf; simp
  | flRead d =>
    simp only [winEvent, winFileData] at hh
    split at hh
    · simp at hh
    · rename_i f hf
      have := winWrite_run win t (B + d.length) h.w f d (by have := u.1 f hf; omega)
      generalize winWrite win h.w f d = x at hh this
      obtain ⟨f', w'⟩ := x
      cases hh
      refine ⟨⟨0, by omega, this.1⟩, ?_, fun g hg => ?_⟩
      · intro g hg; cases hg; exact this.2
      · have := u.2 g hg; simp only [Ev.bytes]; omega
  | drStart =>
    obtain ⟨k, k1, k2⟩ := winMkdir_run win t B out h.w
    simp only [winEvent, winDirStart] at hh
    generalize winMkdir win out h.w = x at hh k2
    obtain ⟨r, w'⟩ := x
    simp only at hh
    split at hh
    · cases hh; exact ⟨⟨k, k1, k2⟩, u⟩
    · split at hh
      · cases hh; exact ⟨⟨k, k1, k2⟩, u⟩
      · cases hh; exact ⟨⟨k, k1, k2⟩, u⟩
  | itemStart ft nm it =>
    simp only [winEvent, winItemStart] at hh
    split at hh
    · simp only [winDirItem] at hh
      split at hh
      · cases hh; exact ⟨⟨0, by omega, .refl⟩, u⟩
      · split at hh
        · simp at hh
        · rename_i path hpath
          obtain ⟨k, k1, k2⟩ := winMkdir_run win t B (cString path) h.w.tick
          generalize winMkdir win (cString path) h.w.tick = x at hh k2
          obtain ⟨r, w'⟩ := x
          cases hh
          exact ⟨⟨k, k1, k2⟩, u⟩
    · simp only [winFileItem] at hh
      split at hh
      · simp at hh
      · rename_i path hpath
        obtain ⟨k, k1, k2⟩ := winOpen_run win t B h.w (cString path) (winReadOnly (itMode it)) false
          (by simp)
        generalize winOpen win h.w (cString path) (winReadOnly (itMode it)) false = x at hh k2
        obtain ⟨ol, w'⟩ := x
        cases ol with
        | none => cases hh; exact ⟨⟨k, k1, k2⟩, u.1, by simp⟩
        | some l =>
          cases hh
          refine ⟨⟨k, k1, k2⟩, u.1, ?_⟩
          intro f hf; cases hf; simp
    · cases hh; exact ⟨⟨0, by omega, .refl⟩, u⟩
  | fileRead d =>
    simp only [winEvent, winFileRead] at hh
    split at hh
    · cases hh; exact ⟨⟨0, by omega, .refl⟩, HLW.upto.mono u (by simp)⟩
    · simp at hh
    · rename_i f hf
      have := winWrite_run win t (B + d.length) h.w f d (by have := u.2 f hf; omega)
      generalize winWrite win h.w f d = x at hh this
      obtain ⟨f', w'⟩ := x
      cases hh
      refine ⟨⟨0, by omega, this.1⟩, fun g hg => ?_, ?_⟩
      · have := u.1 g hg; simp only [Ev.bytes]; omega
      · intro g hg; cases hg; exact this.2
  | fileEnd =>
    simp only [winEvent, winFileEnd] at hh
    split at hh
    · cases hh; exact ⟨⟨0, by omega, .refl⟩, u⟩
    · simp at hh
    · cases hh; exact ⟨⟨0, by omega, .refl⟩, u.1, by simp⟩
  | dirEnd =>
    simp only [winEvent, winDirEnd] at hh
    split at hh
    · simp at hh
    · split at hh
      · simp at hh
      · cases hh; exact ⟨⟨0, by omega, .refl⟩, u⟩
  | symLink tg a => cases hh; exact ⟨⟨0, by omega, .refl⟩, u⟩

theorem winEvents_run (win : Win) (t : Bool) (out : Bytes) (evs : List Ev) : ∀ (B : Nat) (h h' : HLW),
    (.flStart ∈ evs → t = true) → h.upto B → winEvents win out h evs = .ok h' →
    ∃ k, k ≤ evAdds evs ∧ WfsRun t (B + evBytes evs) h.w.fs k h'.w.fs := by
  induction evs with
  | nil => intro B h h' _ _ hh; cases hh; exact ⟨0, by simp [evAdds], .refl⟩
  | cons e evs ih =>
    intro B h h' ht u hh
    simp only [winEvents] at hh
    split at hh
    · simp at hh
    · rename_i h1 he
      obtain ⟨⟨k, k1, k2⟩, u1⟩ := winEvent_run win t B out h h1 e
        (fun e' => ht (by rw [e']; exact List.mem_cons_self)) u he
      obtain ⟨k', g1, g2⟩ := ih (B + e.bytes) h1 h' (fun m => ht (List.mem_cons_of_mem _ m)) u1 hh
      simp only [evBytes, evAdds, List.map_cons, List.sum_cons] at g1 g2 ⊢
      refine ⟨k + k', by omega, ?_⟩
      rw [← Nat.add_assoc]
      exact (k2.mono (by omega)).trans g2

/-- Which faults a callback can meet. -/
theorem winEvent_fault (win : Win) (out : Bytes) (h : HLW) (e : Ev) (x : Fault)
    (hx : winEvent win out h e = .error x) :
    x = .nullDeref ∨ x = .oobRead ∨ x = .useAfterFree ∨ x = .doubleFree ∨ x = .assertFail := by
  cases e with
  | flStart => cases hx
  | drStart => cases hx
  | symLink => cases hx
  | flRead d => simp only [winEvent, winFileData] at hx; split at hx <;> cases hx; simp
  | fileRead d => simp only [winEvent, winFileRead] at hx; split at hx <;> cases hx; simp
  | fileEnd => simp only [winEvent, winFileEnd] at hx; split at hx <;> cases hx; simp
  | dirEnd =>
    simp only [winEvent, winDirEnd] at hx
    split at hx
    · cases hx; simp
    · split at hx <;> cases hx; simp
  | itemStart ft nm it =>
    have hp : ∀ h n y, winItemPath h nm n = .error y → y = .oobRead := by
      intro h n y hy
      simp only [winItemPath] at hy
      split at hy <;> cases hy
      rfl
    simp only [winEvent, winItemStart] at hx
    split at hx
    · simp only [winDirItem] at hx
      split at hx
      · cases hx
      · split at hx
        · rename_i e he; cases hx; exact .inr (.inl (hp _ _ _ he))
        · cases hx
    · simp only [winFileItem] at hx
      split at hx
      · rename_i e he; cases hx; exact .inr (.inl (hp _ _ _ he))
      · split at hx <;> cases hx
    · cases hx

theorem winEvents_fault (win : Win) (out : Bytes) (evs : List Ev) : ∀ (h : HLW) (x : Fault),
    winEvents win out h evs = .error x →
    x = .nullDeref ∨ x = .oobRead ∨ x = .useAfterFree ∨ x = .doubleFree ∨ x = .assertFail := by
  induction evs with
  | nil => intro h x hx; cases hx
  | cons e evs ih =>
    intro h x hx
    simp only [winEvents] at hx
    split at hx
    · rename_i y hy; cases hx; exact winEvent_fault win out h e _ hy
    · exact ih _ _ hx

/-- Everything an extraction does to the drive. -/
theorem WDone.fsRun {Z : Inflater} {plain : Bytes → Bytes} {C : InflateOK Z plain} {ok : AllocOracle}
    {win : Win} {out : Bytes} {w : WWorld} {lim : Bytes} {err : Bool} {short : Prop} {r : WExtracted}
    {P : Bytes} {log : List Ev} {h : HLW} (D : WDone C ok win out w lim err short r P log h) :
    ∃ t k, (hdrKind ((plain lim).take 128) = CT_DIRECTORY → t = false) ∧
      40 * k ≤ 62 * (plain lim).length ∧
      WfsRun t ((plain lim).length - 128) w.fs k r.w.fs := by
  have hl := D.pre.length_le
  obtain ⟨s1, s2⟩ := D.arch.sums
  have hu : (HLW.init w).upto 0 := ⟨by simp [HLW.init], by simp [HLW.init]⟩
  by_cases hlog : log = []
  · have := D.run
    rw [hlog] at this
    cases this
    exact ⟨false, 0, fun _ => rfl, by omega, by rw [D.world]; exact .refl⟩
  · have s1 := s1 hlog
    have go : ∀ t, (Ev.flStart ∈ log → t = true) → ∃ k, 40 * k ≤ 62 * (plain lim).length ∧
        WfsRun t ((plain lim).length - 128) w.fs k r.w.fs := by
      intro t ht
      obtain ⟨k, k1, k2⟩ := winEvents_run win t out log 0 _ h ht hu D.run
      rw [D.world]
      exact ⟨k, by omega, k2.mono (by omega)⟩
    have hk := D.arch.kind
    generalize hlg : log = log' at hk
    cases hk with
    | none => exact absurd hlg hlog
    | file a1 a2 a3 =>
      obtain ⟨k, k1, k2⟩ := go true (fun _ => rfl)
      refine ⟨true, k, ?_, k1, k2⟩
      intro hd
      rw [(take_header D.pre a1).1, hd] at a3
      exact absurd a3 (by decide)
    | @dir evs a1 a2 a3 a4 =>
      obtain ⟨k, k1, k2⟩ := go false (by
        intro hm
        rw [hlg] at hm
        rcases List.mem_cons.mp hm with hm | hm
        · cases hm
        · exact (proto_inner _ .idle a4 _ hm).elim)
      exact ⟨false, k, fun _ => rfl, k1, k2⟩

end Zwt
