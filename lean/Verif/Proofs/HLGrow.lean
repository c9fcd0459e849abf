import Verif.Proofs.HLEnd

/-! What extraction can do to a file system: it adds nodes and writes to files, within bounds. -/

namespace Zwt

/-- Permission bits of new nodes. -/
def Node.modest (os : Os) : Node → Prop
  | .dir m => ∀ i, m.testBit i = true → (0o1777 : Nat).testBit i = true ∧ os.allow.testBit i = true
  | .file m c => c = [] ∧
      ∀ i, m.testBit i = true → (0o777 : Nat).testBit i = true ∧ os.allow.testBit i = true
  | .link _ => True

/-- `fs'` comes from `fs` by adding `n` nodes, each in an existing directory, and by writing to files
up to the offset `B` (and emptying them, if `t`). -/
inductive FsRun (os : Os) (t : Bool) (B : Nat) (fs : FS) : Nat → FS → Prop
  | refl : FsRun os t B fs 0 fs
  | new {n : Nat} {fs' : FS} {l : Loc} {x : Node} : FsRun os t B fs n fs' → fs' l = none →
      (∃ m, fs' l.dropLast = some (.dir m)) → x.modest os → FsRun os t B fs (n + 1) (fs'.put l x)
  | write {n : Nat} {fs' : FS} {l : Loc} {m off : Nat} {c d : Bytes} : FsRun os t B fs n fs' →
      fs' l = some (.file m c) → off + d.length ≤ B →
      FsRun os t B fs n (fs'.put l (.file m (pwrite c off d)))
  | trunc {n : Nat} {fs' : FS} {l : Loc} {m : Nat} {c : Bytes} : FsRun os t B fs n fs' → t = true →
      fs' l = some (.file m c) → FsRun os t B fs n (fs'.put l (.file m []))

namespace FsRun

variable {os : Os} {t : Bool} {B : Nat} {fs fs' : FS} {n : Nat}

theorem trans {k : Nat} {fs'' : FS} (h : FsRun os t B fs n fs') (h' : FsRun os t B fs' k fs'') :
    FsRun os t B fs (n + k) fs'' := by
  induction h' with
  | refl => exact h
  | new _ h1 h2 h3 ih => exact .new ih h1 h2 h3
  | write _ h1 h2 ih => exact .write ih h1 h2
  | trunc _ h1 h2 ih => exact .trunc ih h1 h2

theorem mono {B' : Nat} (h : FsRun os t B fs n fs') (hB : B ≤ B') : FsRun os t B' fs n fs' := by
  induction h with
  | refl => exact .refl
  | new _ h1 h2 h3 ih => exact .new ih h1 h2 h3
  | write _ h1 h2 ih => exact .write ih h1 (by omega)
  | trunc _ h1 h2 ih => exact .trunc ih h1 h2

theorem keeps (h : FsRun os t B fs n fs') : Keeps fs fs' := by
  induction h with
  | refl => exact Keeps.refl _
  | new _ h1 _ _ ih => exact ih.trans (Keeps.put h1 _)
  | write _ h1 _ ih => exact ih.trans (Keeps.putFile h1 _)
  | trunc _ _ h1 ih => exact ih.trans (Keeps.putFile h1 _)

theorem pwrite_grows (c : Bytes) (off : Nat) (d : Bytes) :
    c.length ≤ (pwrite c off d).length ∧
      ((pwrite c off d).length ≤ c.length ∨ (pwrite c off d).length ≤ off + d.length) := by
  unfold pwrite overwrite
  split
  · exact ⟨Nat.le_refl _, .inl (Nat.le_refl _)⟩
  · simp only [List.length_append, List.length_take, List.length_drop, List.length_replicate]
    omega

/-- Files stay files with the same permissions; they are shortened only if `t`, and lengthened at
most to `B`. -/
theorem files (h : FsRun os t B fs n fs') {l : Loc} {m : Nat} {c : Bytes}
    (hf : fs l = some (.file m c)) : ∃ c', fs' l = some (.file m c') ∧
      (t = false → c.length ≤ c'.length) ∧ (c'.length ≤ c.length ∨ c'.length ≤ B) := by
  induction h with
  | refl => exact ⟨c, hf, fun _ => Nat.le_refl _, .inl (Nat.le_refl _)⟩
  | @new n fs' l' x _ h1 _ _ ih =>
    obtain ⟨c', g1, g2⟩ := ih
    refine ⟨c', ?_, g2⟩
    simp only [FS.put]
    rw [if_neg (by intro e; rw [e, h1] at g1; simp at g1)]
    exact g1
  | @write n fs' l' m' off c1 d _ h1 h2 ih =>
    obtain ⟨c', g1, g2, g3⟩ := ih
    by_cases e : l = l'
    · subst e
      rw [g1] at h1
      simp only [Option.some.injEq, Node.file.injEq] at h1
      obtain ⟨rfl, rfl⟩ := h1
      have := pwrite_grows c' off d
      refine ⟨pwrite c' off d, FS.put_same .., fun ht => ?_, ?_⟩
      · have := g2 ht; omega
      · omega
    · refine ⟨c', ?_, g2, g3⟩
      simp only [FS.put, if_neg e]; exact g1
  | @trunc n fs' l' m' c1 _ h1 h2 ih =>
    obtain ⟨c', g1, g2, g3⟩ := ih
    by_cases e : l = l'
    · subst e
      rw [g1] at h2
      simp only [Option.some.injEq, Node.file.injEq] at h2
      obtain ⟨rfl, rfl⟩ := h2
      refine ⟨[], FS.put_same .., fun ht => ?_, .inl (by simp)⟩
      rw [ht] at h1; simp at h1
    · refine ⟨c', ?_, g2, g3⟩
      simp only [FS.put, if_neg e]; exact g1

/-- New nodes. -/
theorem added (h : FsRun os t B fs n fs') {l : Loc} (hf : fs l = none) {x : Node}
    (hx : fs' l = some x) : x.within os B := by
  induction h generalizing x with
  | refl => rw [hf] at hx; simp at hx
  | @new n fs' l' y _ h1 _ h3 ih =>
    simp only [FS.put] at hx
    split at hx
    · cases hx
      cases y with
      | dir m => exact h3
      | file m c => obtain ⟨rfl, h⟩ := h3; exact ⟨by simp, h⟩
      | link => trivial
    · exact ih hx
  | @write n fs' l' m' off c1 d _ h1 h2 ih =>
    simp only [FS.put] at hx
    split at hx
    · rename_i e
      cases hx
      subst e
      have := pwrite_grows c1 off d
      obtain ⟨a, b⟩ := ih h1
      exact ⟨by omega, b⟩
    · exact ih hx
  | @trunc n fs' l' m' c1 _ h1 h2 ih =>
    simp only [FS.put] at hx
    split at hx
    · rename_i e
      cases hx
      subst e
      obtain ⟨a, b⟩ := ih h2
      exact ⟨by simp, b⟩
    · exact ih hx

/-- How many nodes are new. -/
theorem count (h : FsRun os t B fs n fs') :
    ∃ L : List Loc, L.length = n ∧ ∀ l, fs l = none → fs' l ≠ none → l ∈ L := by
  induction h with
  | refl => exact ⟨[], rfl, fun l h h' => absurd h h'⟩
  | @new n fs' l' y _ h1 _ h3 ih =>
    obtain ⟨L, g1, g2⟩ := ih
    refine ⟨l' :: L, by simp [g1], fun l hl hx => ?_⟩
    simp only [FS.put] at hx
    split at hx
    · rename_i e; rw [e]; exact List.mem_cons_self
    · exact List.mem_cons_of_mem _ (g2 l hl hx)
  | @write n fs' l' m' off c1 d _ h1 h2 ih =>
    obtain ⟨L, g1, g2⟩ := ih
    refine ⟨L, g1, fun l hl hx => ?_⟩
    simp only [FS.put] at hx
    split at hx
    · rename_i e; exact g2 l hl (by rw [e, h1]; simp)
    · exact g2 l hl hx
  | @trunc n fs' l' m' c1 _ h1 h2 ih =>
    obtain ⟨L, g1, g2⟩ := ih
    refine ⟨L, g1, fun l hl hx => ?_⟩
    simp only [FS.put] at hx
    split at hx
    · rename_i e; exact g2 l hl (by rw [e, h2]; simp)
    · exact g2 l hl hx

/-- A tree stays a tree. -/
theorem tree (h : FsRun os t B fs n fs') (ht : fs.tree) : fs'.tree := by
  have put : ∀ {fs' : FS} {l : Loc} {x : Node}, fs'.tree →
      (∀ m, fs' l = some (.dir m) → x = .dir m) → (∃ m, fs' l.dropLast = some (.dir m)) →
      (fs'.put l x).tree := by
    intro fs' l x ht hl ⟨m, hm⟩
    have old : ∀ k m, fs' k = some (.dir m) → fs'.put l x k = some (.dir m) := by
      intro k m hk
      simp only [FS.put]
      split
      · rename_i e; rw [hl m (by rw [← e]; exact hk)]
      · exact hk
    refine ⟨?_, ?_⟩
    · obtain ⟨m, h⟩ := ht.1; exact ⟨m, old _ _ h⟩
    · intro k c y hy
      simp only [FS.put] at hy
      split at hy
      · rename_i e
        rw [← e, List.dropLast_concat] at hm
        exact ⟨m, old _ _ hm⟩
      · obtain ⟨m, h⟩ := ht.2 k c y hy; exact ⟨m, old _ _ h⟩
  have up : ∀ {fs' : FS} {l : Loc} {y : Node}, fs'.tree → fs' l = some y →
      ∃ m, fs' l.dropLast = some (.dir m) := by
    intro fs' l y ht hy
    rcases List.eq_nil_or_concat l with rfl | ⟨k, c, rfl⟩
    · exact ht.1
    · rw [List.concat_eq_append, List.dropLast_concat]
      exact ht.2 k c y (by simpa using hy)
  induction h with
  | refl => exact ht
  | new _ h1 h2 _ ih => exact put ih (by intro m h; rw [h1] at h; simp at h) h2
  | write _ h1 _ ih => exact put ih (by intro m h; rw [h1] at h; simp at h) (up ih h1)
  | trunc _ _ h1 ih => exact put ih (by intro m h; rw [h1] at h; simp at h) (up ih h1)

end FsRun

/-! ### System calls -/

theorem writable_dir {os : Os} {fs : FS} {l : Loc} (h : writable os fs l = true) :
    ∃ m, fs l = some (.dir m) := by
  simp only [writable] at h
  split at h
  · rename_i m hm; exact ⟨m, hm⟩
  · simp at h

theorem addNode_run {os : Os} {t : Bool} {B : Nat} {w w' : World} {l : Loc} {x : Node}
    (hn : w.fs l = none) (hx : x.modest os) (h : addNode os w l x = some w') :
    FsRun os t B w.fs 1 w'.fs := by
  simp only [addNode] at h
  split at h
  · rename_i hw
    cases h
    exact .new .refl hn (writable_dir hw) hx
  · simp at h

theorem mkdir_modest (os : Os) (mode : Nat) : (Node.dir (mode &&& 0o1777 &&& os.allow)).modest os := by
  intro i hi
  rw [Nat.testBit_and, Nat.testBit_and, Bool.and_eq_true, Bool.and_eq_true] at hi
  exact ⟨hi.1.2, hi.2⟩

theorem file_modest (os : Os) (mode : Nat) (hm : mode = 0o777 &&& mode) :
    (Node.file (mode &&& os.allow) []).modest os := by
  refine ⟨rfl, fun i hi => ?_⟩
  rw [hm, Nat.testBit_and, Nat.testBit_and, Bool.and_eq_true, Bool.and_eq_true] at hi
  exact ⟨hi.1.1, hi.2⟩

theorem sysMkdir_run (os : Os) (t : Bool) (B : Nat) (w : World) (p : Bytes) (m : Nat) :
    ((sysMkdir os w p m).1 = .ok → FsRun os t B w.fs 1 (sysMkdir os w p m).2.fs) ∧
      ((sysMkdir os w p m).1 ≠ .ok → (sysMkdir os w p m).2.fs = w.fs) := by
  simp only [sysMkdir]
  split
  · exact ⟨by simp, fun _ => rfl⟩
  · split
    · exact ⟨by simp, fun _ => rfl⟩
    · split
      · exact ⟨by simp, fun _ => rfl⟩
      · rename_i hnone
        split
        · exact ⟨by simp, fun _ => rfl⟩
        · rename_i w' hw'
          exact ⟨fun _ => addNode_run (w' := w') hnone (mkdir_modest os m) hw', by simp⟩

theorem sysOpen_run (os : Os) (t : Bool) (B : Nat) (w : World) (p : Bytes) (m : Nat) (tr : Bool)
    (ht : tr = true → t = true) (hm : m = 0o777 &&& m) :
    ∃ k, k ≤ 1 ∧ FsRun os t B w.fs k (sysOpen os w p m tr).2.fs := by
  have r0 : ∃ k, k ≤ 1 ∧ FsRun os t B w.fs k w.fs := ⟨0, by omega, .refl⟩
  simp only [sysOpen]
  split
  · exact r0
  · split
    · exact r0
    · split
      · rename_i hf
        split
        · exact r0
        · split
          · rename_i h
            exact ⟨0, by omega, .trunc .refl (ht h) hf⟩
          · exact r0
      · exact r0
      · rename_i hnone
        split
        · exact r0
        · split
          · exact r0
          · rename_i w' hw'
            exact ⟨1, by omega, addNode_run (w' := w') hnone (file_modest os m hm) hw'⟩

theorem sysWrite_run (os : Os) (t : Bool) (B : Nat) (w : World) (f : OpenFile) (d : Bytes)
    (hB : f.off + d.length ≤ B) :
    FsRun os t B w.fs 0 (sysWrite os w f d).2.fs ∧ (sysWrite os w f d).1.off ≤ B := by
  simp only [sysWrite]
  split
  · exact ⟨.refl, by simp only; omega⟩
  · split
    · rename_i hf
      have : (d.take (os.accepts w.calls d.length)).length ≤ d.length := by
        rw [List.length_take]; omega
      exact ⟨.write .refl hf (by omega), by simp only; omega⟩
    · exact ⟨.refl, by simp only; omega⟩

theorem sysSymlink_run (os : Os) (t : Bool) (B : Nat) (w : World) (tg p : Bytes) :
    ∃ k, k ≤ 1 ∧ FsRun os t B w.fs k (sysSymlink os w tg p).2.fs := by
  have r0 : ∃ k, k ≤ 1 ∧ FsRun os t B w.fs k w.fs := ⟨0, by omega, .refl⟩
  simp only [sysSymlink]
  split
  · exact r0
  · split
    · exact r0
    · split
      · exact r0
      · rename_i hnone
        split
        · exact r0
        · rename_i w' hw'
          exact ⟨1, by omega, addNode_run (w' := w') hnone (x := .link tg) trivial hw'⟩

theorem osCreate_run (os : Os) (t : Bool) (B : Nat) (w : World) (p : Bytes) (m : Nat) :
    ((osCreate os w p m).1 = 0 → FsRun os t B w.fs 1 (osCreate os w p m).2.fs) ∧
      ((osCreate os w p m).1 ≠ 0 → (osCreate os w p m).2.fs = w.fs) := by
  have h := sysMkdir_run os t B w p m
  simp only [osCreate]
  generalize sysMkdir os w p m = x at h
  obtain ⟨r, w'⟩ := x
  cases r with
  | ok => exact ⟨fun _ => h.1 rfl, by simp⟩
  | fail => exact ⟨by simp, fun _ => h.2 (by simp)⟩
  | exist =>
    have h2 := sysIsDir_same os w' p
    simp only
    generalize sysIsDir os w' p = y at h2
    obtain ⟨b, w2⟩ := y
    have : w2.fs = w.fs := h2.1.trans (h.2 (by simp))
    cases b <;> exact ⟨by simp, fun _ => this⟩

theorem osCreate_run' (os : Os) (t : Bool) (B : Nat) (w : World) (p : Bytes) (m : Nat) :
    ∃ k, k ≤ 1 ∧ FsRun os t B w.fs k (osCreate os w p m).2.fs := by
  have h := osCreate_run os t B w p m
  by_cases h0 : (osCreate os w p m).1 = 0
  · exact ⟨1, by omega, h.1 h0⟩
  · exact ⟨0, by omega, by rw [h.2 h0]; exact .refl⟩

theorem mkRestore_run (os : Os) (t : Bool) (B : Nat) (mode : Nat) (idxs : List Nat) :
    ∀ (mem : Bytes) (w : World),
    ∃ k, k ≤ idxs.length ∧ FsRun os t B w.fs k (mkRestore os mode idxs mem w).2.fs := by
  induction idxs with
  | nil => intro mem w; exact ⟨0, by simp, .refl⟩
  | cons i idxs ih =>
    intro mem w
    obtain ⟨k, h1, h2⟩ := osCreate_run' os t B w (cString (mem.set i 47)) mode
    simp only [mkRestore]
    generalize osCreate os w (cString (mem.set i 47)) mode = x at h2
    split
    · exact ⟨k, by simp; omega, h2⟩
    · obtain ⟨k', g1, g2⟩ := ih (mem.set i 47) x.2
      exact ⟨k + k', by simp; omega, h2.trans g2⟩

theorem mkCut_run (os : Os) (t : Bool) (B : Nat) (mode : Nat) (n : Nat) :
    ∀ (idxs : List Nat) (mem : Bytes) (w : World),
    ∃ k, k ≤ 62 ∧ FsRun os t B w.fs k (mkCut os mode n idxs mem w).2.fs := by
  induction n with
  | zero => intro idxs mem w; exact ⟨0, by omega, .refl⟩
  | succ n ih =>
    intro idxs mem w
    simp only [mkCut]
    split
    · exact ⟨0, by omega, .refl⟩
    · rename_i i hi
      have h := osCreate_run os t B w (cString (mem.set i 0)) mode
      obtain ⟨k, k1, k2⟩ := osCreate_run' os t B w (cString (mem.set i 0)) mode
      generalize osCreate os w (cString (mem.set i 0)) mode = x at h k2
      obtain ⟨r, w'⟩ := x
      simp only at h k2 ⊢
      split
      · exact ⟨k, by omega, k2⟩
      · split
        · split
          · rename_i hl
            obtain ⟨k', g1, g2⟩ := mkRestore_run os t B mode (i :: idxs) (mem.set i 0) w'
            exact ⟨k + k', by omega, k2.trans g2⟩
          · exact ⟨k, by omega, k2⟩
        · rename_i hr
          have : w'.fs = w.fs := h.2 (fun e => hr (.inl e))
          obtain ⟨k', g1, g2⟩ := ih (i :: idxs) (mem.set i 0) w'
          rw [this] at g2
          exact ⟨k', g1, g2⟩

/-- One recursive creation makes at most 62 directories. -/
theorem mkdirRecurse_run (os : Os) (t : Bool) (B : Nat) (mode : Nat) (path : Bytes) (w : World) :
    ∃ k, k ≤ 62 ∧ FsRun os t B w.fs k (mkdirRecurse os mode path w).2.fs := by
  simp only [mkdirRecurse]
  split
  · exact ⟨0, by omega, .refl⟩
  · simp only [mkdirRaw]
    have h := osCreate_run os t B w.tick path mode
    obtain ⟨k, k1, k2⟩ := osCreate_run' os t B w.tick path mode
    generalize osCreate os w.tick path mode = x at h k2
    obtain ⟨r, w'⟩ := x
    simp only at h k2 ⊢
    split
    · exact ⟨k, by omega, k2⟩
    · rename_i hr
      have : w'.fs = w.fs := h.2 (fun e => hr (.inr (.inl e)))
      obtain ⟨k', g1, g2⟩ := mkCut_run os t B mode 62 [] path w'
      rw [this] at g2
      exact ⟨k', g1, g2⟩

/-! ### Callbacks -/

/-- Bytes of content in a callback. -/
def Ev.bytes : Ev → Nat
  | .flRead d => d.length
  | .fileRead d => d.length
  | _ => 0

/-- Nodes a callback may add. -/
def Ev.adds : Ev → Nat
  | .flStart => 1
  | .drStart => 62
  | .itemStart .dir _ _ => 62
  | .itemStart .file _ _ => 1
  | .symLink _ _ => 1
  | _ => 0

/-- The offsets of open files. -/
def HL.upto (h : HL) (B : Nat) : Prop :=
  (∀ f, h.fpOut = some f → f.off ≤ B) ∧ ∀ f, h.fd = .opened f → f.off ≤ B

theorem HL.upto.mono {h : HL} {B B' : Nat} (u : h.upto B) (hB : B ≤ B') : h.upto B' :=
  ⟨fun f hf => by have := u.1 f hf; omega, fun f hf => by have := u.2 f hf; omega⟩

theorem hlSymLink_run (os : Os) (t : Bool) (B : Nat) (h h' : HL) (tg a : Bytes)
    (hh : hlSymLink os h tg a = .ok h') :
    (∃ k, k ≤ 1 ∧ FsRun os t B h.w.fs k h'.w.fs) ∧ h'.fpOut = h.fpOut ∧ h'.fd = h.fd := by
  have hg : (sysGetcwd os h.w CWD_SIZE).2 = h.w.tick := by
    simp only [sysGetcwd]
    split
    · rfl
    · split <;> rfl
  simp only [hlSymLink] at hh
  generalize sysGetcwd os h.w CWD_SIZE = gc at hh hg
  obtain ⟨o, w1⟩ := gc
  subst hg
  cases o with
  | none => cases hh; exact ⟨⟨0, by omega, .refl⟩, rfl, rfl⟩
  | some old =>
    simp only at hh
    split at hh
    · cases hh; exact ⟨⟨0, by omega, .refl⟩, rfl, rfl⟩
    · rename_i dir hdir
      have hcf := sysChdir_fs os h.w.tick (cString dir)
      generalize sysChdir os h.w.tick (cString dir) = c1 at hh hcf
      obtain ⟨b, w2⟩ := c1
      have hcf' : w2.fs = h.w.fs := hcf
      cases b with
      | false =>
        cases hh
        refine ⟨⟨0, by omega, ?_⟩, rfl, rfl⟩
        show FsRun os t B h.w.fs 0 w2.fs
        rw [hcf']; exact .refl
      | true =>
        simp only at hh
        split at hh
        · simp at hh
        · rename_i name hname
          split at hh
          · rename_i t' n' _ _
            obtain ⟨k, k1, k2⟩ := sysSymlink_run os t B w2 t' n'
            generalize sysSymlink os w2 t' n' = sl at hh k2
            obtain ⟨b2, w3⟩ := sl
            simp only at hh k2
            have hf4 := sysChdir_fs os w3 old
            generalize sysChdir os w3 old = c4 at hh hf4
            obtain ⟨b4, w4⟩ := c4
            simp only at hh hf4
            cases hh
            refine ⟨⟨k, k1, ?_⟩, rfl, rfl⟩
            show FsRun os t B h.w.fs k w4.fs
            rw [hf4, ← hcf']; exact k2
          · simp at hh

theorem hlEvent_run (os : Os) (t : Bool) (B : Nat) (out : Bytes) (h h' : HL) (e : Ev)
    (ht : e = .flStart → t = true) (u : h.upto B) (hh : hlEvent os out h e = .ok h') :
    (∃ k, k ≤ e.adds ∧ FsRun os t (B + e.bytes) h.w.fs k h'.w.fs) ∧ h'.upto (B + e.bytes) := by
  cases e with
  | flStart =>
    obtain ⟨k, k1, k2⟩ := sysOpen_run os t B h.w out FOPEN_MODE true (fun _ => ht rfl) (by decide)
    simp only [hlEvent, hlFileStart] at hh
    generalize sysOpen os h.w out FOPEN_MODE true = x at hh k2
    obtain ⟨ol, w'⟩ := x
    cases ol with
    | none => cases hh; exact ⟨⟨k, k1, k2⟩, by simp, u.2⟩
    | some l =>
      cases hh
      refine ⟨⟨k, k1, k2⟩, ?_, u.2⟩
      intro f hf; cases hf; simp
  | flRead d =>
    simp only [hlEvent, hlFileData] at hh
    split at hh
    · simp at hh
    · rename_i f hf
      have := sysWrite_run os t (B + d.length) h.w f d (by have := u.1 f hf; omega)
      generalize sysWrite os h.w f d = x at hh this
      obtain ⟨f', w'⟩ := x
      cases hh
      refine ⟨⟨0, by omega, this.1⟩, ?_, fun g hg => ?_⟩
      · intro g hg; cases hg; exact this.2
      · have := u.2 g hg; simp only [Ev.bytes]; omega
  | drStart =>
    obtain ⟨k, k1, k2⟩ := mkdirRecurse_run os t B BASE_DIR_MODE out h.w
    simp only [hlEvent, hlDirStart] at hh
    generalize mkdirRecurse os BASE_DIR_MODE out h.w = x at hh k2
    obtain ⟨r, w'⟩ := x
    simp only at hh
    split at hh
    · cases hh; exact ⟨⟨k, k1, k2⟩, u⟩
    · split at hh
      · cases hh; exact ⟨⟨k, k1, k2⟩, u⟩
      · cases hh; exact ⟨⟨k, k1, k2⟩, u⟩
  | itemStart ft nm it =>
    simp only [hlEvent, hlItemStart] at hh
    split at hh
    · simp only [hlDirItem] at hh
      split at hh
      · cases hh; exact ⟨⟨0, by omega, .refl⟩, u⟩
      · split at hh
        · simp at hh
        · rename_i path hpath
          obtain ⟨k, k1, k2⟩ := mkdirRecurse_run os t B (itMode it) (cString path) h.w.tick
          generalize mkdirRecurse os (itMode it) (cString path) h.w.tick = x at hh k2
          obtain ⟨r, w'⟩ := x
          cases hh
          exact ⟨⟨k, k1, k2⟩, u⟩
    · simp only [hlFileItem] at hh
      split at hh
      · simp at hh
      · rename_i path hpath
        obtain ⟨k, k1, k2⟩ := sysOpen_run os t B h.w (cString path) (modeFo (itMode it)) false
          (by simp) (by
            simp only [modeFo]
            rw [← Nat.and_assoc, Nat.and_self])
        generalize sysOpen os h.w (cString path) (modeFo (itMode it)) false = x at hh k2
        obtain ⟨ol, w'⟩ := x
        cases ol with
        | none => cases hh; exact ⟨⟨k, k1, k2⟩, u.1, by simp⟩
        | some l =>
          cases hh
          refine ⟨⟨k, k1, k2⟩, u.1, ?_⟩
          intro f hf; cases hf; simp
    · cases hh; exact ⟨⟨0, by omega, .refl⟩, u⟩
  | fileRead d =>
    simp only [hlEvent, hlFileRead] at hh
    split at hh
    · cases hh; exact ⟨⟨0, by omega, .refl⟩, HL.upto.mono u (by simp)⟩
    · simp at hh
    · rename_i f hf
      have := sysWrite_run os t (B + d.length) h.w f d (by have := u.2 f hf; omega)
      generalize sysWrite os h.w f d = x at hh this
      obtain ⟨f', w'⟩ := x
      cases hh
      refine ⟨⟨0, by omega, this.1⟩, fun g hg => ?_, ?_⟩
      · have := u.1 g hg; simp only [Ev.bytes]; omega
      · intro g hg; cases hg; exact this.2
  | fileEnd =>
    simp only [hlEvent, hlFileEnd] at hh
    split at hh
    · cases hh; exact ⟨⟨0, by omega, .refl⟩, u⟩
    · simp at hh
    · cases hh; exact ⟨⟨0, by omega, .refl⟩, u.1, by simp⟩
  | dirEnd =>
    simp only [hlEvent, hlDirEnd] at hh
    split at hh
    · simp at hh
    · split at hh
      · simp at hh
      · cases hh; exact ⟨⟨0, by omega, .refl⟩, u⟩
  | symLink tg a =>
    obtain ⟨⟨k, k1, k2⟩, h2, h3⟩ := hlSymLink_run os t B h h' tg a hh
    exact ⟨⟨k, k1, k2⟩, by rw [HL.upto, h2, h3]; exact u⟩

/-- Totals of a history. -/
def evBytes (evs : List Ev) : Nat := (evs.map Ev.bytes).sum
def evAdds (evs : List Ev) : Nat := (evs.map Ev.adds).sum

theorem hlEvents_run (os : Os) (t : Bool) (out : Bytes) (evs : List Ev) : ∀ (B : Nat) (h h' : HL),
    (.flStart ∈ evs → t = true) → h.upto B → hlEvents os out h evs = .ok h' →
    ∃ k, k ≤ evAdds evs ∧ FsRun os t (B + evBytes evs) h.w.fs k h'.w.fs := by
  induction evs with
  | nil => intro B h h' _ _ hh; cases hh; exact ⟨0, by simp [evAdds], .refl⟩
  | cons e evs ih =>
    intro B h h' ht u hh
    simp only [hlEvents] at hh
    split at hh
    · simp at hh
    · rename_i h1 he
      obtain ⟨⟨k, k1, k2⟩, u1⟩ := hlEvent_run os t B out h h1 e
        (fun e' => ht (by rw [e']; exact List.mem_cons_self)) u he
      obtain ⟨k', g1, g2⟩ := ih (B + e.bytes) h1 h' (fun m => ht (List.mem_cons_of_mem _ m)) u1 hh
      simp only [evBytes, evAdds, List.map_cons, List.sum_cons] at g1 g2 ⊢
      refine ⟨k + k', by omega, ?_⟩
      rw [← Nat.add_assoc]
      exact (k2.mono (by omega)).trans g2

/-- No callback runs out of fuel. -/
theorem hlEvent_fuel (os : Os) (out : Bytes) (h : HL) (e : Ev) :
    hlEvent os out h e ≠ .error .outOfFuel := by
  cases e with
  | flStart => simp [hlEvent]
  | drStart => simp [hlEvent]
  | flRead d => simp only [hlEvent, hlFileData]; split <;> simp
  | fileRead d => simp only [hlEvent, hlFileRead]; split <;> simp
  | fileEnd => simp only [hlEvent, hlFileEnd]; split <;> simp
  | dirEnd =>
    simp only [hlEvent, hlDirEnd]
    split
    · simp
    · split <;> simp
  | itemStart ft nm it =>
    have hp : ∀ h n, itemPath h nm n ≠ .error .outOfFuel := by
      intro h n; simp only [itemPath]; split <;> simp
    simp only [hlEvent, hlItemStart]
    split
    · simp only [hlDirItem]
      split
      · simp
      · split
        · rename_i e he; intro hx; cases hx; exact hp _ _ he
        · simp
    · simp only [hlFileItem]
      split
      · rename_i e he; intro hx; cases hx; exact hp _ _ he
      · split <;> simp
    · simp
  | symLink t a =>
    simp only [hlEvent, hlSymLink]
    split
    · simp
    · split
      · simp
      · split
        · simp
        · split
          · simp
          · split <;> simp

theorem hlEvents_fuel (os : Os) (out : Bytes) (evs : List Ev) : ∀ h,
    hlEvents os out h evs ≠ .error .outOfFuel := by
  induction evs with
  | nil => intro h; simp [hlEvents]
  | cons e evs ih =>
    intro h
    simp only [hlEvents]
    split
    · rename_i x hx; intro hy; cases hy; exact hlEvent_fuel os out h e hx
    · exact ih _

/-! ### What an archive can contain -/

/-- Bytes of content, and nodes that may be added. -/
def Atom.bytes : Atom → Nat
  | .byte _ => 1
  | _ => 0
def Atom.adds : Atom → Nat
  | .start .dir _ _ => 62
  | .start .file _ _ => 1
  | .link _ => 1
  | _ => 0

def atBytes (as : List Atom) : Nat := (as.map Atom.bytes).sum
def atAdds (as : List Atom) : Nat := (as.map Atom.adds).sum

theorem atBytes_append (a b : List Atom) : atBytes (a ++ b) = atBytes a + atBytes b := by
  simp [atBytes]
theorem atAdds_append (a b : List Atom) : atAdds (a ++ b) = atAdds a + atAdds b := by
  simp [atAdds]
theorem atBytes_cons (a : Atom) (b : List Atom) : atBytes (a :: b) = a.bytes + atBytes b := by
  simp [atBytes]
theorem atAdds_cons (a : Atom) (b : List Atom) : atAdds (a :: b) = a.adds + atAdds b := by
  simp [atAdds]

theorem atBytes_map (d : Bytes) : atBytes (d.map .byte) = d.length := by
  induction d with
  | nil => rfl
  | cons b d ih => rw [List.map_cons, atBytes_cons, ih]; simp [Atom.bytes]; omega
theorem atAdds_map (d : Bytes) : atAdds (d.map .byte) = 0 := by
  induction d with
  | nil => rfl
  | cons b d ih => rw [List.map_cons, atAdds_cons, ih]; simp [Atom.adds]

theorem LinkSfx.sums {a b : List Atom} (h : LinkSfx a b) :
    atBytes a = atBytes b ∧ atAdds a = atAdds b := by
  induction h with
  | nil => exact ⟨rfl, rfl⟩
  | same x _ ih => simp only [atBytes_cons, atAdds_cons, ih]; exact ⟨trivial, trivial⟩
  | link _ _ ih => simp only [atBytes_cons, atAdds_cons, ih]; exact ⟨rfl, rfl⟩

theorem evBytes_atoms (evs : List Ev) : evBytes evs = atBytes (atoms evs) := by
  induction evs with
  | nil => rfl
  | cons e evs ih =>
    have : atoms (e :: evs) = e.atoms ++ atoms evs := by simp [atoms]
    rw [this, atBytes_append, ← ih]
    simp only [evBytes, List.map_cons, List.sum_cons]
    congr 1
    cases e <;> simp [Ev.bytes, Ev.atoms, atBytes_map] <;> simp [atBytes, Atom.bytes]

theorem evAdds_atoms (evs : List Ev) (hi : ∀ e ∈ evs, e.inner) :
    evAdds evs = atAdds (atoms evs) := by
  induction evs with
  | nil => rfl
  | cons e evs ih =>
    have : atoms (e :: evs) = e.atoms ++ atoms evs := by simp [atoms]
    rw [this, atAdds_append, ← ih (fun e he => hi e (List.mem_cons_of_mem _ he))]
    simp only [evAdds, List.map_cons, List.sum_cons]
    congr 1
    have := hi e List.mem_cons_self
    cases e with
    | itemStart ft nm it => cases ft <;> simp [Ev.adds, Ev.atoms, atAdds, Atom.adds]
    | flStart => exact this.elim
    | drStart => exact this.elim
    | _ => simp [Ev.adds, Ev.atoms, atAdds_map] <;> simp [atAdds, Atom.adds]

theorem specParse_sums (ok : AllocOracle) (k : Nat) (bs : Bytes) :
    atBytes (specParse ok k bs).atoms ≤ bs.length ∧
      40 * atAdds (specParse ok k bs).atoms ≤ 62 * bs.length := by
  induction hn : bs.length using Nat.strongRecOn generalizing bs k with
  | _ n ih =>
    subst hn
    have e0 : atBytes [] = 0 := rfl
    have e1 : atAdds [] = 0 := rfl
    by_cases hsh : bs.length < 40
    · rw [specParse_short _ _ _ hsh]; simp only [e0, e1]; omega
    · have hw : bs = bs.take 40 ++ bs.drop 40 := (List.take_append_drop 40 bs).symm
      have hil : (bs.take 40).length = 40 := take_len (by omega)
      rw [hw, specParse_item _ _ _ _ hil, ← hw]
      have hrl : (bs.drop 40).length + 40 = bs.length := by rw [List.length_drop]; omega
      generalize bs.drop 40 = r at hrl
      generalize bs.take 40 = item
      have hin : ∀ k (l : Bytes), l.length ≤ r.length →
          atBytes (specParse ok k l).atoms ≤ l.length ∧
            40 * atAdds (specParse ok k l).atoms ≤ 62 * l.length := by
        intro k l hl; exact ih _ (by omega) k l rfl
      have skip : ∀ k n (l : Bytes), l.length ≤ r.length →
          atBytes (specSkip ok k n l).atoms ≤ l.length ∧
            40 * atAdds (specSkip ok k n l).atoms ≤ 62 * l.length := by
        intro k n l hl
        simp only [specSkip]
        split
        · simp only [e0, e1]; omega
        · have := hin k (l.drop n) (by rw [List.length_drop]; omega)
          rw [List.length_drop] at this
          omega
      unfold specItem
      split
      · have := hin k r (by omega)
        simp only [Parsed.after, List.singleton_append, atBytes_cons, atAdds_cons, Atom.bytes,
          Atom.adds]
        omega
      · split
        · split
          · simp only [specName]
            split
            · simp only [e0, e1]; omega
            · rename_i h
              simp only [Parsed.after, List.singleton_append, atBytes_cons, atAdds_cons, Atom.bytes]
              have hl2 : (r.drop (itNameLenNorm item)).length ≤ r.length := by simp
              generalize r.drop (itNameLenNorm item) = l at hl2
              have ha : (Atom.start (ftOf (itKind item)) (r.take (itNameLenNorm item)) item).adds ≤
                  if itKind item = 1 ∨ itKind item = 0 then 62 else 0 := by
                simp only [Atom.adds, ftOf]
                by_cases h1 : itKind item = 1
                · simp [h1]
                · by_cases h2 : itKind item = 0 <;> simp [h1, h2]
              suffices h : atBytes (specBody ok (k + 1) item l).atoms ≤ l.length ∧
                  40 * atAdds (specBody ok (k + 1) item l).atoms ≤ 62 * l.length +
                    (if itKind item = 1 ∨ itKind item = 0 then 0 else 40) by
                split at ha <;> rename_i hk
                · rw [if_pos hk] at h; omega
                · rw [if_neg hk] at h; omega
              simp only [specBody]
              split
              · have := hin (k + 1) l (by omega); omega
              · split
                · simp only [specFile]
                  split
                  · simp only [atBytes_map, atAdds_map]; omega
                  · have := skip (k + 1) (gapOf item) (l.drop (itFileSize item))
                      (by rw [List.length_drop]; omega)
                    rw [List.length_drop] at this
                    simp only [Parsed.after, atBytes_append, atAdds_append, atBytes_map, atAdds_map,
                      atBytes_cons, atAdds_cons, e0, e1, Atom.bytes, Atom.adds, List.length_take]
                    omega
                · rename_i hk1 hk0
                  rw [if_neg (by omega)]
                  simp only [specLink]
                  split
                  · simp only [e0, e1]; omega
                  · have := skip (k + 1) (gapOf item) (l.drop (itFileSize item))
                      (by rw [List.length_drop]; omega)
                    rw [List.length_drop] at this
                    simp only [Parsed.after, atBytes_append, atAdds_append,
                      atBytes_cons, atAdds_cons, e0, e1, Atom.bytes, Atom.adds]
                    omega
          · simp only [e0, e1]; omega
        · have := hin k r (by omega)
          omega

/-- The callbacks of an archive: how much they can write and add. -/
theorem ArchiveLog.sums {ok : AllocOracle} {B : Nat} {P : Bytes} {pieces : List Bytes}
    {log : List Ev} (h : ArchiveLog ok B P pieces log) :
    (log ≠ [] → evBytes log + 128 ≤ P.length) ∧ 40 * evAdds log ≤ 62 * P.length := by
  cases h with
  | short => simp [evBytes, evAdds]
  | version => simp [evBytes, evAdds]
  | empty => simp [evBytes, evAdds]
  | unknown => simp [evBytes, evAdds]
  | @file hd ds a1 =>
    have e1 : evBytes (.flStart :: pieces.map .flRead) = pieces.flatten.length := by
      simp only [evBytes, List.map_cons, List.sum_cons, List.map_map, Ev.bytes, Nat.zero_add,
        List.length_flatten]
      rfl
    have e2 : evAdds (.flStart :: pieces.map .flRead) = 1 := by
      simp only [evAdds, List.map_cons, List.sum_cons, List.map_map, Ev.adds]
      have : pieces.map (Ev.adds ∘ Ev.flRead) = pieces.map (fun _ => 0) := rfl
      rw [this]
      have : ∀ l : List Bytes, (l.map (fun _ => 0)).sum = 0 := by
        intro l; induction l <;> simp_all
      rw [this]
    rw [e1, e2, List.length_append, a1]
    exact ⟨fun _ => by omega, by omega⟩
  | @dir hd _ evs owed a1 a2 a3 a4 a5 a6 a7 a8 a9 a10 =>
    obtain ⟨s1, s2⟩ := a8.sums
    obtain ⟨p1, p2⟩ := specParse_sums ok 0 pieces.flatten
    rw [atBytes_append] at s1
    rw [atAdds_append] at s2
    have e1 : evBytes (.drStart :: evs) = evBytes evs := by simp [evBytes, Ev.bytes]
    have e2 : evAdds (.drStart :: evs) = 62 + evAdds evs := by simp [evAdds, Ev.adds]
    have e3 := evBytes_atoms evs
    have e4 := evAdds_atoms evs (proto_inner evs .idle a10)
    rw [e1, e2, List.length_append, a1]
    exact ⟨fun _ => by omega, by omega⟩

/-- Everything an extraction does to the file system. -/
theorem Done.fsRun {Z : Inflater} {plain : Bytes → Bytes} {C : InflateOK Z plain} {ok : AllocOracle}
    {os : Os} {out : Bytes} {w : World} {lim : Bytes} {err : Bool} {short : Prop} {r : Extracted}
    {P : Bytes} {log : List Ev} {h : HL} (D : Done C ok os out w lim err short r P log h) :
    ∃ t k, (hdrKind ((plain lim).take 128) = CT_DIRECTORY → t = false) ∧
      40 * k ≤ 62 * (plain lim).length ∧
      FsRun os t ((plain lim).length - 128) w.fs k r.w.fs := by
  have hl := D.pre.length_le
  obtain ⟨s1, s2⟩ := D.arch.sums
  have hu : (HL.init w).upto 0 := ⟨by simp [HL.init], by simp [HL.init]⟩
  by_cases hlog : log = []
  · have := D.run
    rw [hlog] at this
    cases this
    exact ⟨false, 0, fun _ => rfl, by omega, by rw [D.world]; exact .refl⟩
  · have s1 := s1 hlog
    have go : ∀ t, (Ev.flStart ∈ log → t = true) → ∃ k, 40 * k ≤ 62 * (plain lim).length ∧
        FsRun os t ((plain lim).length - 128) w.fs k r.w.fs := by
      intro t ht
      obtain ⟨k, k1, k2⟩ := hlEvents_run os t out log 0 _ h ht hu D.run
      rw [D.world]
      exact ⟨k, by omega, k2.mono (by omega)⟩
    have hk := D.arch.kind
    generalize hlg : log = log' at hk
    cases hk with
    | none => exact absurd hlg hlog
    | file a1 a2 a3 =>
      obtain ⟨k, k1, k2⟩ := go true (fun _ => rfl)
      refine ⟨true, k, ?_, k1, k2⟩
      intro hd
      rw [(take_header D.pre a1).1, hd] at a3
      exact absurd a3 (by decide)
    | @dir evs a1 a2 a3 a4 =>
      obtain ⟨k, k1, k2⟩ := go false (by
        intro hm
        rw [hlg] at hm
        rcases List.mem_cons.mp hm with hm | hm
        · cases hm
        · exact (proto_inner _ .idle a4 _ hm).elim)
      exact ⟨false, k, fun _ => rfl, k1, k2⟩

end Zwt
