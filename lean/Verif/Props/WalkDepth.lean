import Verif.Proofs.WalkDepth
import Verif.Proofs.WalkRun
import Verif.Spec.WalkSample
import Verif.Spec.Toy

/-! C96: archiving a directory ends. -/

namespace Zwt

variable {σ : Type} {D : Deflater} {plain : Bytes → Bytes}

/-- No name in a listing is empty. -/
def Env.Named (env : Env) : Prop := ∀ p es, env.list p = some es → ∀ e ∈ es, e.name ≠ []

/-- A directory whose path fills the buffer of 4095 characters, so that no name can be appended, holds no
directory (but `.` and `..`). -/
def Env.Short (env : Env) : Prop :=
  ∀ p es, env.list p = some es → 4094 ≤ p.length → ∀ e ∈ es, e.ty = .dir → e.name = [46] ∨ e.name = [46, 46]

theorem Env.Short.cut {env : Env} (h : env.Short) : ∀ p es, env.list p = some es → 4094 ≤ p.length →
    ∀ e ∈ es, e.ty = .dir → isDot e.name := by
  intro p es h1 h2 e h3 h4
  rcases h p es h1 h2 e h3 h4 with h | h <;> simp [isDot, h]

/-- C96, bounded nesting.  Whatever the directories list - also if, as in a loop of mounts, every directory
listed lists a directory again -, whatever the filter answers and whatever buffers are added: if no
directory lies below a path of 4094 or more bytes, the nesting of calls of the callback for entries never
exceeds 2048; 2048 levels of recursion compute what any larger number does.

Missing: directories below such paths, see `C96_endless_false`. -/
theorem C96_depth_partial (env : Env) (hname : env.Named) (hshort : env.Short) (flt : Filter σ)
    (fn : DirFn) (dir : Bytes) (fs : σ) (fuel : Nat) (hf : 2048 ≤ fuel) :
    dirWrites env flt fuel fn dir fs = dirWrites env flt 2048 fn dir fs ∧
      dirWrites env flt 2048 fn dir fs ≠ .error .outOfFuel := by
  obtain ⟨h1, h2⟩ := dirWrites_steady env flt hname hshort.cut fn dir fs
    (n := 2048) (m := fuel) ⟨by omega, by omega⟩ ⟨by omega, by omega⟩
  exact ⟨h1.symm, h2⟩

/-- The longer the path given, the fewer levels: one less for every two bytes.

Missing: as in `C96_depth_partial`. -/
theorem C96_depth_path_partial (env : Env) (hname : env.Named) (hshort : env.Short) (flt : Filter σ)
    (fn : DirFn) (dir : Bytes) (fs : σ) (n fuel : Nat) (h1 : 1 ≤ n) (hn : 4096 ≤ dir.length + 2 * n)
    (hf : n ≤ fuel) :
    dirWrites env flt fuel fn dir fs = dirWrites env flt n fn dir fs ∧
      dirWrites env flt n fn dir fs ≠ .error .outOfFuel := by
  obtain ⟨h1, h2⟩ := dirWrites_steady env flt hname hshort.cut fn dir fs
    (n := n) (m := fuel) ⟨by omega, by omega⟩ ⟨by omega, by omega⟩
  exact ⟨h1.symm, h2⟩

/-- C96, the directory functions end: also the loops of the compression session. -/
theorem C96_ends_partial (C : DeflateOK D plain) (env : Env) (hname : env.Named) (hshort : env.Short)
    (flt : Filter σ) (fn : DirFn) (dir : Bytes) (fs : σ) (level : Int) (junk : Bytes)
    (hj : junk.length = 120) :
    ∃ r n0, r ≠ .error .outOfFuel ∧
      ∀ fuel, n0 ≤ fuel → compressDir D env flt fuel fn dir fs level junk = r := by
  cases hz : D.init level with
  | none => exact ⟨.ok (1, []), 0, by simp, fun fuel _ => by simp [compressDir, CS.create, hz]⟩
  | some z =>
    obtain ⟨s, n1, h1, h2, h3, _⟩ := CS.create_good C CT_DIRECTORY level z hz DEF_CHUNK_SIZE
      (by decide +kernel) junk hj
    have hd := fun fuel hf => C96_depth_partial env hname hshort flt fn dir fs fuel hf
    cases hw : dirWrites env flt 2048 fn dir fs with
    | error e =>
      refine ⟨.error e, max n1 2048, ?_, fun fuel hf => ?_⟩
      · have := (hd 2048 (Nat.le_refl _)).2
        rw [hw] at this
        simpa using this
      · have hr := (hd fuel (by omega)).1.trans hw
        simp only [compressDir, h1 fuel (by omega), hr]
    | ok p =>
      obtain ⟨ret, w⟩ := p
      obtain ⟨s', new, n2, rets, g1, _⟩ := compressRun_good C (uInt DEF_CHUNK_SIZE)
        (w.out.map .compress) (by
          intro op hop
          obtain ⟨d, _, rfl⟩ := List.mem_map.mp hop
          trivial) s _ h2 (by rw [h3]; decide +kernel) (by rw [h3]; exact Nat.le_refl _)
      refine ⟨.ok (ret, s'.log), max (max n1 2048) n2, by simp, fun fuel hf => ?_⟩
      have hr := (hd fuel (by omega)).1.trans hw
      simp only [compressDir, h1 fuel (by omega), hr, g1 fuel (by omega)]

/-- A chain of directories `a`: every path of less than `n` bytes leads to a directory with one directory in
it, every other to an empty one. -/
def chainEnv (n : Nat) : Env :=
  { list := fun p => some (if p.length < n then [⟨[97], .dir⟩] else [])
    statMode := fun _ => 0o755
    fopen := fun _ => none
    lstat := fun _ => (0, 0)
    readlink := fun _ => none
    itemMem := fun _ => List.replicate 40 0
    linkMem := fun _ => [] }

theorem chainEnv_named (n : Nat) : (chainEnv n).Named := by
  intro p es h e he
  simp only [chainEnv, Option.some.injEq] at h
  subst h
  split at he
  · rw [List.mem_singleton.mp he]; simp
  · cases he

theorem chainEnv_short (n : Nat) (hn : n ≤ 4094) : (chainEnv n).Short := by
  intro p es h hp e he
  simp only [chainEnv, Option.some.injEq] at h
  subst h
  rw [if_neg (by omega)] at he
  cases he

/-- C96 is false of deeper directories.  In a chain of directories `r/a/a/…` with paths of up to 4094 bytes,
the path of the innermost is cut and names its parent again: the recursion never ends. -/
theorem C96_endless_false :
    ¬ ∀ (env : Env), env.Named → ∀ (fn : DirFn) (dir : Bytes),
      ∃ fuel, dirWrites env acceptAll fuel fn dir () ≠ .error .outOfFuel := by
  intro h
  obtain ⟨fuel, hf⟩ := h (chainEnv 4095) (chainEnv_named _) .plain [114]
  apply hf
  have hl : ∀ p : Bytes, p.length ≤ 4094 → (chainEnv 4095).list p = some [⟨[97], .dir⟩] := by
    intro p hp
    simp only [chainEnv]
    rw [if_pos (by omega)]
  have key : ∀ (fuel : Nat) (p : Bytes) (w : W Unit), p.length ≤ 4094 → w.hasError = false →
      w.shouldExit = false →
      iterate (visit (chainEnv 4095) acceptAll fuel p) [⟨[97], .dir⟩] w = .error .outOfFuel := by
    intro fuel
    induction fuel with
    | zero => intro p w _ _ _; rfl
    | succ fuel ih =>
      intro p w hp h1 h2
      have hj := joinPath_length p [97]
      have hle : (joinPath p [97]).length ≤ 4094 := by omega
      have hpad : padding U32 (norm32 (nameLen32 [97])) (nameLen32 [97]) =
          .ok (List.replicate 7 0) := by
        unfold nameLen32; rfl
      simp only [iterate, visit, h1, h2, Bool.false_eq_true, or_self, if_false, isDot, acceptAll,
        visitEntry, visitDir, W.putItem, hpad, W.ask, hl _ hle, Option.getD_some]
      have := ih (joinPath p [97])
      simp only [iterate] at this
      rw [if_neg (by decide), if_neg (by decide)]
      have h3 := fun w a b => this w hle a b
      rw [h3]
      · rfl
      · rfl
  have hw := key fuel [114] ⟨(), false, false, [], []⟩ (by decide) rfl rfl
  simp only [dirWrites, dirExtras, walk, hl [114] (by decide), Option.getD_some, hw]

/-- Chains that end before are within the theorems, also the longest. -/
example : (chainEnv 4094).Named ∧ (chainEnv 4094).Short :=
  ⟨chainEnv_named _, chainEnv_short _ (Nat.le_refl _)⟩
example := C96_depth_partial (chainEnv 4094) (chainEnv_named _) (chainEnv_short _ (Nat.le_refl _))
  acceptAll (.nested [⟨[97, 47, 98], [7], 0o600⟩]) [114] () 5000 (by decide)
example := C96_ends_partial queueDOK (chainEnv 4094) (chainEnv_named _)
  (chainEnv_short _ (Nat.le_refl _)) acceptAll .plain [114] () 6 (List.replicate 120 0)
  List.length_replicate

/-- A short chain, evaluated: three directories take three levels, and two are not enough. -/
example : (dirWrites (chainEnv 7) acceptAll 3 .plain [114] ()).isOk = true ∧
    (match dirWrites (chainEnv 7) acceptAll 2 .plain [114] () with
      | .error .outOfFuel => true | _ => false) = true := by
  decide +kernel

end Zwt
