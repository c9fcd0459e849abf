import Verif.Props.SelfDisk
import Verif.Props.HLSafe
import Verif.Spec.Toy

/-! C58 on a disk: what is started, and when. -/

namespace Zwt

variable {Z : Inflater} {plain : Bytes → Bytes}

/-- C58, on a disk with every behaviour of the system: a packed file that is started exits with 1 and
starts nothing (the run is the same whatever the programs would do), or it exits with 0, and then
`.out_dir` was not there after the removal, is a directory after the extraction, and the programs are
started then: `maind.exe` in it, and, if that is not possible or fails, `main.exe`; otherwise the
directory is removed again. -/
theorem C58_disk (C : InflateOK Z plain) (D : Deflater) (os : Os) (env : SelfDiskEnv)
    (hh : env.hdr.length = 128) (hi : env.item.length = 40)
    (hrm : ∀ v, v.fs.tree → (env.remove v).fs.tree) (ndebug : Bool) (arg0 : Bytes)
    (ha : arg0.length < 4191) (w : World) (ht : w.fs.tree) (l : Loc)
    (hop : (sysOpenRead os w arg0).1 = some l)
    (hs : (if ndebug then 524288 else 2097152) < (contentAt w l).data.length) :
    ∃ n0 X, (∀ fuel, n0 ≤ fuel → selfDiskMain D Z os fuel env ndebug arg0 w = X) ∧
      ∀ code w', X = .ok (code, w') →
        (code = 1 ∧ ∀ start fuel, n0 ≤ fuel →
          selfDiskMain D Z os fuel { env with start := start } ndebug arg0 w = .ok (1, w')) ∨
        (code = 0 ∧ ∃ (k : Nat) (w0 w1 : World) (d : Loc) (m : Nat), w0 = env.remove { w with calls := k } ∧
          w0.fs d = none ∧ w1.fs d = some (.dir m) ∧
          locate os { w1 with cwd := w0.cwd } true (strB ".out_dir") = some d ∧
          w' = if (env.start (strB ".out_dir/maind.exe") w1).1 = some 0
            then env.remove (env.start (strB ".out_dir/maind.exe") w1).2
            else (env.start (strB ".out_dir/main.exe")
              (env.start (strB ".out_dir/maind.exe") w1).2).2) := by
  have hopen : sysOpenRead os w arg0 = (some l, w.tick) := by
    have h2 : (sysOpenRead os w arg0).2 = w.tick := by
      unfold sysOpenRead
      repeat' split
      all_goals rfl
    exact Prod.ext hop h2
  have hmain : ∀ (e : SelfDiskEnv) (fuel : Nat), selfDiskMain D Z os fuel e ndebug arg0 w =
      selfDiskRun Z os fuel e ((contentAt w l).data.drop (maxExe ndebug)) w.tick := by
    intro e fuel
    have hc : contentAt w.tick l = contentAt w l := rfl
    rw [selfDiskMain, if_neg (by simp only [VC_BUFFER_SIZE]; omega), hopen]
    simp only [hc]
    exact if_pos hs
  simp only [hmain]
  generalize (contentAt w l).data.drop (maxExe ndebug) = arc
  by_cases hnm : os.noMem w.tick.calls = true
  · refine ⟨0, .ok (1, w.tick.tick), fun fuel _ => by rw [selfDiskRun, if_pos hnm], fun code w' h => ?_⟩
    cases h
    exact .inl ⟨rfl, fun start fuel _ => by rw [selfDiskRun, if_pos hnm]⟩
  have hout : 0 ∉ OUT_FOLDER ∧ 92 ∉ OUT_FOLDER ∧ OUT_FOLDER.getLast? ≠ some 47 := by decide +kernel
  obtain ⟨n0, Y, h1, h2⟩ := C65_success_means_output C env.ok env.hdr env.item hh hi os OUT_FOLDER hout.1
    hout.2.1 hout.2.2 (env.remove w.tick.tick) (hrm _ ht) 0 ⟨arc, false⟩
  have hrun : ∀ (start : Bytes → World → Option Int × World) (fuel : Nat), n0 ≤ fuel →
      selfDiskRun Z os fuel { env with start := start } arc w.tick = match (generalizing := false) Y with
        | .error e => .error e
        | .ok r =>
          if r.ret ≠ CT_DIRECTORY then .ok (1, r.w)
          else if (start FIRST_PROG r.w).1.getD 1 ≠ 0 then
            .ok (0, (start secondProg (start FIRST_PROG r.w).2).2)
          else .ok (0, env.remove (start FIRST_PROG r.w).2) := by
    intro start fuel hf
    rw [selfDiskRun, if_neg hnm]
    simp only [h1 fuel hf]
    cases Y <;> rfl
  refine ⟨n0, _, fun fuel hf => hrun env.start fuel hf, ?_⟩
  intro code w' h
  cases hY : Y with
  | error e => rw [hY] at h; cases h
  | ok r =>
    rw [hY] at h
    by_cases hd : r.ret = CT_DIRECTORY
    · right
      have g1 : FIRST_PROG = strB ".out_dir/maind.exe" := by decide +kernel
      have g2 : secondProg = strB ".out_dir/main.exe" := by decide +kernel
      simp only [hd, ne_eq, not_true_eq_false, if_false, g1, g2] at h
      have hex : ∃ d m, (env.remove w.tick.tick).fs d = none ∧ r.w.fs d = some (.dir m) ∧
          locate os { r.w with cwd := (env.remove w.tick.tick).cwd } true OUT_FOLDER = some d := by
        rcases h2 r hY with g | ⟨_, d, m, a, b, c⟩ | ⟨g, _⟩
        · rw [hd] at g; exact absurd g (by decide)
        · exact ⟨d, m, a, b, c⟩
        · rw [hd] at g; exact absurd g (by decide)
      obtain ⟨d, m, a, b, c⟩ := hex
      have hfin : code = 0 ∧ w' = if (env.start (strB ".out_dir/maind.exe") r.w).1 = some 0
            then env.remove (env.start (strB ".out_dir/maind.exe") r.w).2
            else (env.start (strB ".out_dir/main.exe")
              (env.start (strB ".out_dir/maind.exe") r.w).2).2 := by
        cases hst : (env.start (strB ".out_dir/maind.exe") r.w).1 with
        | none =>
          rw [hst] at h
          cases h
          exact ⟨rfl, rfl⟩
        | some k =>
          rw [hst] at h
          by_cases hk : k = 0
          · subst hk
            rw [if_pos rfl]
            cases h
            exact ⟨rfl, rfl⟩
          · rw [if_neg (by simpa using hk)]
            rw [if_pos (by simpa using hk)] at h
            cases h
            exact ⟨rfl, rfl⟩
      exact ⟨hfin.1, w.calls + 2, _, r.w, d, m, rfl, a, b, c, hfin.2⟩
    · left
      simp only [ne_eq, hd, not_false_eq_true, if_true] at h
      cases h
      refine ⟨rfl, fun start fuel hf => ?_⟩
      rw [hrun start fuel hf, hY]
      simp only [ne_eq, hd, not_false_eq_true, if_true]

/-- A program whose file cannot be opened: nothing happens. -/
theorem C58_unreadable (D : Deflater) (os : Os) (env : SelfDiskEnv) (fuel : Nat) (ndebug : Bool)
    (arg0 : Bytes) (ha : arg0.length < 4191) (w : World) (hop : (sysOpenRead os w arg0).1 = none) :
    ∃ w', selfDiskMain D Z os fuel env ndebug arg0 w = .ok (1, w') ∧ w'.fs = w.fs ∧ w'.cwd = w.cwd := by
  have hopen : sysOpenRead os w arg0 = (none, w.tick) := by
    have h2 : (sysOpenRead os w arg0).2 = w.tick := by
      unfold sysOpenRead
      repeat' split
      all_goals rfl
    exact Prod.ext hop h2
  refine ⟨w.tick, ?_, rfl, rfl⟩
  rw [selfDiskMain, if_neg (by simp only [VC_BUFFER_SIZE]; omega), hopen]

open HLSample SelfSample in
/-- C87 fails for long names of the program: `argv[0]` with 4191 bytes, here `././…/r/s`, is copied without
its end, and what follows the copy is read.  The system opens the program under this name. -/
theorem C87_long_false : ∃ arg0 : Bytes, arg0.length = 4191 ∧
    (sysOpenRead os (world nodes) arg0).1 = some [[104], [119], [114], [115]] ∧
    (∀ D Z fuel, selfDiskMain D Z os fuel env true arg0 (world nodes) = .error .oobRead) ∧
    ∃ w', selfDiskMain queueD copyI os 9 env true (arg0.drop 4188) (world nodes) = .ok (0, w') := by
  refine ⟨(List.replicate 2094 [46, 47]).flatten ++ [114, 47, 115], by decide +kernel, by decide +kernel,
    fun D Z fuel => ?_, ?_⟩
  · rw [selfDiskMain, if_pos (by decide +kernel)]
  · have h : (match selfDiskMain queueD copyI os 9 env true
        (((List.replicate 2094 [46, 47]).flatten ++ [114, 47, 115] : Bytes).drop 4188) (world nodes) with
        | .ok (0, _) => true
        | _ => false) = true := by decide +kernel
    split at h
    · rename_i w' hw
      exact ⟨w', hw⟩
    · cases h

open HLSample SelfSample in
/-- Example: the packed file `/h/w/__out.exe`, with any archive; `.out_dir` is removed first. -/
example (packed : Bytes) (h : 524288 < packed.length) :=
  C58_disk copyIOK queueD os env (by decide +kernel) (by decide +kernel) (fun v hv => ⟨
    by
      obtain ⟨m, hm⟩ := hv.1
      exact ⟨m, by simp [env, hm]⟩,
    fun l c n hn => by
      simp only [env] at hn ⊢
      by_cases hp : v.cwd ++ [strB ".out_dir"] <+: l
      · rw [if_pos (hp.trans (List.prefix_append l [c]))] at hn; cases hn
      · rw [if_neg hp]
        refine hv.2 l c n ?_
        by_cases hq : v.cwd ++ [strB ".out_dir"] <+: l ++ [c]
        · rw [if_pos hq] at hn; cases hn
        · rwa [if_neg hq] at hn⟩)
    true (strB "__out.exe") (by decide +kernel) (world (after packed))
    (by
      rw [← after_fs]
      exact tree_put tree (d := [[104], [119]]) (md := 0o755) (by decide +kernel) (by decide +kernel))
    [[104], [119], strB "__out.exe"]
    (by
      have := InFile.read (os := os) os_quiet (w := world (after packed)) (a := strB "__out.exe")
        (l := [[104], [119], strB "__out.exe"]) (c := packed) ⟨by decide +kernel, locate_out packed, 0o755,
          by simp [world, after, fsOf], by decide⟩
      rw [this])
    (by simpa [contentAt, world, after, fsOf] using h)

open HLSample SelfSample in
/-- Example: a program that is not there. -/
example : (sysOpenRead os (world nodes) [122]).1 = none := by decide +kernel

end Zwt
