import Verif.Proofs.FullDisk
import Verif.Props.HLTest

/-! C123: archiving onto a full disk. -/

namespace Zwt

/-- Opening for writing empties the file. -/
theorem sysOpen_empty {os : Os} {w w1 : World} {a : Bytes} {md : Nat} {l : Loc}
    (h : sysOpen os w a md true = (some l, w1)) :
    ∃ m, w1.fs = w.fs.put l (.file m []) ∧ w1.cwd = w.cwd := by
  simp only [sysOpen] at h
  split at h
  · cases h
  · split at h
    · cases h
    · split at h
      · split at h
        · cases h
        · simp only [if_true, Prod.mk.injEq, Option.some.injEq] at h
          obtain ⟨rfl, rfl⟩ := h
          exact ⟨_, rfl, rfl⟩
      · cases h
      · split at h
        · cases h
        · simp only [addNode] at h
          split at h
          · cases h
          · rename_i w' he
            split at he
            · simp only [Option.some.injEq] at he
              simp only [Prod.mk.injEq, Option.some.injEq] at h
              obtain ⟨rfl, rfl⟩ := h
              subst he
              exact ⟨_, rfl, rfl⟩
            · cases he

/-- Archiving a directory, by any of the functions. -/
theorem hlTestDir_any {D : Deflater} {os : Os} {fuel : Nat} {junk : Bytes} {see : World → Env} {fn : DirFn}
    {p a : Bytes} {w w1 w2 : World} {l : Loc} {code : Int}
    (ho : sysOpen os w a 0o666 true = (some l, w1))
    (hr : hlTestDir D os fuel junk see fn p a w = .ok (code, w2)) :
    ∃ log m s, compressDir D (see w1) hlTestFilter fuel fn p () 9 junk = .ok (code, log) ∧
      w2.fs = w.fs.put l (.file m s) ∧ w2.cwd = w.cwd ∧ s.Sublist log.flatten ∧
      (os.fills → s <+: log.flatten) := by
  rw [hlTestDir, show FOPEN_MODE = 0o666 from rfl, ho] at hr
  dsimp only at hr
  obtain ⟨m, o1, o2⟩ := sysOpen_empty ho
  cases hc : compressDir D (see w1) hlTestFilter fuel fn p () 9 junk with
  | error e => rw [hc] at hr; cases hr
  | ok x =>
    obtain ⟨ret, log⟩ := x
    rw [hc] at hr
    simp only [Except.ok.injEq, Prod.mk.injEq] at hr
    obtain ⟨rfl, rfl⟩ := hr
    obtain ⟨s, h1, h2, h3, h4⟩ := writePieces_any os (m := m) log [] w1 (by rw [o1, FS.put_same])
    rw [List.length_nil] at h1 h2
    refine ⟨log, m, s, rfl, ?_, by rw [h2, o2], h3, h4⟩
    rw [h1, o1, FS.put_put, List.nil_append]

/-- C123 for directories: whatever writes to the archive are refused or cut, `c DIR ARCHIVE` changes
nothing but the archive, which has bytes of the library's output in their order, and a beginning of it
if the disk fills up; the exit status is that of the library.
Missing: that the failure is reported, which is false. -/
theorem C123_full_disk_directory_partial (D : Deflater) (Z : Inflater) (os : Os) (fuel : Nat)
    (env : HlTestEnv) (p a : Bytes) (more : List Bytes) (w w1 w2 : World) (l : Loc) (code : Int)
    (ho : sysOpen os w a 0o666 true = (some l, w1))
    (hr : hlTestMain D Z os fuel env ([99] :: p :: a :: more) w = .ok (code, w2)) :
    ∃ log m s, compressDir D (env.see w1) hlTestFilter fuel .plain p () 9 env.junk = .ok (code, log) ∧
      w2.fs = w.fs.put l (.file m s) ∧ w2.cwd = w.cwd ∧ s.Sublist log.flatten ∧
      (os.fills → s <+: log.flatten) :=
  hlTestDir_any ho hr

/-- C123 for directories with extra files: the same of `d` and `e`.
Missing: that the failure is reported. -/
theorem C123_full_disk_extras_partial (D : Deflater) (Z : Inflater) (os : Os) (fuel : Nat)
    (env : HlTestEnv) (c : UInt8) (hc : c = 100 ∨ c = 101) (p a : Bytes) (more : List Bytes)
    (w w1 w2 : World) (l : Loc) (code : Int) (ho : sysOpen os w a 0o666 true = (some l, w1))
    (hr : hlTestMain D Z os fuel env ([c] :: p :: a :: more) w = .ok (code, w2)) :
    ∃ log m s, compressDir D (env.see w1) hlTestFilter fuel
        (if c = 100 then .root [hlTestExtra (env.modes 0)]
          else .nested (hlTestExtras (env.modes 0) (env.modes 1) (env.modes 2))) p () 9 env.junk =
        .ok (code, log) ∧
      w2.fs = w.fs.put l (.file m s) ∧ w2.cwd = w.cwd ∧ s.Sublist log.flatten ∧
      (os.fills → s <+: log.flatten) := by
  rcases hc with rfl | rfl
  · exact hlTestDir_any ho hr
  · exact hlTestDir_any ho hr

/-- C123 for files, `a FILE ARCHIVE`.
Missing: that the failure is reported, which is false. -/
theorem C123_full_disk_file_partial (D : Deflater) (Z : Inflater) (os : Os) (fuel : Nat)
    (env : HlTestEnv) (p a : Bytes) (more : List Bytes) (w w0 w1 w2 : World) (li l : Loc) (code : Int)
    (hi : sysOpenRead os w p = (some li, w0)) (ho : sysOpen os w0 a 0o666 true = (some l, w1))
    (hr : hlTestMain D Z os fuel env ([97] :: p :: a :: more) w = .ok (code, w2)) :
    ∃ log m s, compressFile D fuel (contentAt w1 li).data (contentAt w1 li).err 9 env.junk =
        .ok (code, log) ∧
      w2.fs = w0.fs.put l (.file m s) ∧ w2.cwd = w0.cwd ∧ s.Sublist log.flatten ∧
      (os.fills → s <+: log.flatten) := by
  rw [hlTestMain_a, hlTestFile, hi] at hr
  dsimp only at hr
  rw [show FOPEN_MODE = 0o666 from rfl, ho] at hr
  dsimp only at hr
  obtain ⟨m, o1, o2⟩ := sysOpen_empty ho
  cases hc : compressFile D fuel (contentAt w1 li).data (contentAt w1 li).err 9 env.junk with
  | error e => rw [hc] at hr; cases hr
  | ok x =>
    obtain ⟨ret, log⟩ := x
    rw [hc] at hr
    simp only [Except.ok.injEq, Prod.mk.injEq] at hr
    obtain ⟨rfl, rfl⟩ := hr
    obtain ⟨s, h1, h2, h3, h4⟩ := writePieces_any os (m := m) log [] w1 (by rw [o1, FS.put_same])
    rw [List.length_nil] at h1 h2
    refine ⟨log, m, s, rfl, ?_, by rw [h2, o2], h3, h4⟩
    rw [h1, o1, FS.put_put, List.nil_append]

namespace HLTestSample
open HLSample CopySample

/-- The sample system with a full disk: nothing can be written. -/
def fullOs : Os := { os with accepts := fun _ _ => 0 }

/-- The sample system with a disk that takes 100 bytes of the first piece. -/
def nearlyOs : Os := { os with accepts := fun k n => if k = 0 then n else if k = 1 then min n 100 else 0 }

/-- Archiving by `o`, then extraction without trouble: exit statuses, and a node in between. -/
def filled (o : Os) (args args' : List Bytes) (w : World) (l : Loc) :
    Option (Int × Int × Option Nat) :=
  match hlTestMain queueD copyI o 9 env args w with
  | .error _ => none
  | .ok (a, w1) =>
    match hlTestMain queueD copyI os 9 env args' w1 with
    | .error _ => none
    | .ok (b, _) => some (a, b, match w1.fs l with
      | some (.file _ c) => some c.length
      | _ => none)

theorem nearly_fills : nearlyOs.fills := by
  intro k
  by_cases h : k = 0
  · subst h
    exact .inl ⟨rfl, fun n => by simp [nearlyOs]⟩
  · right
    intro k' hk
    right
    intro n
    have h0 : k' ≠ 0 := by omega
    have h1 : k' ≠ 1 := by omega
    simp [nearlyOs, h0, h1]

theorem filled_some {o : Os} {args args' : List Bytes} {w : World} {l : Loc} {r r' : Int}
    {n : Option Nat} (h : filled o args args' w l = some (r, r', n)) :
    ∃ w1 w2, hlTestMain queueD copyI o 9 env args w = .ok (r, w1) ∧
      hlTestMain queueD copyI os 9 env args' w1 = .ok (r', w2) := by
  simp only [filled] at h
  split at h
  · cases h
  · rename_i r1 w1 h1
    split at h
    · cases h
    · rename_i r2 w2 h2
      simp only [Option.some.injEq, Prod.mk.injEq] at h
      obtain ⟨rfl, rfl, _⟩ := h
      exact ⟨w1, w2, h1, h2⟩

end HLTestSample

open HLSample CopySample HLTestSample in
/-- Example: `c r z` writes 384 bytes; 100 bytes if there is room for no more; and exits with 0. -/
example : filled os [[99], [114], [122]] [[98], [122], [111]] (world nodes) [[104], [119], [122]] =
      some (0, 0, some 384) ∧
    filled nearlyOs [[99], [114], [122]] [[98], [122], [111]] (world nodes) [[104], [119], [122]] =
      some (0, 1, some 100) := by decide +kernel

open HLSample CopySample HLTestSample in
/-- Example: what `C123_full_disk_directory_partial` says there. -/
example (w2 : World) (h : hlTestMain queueD copyI nearlyOs 9 env [[99], [114], [122]] (world nodes) =
    .ok (0, w2)) :=
  C123_full_disk_directory_partial queueD copyI nearlyOs 9 env [114] [122] [] (world nodes)
    (sysOpen nearlyOs (world nodes) [122] 0o666 true).2 w2 [[104], [119], [122]] 0
    (Prod.ext (by decide +kernel) rfl) h

open HLSample CopySample HLTestSample in
/-- Example: `e r z` on a full disk. -/
example : filled fullOs [[101], [114], [122]] [[98], [122], [111]] (world nodes) [[104], [119], [122]] =
    some (0, 1, some 0) := by decide +kernel

open HLSample CopySample HLTestSample in
/-- Example: `a r/a z` on a full disk exits with 0 too. -/
example : (match filled fullOs [[97], [114, 47, 97], [122]] [[98], [122], [102]] (world nodes)
      [[104], [119], [122]] with
    | some (a, b, n) => decide (a = 0 ∧ b = 1 ∧ n = some 0)
    | none => false) = true := by decide +kernel

/-- C123 is false: on a full disk the program that archives exits with 0, though the archive that it
leaves cannot be extracted and, with room on the disk, could have been. -/
theorem C123_full_disk_false :
    ¬ ∀ (D : Deflater) (Z : Inflater) (plain : Bytes → Bytes) (_ : DeflateOK D plain)
      (_ : InflateOK Z plain) (os os' : Os) (fuel : Nat) (env : HlTestEnv) (args args' : List Bytes)
      (w w1 w2 w1' w2' : World) (code : Int), os.quiet →
      hlTestMain D Z os fuel env args w = .ok (0, w1) →
      hlTestMain D Z os fuel env args' w1 = .ok (0, w2) →
      hlTestMain D Z os' fuel env args w = .ok (0, w1') →
      hlTestMain D Z os fuel env args' w1' = .ok (code, w2') → code = 0 := by
  intro h
  have k1 : HLTestSample.filled HLSample.os [[99], [114], [122]] [[98], [122], [111]]
      (HLSample.world CopySample.nodes) [[104], [119], [122]] = some (0, 0, some 384) := by decide +kernel
  have k2 : HLTestSample.filled HLTestSample.fullOs [[99], [114], [122]] [[98], [122], [111]]
      (HLSample.world CopySample.nodes) [[104], [119], [122]] = some (0, 1, some 0) := by decide +kernel
  obtain ⟨w1, w2, a1, a2⟩ := HLTestSample.filled_some k1
  obtain ⟨w1', w2', b1, b2⟩ := HLTestSample.filled_some k2
  exact absurd (h queueD copyI id queueDOK copyIOK _ _ 9 _ _ _ _ w1 w2 w1' w2' 1 HLSample.os_quiet
    a1 a2 b1 b2) (by decide)

end Zwt
