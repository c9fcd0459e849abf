import Verif.Model.ToolDisk
import Verif.Props.FullDisk
import Verif.Props.Compressdir

/-! C123 for compressdir. -/

namespace Zwt

/-- A refused opening changes nothing. -/
theorem sysOpen_refused {os : Os} {w w1 : World} {a : Bytes} {md : Nat} {t : Bool}
    (h : sysOpen os w a md t = (none, w1)) : w1.fs = w.fs ∧ w1.cwd = w.cwd := by
  have e := sysOpen_none (by rw [h] : (sysOpen os w a md t).1 = none)
  rw [h] at e
  rw [show w1 = w.tick from e]
  exact ⟨rfl, rfl⟩

/-- What a run of compressdir left in file `l`, opened in world `w1`. -/
theorem compressdirTo_any {D : Deflater} {os : Os} {fuel : Nat} {junk : Bytes} {see : World → Env}
    {dir : Bytes} {l : Loc} {m : Nat} {w w1 w2 : World} {code : Int}
    (h1 : w1.fs = w.fs.put l (.file m [])) (h2 : w1.cwd = w.cwd)
    (h : compressdirTo D os fuel junk see dir l w1 = .ok (code, w2)) :
    ∃ log s, compressDir D (see w1) compressdirFilter fuel .plain dir () 9 junk = .ok (code, log) ∧
      w2.fs = w.fs.put l (.file m s) ∧ w2.cwd = w.cwd ∧ s.Sublist log.flatten ∧
      (os.fills → s <+: log.flatten) ∧ (os.quiet → s = log.flatten) := by
  simp only [compressdirTo, bind, Except.bind, pure, Except.pure] at h
  cases hc : compressDir D (see w1) compressdirFilter fuel .plain dir () 9 junk with
  | error e => rw [hc] at h; cases h
  | ok x =>
    obtain ⟨ret, log⟩ := x
    rw [hc] at h
    simp only [Except.ok.injEq, Prod.mk.injEq] at h
    obtain ⟨rfl, rfl⟩ := h
    have hl : w1.fs l = some (.file m []) := by rw [h1, FS.put_same]
    obtain ⟨s, a1, a2, a3, a4⟩ := writePieces_any os (m := m) log [] w1 hl
    rw [List.length_nil] at a1 a2
    refine ⟨log, s, rfl, by rw [a1, h1, FS.put_put, List.nil_append], by rw [a2, h2], a3, a4, fun hq => ?_⟩
    have b1 := (writePieces_end hq (m := m) log [] w1 hl).1
    rw [List.length_nil, a1] at b1
    have := congrFun b1 l
    rw [FS.put_same, FS.put_same] at this
    simpa using this

/-- C123 for compressdir: whatever the arguments, and whatever writes are refused or cut, a run that ends
changes nothing, or only the file named by `-of`.  That file then has bytes of what compressing the input
gives, in their order (a beginning of it if the disk fills up, all of it if every call succeeds), and the
exit status is the result of compressing; with only a configuration file it is empty.
Missing: that incomplete archives are reported, which is false; argument vectors on which the parser
faults (see `C54_crash`). -/
theorem C123_compressdir_partial (D : Deflater) (os : Os) (fuel : Nat) (junk : Bytes)
    (see : World → Env) (args : List Bytes) (w w2 : World) (code : Int)
    (hr : compressdirDisk D os fuel junk see args w = .ok (code, w2)) :
    w2.cwd = w.cwd ∧ (w2.fs = w.fs ∨ ∃ out l w1 m s, optOut.report args = some out ∧
      sysOpen os w out 0o666 true = (some l, w1) ∧ w2.fs = w.fs.put l (.file m s) ∧
      (s = [] ∧ code = 0 ∧ optIn.report args = none ∧ (optConfig.report args).isSome = true ∨
        ∃ dir log, (optIn.report args = some dir ∨ optIn.report args = none ∧ dir ∈ args) ∧
          compressDir D (see w1) compressdirFilter fuel .plain dir () 9 junk = .ok (code, log) ∧
          s.Sublist log.flatten ∧ (os.fills → s <+: log.flatten) ∧ (os.quiet → s = log.flatten))) := by
  obtain ⟨p, hp⟩ := compressdir_built
  rw [← compressdir_parser] at hp
  unfold compressdirDisk at hr
  rw [hp] at hr
  simp only [bind, Except.bind, pure, Except.pure] at hr
  cases hpa : p.parse args with
  | error e => rw [hpa] at hr; cases hr
  | ok pr =>
    obtain ⟨p', left⟩ := pr
    rw [hpa] at hr
    obtain ⟨g1, g2, g3, g4, _⟩ := compressdir_reports hp hpa
    obtain ⟨l, hl1, hl2⟩ := C48_subsequence (p := p) (by
      rw [compressdir_parser] at hp
      exact (built compressdir_separate hp).2.1.unused) hpa
    subst hl1
    dsimp only at hr
    rw [g1, g2, g3, g4] at hr
    dsimp only at hr
    have same : ∀ {c : Int}, (.ok (c, w) : Run (Int × World)) = .ok (code, w2) →
        w2.cwd = w.cwd ∧ w2.fs = w.fs := by
      intro c h; cases h; exact ⟨rfl, rfl⟩
    split at hr
    · exact ⟨(same hr).1, .inl (same hr).2⟩
    · split at hr
      · exact ⟨(same hr).1, .inl (same hr).2⟩
      · rename_i out ho
        split at hr
        · exact ⟨(same hr).1, .inl (same hr).2⟩
        · rename_i hin
          rw [show FOPEN_MODE = 0o666 from rfl] at hr
          split at hr
          · rename_i w1 hop
            cases hr
            exact ⟨(sysOpen_refused hop).2, .inl (sysOpen_refused hop).1⟩
          · rename_i lo w1 hop
            obtain ⟨m, o1, o2⟩ := sysOpen_empty hop
            split at hr
            · rename_i dir hdir
              obtain ⟨log, s, b1, b2, b3, b4, b5, b6⟩ := compressdirTo_any o1 o2 hr
              exact ⟨b3, .inr ⟨out, lo, w1, m, s, ho, hop, b2, .inr ⟨dir, log, .inl hdir, b1, b4, b5, b6⟩⟩⟩
            · rename_i hdir
              split at hr
              · rename_i hlen
                cases l with
                | nil => simp at hlen
                | cons dir l =>
                  have ha : argAt ((dir :: l).map some) 0 = .ok dir := rfl
                  rw [ha] at hr
                  obtain ⟨log, s, b1, b2, b3, b4, b5, b6⟩ := compressdirTo_any o1 o2 hr
                  exact ⟨b3, .inr ⟨out, lo, w1, m, s, ho, hop, b2, .inr ⟨dir, log,
                    .inr ⟨hdir, hl2.subset (by simp)⟩, b1, b4, b5, b6⟩⟩⟩
              · rename_i hlen
                cases hr
                refine ⟨o2, .inr ⟨out, lo, _, m, [], ho, hop, o1, .inl ⟨rfl, rfl, hdir, ?_⟩⟩⟩
                cases hc : optConfig.report args with
                | none => exact absurd ⟨hdir, hc, Decidable.not_not.1 hlen⟩ hin
                | some _ => rfl

namespace HLTestSample
open HLSample CopySample

/-- compressdir by `o`, then extraction of the archive `z` to `o` without trouble: exit statuses, and the
length of the archive. -/
def tool (o : Os) (args : List Bytes) (w : World) : Option (Int × Int × Option Nat) :=
  match compressdirDisk queueD o 9 env.junk env.see args w with
  | .error _ => none
  | .ok (a, w1) =>
    match hlTestMain queueD copyI os 9 env [[98], [122], [111]] w1 with
    | .error _ => none
    | .ok (b, _) => some (a, b, match w1.fs [[104], [119], [122]] with
      | some (.file _ c) => some c.length
      | _ => none)

theorem tool_some {o : Os} {args : List Bytes} {w : World} {r r' : Int} {n : Option Nat}
    (h : tool o args w = some (r, r', n)) :
    ∃ w1 w2, compressdirDisk queueD o 9 env.junk env.see args w = .ok (r, w1) ∧
      hlTestMain queueD copyI os 9 env [[98], [122], [111]] w1 = .ok (r', w2) := by
  simp only [tool] at h
  split at h
  · cases h
  · rename_i r1 w1 h1
    split at h
    · cases h
    · rename_i r2 w2 h2
      simp only [Option.some.injEq, Prod.mk.injEq] at h
      obtain ⟨rfl, rfl, _⟩ := h
      exact ⟨w1, w2, h1, h2⟩

end HLTestSample

open HLSample CopySample HLTestSample in
/-- Example: `compressdir -if r -of z` and `compressdir -of z r`, with room for all, for 100 bytes, and for
nothing; and without an input. -/
example : tool os [strB "-if", [114], strB "-of", [122]] (world nodes) = some (0, 0, some 384) ∧
    tool nearlyOs [strB "-if", [114], strB "-of", [122]] (world nodes) = some (0, 1, some 100) ∧
    tool fullOs [strB "-of", [122], [114]] (world nodes) = some (0, 1, some 0) ∧
    tool os [strB "-of", [122]] (world nodes) = some (1, 1, none) := by decide +kernel

/-- C123 is false for compressdir too: on a full disk it exits with 0, though the archive that it leaves
cannot be extracted and, with room on the disk, could have been. -/
theorem C123_compressdir_false :
    ¬ ∀ (D : Deflater) (Z : Inflater) (plain : Bytes → Bytes) (_ : DeflateOK D plain)
      (_ : InflateOK Z plain) (os os' : Os) (fuel : Nat) (env : HlTestEnv) (args args' : List Bytes)
      (w w1 w2 w1' w2' : World) (code : Int), os.quiet →
      compressdirDisk D os fuel env.junk env.see args w = .ok (0, w1) →
      hlTestMain D Z os fuel env args' w1 = .ok (0, w2) →
      compressdirDisk D os' fuel env.junk env.see args w = .ok (0, w1') →
      hlTestMain D Z os fuel env args' w1' = .ok (code, w2') → code = 0 := by
  intro h
  have k1 : HLTestSample.tool HLSample.os [strB "-if", [114], strB "-of", [122]]
      (HLSample.world CopySample.nodes) = some (0, 0, some 384) := by decide +kernel
  have k2 : HLTestSample.tool HLTestSample.fullOs [strB "-if", [114], strB "-of", [122]]
      (HLSample.world CopySample.nodes) = some (0, 1, some 0) := by decide +kernel
  obtain ⟨w1, w2, a1, a2⟩ := HLTestSample.tool_some k1
  obtain ⟨w1', w2', b1, b2⟩ := HLTestSample.tool_some k2
  exact absurd (h queueD copyI id queueDOK copyIOK _ _ 9 _ _ _ _ w1 w2 w1' w2' 1 HLSample.os_quiet
    a1 a2 b1 b2) (by decide)

end Zwt
