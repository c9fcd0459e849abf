import Verif.Model.HLTest
import Verif.Model.Tools

/-!
`src/tools/main_compressdir.cpp` together with the disk it works on.

Simplifications: those of `Model/HLTest.lean` (the source is read as it is after the output file has been
opened; what the `FILE` functions buffer is written at once), and waiting for a key on Windows.
-/

namespace Zwt

/-- Compressing directory `dir` to the opened file `l`: `main_compressdir.cpp:71` or `:75` with the
callback `:105-109`, which ignores what `fwrite` returns, and `fclose`, `:84`. -/
def compressdirTo (D : Deflater) (os : Os) (fuel : Nat) (junk : Bytes) (see : World → Env) (dir : Bytes)
    (l : Loc) (w : World) : Run (Int × World) := do
  let r ← compressDir D (see w) compressdirFilter fuel .plain dir () 9 junk
  return (r.1, writePieces os r.2 ⟨l, 0⟩ w)

/-- `main`, `main_compressdir.cpp:27-97`, with `a_argv[1 …]` = `args`: exit status and the world. -/
def compressdirDisk (D : Deflater) (os : Os) (fuel : Nat) (junk : Bytes) (see : World → Env)
    (args : List Bytes) (w : World) : Run (Int × World) := do
  let p ← compressdirParser
  let (p, left) ← p.parse args
  if (← p.get (strB "-h")).isSome then return (0, w)
  match ← p.get (strB "-of") with
  | none => return (1, w)
  | some out =>
    let inp ← p.get (strB "-if")
    let cfg ← p.get (strB "-cf")
    if inp = none ∧ cfg = none ∧ left.length = 0 then return (1, w)
    match sysOpen os w out FOPEN_MODE true with
    | (none, w) => return (1, w)
    | (some l, w) =>
      match inp with
      | some d => compressdirTo D os fuel junk see d l w
      | none =>
        if left.length ≠ 0 then
          let d ← argAt left 0
          compressdirTo D os fuel junk see d l w
        else return (0, w)

end Zwt
