import Verif.Model.Tools
import Verif.Model.HLTest

/-!
`src/tools/main_self_extract.c` together with the disk it works on, on systems other than Windows
(where setting an icon does nothing, `Model/Tools`).

Simplifications: `argv[0]` is the path of a regular file, not of the output file, that does not change
while it is read; the names of programs can be duplicated (`strdup`, `:113-122`); `write` is called once
for each piece, as in the code.  Removing the extraction directory is a parameter: the function for
systems other than Windows, `:291-325`, does not compile as it stands (a brace is missing and `a_data` is
not declared).  So are the programs that are started.
-/

namespace Zwt

/-- `open(path, O_WRONLY)`, `:214`. -/
def sysOpenWrite (os : Os) (w : World) (path : Bytes) : Option Loc × World :=
  if os.refuses w.calls then (none, w.tick)
  else
    match locate os w true path with
    | none => (none, w.tick)
    | some l =>
      match w.fs l with
      | some (.file m _) =>
        if path.getLast? = some 47 ∨ ¬ fileWritable os m then (none, w.tick) else (some l, w.tick)
      | _ => (none, w.tick)

/-- What a run depends on besides the disk: the library's uninitialised memory, the outcome of
allocations, what the compression functions see of a disk, what removing the extraction directory
does (`Model/Remove`), and what the programs do: exit code (`none`: it cannot be started) and world. -/
structure SelfDiskEnv where
  ok : AllocOracle
  junk : Bytes
  hdr : Bytes
  item : Bytes
  see : World → Env
  remove : World → World
  start : Bytes → World → Option Int × World

/-- The branch for a packed file, `:133-176`, and the end of `main`, `:229-232`. -/
def selfDiskRun (Z : Inflater) (os : Os) (fuel : Nat) (env : SelfDiskEnv) (archive : Bytes) (w : World) :
    Run (Int × World) :=
  if os.noMem w.calls then .ok (1, w.tick)
  else
    match extract Z os env.ok fuel env.hdr env.item OUT_FOLDER 0 ⟨archive, false⟩ (env.remove w.tick) with
    | .error e => .error e
    | .ok r =>
      if r.ret ≠ CT_DIRECTORY then .ok (1, r.w)
      else
        match env.start FIRST_PROG r.w with
        | (code, w) =>
          if code.getD 1 ≠ 0 then .ok (0, (env.start secondProg w).2) else .ok (0, env.remove w)

/-- The branch that packs, `:177-227`. -/
def selfDiskPack (D : Deflater) (os : Os) (fuel : Nat) (env : SelfDiskEnv) (limit : Nat)
    (arg0 exe : Bytes) (w : World) : Run (Int × World) :=
  match sysOpen os w OUT_FILE 0o775 true with
  | (none, w) => .ok (1, w)
  | (some l, w) =>
    match sysOpenWrite os (writePieces os (blocks exe.length exe) ⟨l, 0⟩ w) OUT_FILE with
    | (none, w) => .ok (1, w)
    | (some l, w) =>
      match compressDir D (env.see w) (selfFilter (exeParts arg0).2 OUT_FILE) fuel .plain
          (exeParts arg0).1 ⟨true, true⟩ 9 env.junk with
      | .error e => .error e
      | .ok (ret, log) => .ok (ret, writePieces os log ⟨l, limit⟩ w)

/-- `main`, `:82-242`: exit status and the world. -/
def selfDiskMain (D : Deflater) (Z : Inflater) (os : Os) (fuel : Nat) (env : SelfDiskEnv)
    (ndebug : Bool) (arg0 : Bytes) (w : World) : Run (Int × World) :=
  if VC_BUFFER_SIZE - 1 ≤ arg0.length then .error .oobRead
  else
    match sysOpenRead os w arg0 with
    | (none, w) => .ok (1, w)
    | (some l, w) =>
      let content := (contentAt w l).data
      if maxExe ndebug < content.length then
        selfDiskRun Z os fuel env (content.drop (maxExe ndebug)) w
      else selfDiskPack D os fuel env (maxExe ndebug) arg0 content w

end Zwt
