import Verif.Model.SelfDisk
import Verif.Model.WinWalk
import Verif.Model.Win

/-!
`src/tools/main_self_extract.c` together with the drive it works on, on Windows.

Simplifications as in `Model/Win` and `Model/SelfDisk`: `argv[0]` is the path of a file, not of the output
file, that does not change while it is read; the names of programs can be duplicated (`strdup`,
`:113-122`); `_write` is called once for each piece, as in the code.  Setting the icon (`Model/Icon`) is a
parameter, so are the programs that are started.  `ftell` has 32 bits: for files of 2 GiB and more it
returns -1, which, as a `size_t`, is also beyond the limit (`:131-133`).
-/

namespace Zwt

/-- `_fsopen(path, "rb")`, `:125` (`stdio_zlibandtls.h:21`). -/
def winOpenRead (win : Win) (w : WWorld) (path : Bytes) : Option Loc × WWorld :=
  if win.refuses w.calls ∨ (path.getLast?.map winSep) = some true then (none, w.tick)
  else
    match winLocate win w.cwd path with
    | none => (none, w.tick)
    | some l =>
      match w.fs l with
      | some (.file _ _) => (some l, w.tick)
      | _ => (none, w.tick)

/-- `_sopen_s(path, _O_WRONLY | _O_BINARY)`, `:210`. -/
def winOpenWrite (win : Win) (w : WWorld) (path : Bytes) : Option Loc × WWorld :=
  if win.refuses w.calls ∨ (path.getLast?.map winSep) = some true then (none, w.tick)
  else
    match winLocate win w.cwd path with
    | none => (none, w.tick)
    | some l =>
      match w.fs l with
      | some (.file ro _) => if ro then (none, w.tick) else (some l, w.tick)
      | _ => (none, w.tick)

/-- `_write` for each piece, `:199`, `:248`. -/
def winWritePieces (win : Win) : List Bytes → OpenFile → WWorld → WWorld
  | [], _, w => w
  | d :: ds, f, w => winWritePieces win ds (winWrite win w f d).1 (winWrite win w f d).2

/-- Content of the file at `l`. -/
def winContent (w : WWorld) (l : Loc) : Bytes :=
  match w.fs l with
  | some (.file _ c) => c
  | _ => []

/-- The program to start, `:138`, with `ZLIBWT_FILE_DELIM` of Windows, `io_zlibandtls.h:28`. -/
def WIN_FIRST_PROG : Bytes := OUT_FOLDER ++ 92 :: strB "maind.exe"

/-- The memory of that string after the assignments `:161-165`. -/
def winSecondProg : Bytes :=
  cString ((((((WIN_FIRST_PROG ++ [0]).set 13 46).set 14 101).set 15 120).set 16 101).set 17 0)

/-- What a run depends on besides the drive, as `SelfDiskEnv`.  `after`: what the memory holds behind
`".out_dir"` (`winClear`); `icon`: `ResourceHandlerSecIconToApp` for the output file, `:207`. -/
structure SelfWinEnv where
  ok : AllocOracle
  junk : Bytes
  hdr : Bytes
  item : Bytes
  see : WWorld → Env
  after : Bytes
  icon : WWorld → Run WWorld
  start : Bytes → WWorld → Option Int × WWorld

/-- After the programs, `:159-175` and the end of `main`, `:229-232`. -/
def selfWinEnd (win : Win) (env : SelfWinEnv) (code : Option Int) (w : WWorld) : Run (Int × WWorld) :=
  if code.getD 1 ≠ 0 then .ok (0, (env.start winSecondProg w).2)
  else
    match winClear win w OUT_FOLDER env.after with
    | .error e => .error e
    | .ok w => .ok (0, w)

/-- The branch for a packed file, `:133-176`. -/
def selfWinRun (Z : Inflater) (win : Win) (fuel : Nat) (env : SelfWinEnv) (archive : Bytes) (w : WWorld) :
    Run (Int × WWorld) :=
  if win.noMem w.calls then .ok (1, w.tick)
  else
    match winClear win w.tick OUT_FOLDER env.after with
    | .error e => .error e
    | .ok w =>
      match winExtract Z win env.ok fuel env.hdr env.item OUT_FOLDER 0 ⟨archive, false⟩ w with
      | .error e => .error e
      | .ok r =>
        if r.ret ≠ CT_DIRECTORY then .ok (1, r.w)
        else selfWinEnd win env (env.start WIN_FIRST_PROG r.w).1 (env.start WIN_FIRST_PROG r.w).2

/-- The branch that packs, `:177-227`. -/
def selfWinPack (D : Deflater) (win : Win) (fuel : Nat) (env : SelfWinEnv) (limit : Nat)
    (arg0 exe : Bytes) (w : WWorld) : Run (Int × WWorld) :=
  match winOpen win w OUT_FILE false true with
  | (none, w) => .ok (1, w)
  | (some l, w) =>
    match env.icon (winWritePieces win (blocks exe.length exe) ⟨l, 0⟩ w) with
    | .error e => .error e
    | .ok w =>
      match winOpenWrite win w OUT_FILE with
      | (none, w) => .ok (1, w)
      | (some l, w) =>
        match winCompressDir D (env.see w) (selfFilter (exeParts arg0).2 OUT_FILE) fuel .plain
            (exeParts arg0).1 ⟨true, true⟩ 9 env.junk with
        | .error e => .error e
        | .ok (ret, log) => .ok (ret, winWritePieces win log ⟨l, limit⟩ w)

/-- `main`, `:82-242`.  A path of 4191 bytes or more does not fit into the buffer: `strncpy_s`
(`string_zlibandtls.h:18`) then ends the program. -/
def selfWinMain (D : Deflater) (Z : Inflater) (win : Win) (fuel : Nat) (env : SelfWinEnv)
    (ndebug : Bool) (arg0 : Bytes) (w : WWorld) : Run (Int × WWorld) :=
  if VC_BUFFER_SIZE - 1 ≤ arg0.length then .error .assertFail
  else
    match winOpenRead win w arg0 with
    | (none, w) => .ok (1, w)
    | (some l, w) =>
      let content := winContent w l
      if maxExe ndebug < content.length then
        selfWinRun Z win fuel env (content.drop (maxExe ndebug)) w
      else selfWinPack D win fuel env (maxExe ndebug) arg0 content w

end Zwt
