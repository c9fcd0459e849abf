import Verif.Model.Args
import Verif.Model.HL

/-!
The installer programs `src/tools/main_apt-get.cpp` and `src/tools/main_unzip_from_net.cpp`.

They include headers that are not in the repository and run on Windows only; the functions they take
from elsewhere (`ZlibDecompressFromWeb`, `MoveFileExA`, `CreateNewProcess4Std`, …) are parameters.
Output to the terminal is not modelled.
-/

namespace Zwt

/-- `REMOTE_URI_MIN1`, `main_apt-get.cpp:11`. -/
def URI_MIN1 : Nat := 1023
/-- `TEMPORARY_DIR`, `:12`. -/
def TEMP_DIR : Bytes := strB "C:\\.dsi-tmp"
/-- `ROOT_KEY`, `:15`. -/
def ROOT_KEY : Bytes := strB "root:"
/-- `RUN_KEY`, `:16`. -/
def RUN_KEY : Bytes := strB "run:"
/-- The address in `:45` and `main_unzip_from_net.cpp:12`. -/
def URL_START : Bytes :=
  strB "https://desycloud.desy.de/index.php/s/XvNhzouZlV5s12W/download?path=%2FARM&files="

/-- What the outside does. -/
structure AptEnv where
  /-- `ZlibDecompressFromWeb` of an address to a directory -/
  web : Bytes → Bytes → Int
  /-- content of the step file after that (`none`: cannot be opened), `:52`; reading it succeeds -/
  steps : Option Bytes
  /-- `MoveFileExA` of the temporary directory succeeds -/
  move : Bytes → Bool
  /-- what follows `svcTermStr` and `svcTermStr2`, `:27-28`, in memory, up to a NUL; `none` if
  nothing is known about it.  The two arrays are not terminated, but used as strings. -/
  behind1 : Option Bytes
  behind2 : Option Bytes

/-- What a run does. -/
structure AptRun where
  ret : Int
  /-- the step file is deleted -/
  deleted : Bool
  /-- the temporary directory is moved there -/
  moved : Option Bytes
  /-- command line `CreateNewProcess4Std` is given -/
  started : Option Bytes
  deriving DecidableEq, Repr

/-- `strstr(s, key)`, then `+= strlen(key)`. -/
def afterKey (key : Bytes) : Bytes → Option Bytes
  | [] => if key = [] then some [] else none
  | c :: s => if key.isPrefixOf (c :: s) then some ((c :: s).drop key.length) else afterKey key s

/-- The array `a` used as a string, `t` being what follows it. -/
def asString (a : Bytes) (t : Option Bytes) : Run Bytes :=
  match t with
  | none => .error .oobRead
  | some t => .ok (a ++ t)

/-- Value of a field, `:66-69`, `:97-100`: `strspn`, `strcspn`. -/
def fieldValue (env : AptEnv) (s : Bytes) : Run Bytes :=
  match asString [32, 9] env.behind1 with
  | .error e => .error e
  | .ok skip =>
    match asString [32, 9, 10, 13] env.behind2 with
    | .error e => .error e
    | .ok stop => .ok ((s.dropWhile (skip.contains ·)).takeWhile (!stop.contains ·))

/-- From the step file on, `:57-106`; `text` is the string in `vcTmpBuffer`. -/
def aptSteps (env : AptEnv) (text : Bytes) : Run AptRun :=
  match afterKey ROOT_KEY text with
  | none => .ok ⟨0, true, none, none⟩
  | some s =>
    match fieldValue env s with
    | .error e => .error e
    | .ok root =>
      -- `:72`
      if URI_MIN1 < root.length + 1 then .ok ⟨0, true, none, none⟩
      else if root ≠ TEMP_DIR ∧ env.move root = false then .ok ⟨0, true, none, none⟩
      else
        let moved := if root = TEMP_DIR then none else some root
        match afterKey RUN_KEY text with
        | none => .ok ⟨0, true, moved, none⟩
        | some s =>
          match fieldValue env s with
          | .error e => .error e
          | .ok run =>
            -- `snprintf` into the `unRemaining` bytes behind root and backslash, `:103`
            .ok ⟨0, true, moved, some (root ++ [92] ++
              (run ++ strB " /Install").take (URI_MIN1 - root.length - 1 - 1))⟩

/-- `main`, `:25-114`, with `a_argv[1 …]` = `args`.  An address of 1023 bytes or more is not
terminated by `_snprintf`, `:45`, and is then used as a string. -/
def aptMain (env : AptEnv) (args : List Bytes) : Run AptRun :=
  match args with
  | [] => .ok ⟨-1, false, none, none⟩
  | cmd :: pkg :: _ =>
    if cmd = strB "install" then
      if URI_MIN1 ≤ (URL_START ++ pkg ++ strB ".dsi").length then .error .oobRead
      else
        let ret := env.web (URL_START ++ pkg ++ strB ".dsi") TEMP_DIR
        if ret ≠ 0 then .ok ⟨ret, false, none, none⟩
        else
          match env.steps with
          | none => .ok ⟨0, false, none, none⟩
          | some data => aptSteps env (cString (data.take URI_MIN1))
    else .ok ⟨0, false, none, none⟩
  | [_] => .ok ⟨0, false, none, none⟩

/-- `main`, `main_unzip_from_net.cpp:8-15`. -/
def unzipMain (web : Bytes → Bytes → Int) : Int :=
  web (URL_START ++ strB "doocs_server.dsi") (strB "D:\\arm")

end Zwt
