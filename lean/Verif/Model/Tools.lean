import Verif.Model.Args
import Verif.Model.Walk
import Verif.Model.HL

/-!
The programs: `src/tools/main_compressdir.cpp`, `src/tools/main_self_extract.c`, and setting an
icon, `src/core/resource_handler_unix.c`, `src/core/resource_handler_windows.c`.

Output to the terminal is not modelled.  Writes to the output files are complete (their results
are ignored by the code).  Removing the extraction directory is not modelled (the function for
systems other than Windows, `main_self_extract.c:291-325`, does not compile: a brace is missing and
`a_data` is not declared).
-/

namespace Zwt

/-! ### compressdir -/

/-- The options, `main_compressdir.cpp:35-39`; `operator<<` is
`common_argument_parser.cpp:82-85`. -/
def compressdirParser : Run Parser := do
  let p ← Parser.new.addOption (strB "--output-file,-of:Prvide output file name") .rightArg none none
  let p ← p.addOption (strB "--config-file,-cf:Provide config file for input file tree") .rightArg
    none none
  let p ← p.addOption (strB "--input-folder,-if:The name of the input folder") .rightArg none none
  p.addOption (strB "--help,-h:To display this help") .noArg (some []) none

/-- What a run of the program does: its return value, the file opened (and emptied) for output, the
directory compressed, and the pieces written. -/
structure ToolRun where
  ret : Int
  opened : Option Bytes
  source : Option Bytes
  written : List Bytes
  deriving DecidableEq, Repr

/-- `main`, `main_compressdir.cpp:27-97`, with `a_argv[1 …]` = `args` (there is a program name).
`canOpen f`: `fopen(f, "wb")` succeeds; `compress d`: what `ZlibWtCompressDirectoryEx` on directory
`d` returns and passes to the callback. -/
def compressdirMain (canOpen : Bytes → Bool) (compress : Bytes → Run (Int × List Bytes))
    (args : List Bytes) : Run ToolRun := do
  let p ← compressdirParser
  let (p, left) ← p.parse args
  if (← p.get (strB "-h")).isSome then return ⟨0, none, none, []⟩
  match ← p.get (strB "-of") with
  | none => return ⟨1, none, none, []⟩
  | some out =>
    let inp ← p.get (strB "-if")
    let cfg ← p.get (strB "-cf")
    if inp = none ∧ cfg = none ∧ left.length = 0 then return ⟨1, none, none, []⟩
    if canOpen out = false then return ⟨1, none, none, []⟩
    match inp with
    | some d =>
      let r ← compress d
      return ⟨r.1, some out, some d, r.2⟩
    | none =>
      if left.length ≠ 0 then
        let d ← argAt left 0
        let r ← compress d
        return ⟨r.1, some out, some d, r.2⟩
      else return ⟨0, some out, none, []⟩

/-- `DirCompressFilterFunction`, `main_compressdir.cpp:112-115`. -/
def compressdirFilter : Filter Unit := fun _ _ _ => (0, ())

/-- The program with the library: `ZlibWtCompressDirectoryEx` with `Z_BEST_COMPRESSION`, that filter,
and the callback that appends to the output file, `main_compressdir.cpp:71`, `:75`, `:105-109`. -/
def compressdirWith (D : Deflater) (env : Env) (fuel : Nat) (junk : Bytes) (canOpen : Bytes → Bool)
    (args : List Bytes) : Run ToolRun :=
  compressdirMain canOpen
    (fun d => compressDir D env compressdirFilter fuel .plain d () 9 junk) args

/-! ### Icons -/

/-- `ResourceHandlerSecIconToApp`, `resource_handler_unix.c:17-22`: return value, and the
application afterwards. -/
def setIconUnix (app _icon : Bytes) : Int × Bytes := (1, app)

/-- A resource written: type, name, content. -/
inductive IconRes
  /-- `RT_ICON`, number 1 -/
  | icon (data : Bytes)
  /-- `RT_GROUP_ICON`, `MAINICON`: `_bytes_in_resource` -/
  | group (size : Nat)
  deriving DecidableEq, Repr

/-- `ResourceHandlerSecIconToApp`, `resource_handler_windows.c:44-125`.  `icon`: content of the
icon file, `none` if it cannot be opened or examined (`malloc` and `fread` succeed); `begin`:
`BeginUpdateResourceA` succeeds; `upd k`: the call number `k` of `UpdateResource` does.  The second
component: the resources given to it.  `fStat.st_size - 22` of a file shorter than 22 bytes becomes a
huge length. -/
def setIconWindows (icon : Option Bytes) (begin : Bool) (upd : Nat → Bool) : Run (Int × List IconRes) :=
  match icon with
  | none => .ok (1, [])
  | some data =>
    if begin = false then .ok (1, [])
    else if data.length < 22 then .error .oobRead
    else if upd 0 = false then .ok (1, [.icon (data.drop 22)])
    else .ok (if upd 1 then 0 else 1, [.icon (data.drop 22), .group (data.length - 22)])

/-! ### Self extractor -/

/-- `MAX_EXE_SIZE`, `main_self_extract.c:44-48`. -/
def maxExe (ndebug : Bool) : Nat := if ndebug then 524288 else 2097152
/-- `VC_BUFFER_SIZE`, `:50`. -/
def VC_BUFFER_SIZE : Nat := 4192
/-- `OUT_FILE_NAME_01`, `:36`. -/
def OUT_FILE : Bytes := strB "__out.exe"
/-- `OUT_FOLDER_NAME_01`, `:37`. -/
def OUT_FOLDER : Bytes := strB ".out_dir"

/-- Writes one after the other. -/
def pwrites : Bytes → Nat → List Bytes → Bytes
  | old, _, [] => old
  | old, off, d :: ds => pwrites (pwrite old off d) (off + d.length) ds

/-- The blocks in which the copy loop, `:195-203`, reads a file (reads are complete). -/
def blocks : Nat → Bytes → List Bytes
  | 0, _ => []
  | n+1, b => if b = [] then [] else b.take VC_BUFFER_SIZE :: blocks n (b.drop VC_BUFFER_SIZE)

/-- Directory and name in `a_argv[0]`, `:109-123` and `:220-222`: cut at the last backslash, else at
the last slash; without either the directory is the whole. -/
def exeParts (arg0 : Bytes) : Bytes × Bytes :=
  match lastIndexOf 92 arg0 with
  | some i => (arg0.take i, arg0.drop (i + 1))
  | none =>
    match lastIndexOf 47 arg0 with
    | some i => (arg0.take i, arg0.drop (i + 1))
    | none => (arg0, arg0)

/-- State of the filter: `ownFileNotFound`, `outFileNotFound`. -/
structure SelfFs where
  own : Bool
  out : Bool
  deriving DecidableEq, Repr

/-- `DirCompressFilterFunction`, `:253-282`. -/
def selfFilter (exe out : Bytes) : Filter SelfFs := fun s _ e =>
  if s.own ∧ e.ty ≠ .dir ∧ exe = e.name then (1, { s with own := false })
  else if s.out ∧ e.ty ≠ .dir ∧ out = e.name then (1, { s with out := false })
  else (0, s)

/-- The program to start, `:138` (on Windows the delimiter is a backslash). -/
def FIRST_PROG : Bytes := OUT_FOLDER ++ strB "/maind.exe"

/-- The memory of that string after the assignments `:161-165`. -/
def secondProg : Bytes :=
  cString ((((((FIRST_PROG ++ [0]).set 13 46).set 14 101).set 15 120).set 16 101).set 17 0)

/-- What a run of the self extractor does: return value, content of the output file (`none`: not
created), bytes handed to the extraction function, programs it tried to start, and whether the
directory is removed in the end. -/
structure SelfRun where
  ret : Int
  out : Option Bytes
  given : Option Bytes
  started : List Bytes
  removed : Bool
  deriving DecidableEq, Repr

/-- The branch for a packed file, `:133-176`, `:229-232`; `extract a`: what the extraction of `a` returns;
`start p`: the exit code of program `p`, `none` if it cannot be started. -/
def selfRun (extract : Bytes → Nat) (start : Bytes → Option Int) (archive : Bytes) : SelfRun :=
  if extract archive ≠ CT_DIRECTORY then ⟨1, none, some archive, [], false⟩
  else if (start FIRST_PROG).getD 1 ≠ 0 then
    ⟨0, none, some archive, [FIRST_PROG, secondProg], false⟩
  else ⟨0, none, some archive, [FIRST_PROG], true⟩

/-- The branch that packs, `:177-227`; `open1`, `open2`: the output file can be opened, `icon`: what
setting the icon makes of the file, `compress`: return value and pieces of
`ZlibWtCompressDirectoryEx`. -/
def selfPack (limit : Nat) (exe : Bytes) (open1 open2 : Bool) (icon : Bytes → Bytes)
    (compress : Run (Int × List Bytes)) : Run SelfRun :=
  if open1 = false then .ok ⟨1, none, none, [], false⟩
  else
    let copy := icon (pwrites [] 0 (blocks exe.length exe))
    if open2 = false then .ok ⟨1, some copy, none, [], false⟩
    else
      match compress with
      | .error e => .error e
      | .ok (ret, pieces) => .ok ⟨ret, some (pwrites copy limit pieces), none, [], false⟩

/-- What the world does to the self extractor. -/
structure SelfEnv where
  /-- content of the file at a path -/
  file : Bytes → Option Bytes
  open1 : Bool
  open2 : Bool
  icon : Bytes → Bytes
  /-- `ZlibWtCompressDirectoryEx` on a directory, with the filter for a program name -/
  compress : Bytes → Bytes → Run (Int × List Bytes)
  extract : Bytes → Nat
  start : Bytes → Option Int

/-- `main`, `:82-242`.  A path of 4191 bytes or more fills the buffer without terminator
(`strncpy`, `:109`), and is read beyond it. -/
def selfMain (env : SelfEnv) (ndebug : Bool) (arg0 : Bytes) : Run SelfRun :=
  if VC_BUFFER_SIZE - 1 ≤ arg0.length then .error .oobRead
  else
    match env.file arg0 with
    | none => .ok ⟨1, none, none, [], false⟩
    | some content =>
      if maxExe ndebug < content.length then
        .ok (selfRun env.extract env.start (content.drop (maxExe ndebug)))
      else
        selfPack (maxExe ndebug) content env.open1 env.open2 env.icon
          (env.compress (exeParts arg0).1 (exeParts arg0).2)

end Zwt
