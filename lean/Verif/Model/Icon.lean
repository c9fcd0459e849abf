import Verif.Model.HL
import Verif.Model.Args

/-!
Setting the icon of a program on Windows, `src/core/resource_handler_windows.c`, with every call that
can fail, and the program that does it, `src/tests/main_change_or_add_icon_test.cpp`.
(`setIconWindows` in `Model/Tools.lean` has only the resources passed on.)

Not modelled: what is printed, what `UpdateResource` does with its memory, the language of the
resource, other resources of the program file.
-/

namespace Zwt

/-- What the system answers.  `file`: content of the icon file, `none` if `fopen` fails; `stat`:
`fstat` succeeds (it fails for files of 2 GiB and more, whose size does not fit `st_size`); `mem`:
`malloc` succeeds; `got`: `fread` delivers so many bytes at most; `junk`: what is in the memory from
`malloc`; `begins`: `BeginUpdateResourceA` succeeds; `upd k`: call number `k` of `UpdateResource`
does; `commit`: `EndUpdateResourceA` does, that is, the changes reach the program file. -/
structure IconEnv where
  file : Option Bytes
  stat : Bool
  mem : Bool
  got : Nat
  junk : Nat → UInt8
  begins : Bool
  upd : Nat → Bool
  commit : Bool

/-- Resources of a program file: `RT_ICON` number 1 and `RT_GROUP_ICON` `MAINICON`. -/
structure AppRes where
  icon : Option Bytes
  group : Option Bytes
  deriving DecidableEq, Repr

/-- What is acquired and given back. -/
inductive IconEv | fopen | fclose | malloc | free | beginUpdate | endUpdate
  deriving DecidableEq, Repr

/-- Return value, program file afterwards, and what was acquired and given back. -/
structure IconRun where
  ret : Int
  app : AppRes
  log : List IconEv
  deriving DecidableEq, Repr

/-- The buffer after `fread`, `:63-70`. -/
def iconBuffer (e : IconEnv) (data : Bytes) : Bytes :=
  data.take e.got ++ (List.range (data.length - e.got)).map fun i => e.junk (e.got + i)

/-- `icon_entry`, `:97-108`, as it is in memory (`ICON_ENTRY`, `:26-40`, packed). -/
def iconEntry (size : Nat) : Bytes :=
  leEnc 2 0 ++ leEnc 2 1 ++ leEnc 2 1 ++ [32, 32, 0, 0] ++ leEnc 2 2 ++ leEnc 2 32 ++ leEnc 4 size ++
    leEnc 4 1

/-- `EndUpdateResourceA(h, FALSE)` with the result ignored, `:90`, `:118`: `new` is what the calls of
`UpdateResource` have prepared. -/
def endUpdate (e : IconEnv) (app new : AppRes) : AppRes := if e.commit then new else app

/-- `ResourceHandlerSecIconToApp`, `:44-125`.  `pcBufferForIcon + 22` and the length `st_size - 22`
(as a `DWORD`) of a shorter file lie outside the buffer. -/
def setIcon (e : IconEnv) (app : AppRes) : Run IconRun :=
  match e.file with
  | none => .ok ⟨1, app, []⟩
  | some data =>
    if ¬ (e.stat = true ∧ data.length < 2147483648) then .ok ⟨1, app, [.fopen, .fclose]⟩
    else if e.mem = false then .ok ⟨1, app, [.fopen, .fclose]⟩
    else if e.begins = false then .ok ⟨1, app, [.fopen, .malloc, .fclose, .free]⟩
    else if data.length < 22 then .error .oobRead
    else if e.upd 0 = false then
      .ok ⟨1, endUpdate e app app, [.fopen, .malloc, .fclose, .beginUpdate, .endUpdate, .free]⟩
    else
      let app1 := { app with icon := some ((iconBuffer e data).drop 22) }
      let log := [.fopen, .malloc, .fclose, .beginUpdate, .endUpdate, .free]
      if e.upd 1 = false then .ok ⟨1, endUpdate e app app1, log⟩
      else .ok ⟨0, endUpdate e app { app1 with group := some (iconEntry (data.length - 22)) }, log⟩

/-- `ZLIBWT_EXE_NM_TO_SET_ICON`, `main_change_or_add_icon_test.cpp:21`. -/
def ICON_APP : Bytes := strB "hello_world_test.exe"

/-- `main`, `main_change_or_add_icon_test.cpp:25-46`, called as `arg0` with the arguments `args`.
`set`: the return value of `ResourceHandlerSecIconToApp` for a program and an icon.  Without a
backslash in `arg0` the assertion fails (with `NDEBUG` a null pointer is subtracted from).
(`alloca` succeeds; the content of its memory is taken to be zeros, all that is used is overwritten.)  -/
def iconMain (ndebug : Bool) (set : Bytes → Bytes → Run Int) (arg0 : Bytes) (args : List Bytes) :
    Run Int :=
  match lastIndexOf 92 arg0, ndebug, args with
  | none, false, _ => .error .assertFail
  | _, _, [] => .ok 1
  | none, true, _ :: _ => .error .nullDeref
  | some i, _, icon :: _ => do
    let buf ← memcpyAt (List.replicate (i + 1 + 4 + 21) 0) 0 (arg0.take (i + 1))
    let buf ← memcpyAt buf (i + 1) (ICON_APP ++ [0])
    set (cString buf) icon

end Zwt
