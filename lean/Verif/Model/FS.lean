import Verif.Model.Basic

/-!
The file-system calls made by `src/core/zlibwt_hl_decompress_routines.c`: `mkdir`, `stat`, `open`,
`write`, `fopen("wb")`, `fwrite`, `symlink`, `chdir`, `getcwd`.  This is not code of the repository
but the behaviour of the operating system it relies on (POSIX, Linux where POSIX leaves a choice).

Simplifications: no hard links, devices or mount points; the process owns every node, so that only
the owner permission bits matter (none do for a privileged process); set-group-ID inheritance and
ACLs are left out.  Everything else that can make a call fail (limits on names, space, quota,
signals, other users' directories) is the arbitrary function `Os.refuses`.
-/

namespace Zwt

/-- A place in the file system: the component names from the root, with no `.`/`..` and with no
symbolic link on the way. -/
abbrev Loc := List Bytes

inductive Node
  | dir (mode : Nat)
  | file (mode : Nat) (content : Bytes)
  | link (target : Bytes)
  deriving DecidableEq, Repr

/-- Content of the file system. -/
abbrev FS := Loc → Option Node

/-- The file system after storing `n` at `l`. -/
def FS.put (fs : FS) (l : Loc) (n : Node) : FS := fun l' => if l' = l then some n else fs l'

/-- What the operating system decides.  Calls are numbered; `refuses k`: call `k` fails for a
reason outside this model; `accepts k n`: how many of `n` bytes call `k` (a write) takes at most.
`allow`: complement of the umask.  `root`: permission bits are not checked.
`noMem k`: an allocation made after `k` calls fails. -/
structure Os where
  refuses : Nat → Bool
  accepts : Nat → Nat → Nat
  allow : Nat
  root : Bool
  noMem : Nat → Bool

/-- State of the file system and of the process. -/
structure World where
  fs : FS
  cwd : Loc
  calls : Nat

def World.tick (w : World) : World := { w with calls := w.calls + 1 }

/-- Store a node. -/
def World.put (w : World) (l : Loc) (n : Node) : World := { w with fs := w.fs.put l n }

/-- The directory can be passed through (search permission). -/
def searchable (os : Os) (fs : FS) (l : Loc) : Bool :=
  match fs l with
  | some (.dir m) => os.root || m &&& 0o100 != 0
  | _ => false

/-- Entries can be added to the directory. -/
def writable (os : Os) (fs : FS) (l : Loc) : Bool :=
  match fs l with
  | some (.dir m) => os.root || m &&& 0o200 != 0
  | _ => false

/-- The parts of a path between slashes (the first one is empty for an absolute path). -/
def splitPath : Bytes → List Bytes
  | [] => [[]]
  | c :: cs =>
    if c = 47 then [] :: splitPath cs
    else
      match splitPath cs with
      | [] => [[c]]
      | p :: ps => (c :: p) :: ps

/-- Where resolution of a path starts. -/
def pathBase (cwd : Loc) (path : Bytes) : Loc := if path.head? = some 47 then [] else cwd

/-- Path resolution from `cur` along the components; `again` resolves the rest after a symbolic
link has been met.  The last component need not exist; if it is a link it is followed only if
`follow`. -/
def resolveWith (os : Os) (fs : FS) (follow : Bool) (again : Loc → List Bytes → Option Loc) :
    Loc → List Bytes → Option Loc
  | cur, [] => some cur
  | cur, c :: cs =>
    if ¬ searchable os fs cur then none
    else if c = [] ∨ c = [46] then resolveWith os fs follow again cur cs
    else if c = [46, 46] then resolveWith os fs follow again cur.dropLast cs
    else
      match fs (cur ++ [c]) with
      | none => if cs.all (· = []) then some (cur ++ [c]) else none
      | some (.link t) =>
        if cs = [] ∧ ¬ follow then some (cur ++ [c])
        else again (pathBase cur t) (splitPath t ++ cs)
      | some _ => resolveWith os fs follow again (cur ++ [c]) cs

/-- Path resolution through at most `n` symbolic links. -/
def resolve (os : Os) (fs : FS) (follow : Bool) : Nat → Loc → List Bytes → Option Loc
  | 0 => resolveWith os fs follow (fun _ _ => none)
  | n+1 => resolveWith os fs follow (resolve os fs follow n)

/-- Limit on symbolic links in one resolution (Linux: 40). -/
def MAX_LINKS : Nat := 40

/-- The place a path refers to (the last component need not exist). -/
def locate (os : Os) (w : World) (follow : Bool) (path : Bytes) : Option Loc :=
  if path = [] then none
  else resolve os w.fs follow MAX_LINKS (pathBase w.cwd path) (splitPath path)

/-- Outcome of `mkdir`: success, `EEXIST`, another error. -/
inductive MkRes | ok | exist | fail
  deriving DecidableEq, Repr

/-- Store a new node in an existing directory that permits it. -/
def addNode (os : Os) (w : World) (l : Loc) (n : Node) : Option World :=
  if writable os w.fs l.dropLast then some (w.put l n) else none

/-- `mkdir`. -/
def sysMkdir (os : Os) (w : World) (path : Bytes) (mode : Nat) : MkRes × World :=
  if os.refuses w.calls then (.fail, w.tick)
  else
    match locate os w false path with
    | none => (.fail, w.tick)
    | some l =>
      match w.fs l with
      | some _ => (.exist, w.tick)
      | none =>
        match addNode os w l (.dir (mode &&& 0o1777 &&& os.allow)) with
        | none => (.fail, w.tick)
        | some w' => (.ok, w'.tick)

/-- `stat(path) == 0 && S_ISDIR(st_mode)`. -/
def sysIsDir (os : Os) (w : World) (path : Bytes) : Bool × World :=
  if os.refuses w.calls then (false, w.tick)
  else
    match locate os w true path with
    | none => (false, w.tick)
    | some l =>
      match w.fs l with
      | some (.dir _) => (true, w.tick)
      | _ => (false, w.tick)

/-- Bits of a file mode that permit writing. -/
def fileWritable (os : Os) (mode : Nat) : Bool := os.root || mode &&& 0o200 != 0

/-- `open(path, O_WRONLY | O_CREAT, mode)`, with `O_TRUNC` if `trunc`: the file opened. -/
def sysOpen (os : Os) (w : World) (path : Bytes) (mode : Nat) (trunc : Bool) :
    Option Loc × World :=
  if os.refuses w.calls then (none, w.tick)
  else
    match locate os w true path with
    | none => (none, w.tick)
    | some l =>
      match w.fs l with
      | some (.file m _) =>
        if path.getLast? = some 47 ∨ ¬ fileWritable os m then (none, w.tick)
        else if trunc then (some l, (w.put l (.file m [])).tick)
        else (some l, w.tick)
      | some _ => (none, w.tick)
      | none =>
        if path.getLast? = some 47 then (none, w.tick)
        else
          match addNode os w l (.file (mode &&& os.allow) []) with
          | none => (none, w.tick)
          | some w' => (some l, w'.tick)

/-- An open file: where it is, and the file offset. -/
structure OpenFile where
  loc : Loc
  off : Nat
  deriving DecidableEq, Repr

/-- Overwrite `old` from offset `off` on with `data`. -/
def overwrite (old : Bytes) (off : Nat) (data : Bytes) : Bytes :=
  old.take off ++ data ++ old.drop (off + data.length)

/-- Write at an offset of a file, filling a gap with zeros. -/
def pwrite (old : Bytes) (off : Nat) (d : Bytes) : Bytes :=
  if d = [] then old else overwrite (old ++ List.replicate (off - old.length) 0) off d

/-- `write` to an open file (also what `fwrite` comes down to): possibly less than asked for. -/
def sysWrite (os : Os) (w : World) (f : OpenFile) (data : Bytes) : OpenFile × World :=
  if os.refuses w.calls then (f, w.tick)
  else
    match w.fs f.loc with
    | some (.file m c) =>
      let d := data.take (os.accepts w.calls data.length)
      ({ f with off := f.off + d.length }, (w.put f.loc (.file m (pwrite c f.off d))).tick)
    | _ => (f, w.tick)

/-- `symlink(target, path)`; the result tells whether the link was made. -/
def sysSymlink (os : Os) (w : World) (target path : Bytes) : Bool × World :=
  if os.refuses w.calls ∨ target = [] ∨ path.getLast? = some 47 then (false, w.tick)
  else
    match locate os w false path with
    | none => (false, w.tick)
    | some l =>
      match w.fs l with
      | some _ => (false, w.tick)
      | none =>
        match addNode os w l (.link target) with
        | none => (false, w.tick)
        | some w' => (true, w'.tick)

/-- `chdir`; the result tells whether it succeeded. -/
def sysChdir (os : Os) (w : World) (path : Bytes) : Bool × World :=
  if os.refuses w.calls then (false, w.tick)
  else
    match locate os w true path with
    | none => (false, w.tick)
    | some l => if searchable os w.fs l then (true, { w.tick with cwd := l }) else (false, w.tick)

/-- Absolute path of a place. -/
def absPath (l : Loc) : Bytes := if l = [] then [47] else (l.map (47 :: ·)).flatten

/-- `getcwd(buf, size)`: the path, if it fits with its terminator. -/
def sysGetcwd (os : Os) (w : World) (size : Nat) : Option Bytes × World :=
  if os.refuses w.calls then (none, w.tick)
  else if (absPath w.cwd).length < size then (some (absPath w.cwd), w.tick)
  else (none, w.tick)

end Zwt
