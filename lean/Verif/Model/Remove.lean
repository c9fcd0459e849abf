import Verif.Model.Walk
import Verif.Model.FS

/-!
Removal of a directory, `src/tools/main_self_extract.c:285-351`, on systems other than Windows.

As it stands the code does not compile: in `:295` the brace after the condition is missing, and `a_data`
is not declared.  It is modelled with the brace and with `a_pData` instead.

Simplifications: the entries of a directory are read before any of them is removed; a path that ends in
a slash is not distinguished from the one without; the process owns every node (`Model/FS`).
-/

namespace Zwt

/-- What the removal sees of a disk: the entries that `IterateOverDirectoryFilesNoRecurse` gives for a
path (`none`: it cannot be read), and whether a directory has no entries. -/
structure RmEnv where
  list : World → Bytes → Option (List Entry)
  bare : FS → Loc → Bool

/-- The file system without the node at `l`. -/
def FS.del (fs : FS) (l : Loc) : FS := fun l' => if l' = l then none else fs l'

/-- Remove a node from its directory, if that permits it. -/
def dropNode (os : Os) (w : World) (l : Loc) : Bool × World :=
  if writable os w.fs l.dropLast then (true, { w with fs := w.fs.del l }.tick) else (false, w.tick)

/-- `unlink` (not code of the repository). -/
def sysUnlink (os : Os) (w : World) (path : Bytes) : Bool × World :=
  if os.refuses w.calls then (false, w.tick)
  else
    match locate os w false path with
    | none => (false, w.tick)
    | some l =>
      match w.fs l with
      | some (.file _ _) => dropNode os w l
      | some (.link _) => dropNode os w l
      | _ => (false, w.tick)

/-- `rmdir` (not code of the repository). -/
def sysRmdir (env : RmEnv) (os : Os) (w : World) (path : Bytes) : Bool × World :=
  if os.refuses w.calls then (false, w.tick)
  else
    match locate os w false path with
    | none => (false, w.tick)
    | some l =>
      match w.fs l with
      | some (.dir _) =>
        if l ≠ [] ∧ env.bare w.fs l = true ∧ (splitPath path).getLast? ≠ some [46] then dropNode os w l
        else (false, w.tick)
      | _ => (false, w.tick)

/-- `snprintf_di(vcStrFilePath, 4095, "%s/%s", …)`, `:301`, `:313`. -/
def rmPath (dir name : Bytes) : Bytes := (dir ++ 47 :: name).take 4094

/-- `DirIterFuncForRemovinDirectory`, `:291-321`, on each entry of a directory; `sub` is the iteration
over a subdirectory, `:302`, and gives `aDt.count`. -/
def rmEach (env : RmEnv) (os : Os) (sub : Bytes → World → Run (Nat × World)) (dir : Bytes) :
    List Entry → Nat → World → Run (Nat × World)
  | [], count, w => .ok (count, w)
  | e :: es, count, w =>
    match e.ty with
    | .dir =>
      if isDot e.name then rmEach env os sub dir es count w
      else
        match sub (rmPath dir e.name) w with
        | .error x => .error x
        | .ok (0, w) => rmEach env os sub dir es count (sysRmdir env os w (rmPath dir e.name)).2
        | .ok (_, w) => rmEach env os sub dir es (count + 1) w
    | _ =>
      match sysUnlink os w (rmPath dir e.name) with
      | (true, w) => rmEach env os sub dir es count w
      | (false, w) => rmEach env os sub dir es (count + 1) w

/-- `IterateOverDirectoryFilesNoRecurse(dir, &DirIterFuncForRemovinDirectory, &aDt)` with `aDt.count`
starting from 0, `:302` and `:346`.  The recursion takes fuel. -/
def rmTree (env : RmEnv) (os : Os) : Nat → Bytes → World → Run (Nat × World)
  | 0, _, _ => .error .outOfFuel
  | fuel+1, dir, w =>
    if os.refuses w.calls then .ok (0, w.tick)
    else rmEach env os (rmTree env os fuel) dir ((env.list w dir).getD []) 0 w.tick

/-- `RemoveNonEmptyDirectory`, `:326-351`. -/
def removeDir (env : RmEnv) (os : Os) (fuel : Nat) (dir : Bytes) (w : World) : Run World :=
  match rmTree env os fuel dir w with
  | .error x => .error x
  | .ok (_, w) => .ok (sysRmdir env os w dir).2

end Zwt
