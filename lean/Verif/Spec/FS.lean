import Verif.Model.HL
import Verif.Spec.Forest
import Verif.Spec.DirStream

/-! What extraction should do to a file system. -/

namespace Zwt

/-- No call is refused and every write takes all it is given. -/
def Os.quiet (os : Os) : Prop :=
  (∀ k, os.refuses k = false) ∧ (∀ k n, n ≤ os.accepts k n) ∧ ∀ k, os.noMem k = false

/-- A name that is one path component other than the special ones. -/
def PlainName (n : Bytes) : Prop := n ≠ [] ∧ n ≠ [46] ∧ n ≠ [46, 46] ∧ 47 ∉ n ∧ 0 ∉ n

instance (n : Bytes) : Decidable (PlainName n) := by unfold PlainName; infer_instance

/-- Every node other than the root is in a directory, and the root is a directory. -/
def FS.tree (fs : FS) : Prop :=
  (∃ m, fs [] = some (.dir m)) ∧
    ∀ l c n, fs (l ++ [c]) = some n → ∃ m, fs l = some (.dir m)

/-- Directory permissions that allow adding entries (for a process that is not privileged). -/
def Enterable (os : Os) (mode : Nat) : Prop :=
  os.root = true ∨ (mode &&& 0o100 ≠ 0 ∧ mode &&& 0o200 ≠ 0)

/-- `l` is a directory to which entries can be added. -/
def OpenDir (os : Os) (fs : FS) (l : Loc) : Prop := ∃ m, fs l = some (.dir m) ∧ Enterable os m

/-- A path that starts with `pre` continues in the directory `d`: `pre` is empty and `d` the
working directory, or `pre` is `/`, or `pre` is a path of `d` followed by `/`. -/
inductive InDir (os : Os) (w : World) : Bytes → Loc → Prop
  | rel : InDir os w [] w.cwd
  | abs : InDir os w [47] []
  | path {p : Bytes} {d : Loc} : locate os w true p = some d → InDir os w (p ++ [47]) d

/-- Names with slashes between them. -/
def joinNames : List Bytes → Bytes
  | [] => []
  | [n] => n
  | n :: ns => n ++ 47 :: joinNames ns

/-- Permission bits a new directory gets. -/
def dirMode (os : Os) (mode : Nat) : Nat := mode &&& 0o1777 &&& os.allow
/-- Permission bits a new file gets. -/
def fileMode (os : Os) (mode : Nat) : Nat := 0o777 &&& mode &&& os.allow

/-- The node has no permissions beyond `rwxrwxrwx` and, for directories, the sticky bit (in
particular it is not set-user-ID or set-group-ID), none that the umask takes away, and at most `B`
bytes of content. -/
def Node.within (os : Os) (B : Nat) : Node → Prop
  | .dir m => ∀ i, m.testBit i = true → (0o1777 : Nat).testBit i = true ∧ os.allow.testBit i = true
  | .file m c => c.length ≤ B ∧
      ∀ i, m.testBit i = true → (0o777 : Nat).testBit i = true ∧ os.allow.testBit i = true
  | .link _ => True

/-- The node at a relative place of an extracted tree. -/
def Forest.lookup (os : Os) : Forest → List Bytes → Option Node
  | .nil, _ => none
  | .file n m c r, p => if p = [n] then some (.file (fileMode os m) c) else r.lookup os p
  | .link n _ t r, p => if p = [n] then some (.link t) else r.lookup os p
  | .dir n m s r, p =>
    match p with
    | [] => none
    | x :: xs =>
      if x = n then (if xs = [] then some (.dir (dirMode os m)) else s.lookup os xs)
      else r.lookup os p
  | .other _ r, p => r.lookup os p
  | .bad _ r, p => r.lookup os p

/-- Names at the top level of a tree. -/
def Forest.names : Forest → List Bytes
  | .nil => []
  | .file n _ _ r => n :: r.names
  | .link n _ _ r => n :: r.names
  | .dir n _ _ r => n :: r.names
  | .other _ r => r.names
  | .bad _ r => r.names

/-- What every directory tree on a disk looks like: proper names, no name twice in a directory,
link targets that are non-empty C strings. -/
def Forest.proper : Forest → Prop
  | .nil => True
  | .file n _ _ r => PlainName n ∧ n ∉ r.names ∧ r.proper
  | .link n _ t r => PlainName n ∧ n ∉ r.names ∧ t ≠ [] ∧ 0 ∉ t ∧ r.proper
  | .dir n _ s r => PlainName n ∧ n ∉ r.names ∧ s.proper ∧ r.proper
  | .other _ r => r.proper
  | .bad _ r => r.proper

/-- Proper names and link targets that are non-empty C strings; names may be repeated. -/
def Forest.wellNamed : Forest → Prop
  | .nil => True
  | .file n _ _ r => PlainName n ∧ r.wellNamed
  | .link n _ t r => PlainName n ∧ t ≠ [] ∧ 0 ∉ t ∧ r.wellNamed
  | .dir n _ s r => PlainName n ∧ s.wellNamed ∧ r.wellNamed
  | .other _ r => r.wellNamed
  | .bad _ r => r.wellNamed

/-- Every directory gets permissions that allow adding entries. -/
def Forest.enterable (os : Os) : Forest → Prop
  | .nil => True
  | .file _ _ _ r => r.enterable os
  | .link _ _ _ r => r.enterable os
  | .dir _ m s r => Enterable os (dirMode os m) ∧ s.enterable os ∧ r.enterable os
  | .other _ r => r.enterable os
  | .bad _ r => r.enterable os

/-- The tree has no symbolic links. -/
def Forest.noLinks : Forest → Prop
  | .nil => True
  | .file _ _ _ r => r.noLinks
  | .link _ _ _ _ => False
  | .dir _ _ s r => s.noLinks ∧ r.noLinks
  | .other _ r => r.noLinks
  | .bad _ r => r.noLinks

/-- The working directory can be returned to by its absolute path: the path fits the buffer of the
extraction code, and all directories on it can be passed through. -/
def CwdOk (os : Os) (fs : FS) (cwd : Loc) : Prop :=
  (absPath cwd).length < 1023 ∧ (∀ c ∈ cwd, PlainName c) ∧
    ∀ l, l <+: cwd → searchable os fs l = true

/-- The working directory and the directories above it can be entered by their names. -/
def CwdBack (os : Os) (fs : FS) (cwd : Loc) : Prop :=
  (∀ c ∈ cwd, PlainName c) ∧ ∀ l, l <+: cwd → searchable os fs l = true

/-- The entry has a plain name and is not a link. -/
def SafeEntry : Atom → Prop
  | .start .file nm it => itNameLen it ≤ nm.length ∧ PlainName (nm.take (itNameLen it))
  | .start .dir nm it => itNameLen it ≤ nm.length ∧ PlainName (nm.take (itNameLen it))
  | .start .symlink _ _ => False
  | .link _ => False
  | _ => True

instance : DecidablePred SafeEntry := fun a => by
  cases a with
  | start ft nm it => cases ft <;> unfold SafeEntry <;> infer_instance
  | _ => unfold SafeEntry; infer_instance

/-- The disk after extraction of the tree `f` to a path of new directories `n :: ns` in `d`: the
directories of the path, in the last one the entries of `f` and nothing else, all other places as
they were. -/
def Landed (os : Os) (fs fs' : FS) (d : Loc) (n : Bytes) (ns : List Bytes) (f : Forest) : Prop :=
  (∀ j, j ≤ ns.length → fs' (d ++ n :: ns.take j) = some (.dir (dirMode os 0o775))) ∧
  (∀ x q, fs' (d ++ n :: ns ++ x :: q) = f.lookup os (x :: q)) ∧
  ∀ l, (∀ j, j ≤ ns.length → l ≠ d ++ n :: ns.take j) → (∀ x q, l ≠ d ++ n :: ns ++ x :: q) →
    fs' l = fs l

end Zwt
