import Verif.Spec.FS

/-! Compression and extraction on one disk: what the compression functions see of it. -/

namespace Zwt

/-- Type of a node as the directory iteration reports it. -/
def Node.type : Node → EType
  | .dir _ => .dir
  | .file _ _ => .file
  | .link _ => .symlink

/-- The owner may read (files: the content; directories: the names). -/
def ReadMode (os : Os) (mode : Nat) : Prop := os.root = true ∨ mode &&& 0o400 ≠ 0

instance (os : Os) (mode : Nat) : Decidable (ReadMode os mode) := by unfold ReadMode; infer_instance

/-- `es` are the entries of the directory at `l`, each once, in any order, perhaps with `.` and
`..`. -/
structure Lists (fs : FS) (l : Loc) (es : List Entry) : Prop where
  once : (es.map (·.name)).Nodup
  real : ∀ e ∈ es, e.name = [46] ∨ e.name = [46, 46] ∨ ∃ n, fs (l ++ [e.name]) = some n ∧ e.ty = n.type
  all : ∀ x n, fs (l ++ [x]) = some n → ∃ e ∈ es, e.name = x

/-- What the compression functions see through `env` is the disk of `w`. -/
structure Shows (os : Os) (w : World) (env : Env) : Prop where
  list : ∀ p l m, locate os w true p = some l → w.fs l = some (.dir m) → ReadMode os m →
    ∃ es, env.list p = some es ∧ Lists w.fs l es
  stat : ∀ p l m, locate os w true p = some l → w.fs l = some (.dir m) →
    env.statMode p = 0o040000 ||| m
  open' : ∀ p l m c, locate os w true p = some l → w.fs l = some (.file m c) → ReadMode os m →
    env.fopen p = some ⟨some (0o100000 ||| m, c.length), c, false⟩
  lstat : ∀ p l t, locate os w false p = some l → w.fs l = some (.link t) →
    env.lstat p = (0o120777, t.length)
  readlink : ∀ p l t, locate os w false p = some l → w.fs l = some (.link t) →
    env.readlink p = some t

/-- The path `p` leads to a directory at `l` that can be archived: everything in it can be read and
entered, names are ordinary, paths, sizes and modes are within the limits of the library and of the
record fields, link targets are non-empty C strings. -/
structure Archivable (os : Os) (w : World) (p : Bytes) (l : Loc) : Prop where
  path : p ≠ [] ∧ 0 ∉ p
  leads : locate os w true p = some l
  isDir : ∃ m, w.fs l = some (.dir m)
  dirs : ∀ q m, w.fs (l ++ q) = some (.dir m) →
    ReadMode os m ∧ (os.root = true ∨ m &&& 0o100 ≠ 0) ∧ m < 0o10000
  files : ∀ q m c, w.fs (l ++ q) = some (.file m c) →
    ReadMode os m ∧ m < 0o10000 ∧ c.length + 8 < 2 ^ 64
  links : ∀ q t, w.fs (l ++ q) = some (.link t) → t ≠ [] ∧ 0 ∉ t ∧ t.length < 2 ^ 32
  names : ∀ q x n, w.fs (l ++ q ++ [x]) = some n → PlainName x
  limit : ∀ q n, w.fs (l ++ q) = some n → p.length + ((q.map (47 :: ·)).flatten).length ≤ 4094

/-- A node, copied: the permissions are those the umask leaves. -/
def Node.copied (os : Os) : Node → Node
  | .dir m => .dir (dirMode os m)
  | .file m c => .file (fileMode os m) c
  | .link t => .link t

/-- `keep` accepts the entry at the relative place and all directories on the way to it, the first in
the directory of path `d` at `l`. -/
def KeptAt (keep : Bytes → Entry → Bool) (fs : FS) : Bytes → Loc → List Bytes → Prop
  | _, _, [] => True
  | d, l, x :: q => (∃ node, fs (l ++ [x]) = some node ∧ keep d ⟨x, node.type⟩ = true) ∧
      KeptAt keep fs (d ++ 47 :: x) (l ++ [x]) q

/-- Bytes needed at most for what is at a place. -/
def placeCost (fs : FS) (l : Loc) : Nat :=
  88 + (l.getLast?.getD []).length +
    match fs l with
    | some (.file _ c) => c.length
    | some (.link t) => t.length
    | _ => 0

/-- Everything below `l` needs less than 512 KiB. -/
def SmallDir (fs : FS) (l : Loc) : Prop :=
  ∃ qs : List (List Bytes), (∀ q, q ≠ [] → fs (l ++ q) ≠ none → q ∈ qs) ∧
    (qs.map (fun q => placeCost fs (l ++ q))).sum < 524288

/-- The disk `fs'` is `fs` with a copy of what `keep` accepts of the directory at `l` (path `p`) of the
disk `src`, in new directories `n :: ns` in `d`. -/
def CopyOf (os : Os) (src : FS) (p : Bytes) (l : Loc) (keep : Bytes → Entry → Bool) (fs fs' : FS)
    (d : Loc) (n : Bytes) (ns : List Bytes) : Prop :=
  (∀ j, j ≤ ns.length → fs' (d ++ n :: ns.take j) = some (.dir (dirMode os 0o775))) ∧
  (∀ x q, KeptAt keep src p l (x :: q) →
    fs' (d ++ n :: ns ++ x :: q) = (src (l ++ x :: q)).map (Node.copied os)) ∧
  (∀ x q, ¬ KeptAt keep src p l (x :: q) → fs' (d ++ n :: ns ++ x :: q) = none) ∧
  ∀ l', (∀ j, j ≤ ns.length → l' ≠ d ++ n :: ns.take j) →
    (∀ x q, l' ≠ d ++ n :: ns ++ x :: q) → fs' l' = fs l'

/-- The file system calls, computed from the disk of `w`, all of whose nodes are among `names`. -/
def envOf (os : Os) (w : World) (names : List Loc) : Env where
  list p :=
    match locate os w true p with
    | none => none
    | some l =>
      match w.fs l with
      | some (.dir m) =>
        if ReadMode os m then
          some (names.filterMap fun x =>
            match x.getLast?, w.fs x with
            | some n, some node => if x.dropLast = l then some ⟨n, node.type⟩ else none
            | _, _ => none)
        else none
      | _ => none
  statMode p :=
    match (locate os w true p).bind w.fs with
    | some (.dir m) => 0o040000 ||| m
    | some (.file m _) => 0o100000 ||| m
    | _ => 0
  fopen p :=
    match (locate os w true p).bind w.fs with
    | some (.file m c) =>
      if ReadMode os m then some ⟨some (0o100000 ||| m, c.length), c, false⟩ else none
    | _ => none
  lstat p :=
    match (locate os w false p).bind w.fs with
    | some (.link t) => (0o120777, t.length)
    | _ => (0, 0)
  readlink p :=
    match (locate os w false p).bind w.fs with
    | some (.link t) => some t
    | _ => none
  itemMem _ := List.replicate 40 0
  linkMem _ := []

end Zwt
