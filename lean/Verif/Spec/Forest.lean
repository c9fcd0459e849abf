import Verif.Model.Walk
import Verif.Spec.DirStream

/-!
Directory trees, what it means for a byte string to encode one, what it means for the file system
to show one, and what a filter selects from one.
-/

namespace Zwt

/-- The content of a directory, in listing order. -/
inductive Forest
  | nil
  | file (name : Bytes) (mode : Nat) (content : Bytes) (rest : Forest)
  | link (name : Bytes) (mode : Nat) (target : Bytes) (rest : Forest)
  | dir (name : Bytes) (mode : Nat) (sub rest : Forest)
  /-- neither file, directory nor symbolic link -/
  | other (name : Bytes) (rest : Forest)
  /-- a file that cannot be opened, examined or read to its end -/
  | bad (name : Bytes) (rest : Forest)
  deriving DecidableEq, Repr

/-- One directory content after the other. -/
def Forest.append : Forest → Forest → Forest
  | .nil, g => g
  | .file n m c r, g => .file n m c (r.append g)
  | .link n m t r, g => .link n m t (r.append g)
  | .dir n m s r, g => .dir n m s (r.append g)
  | .other n r, g => .other n (r.append g)
  | .bad n r, g => .bad n (r.append g)

instance : Append Forest := ⟨Forest.append⟩

/-- Zero padding: between one and eight bytes. -/
def Pad (p : Bytes) : Prop := ∃ k, 0 < k ∧ k ≤ 8 ∧ p = List.replicate k 0

/-- `bs` is the record encoding of the tree; reserved bytes (and the size fields of directory
records) may be anything. -/
inductive Encodes : Forest → Bytes → Prop
  | nil : Encodes .nil []
  | file {name content item p q bs : Bytes} {mode : Nat} {rest : Forest} :
      item.length = 40 → itKind item = 0 → itMode item = mode → itNameLen item = name.length →
      itNameLenNorm item = name.length + p.length → itFileSize item = content.length →
      itFileSizeNorm item = content.length + q.length → Pad p → Pad q → Encodes rest bs →
      Encodes (.file name mode content rest) (item ++ name ++ p ++ content ++ q ++ bs)
  | link {name target item p q bs : Bytes} {mode : Nat} {rest : Forest} :
      item.length = 40 → itKind item = 4 → itMode item = mode → itNameLen item = name.length →
      itNameLenNorm item = name.length + p.length → itFileSize item = target.length →
      itFileSizeNorm item = target.length + q.length → Pad p → Pad q → Encodes rest bs →
      Encodes (.link name mode target rest) (item ++ name ++ p ++ target ++ q ++ bs)
  | dir {name item p e bs cs : Bytes} {mode : Nat} {sub rest : Forest} :
      item.length = 40 → itKind item = 1 → itMode item = mode → itNameLen item = name.length →
      itNameLenNorm item = name.length + p.length → Pad p → Encodes sub bs →
      e.length = 40 → itKind e = 2 → Encodes rest cs →
      Encodes (.dir name mode sub rest) (item ++ name ++ p ++ bs ++ e ++ cs)

/-- Bytes that the records of a tree need at most. -/
def Forest.bulk : Forest → Nat
  | .nil => 0
  | .file n _ c r => 56 + n.length + c.length + r.bulk
  | .link n _ t r => 56 + n.length + t.length + r.bulk
  | .dir n _ s r => 88 + n.length + s.bulk + r.bulk
  | .other _ r => r.bulk
  | .bad _ r => r.bulk

/-- What the user of the decompressor learns about an entry. -/
inductive Shape
  | file (name : Bytes) (mode size : Nat)
  | link (name : Bytes) (mode : Nat)
  | dir (name : Bytes) (mode : Nat)
  | byte (b : UInt8)
  | fileEnd
  | dirEnd
  | target (t : Bytes)
  | drStart
  | flStart
  | unknown
  deriving DecidableEq, Repr

/-- … through one callback. -/
def Atom.shape : Atom → Shape
  | .start .file nm it => .file (nm.take (itNameLen it)) (itMode it) (itFileSize it)
  | .start .symlink nm it => .link (nm.take (itNameLen it)) (itMode it)
  | .start .none _ _ => .unknown
  | .start .dir nm it => .dir (nm.take (itNameLen it)) (itMode it)
  | .byte b => .byte b
  | .fileEnd => .fileEnd
  | .dirEnd => .dirEnd
  | .link t => .target t
  | .drStart => .drStart
  | .flStart => .flStart

/-- What the user of the decompressor has to learn about a tree. -/
def Forest.shapes : Forest → List Shape
  | .nil => []
  | .file n m c r => .file n m c.length :: c.map .byte ++ [.fileEnd] ++ r.shapes
  | .link n m t r => .link n m :: .target t :: r.shapes
  | .dir n m s r => .dir n m :: s.shapes ++ [.dirEnd] ++ r.shapes
  | .other _ r => r.shapes
  | .bad _ r => r.shapes

/-- Only files, links and directories, at every level. -/
def Forest.pure : Forest → Prop
  | .nil => True
  | .file _ _ _ r => r.pure
  | .link _ _ _ r => r.pure
  | .dir _ _ s r => s.pure ∧ r.pure
  | .other _ _ => False
  | .bad _ _ => False

/-- Nesting depth after a callback history starting at depth `d`; `none` if a directory is closed
that was not opened. -/
def balance : Nat → List Atom → Option Nat
  | d, [] => some d
  | d, .start .dir _ _ :: as => balance (d + 1) as
  | 0, .dirEnd :: _ => none
  | d+1, .dirEnd :: as => balance d as
  | d, _ :: as => balance d as

/-- Reading the file at `path` fails at some point. -/
def Unreadable (env : Env) (path : Bytes) : Prop :=
  env.fopen path = none ∨ ∃ o, env.fopen path = some o ∧ (o.fstat = none ∨ o.err = true)

/-- Path of an entry. -/
def pathOf (dir name : Bytes) : Bytes := dir ++ 47 :: name

/-- Names and sizes within what the record fields can hold, paths within the library's limit. -/
structure FitsName (dir name : Bytes) (mode : Nat) : Prop where
  notDot : name ≠ [46] ∧ name ≠ [46, 46]
  path : (pathOf dir name).length ≤ 4094
  name : name.length + 8 < 2 ^ 32
  mode : mode < 2 ^ 32

/-- The file system shows the tree `f` under the directory `dir`, whose listing is `es`. -/
inductive Mirror (env : Env) : Bytes → List Entry → Forest → Prop
  | nil {dir} : Mirror env dir [] .nil
  | dot {dir name ty es f} : name = [46] ∨ name = [46, 46] → Mirror env dir es f →
      Mirror env dir (⟨name, ty⟩ :: es) f
  | file {dir name mode content es f} : FitsName dir name mode → content.length + 8 < 2 ^ 64 →
      env.fopen (pathOf dir name) = some ⟨some (mode, content.length), content, false⟩ →
      Mirror env dir es f → Mirror env dir (⟨name, .file⟩ :: es) (.file name mode content f)
  | bad {dir name es f} : FitsName dir name 0 → Unreadable env (pathOf dir name) →
      Mirror env dir es f → Mirror env dir (⟨name, .file⟩ :: es) (.bad name f)
  | link {dir name mode target es f} : FitsName dir name mode → target.length < 2 ^ 32 →
      env.lstat (pathOf dir name) = (mode, target.length) →
      env.readlink (pathOf dir name) = some target →
      Mirror env dir es f → Mirror env dir (⟨name, .symlink⟩ :: es) (.link name mode target f)
  | dir {dir name mode es es' sub f} : FitsName dir name mode →
      env.statMode (pathOf dir name) = mode → env.list (pathOf dir name) = some es' →
      Mirror env (pathOf dir name) es' sub →
      Mirror env dir es f → Mirror env dir (⟨name, .dir⟩ :: es) (.dir name mode sub f)
  | other {dir name es f} : FitsName dir name 0 →
      Mirror env dir es f → Mirror env dir (⟨name, .other⟩ :: es) (.other name f)

/-- How a traversal ends. -/
inductive Status
  | done | stopped | failed
  deriving DecidableEq, Repr

/-- What a traversal with a filter selects. -/
structure Sel (σ : Type) where
  forest : Forest
  fs : σ
  status : Status
  /-- the calls of the filter -/
  shown : List (Bytes × Entry × Int)

variable {σ : Type}

/-- The filter is asked about `e`; `skip` is what follows if it says no, `take` if it says yes. -/
def askFilter (flt : Filter σ) (dir : Bytes) (e : Entry) (fs : σ) (skip take : σ → Sel σ) : Sel σ :=
  let r := flt fs dir e
  let s := if r.1 = 0 then take r.2 else if r.1 = 387 then ⟨.nil, r.2, .stopped, []⟩ else skip r.2
  { s with shown := (dir, e, r.1) :: s.shown }

/-- Put an entry in front. -/
def Sel.add (f : Forest → Forest) (s : Sel σ) : Sel σ := { s with forest := f s.forest }

/-- After the content of a directory: close it, and go on unless the traversal has ended. -/
def Sel.close (name : Bytes) (mode : Nat) (s : Sel σ) (go : σ → Sel σ) : Sel σ :=
  match s.status with
  | .done =>
    let t := go s.fs
    { t with forest := .dir name mode s.forest t.forest, shown := s.shown ++ t.shown }
  | _ => { s with forest := .dir name mode s.forest .nil }

/-- What a filter selects from the tree under `dir`. -/
def select (flt : Filter σ) : Bytes → Forest → σ → Sel σ
  | _, .nil, fs => ⟨.nil, fs, .done, []⟩
  | dir, .file n m c r, fs =>
    askFilter flt dir ⟨n, .file⟩ fs (select flt dir r)
      (fun fs => (select flt dir r fs).add (.file n m c))
  | dir, .link n m t r, fs =>
    askFilter flt dir ⟨n, .symlink⟩ fs (select flt dir r)
      (fun fs => (select flt dir r fs).add (.link n m t))
  | dir, .dir n m s r, fs =>
    askFilter flt dir ⟨n, .dir⟩ fs (select flt dir r)
      (fun fs => (select flt (pathOf dir n) s fs).close n m (select flt dir r))
  | dir, .other n r, fs =>
    askFilter flt dir ⟨n, .other⟩ fs (select flt dir r) (select flt dir r)
  | dir, .bad n r, fs =>
    askFilter flt dir ⟨n, .file⟩ fs (select flt dir r) (fun fs => ⟨.nil, fs, .failed, []⟩)

/-- Drop the entries that `keep` refuses, directories with their content, and those of a type that
cannot be archived. -/
def Forest.prune (keep : Bytes → Entry → Bool) : Bytes → Forest → Forest
  | _, .nil => .nil
  | d, .file n m c r =>
    if keep d ⟨n, .file⟩ then .file n m c (r.prune keep d) else r.prune keep d
  | d, .link n m t r =>
    if keep d ⟨n, .symlink⟩ then .link n m t (r.prune keep d) else r.prune keep d
  | d, .dir n m s r =>
    if keep d ⟨n, .dir⟩ then .dir n m (s.prune keep (pathOf d n)) (r.prune keep d)
    else r.prune keep d
  | d, .other _ r => r.prune keep d
  | d, .bad _ r => r.prune keep d

/-- No unreadable file that `keep` accepts (inside directories it accepts). -/
def Forest.readable (keep : Bytes → Entry → Bool) : Bytes → Forest → Prop
  | _, .nil => True
  | d, .file _ _ _ r => r.readable keep d
  | d, .link _ _ _ r => r.readable keep d
  | d, .dir n _ s r => (keep d ⟨n, .dir⟩ = true → s.readable keep (pathOf d n)) ∧ r.readable keep d
  | d, .other _ r => r.readable keep d
  | d, .bad n r => keep d ⟨n, .file⟩ = false ∧ r.readable keep d

/-- A filter without memory: 0 for `keep`, else 1. -/
def keepFilter (keep : Bytes → Entry → Bool) : Filter Unit :=
  fun _ d e => (if keep d e then 0 else 1, ())

/-- The files of a tree, with directory, mode and content. -/
def Forest.files : Bytes → Forest → List (Bytes × Bytes × Nat × Bytes)
  | _, .nil => []
  | d, .file n m c r => (d, n, m, c) :: r.files d
  | d, .link _ _ _ r => r.files d
  | d, .dir n _ s r => s.files (pathOf d n) ++ r.files d
  | d, .other _ r => r.files d
  | d, .bad _ r => r.files d

/-- Trees of the extra buffers, root variant: the path is the name. -/
def rootForest : List Extra → Forest
  | [] => .nil
  | x :: xs => .file x.path x.mode x.content (rootForest xs)

/-- A file below directories `name`, …. -/
def nest (mode : Nat) (content : Bytes) : Bytes → List Bytes → Forest
  | name, [] => .file name mode content .nil
  | name, next :: rest => .dir name 0 (nest mode content next rest) .nil

/-- `f` consists of the trees of the extra buffers, nested variant, with file modes given by
`mode`: the parts of the path between slashes are directories, the last one is the file. -/
inductive NestedTree (mode : Extra → Nat) : List Extra → Forest → Prop
  | nil : NestedTree mode [] .nil
  | cons {x xs f name rest} : x.path = name ++ (rest.map (47 :: ·)).flatten →
      (∀ p ∈ name :: rest, 47 ∉ p) → NestedTree mode xs f →
      NestedTree mode (x :: xs) (nest (mode x) x.content name rest ++ f)

/-- Entries of a tree in the order of their records, with their directories. -/
def Forest.entries : Bytes → Forest → List (Bytes × Entry)
  | _, .nil => []
  | d, .file n _ _ r => (d, ⟨n, .file⟩) :: r.entries d
  | d, .link n _ _ r => (d, ⟨n, .symlink⟩) :: r.entries d
  | d, .dir n _ s r => (d, ⟨n, .dir⟩) :: s.entries (pathOf d n) ++ r.entries d
  | d, .other n r => (d, ⟨n, .other⟩) :: r.entries d
  | d, .bad n r => (d, ⟨n, .file⟩) :: r.entries d

/-- Entries the filter said yes to, apart from those of a type that is not archived. -/
def accepted (shown : List (Bytes × Entry × Int)) : List (Bytes × Entry) :=
  (shown.filter (fun x => x.2.2 = 0 ∧ x.2.1.ty ≠ .other)).map (fun x => (x.1, x.2.1))

/-- Where the entries come from that the filter is shown: the top directory, or a directory that
the filter accepted before. -/
def Reached (root : Bytes) (before : List (Bytes × Entry × Int)) (d : Bytes) : Prop :=
  d = root ∨ ∃ d' n, (d', (⟨n, .dir⟩ : Entry), (0 : Int)) ∈ before ∧ d = pathOf d' n

/-- Every call of the filter concerns a directory reached. -/
def Guarded (root : Bytes) (shown : List (Bytes × Entry × Int)) : Prop :=
  ∀ l1 x l2, shown = l1 ++ x :: l2 → Reached root l1 x.1

/-- Extra buffers within what the record fields can hold. -/
structure Extra.fits (x : Extra) : Prop where
  path : x.path.length + 8 < 2 ^ 32
  content : x.content.length < 2 ^ 32
  mode : x.mode < 2 ^ 32

/-- What an archive has to look like: the header and an encoding `t` of the tree; what the pieces
given to the callback decode to is always a prefix, and all of it if the last piece leaves room in
the 512 KiB output buffer (see C08 for why that is needed). -/
def IsArchive (plain : Bytes → Bytes) (junk : Bytes) (f : Forest) (log : List Bytes) : Prop :=
  ∃ t, Encodes f t ∧ plain log.flatten <+: headerBytes 0 1 junk ++ t ∧
    ∃ b, log.getLast? = some b ∧
      (b.length < 524288 → plain log.flatten = headerBytes 0 1 junk ++ t)

end Zwt
