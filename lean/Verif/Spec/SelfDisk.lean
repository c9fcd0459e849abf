import Verif.Spec.Disk
import Verif.Model.Tools

/-! What a self-extracting program should pack, and what it needs of a disk. -/

namespace Zwt

/-- Everything is packed but the program itself and the output file, which are recognised by their
names. -/
def packable (exe out : Bytes) (_ : Bytes) (e : Entry) : Bool :=
  e.ty == .dir || (e.name != exe && e.name != out)

/-- A file `out` can be made, or replaced, in the working directory; it then has mode `m`, which lets
its owner write. -/
def OutProg (os : Os) (w : World) (out : Bytes) (m : Nat) : Prop :=
  OpenDir os w.fs w.cwd ∧ (os.root = true ∨ m &&& 0o200 ≠ 0) ∧
    (w.fs (w.cwd ++ [out]) = none ∧ m = 0o775 &&& os.allow ∨
      ∃ c, w.fs (w.cwd ++ [out]) = some (.file m c))

/-- What `keep` accepts below `l` needs less than 512 KiB. -/
def SmallKept (keep : Bytes → Entry → Bool) (fs : FS) (p : Bytes) (l : Loc) : Prop :=
  ∃ qs : List (List Bytes), (∀ q, q ≠ [] → KeptAt keep fs p l q → q ∈ qs) ∧
    (qs.map (fun q => placeCost fs (l ++ q))).sum < 524288

/-- Below `l`, nothing but directories is called `n`, except in the directory at `d`. -/
def OnlyIn (fs : FS) (l : Loc) (n : Bytes) (d : Loc) : Prop :=
  ∀ q node, fs (l ++ q ++ [n]) = some node → node.type ≠ .dir → l ++ q = d

/-- The world `w'` is `w` without the entry `n` of the working directory and all below it. -/
structure Without (n : Bytes) (w w' : World) : Prop where
  cwd : w'.cwd = w.cwd
  gone : ∀ x, w.cwd ++ [n] <+: x → w'.fs x = none
  rest : ∀ x, ¬ w.cwd ++ [n] <+: x → w'.fs x = w.fs x

end Zwt
