import Verif.Model.Remove
import Verif.Spec.Disk

/-! What removing a directory needs of a disk. -/

namespace Zwt

/-- The world `v` is `w` with some nodes removed. -/
def Thinned (w v : World) : Prop := v.cwd = w.cwd ∧ ∀ x, v.fs x = none ∨ v.fs x = w.fs x

/-- What the removal sees through `env` is the disk, on `w` and on what is left of it: reading a path
gives the entries of a directory (`.` and `..`, if at all, as directories) and is possible if its owner
may read it. -/
structure Reads (os : Os) (env : RmEnv) (w : World) : Prop where
  list : ∀ v, Thinned w v → ∀ p es, env.list v p = some es →
    ∃ l m, locate os v true p = some l ∧ v.fs l = some (.dir m) ∧ Lists v.fs l es ∧
      ∀ e ∈ es, e.name = [46] ∨ e.name = [46, 46] → e.ty = .dir
  can : ∀ v, Thinned w v → ∀ p l m, locate os v true p = some l → v.fs l = some (.dir m) →
    ReadMode os m → env.list v p ≠ none
  bare : ∀ v, Thinned w v → ∀ l, env.bare v.fs l = true ↔ ∀ x, v.fs (l ++ [x]) = none

/-- Names below the entry `n` of the working directory are ordinary, and paths within the limit of the
code. -/
structure ShortBelow (w : World) (n : Bytes) : Prop where
  name : PlainName n
  names : ∀ q x node, w.fs (w.cwd ++ n :: q ++ [x]) = some node → PlainName x
  limit : ∀ q node, w.fs (w.cwd ++ n :: q) = some node →
    (n ++ (q.map (47 :: ·)).flatten).length ≤ 4094

/-- All directories from the entry `n` of the working directory on can be read and changed. -/
def OwnBelow (os : Os) (w : World) (n : Bytes) : Prop :=
  ∀ q m, w.fs (w.cwd ++ n :: q) = some (.dir m) → ReadMode os m ∧ Enterable os m

/-- The disk, all of whose nodes are among `names`. -/
def rmEnvOf (os : Os) (names : List Loc) : RmEnv where
  list v p := (envOf os v names).list p
  bare fs l := names.all fun x => x.dropLast != l || x == [] || (fs x).isNone

end Zwt
