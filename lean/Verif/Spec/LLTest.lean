import Verif.Spec.Disk

/-! Trees without their links, for the second test program. -/

namespace Zwt

/-- The tree with an empty file in place of every link. -/
def Forest.delinked : Forest → Forest
  | .nil => .nil
  | .file n m c r => .file n m c r.delinked
  | .link n m _ r => .file n m [] r.delinked
  | .dir n m s r => .dir n m s.delinked r.delinked
  | .other n r => .other n r.delinked
  | .bad n r => .bad n r.delinked

/-- Number of links. -/
def Forest.links : Forest → Nat
  | .nil => 0
  | .file _ _ _ r => r.links
  | .link _ _ _ r => r.links + 1
  | .dir _ _ s r => s.links + r.links
  | .other _ r => r.links
  | .bad _ r => r.links

/-- In a directory whose path has `k` bytes, no path of a file or link is longer than `max`. -/
def Forest.within (max : Nat) : Nat → Forest → Prop
  | _, .nil => True
  | k, .file n _ _ r => k + 1 + n.length ≤ max ∧ r.within max k
  | k, .link n _ _ r => k + 1 + n.length ≤ max ∧ r.within max k
  | k, .dir n _ s r => s.within max (k + 1 + n.length) ∧ r.within max k
  | k, .other _ r => r.within max k
  | k, .bad _ r => r.within max k

/-- The disk `fs'` is `fs` with, in a new directory `n` in `d`, a copy of the directory at `l` of the disk
`src` that has an empty file in place of every link. -/
def LinklessCopy (os : Os) (src : FS) (l : Loc) (fs fs' : FS) (d : Loc) (n : Bytes) : Prop :=
  fs' (d ++ [n]) = some (.dir (dirMode os 0o775)) ∧
  (∀ x q, (∀ t, src (l ++ x :: q) ≠ some (.link t)) →
    fs' (d ++ n :: x :: q) = (src (l ++ x :: q)).map (Node.copied os)) ∧
  (∀ x q t, src (l ++ x :: q) = some (.link t) → ∃ m, fs' (d ++ n :: x :: q) = some (.file m [])) ∧
  ∀ l', (∀ q, l' ≠ d ++ n :: q) → fs' l' = fs l'

end Zwt
