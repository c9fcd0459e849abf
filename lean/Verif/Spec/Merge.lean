import Verif.Spec.FS

/-! Trees in which a directory may occur more than once: its occurrences are one directory. -/

namespace Zwt

/-- The entries of a tree with their places, in the order of the archive, when the tree is put into
the directory `p`. -/
def Forest.spots (os : Os) : Forest → Loc → List (Loc × Node)
  | .nil, _ => []
  | .file n m c r, p => (p ++ [n], .file (fileMode os m) c) :: r.spots os p
  | .link n _ t r, p => (p ++ [n], .link t) :: r.spots os p
  | .dir n m s r, p =>
    (p ++ [n], .dir (dirMode os m)) :: (s.spots os (p ++ [n]) ++ r.spots os p)
  | .other _ r, p => r.spots os p
  | .bad _ r, p => r.spots os p

/-- The first entry of a place. -/
def firstAt (L : List (Loc × Node)) (l : Loc) : Option Node :=
  (L.find? fun x => decide (x.1 = l)).map (·.2)

/-- Only directories occur more than once. -/
def OnlyDirsTwice (L : List (Loc × Node)) : Prop :=
  L.Pairwise fun a b => a.1 = b.1 → (∃ m, a.2 = .dir m) ∧ ∃ m, b.2 = .dir m

/-- As `Landed`, for trees in which directories may occur more than once: everything that is in one
of the occurrences of a directory is in the directory, which has the permissions of the first. -/
def LandedAll (os : Os) (fs fs' : FS) (d : Loc) (n : Bytes) (ns : List Bytes) (f : Forest) : Prop :=
  (∀ j, j ≤ ns.length → fs' (d ++ n :: ns.take j) = some (.dir (dirMode os 0o775))) ∧
  (∀ x q, fs' (d ++ n :: ns ++ x :: q) = firstAt (f.spots os []) (x :: q)) ∧
  ∀ l, (∀ j, j ≤ ns.length → l ≠ d ++ n :: ns.take j) → (∀ x q, l ≠ d ++ n :: ns ++ x :: q) →
    fs' l = fs l

end Zwt
