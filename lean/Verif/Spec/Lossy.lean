import Verif.Spec.FS

/-! What may be left of a tree when calls fail during its extraction. -/

namespace Zwt

/-- What failing calls may leave at the place `p` of the tree: nothing; a file with its mode and with
parts of its content, in order; a directory, with its mode or the mode of a directory inside it; a link. -/
def Forest.remains (os : Os) (f : Forest) (p : List Bytes) : Option Node → Prop
  | none => True
  | some (.file m c) => ∃ c', f.lookup os p = some (.file m c') ∧ c.Sublist c'
  | some (.dir m) =>
    (∃ m', f.lookup os p = some (.dir m')) ∧ ∃ q, f.lookup os (p ++ q) = some (.dir m)
  | some (.link t) => f.lookup os p = some (.link t)

/-- What failing calls may leave of an extraction of the tree `f` to the place `d/n/ns`: outside of
`d/n` nothing is changed; `d/n` and the directories on the way to `d/n/ns` may be there; below that
there is what remains of the tree. -/
structure LeftOver (os : Os) (fs now : FS) (d : Loc) (n : Bytes) (ns : List Bytes) (f : Forest) :
    Prop where
  outside : ∀ x, ¬ d ++ [n] <+: x → now x = fs x
  inside : ∀ q, now (d ++ n :: q) = none ∨ (q <+: ns ∧ ∃ m, now (d ++ n :: q) = some (.dir m)) ∨
    ∃ p, p ≠ [] ∧ q = ns ++ p ∧ f.remains os p (now (d ++ n :: q))

end Zwt
