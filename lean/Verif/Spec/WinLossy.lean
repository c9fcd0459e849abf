import Verif.Spec.Win

/-! What may be left of a tree when calls fail during its extraction on Windows. -/

namespace Zwt

/-- What may be left at the place `x` of the tree in `b`: nothing; a file, protected if the archive says so,
with what `part` allows of its content; a directory. -/
def Forest.winRemains (win : Win) (part : Bytes → Bytes → Prop) (f : Forest) (b x : Loc) : Option WNode → Prop
  | none => True
  | some .dir => (x, .dir) ∈ f.winSpots win b
  | some (.file ro c) => ∃ c', (x, .file ro c') ∈ f.winSpots win b ∧ part c c'

/-- What may be left of an extraction of the tree `f` to `b`, a place below `top`: outside of
`top` nothing is changed; the directories on the way from `top` to `b` may be there; below that there is
what remains of the tree. -/
structure WLeftOver (win : Win) (part : Bytes → Bytes → Prop) (fs now : WFS) (top b : Loc) (f : Forest) : Prop where
  outside : ∀ x, ¬ top <+: x → now x = fs x
  inside : ∀ x, top <+: x → now x = none ∨ (x <+: b ∧ now x = some .dir) ∨ f.winRemains win part b x (now x)

/-- Everything that is there of these files and directories is complete. -/
def Whole (spots : List (Loc × WNode)) (now : WFS) : Prop :=
  ∀ s ∈ spots, now s.1 = none ∨ now s.1 = some s.2

/-- Everything that is there of these files and directories is complete, except in at most one place. -/
def AtMostOne (spots : List (Loc × WNode)) (now : WFS) : Prop :=
  ∃ y, ∀ s ∈ spots, s.1 ≠ y → now s.1 = none ∨ now s.1 = some s.2

/-- Calls before the `K`-th are carried out, completely; from then on they are refused. -/
structure Win.stopsAt (win : Win) (K : Nat) : Prop where
  refuses : ∀ k, win.refuses k = decide (K ≤ k)
  accepts : ∀ k n, n ≤ win.accepts k n
  mem : ∀ k, win.noMem k = false

end Zwt
