import Verif.Spec.Conc

/-! Disks on which at most one file is incomplete. -/

namespace Zwt

/-- Everything in `fs` is in `fs'`, and is the same there. -/
def FS.within (fs fs' : FS) : Prop := ∀ l a, fs l = some a → fs' l = some a

/-- Everything in `fs` is in `fs'`, and is the same there, except in at most one place. -/
def FS.nearly (fs fs' : FS) : Prop := ∃ y, ∀ l, l ≠ y → ∀ a, fs l = some a → fs' l = some a

end Zwt
