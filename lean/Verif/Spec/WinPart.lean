import Verif.Spec.WinDisk

/-! Parts of a copy on a Windows drive. -/

namespace Zwt

/-- The drive `now` is `fs` with a part of a copy of the directory at `l` of the drive `src`, in the new
directory `b`: outside of `top`, below which `b` is, nothing is different; the directories on the way may be
missing; what is there of the copy is as in the source, but of files there may be only a beginning, and this
in at most one place. -/
structure WPartCopy (src : WFS) (l : Loc) (fs now : WFS) (top b : Loc) : Prop where
  outside : ∀ x, ¬ top <+: x → now x = fs x
  way : ∀ x, top <+: x → (∀ q, q ≠ [] → x ≠ b ++ q) → now x = none ∨ (x <+: b ∧ now x = some .dir)
  dirs : ∀ q, q ≠ [] → now (b ++ q) = some .dir → src (l ++ q) = some .dir
  files : ∀ q ro c, now (b ++ q) = some (.file ro c) → ∃ c', src (l ++ q) = some (.file ro c') ∧ c <+: c'
  one : ∃ y, ∀ q, q ≠ [] → q ≠ y → now (b ++ q) = none ∨ now (b ++ q) = src (l ++ q)

end Zwt
