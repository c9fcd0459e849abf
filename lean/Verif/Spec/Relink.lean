import Verif.Spec.FS

/-! Trees that differ in link targets. -/

namespace Zwt

/-- The same tree, except that a link target on the right may be only the end (at least one byte) of
the target on the left. -/
inductive Relinked : Forest → Forest → Prop
  | nil : Relinked .nil .nil
  | file {n c : Bytes} {m : Nat} {r r' : Forest} : Relinked r r' →
      Relinked (.file n m c r) (.file n m c r')
  | link {n t s : Bytes} {m : Nat} {r r' : Forest} : s <:+ t → s ≠ [] → Relinked r r' →
      Relinked (.link n m t r) (.link n m s r')
  | dir {n : Bytes} {m : Nat} {s s' r r' : Forest} : Relinked s s' → Relinked r r' →
      Relinked (.dir n m s r) (.dir n m s' r')

/-- Apart from links, both trees have the same entries at the same places. -/
theorem Relinked.lookup {f g : Forest} (h : Relinked f g) (os : Os) : ∀ (p : List Bytes),
    f.lookup os p = g.lookup os p ∨
      ∃ t s, f.lookup os p = some (.link t) ∧ g.lookup os p = some (.link s) ∧ s <:+ t ∧ s ≠ [] := by
  induction h with
  | nil => intro p; exact .inl rfl
  | @file n c m r r' _ ih =>
    intro p
    simp only [Forest.lookup]
    split
    · exact .inl rfl
    · exact ih p
  | @link n t s m r r' h1 h2 _ ih =>
    intro p
    simp only [Forest.lookup]
    split
    · exact .inr ⟨t, s, rfl, rfl, h1, h2⟩
    · exact ih p
  | @dir n m s s' r r' _ _ ih1 ih2 =>
    intro p
    cases p with
    | nil => exact .inl rfl
    | cons x xs =>
      simp only [Forest.lookup]
      split
      · split
        · exact .inl rfl
        · exact ih1 xs
      · exact ih2 _

end Zwt
