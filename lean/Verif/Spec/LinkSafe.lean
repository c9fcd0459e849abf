import Verif.Spec.FS

/-! Archives that may hold links. -/

namespace Zwt

/-- `LinkSafe links q as`: the entries `as`, met inside the directory `q` (the names from the output
directory on), all have plain names, no directory is left that was not entered, and no directory or
file has the path of an earlier link (among them `links`) or a path through one.  (The name of a link
ends at the first zero byte, that of other entries has a length.) -/
def LinkSafe : List (List Bytes) → List Bytes → List Atom → Prop
  | _, _, [] => True
  | L, q, .start .dir nm it :: as =>
    itNameLen it ≤ nm.length ∧ PlainName (nm.take (itNameLen it)) ∧
      (∀ l ∈ L, ¬ l <+: q ++ [nm.take (itNameLen it)]) ∧ LinkSafe L (q ++ [nm.take (itNameLen it)]) as
  | L, q, .start .file nm it :: as =>
    itNameLen it ≤ nm.length ∧ PlainName (nm.take (itNameLen it)) ∧
      (∀ l ∈ L, ¬ l <+: q ++ [nm.take (itNameLen it)]) ∧ LinkSafe L q as
  | L, q, .start .symlink nm _ :: as =>
    0 ∈ nm ∧ PlainName (nm.takeWhile (· != 0)) ∧ LinkSafe ((q ++ [nm.takeWhile (· != 0)]) :: L) q as
  | L, q, .dirEnd :: as => q ≠ [] ∧ LinkSafe L q.dropLast as
  | L, q, .start .none _ _ :: as => LinkSafe L q as
  | L, q, .byte _ :: as => LinkSafe L q as
  | L, q, .fileEnd :: as => LinkSafe L q as
  | L, q, .link _ :: as => LinkSafe L q as
  | L, q, .drStart :: as => LinkSafe L q as
  | L, q, .flStart :: as => LinkSafe L q as

instance LinkSafe.decide : ∀ (L : List (List Bytes)) (q : List Bytes) (as : List Atom), Decidable (LinkSafe L q as)
  | _, _, [] => .isTrue trivial
  | L, q, .start .dir nm it :: as =>
    have := LinkSafe.decide L (q ++ [nm.take (itNameLen it)]) as
    by unfold LinkSafe; infer_instance
  | L, q, .start .file nm it :: as =>
    have := LinkSafe.decide L q as
    by unfold LinkSafe; infer_instance
  | L, q, .start .symlink nm _ :: as =>
    have := LinkSafe.decide ((q ++ [nm.takeWhile (· != 0)]) :: L) q as
    by unfold LinkSafe; infer_instance
  | L, q, .dirEnd :: as =>
    have := LinkSafe.decide L q.dropLast as
    by unfold LinkSafe; infer_instance
  | L, q, .start .none _ _ :: as => LinkSafe.decide L q as
  | L, q, .byte _ :: as => LinkSafe.decide L q as
  | L, q, .fileEnd :: as => LinkSafe.decide L q as
  | L, q, .link _ :: as => LinkSafe.decide L q as
  | L, q, .drStart :: as => LinkSafe.decide L q as
  | L, q, .flStart :: as => LinkSafe.decide L q as

end Zwt
