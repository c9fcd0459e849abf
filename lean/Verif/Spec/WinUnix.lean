import Verif.Spec.WinDisk

/-! Directories of Windows drives on Unix. -/

namespace Zwt

/-- Names one below the other, spelled as the directories list them; `es` are the entries of the
directory `p`. -/
def SpelledIn (list : Bytes → Option (List Entry)) : Bytes → List Entry → List Bytes → Prop
  | _, _, [] => True
  | p, es, x :: xs => (∃ e ∈ es, e.name = x) ∧
    (xs = [] ∨ ∃ es', list (p ++ 47 :: x) = some es' ∧ SpelledIn list (p ++ 47 :: x) es' xs)

/-- Names one below the other, from the directory `p` on. -/
def Spelled (list : Bytes → Option (List Entry)) (p : Bytes) (ds : List Bytes) : Prop :=
  ∃ es, list p = some es ∧ SpelledIn list p es ds

/-- What a file or directory of Windows is on Unix: a directory, or a file with the same content that its
owner can write to if it was not protected. -/
def Node.carries : Node → WNode → Prop
  | .dir _, .dir => True
  | .file m c, .file ro c' => c = c' ∧ (m &&& 0o200 == 0) = ro
  | _, _ => False

end Zwt
