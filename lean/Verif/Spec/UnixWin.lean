import Verif.Spec.WinUnix

/-! Directories of Unix disks on Windows. -/

namespace Zwt

/-- A file or a directory. -/
def Node.solid : Node → Prop
  | .link _ => False
  | _ => True

/-- Windows accepts the names of all files and directories below `l` and can tell those in one directory
apart. -/
structure WinReady (win : Win) (fs : FS) (l : Loc) : Prop where
  names : ∀ q x n, fs (l ++ q ++ [x]) = some n → n.solid → WinName win x
  apart : ∀ q x y n n', fs (l ++ q ++ [x]) = some n → n.solid → fs (l ++ q ++ [y]) = some n' → n'.solid →
    win.same x = win.same y → x = y

/-- The drive `fs'` is `fs` with the files and directories of the directory at `l` of the disk `src`, in
the directory `b`, which is new with the directories on the way to it from `top`. -/
structure WArrived (win : Win) (src : FS) (l : Loc) (fs fs' : WFS) (top b : Loc) : Prop where
  way : ∀ l', top <+: l' → l' <+: b → fs' l' = some .dir
  all : ∀ q un, q ≠ [] → src (l ++ q) = some un → un.solid →
    ∃ wn, fs' (b ++ q.map win.same) = some wn ∧ un.carries wn
  only : ∀ k wn, k ≠ [] → fs' (b ++ k) = some wn →
    ∃ q un, q.map win.same = k ∧ src (l ++ q) = some un ∧ un.carries wn
  rest : ∀ l', ¬ (top <+: l' ∧ l' <+: b) → (∀ q, q ≠ [] → l' ≠ b ++ q) → fs' l' = fs l'

end Zwt
