import Verif.Model.Win
import Verif.Spec.FS

/-! Trees on Windows. -/

namespace Zwt

/-- Nothing goes wrong outside this model. -/
def Win.quiet (win : Win) : Prop :=
  (∀ k, win.refuses k = false) ∧ (∀ k n, n ≤ win.accepts k n) ∧ ∀ k, win.noMem k = false

/-- A name of one component, on Unix and on Windows, that Windows accepts. -/
def WinName (win : Win) (n : Bytes) : Prop := PlainName n ∧ 92 ∉ n ∧ win.key n ≠ none

/-- The name as Windows compares it. -/
def Win.same (win : Win) (n : Bytes) : Bytes := (win.key n).getD []

/-- The files and directories of a tree with their places, when the tree is put into `p`; links have
none. -/
def Forest.winSpots (win : Win) : Forest → Loc → List (Loc × WNode)
  | .nil, _ => []
  | .file n m c r, p => (p ++ [win.same n], .file (m &&& 0o200 == 0) c) :: r.winSpots win p
  | .link _ _ _ r, p => r.winSpots win p
  | .dir n _ s r, p =>
    (p ++ [win.same n], .dir) :: (s.winSpots win (p ++ [win.same n]) ++ r.winSpots win p)
  | .other _ r, p => r.winSpots win p
  | .bad _ r, p => r.winSpots win p

/-- The names of the files and directories at the top of a tree, as Windows compares them. -/
def Forest.winNames (win : Win) : Forest → List Bytes
  | .nil => []
  | .file n _ _ r => win.same n :: r.winNames win
  | .link _ _ _ r => r.winNames win
  | .dir n _ _ r => win.same n :: r.winNames win
  | .other _ r => r.winNames win
  | .bad _ r => r.winNames win

/-- Windows accepts the names of all files and directories and can tell them apart. -/
def Forest.winOk (win : Win) : Forest → Prop
  | .nil => True
  | .file n _ _ r => WinName win n ∧ win.same n ∉ r.winNames win ∧ r.winOk win
  | .link _ _ _ r => r.winOk win
  | .dir n _ s r => WinName win n ∧ win.same n ∉ r.winNames win ∧ s.winOk win ∧ r.winOk win
  | .other _ r => r.winOk win
  | .bad _ r => r.winOk win

/-- The output path `out` is a path to `top` and then the names `ns`; the directory of `top` exists, and
there is nothing at `top` or below. -/
structure WFresh (win : Win) (w : WWorld) (out : Bytes) (top : Loc) (ns : List Bytes) : Prop where
  front : ∃ p, out = p ++ (ns.map (47 :: ·)).flatten ∧ 0 ∉ p ∧ winLocate win w.cwd p = some top
  names : ∀ n ∈ ns, WinName win n
  few : ns.length ≤ 61
  ne : top ≠ []
  parent : w.fs top.dropLast = some .dir
  absent : ∀ q, w.fs (top ++ q) = none

/-- The files and directories of the tree are in the directory `b`, which is new with the directories on
the way from `top`; nothing else has changed. -/
def WLanded (win : Win) (fs fs' : WFS) (top b : Loc) (f : Forest) : Prop :=
  (∀ l, top <+: l → l <+: b → fs' l = some .dir) ∧ (∀ x ∈ f.winSpots win b, fs' x.1 = some x.2) ∧
    ∀ l, ¬ (top <+: l ∧ l <+: b) → (∀ x ∈ f.winSpots win b, l ≠ x.1) → fs' l = fs l

/-- Both directories, or both files and equally protected. -/
def WNode.alike : WNode → WNode → Prop
  | .dir, .dir => True
  | .file ro _, .file ro' _ => ro = ro'
  | _, _ => False

/-- Nothing is removed or replaced by something of another kind. -/
def WKeeps (fs fs' : WFS) : Prop := ∀ l n, fs l = some n → ∃ n', fs' l = some n' ∧ n.alike n'

/-- A name of one component on Windows. -/
def OneName (n : Bytes) : Prop := PlainName n ∧ 92 ∉ n

/-- The entry is a link or its name is one component. -/
def WinSafe : Atom → Prop
  | .start .file nm it => itNameLen it ≤ nm.length ∧ OneName (nm.take (itNameLen it))
  | .start .dir nm it => itNameLen it ≤ nm.length ∧ OneName (nm.take (itNameLen it))
  | _ => True

instance : DecidablePred OneName := fun n => by unfold OneName; infer_instance

instance : DecidablePred WinSafe := fun a => by
  cases a with
  | start ft nm it => cases ft <;> unfold WinSafe <;> infer_instance
  | _ => unfold WinSafe; infer_instance

end Zwt
