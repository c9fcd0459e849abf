import Verif.Spec.Disk

/-! Disks on which files are replaced. -/

namespace Zwt

/-- `a` is the path of the file `l` in a directory to which entries can be added; the file is not there
yet, or it can be read and written. -/
def OutFile (os : Os) (w : World) (a : Bytes) (l : Loc) : Prop :=
  ∃ pre d n, a = pre ++ n ∧ l = d ++ [n] ∧ 0 ∉ pre ∧ InDir os w pre d ∧ OpenDir os w.fs d ∧
    PlainName n ∧ (w.fs l = none ∧ ReadMode os (0o666 &&& os.allow) ∨
      ∃ m c, w.fs l = some (.file m c) ∧ ReadMode os m ∧ (os.root = true ∨ m &&& 0o200 ≠ 0))

/-- `a` is the path of a file at `l` that can be read, with content `c`. -/
def InFile (os : Os) (w : World) (a : Bytes) (l : Loc) (c : Bytes) : Prop :=
  a.getLast? ≠ some 47 ∧ locate os w true a = some l ∧ ∃ m, w.fs l = some (.file m c) ∧ ReadMode os m

/-- The disk `fs'` is `fs` with the content `c` in the file `l`. -/
def Stored (fs fs' : FS) (l : Loc) (c : Bytes) : Prop :=
  (∃ m, fs' l = some (.file m c) ∧ ∀ x, fs l = some x → ∃ c', x = .file m c') ∧
    ∀ l', l' ≠ l → fs' l' = fs l'

end Zwt
