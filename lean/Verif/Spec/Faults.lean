import Verif.Spec.DirStream

/-! Which records of an archive the extraction reads memory for that may not be theirs. -/

namespace Zwt

/-- The announced length of the name exceeds what is stored of it; or, for a symbolic link, the name
or the target have no terminator. -/
def Atom.sloppy : Atom → Prop
  | .start .symlink nm _ => 0 ∉ nm
  | .start _ nm it => nm.length < itNameLen it
  | .link t => t.getLast? ≠ some 0
  | _ => False

instance : DecidablePred Atom.sloppy := fun a => by
  cases a with
  | start ft nm it => cases ft <;> (simp only [Atom.sloppy]; exact inferInstance)
  | link t => simp only [Atom.sloppy]; exact inferInstance
  | _ => simp only [Atom.sloppy]; exact inferInstance

/-- The announced length of the name of a file or directory exceeds what is stored of it. -/
def Atom.overlong : Atom → Prop
  | .start .dir nm it => nm.length < itNameLen it
  | .start .file nm it => nm.length < itNameLen it
  | _ => False

instance : DecidablePred Atom.overlong := fun a => by
  cases a with
  | start ft nm it => cases ft <;> (simp only [Atom.overlong]; exact inferInstance)
  | _ => simp only [Atom.overlong]; exact inferInstance

/-- A directory with a NUL in its name. -/
def Atom.nulDir : Atom → Prop
  | .start .dir nm it => 0 ∈ nm.take (itNameLen it)
  | _ => False

instance : DecidablePred Atom.nulDir := fun a => by
  cases a with
  | start ft nm it => cases ft <;> (simp only [Atom.nulDir]; exact inferInstance)
  | _ => simp only [Atom.nulDir]; exact inferInstance

end Zwt
