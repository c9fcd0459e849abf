import Verif.Model.DirParser

/-! The entry a callback belongs to. -/

namespace Zwt

/-- Type and name of the entry announced last. -/
def lastStarted : List Ev → Option (FType × Bytes)
  | [] => none
  | e :: es =>
    match lastStarted es with
    | some x => some x
    | none =>
      match e with
      | .itemStart ft nm _ => some (ft, nm)
      | _ => none

/-- Names of the directories that have been announced and not ended, the innermost first. -/
def openDirs : List Ev → List Bytes → List Bytes
  | [], st => st
  | .itemStart .dir nm _ :: es, st => openDirs es (nm :: st)
  | .dirEnd :: es, st => openDirs es st.tail
  | _ :: es, st => openDirs es st

end Zwt
