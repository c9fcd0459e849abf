import Verif.Model.Ledger
import Verif.Spec.DirStream

/-! The order in which an extraction session makes its steps. -/

namespace Zwt

/-- Where a session stands. -/
inductive LState
  | start
  | blob
  | idle
  | inFile
  deriving DecidableEq, Repr

/-- One step; `none` if it is not possible at this point. -/
def LState.step : LState → LEv → Option LState
  | .start, .flStart => some .blob
  | .start, .drStart => some .idle
  | .blob, .flRead => some .blob
  | .idle, .name => some .idle
  | .idle, .dirItem => some .idle
  | .idle, .linkItem => some .idle
  | .idle, .symLink => some .idle
  | .idle, .dirEnd => some .idle
  | .idle, .fileItem => some .inFile
  | .inFile, .fileRead => some .inFile
  | .inFile, .fileEnd => some .idle
  | _, _ => none

/-- Several steps. -/
def LState.run : LState → List LEv → Option LState
  | s, [] => some s
  | s, e :: es => (s.step e).bind (fun s' => s'.run es)

/-- The step a callback of a session makes. -/
def Ev.led : Ev → LEv
  | .flStart => .flStart
  | .flRead _ => .flRead
  | .drStart => .drStart
  | .itemStart .dir _ _ => .dirItem
  | .itemStart .file _ _ => .fileItem
  | .itemStart _ _ _ => .linkItem
  | .fileRead _ => .fileRead
  | .fileEnd => .fileEnd
  | .dirEnd => .dirEnd
  | .symLink _ _ => .symLink

/-- The state that belongs to a point of the callback protocol. -/
def Proto.led : Proto → LState
  | .inFile _ => .inFile
  | _ => .idle

end Zwt
