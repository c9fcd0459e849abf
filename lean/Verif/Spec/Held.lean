import Verif.Model.HL
import Verif.Spec.Ledger

/-! What an extraction holds, by what its callbacks were left with. -/

namespace Zwt

/-- Is a file open? -/
def Fd.isOpen : Fd → Bool
  | .opened _ => true
  | _ => false

/-- What an extraction leaves behind that ends with the callbacks' data being `h`: the copy of the
path, and the file being written. -/
def HL.left (h : HL) : List Res :=
  (if h.dirPath.isSome then [.block] else []) ++ (if h.fd.isOpen then [.fd] else [])

/-- What is left by an extraction without an error that ends at a point of the protocol. -/
def LState.keeps : LState → List Res
  | .idle => [.block]
  | .inFile => [.block, .fd]
  | _ => []

end Zwt
