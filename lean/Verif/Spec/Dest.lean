import Verif.Model.Dest

/-! Who gets what. -/

namespace Zwt

variable {κ : Type}

/-- The pieces of a history, whoever got them. -/
def DEv.pieces : List (DEv κ) → List Bytes
  | [] => []
  | .set _ :: es => pieces es
  | .piece _ b :: es => b :: pieces es

/-- The callback set last. -/
def DEv.current : List (DEv κ) → Option κ
  | [] => none
  | .set k :: es => (current es).orElse fun _ => some k
  | .piece _ _ :: es => current es

/-- Every piece goes to the callback set last before it. -/
def DEv.Directed (log : List (DEv κ)) : Prop :=
  ∀ pre k b post, log = pre ++ .piece k b :: post → DEv.current pre = some k

/-- The calls without the changes of the callback. -/
def DOp.plainOps : List (DOp κ) → List COp
  | [] => []
  | .setCallback _ :: ops => plainOps ops
  | .op o :: ops => o :: plainOps ops

def DLOp.plainOps : List (DLOp κ) → List LLOp
  | [] => []
  | .setCallback _ :: ops => plainOps ops
  | .op o :: ops => o :: plainOps ops

end Zwt
