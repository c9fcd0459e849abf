import Verif.Model.LLCompress
import Verif.Model.LLDecompress

/-!
Sessions whose callback is changed while they are used: `ZlibWtSetCallbackForCompressSession`
(`zlibwt_ll_compression_routines.c:121-128`) and `ZlibWtSetCallbackForLLDecompressSession`
(`zlibwt_ll_decompress_routines.c:73-80`).  The loops of `Model/LLCompress` and `Model/LLDecompress` are
repeated with the callback in the session; callback and user data are one value of an arbitrary type `κ`.
-/

namespace Zwt

/-- The history of a session: a callback is set, a callback gets a piece. -/
inductive DEv (κ : Type)
  | set (k : κ)
  | piece (k : κ) (b : Bytes)
  deriving DecidableEq

/-- What the callbacks do with their session: after a piece the callback (chosen by the whole history)
may set another callback. -/
abbrev Redirect (κ : Type) := List (DEv κ) → Option κ

/-- A compress session with its `clbk` and `userData`, `zlibwt_ll_compression_routines.c:21-28`. -/
structure DCS (D : Deflater) (κ : Type) where
  z : D.τ
  bufSize : Nat
  clbk : κ
  log : List (DEv κ)

variable {D : Deflater} {Z : Inflater} {κ : Type}

/-- `ZlibWtSetCallbackForCompressSession`, `:121-128`. -/
def DCS.setCallback (s : DCS D κ) (k : κ) : DCS D κ := { s with clbk := k, log := s.log ++ [.set k] }

/-- The call of the callback, `:105-106`, and what it does. -/
def DCS.call (act : Redirect κ) (s : DCS D κ) (b : Bytes) : DCS D κ :=
  let s := { s with log := s.log ++ [.piece s.clbk b] }
  match act s.log with
  | none => s
  | some k => s.setCallback k

/-- As `compressLoop`, `:95-107`. -/
def compressToLoop (act : Redirect κ) : Nat → DCS D κ → Bytes → Run (Int × DCS D κ)
  | 0, _, _ => .error .outOfFuel
  | fuel+1, s, inp =>
    if inp = [] then .ok (0, s)
    else
      let r := D.run s.z Z_PARTIAL_FLUSH inp s.bufSize
      if r.ret = Z_STREAM_ERROR then .ok (Z_STREAM_ERROR, { s with z := r.st })
      else compressToLoop act fuel (DCS.call act { s with z := r.st } r.out) (inp.drop r.consumed)

/-- As `compress`, `:81-108`. -/
def compressTo (act : Redirect κ) (fuel : Nat) (s : DCS D κ) (data : Bytes) : Run (Int × DCS D κ) :=
  compressToLoop act fuel s (data.take (uInt data.length))

/-- As `CS.create`, `:32-67`; the callback is set at `:54`, before the header is compressed. -/
def DCS.create (D : Deflater) (act : Redirect κ) (fuel : Nat) (kind : Nat) (level : Int) (k : κ)
    (bufSize : Nat) (junk : Bytes) : Run (Option (DCS D κ)) :=
  match D.init level with
  | none => .ok none
  | some z =>
    match compressTo act fuel { z := z, bufSize := uInt bufSize, clbk := k, log := [.set k] }
        (headerBytes VERSION kind junk) with
    | .error e => .error e
    | .ok (ret, s) => if ret ≠ 0 then .ok none else .ok (some s)

/-- What a user may do with a compress session. -/
inductive DOp (κ : Type)
  | setCallback (k : κ)
  | op (o : COp)

/-- A history of calls. -/
def compressToRun (act : Redirect κ) (fuel : Nat) : List (DOp κ) → DCS D κ → Run (List Int × DCS D κ)
  | [], s => .ok ([], s)
  | .setCallback k :: ops, s => compressToRun act fuel ops (s.setCallback k)
  | .op (.setBuffer size) :: ops, s => compressToRun act fuel ops { s with bufSize := uInt size }
  | .op (.compress data) :: ops, s =>
    match compressTo act fuel s data with
    | .error e => .error e
    | .ok (ret, s) =>
      match compressToRun act fuel ops s with
      | .error e => .error e
      | .ok (rets, s) => .ok (ret :: rets, s)

/-- The callback of a low-level decompress session and what has happened. -/
abbrev DestSt (κ : Type) := κ × List (DEv κ)

/-- `ZlibWtSetCallbackForLLDecompressSession`, `zlibwt_ll_decompress_routines.c:73-80`. -/
def DestSt.setCallback (u : DestSt κ) (k : κ) : DestSt κ := (k, u.2 ++ [.set k])

/-- The call `(*(a_session->clbk))(…, a_session->userData)`, `:109`: the callback set last gets the
piece, and may set another one. -/
def destCb (act : Redirect κ) : Cb Z (DestSt κ) := fun l u buf =>
  let u : DestSt κ := (u.1, u.2 ++ [.piece u.1 buf])
  match act u.2 with
  | none => .ok (l, u)
  | some k => .ok (l, u.setCallback k)

/-- What a user may do with a low-level decompress session. -/
inductive DLOp (κ : Type)
  | setCallback (k : κ)
  | op (o : LLOp)

/-- A history of calls. -/
def llToRun (act : Redirect κ) (fuel : Nat) : List (DLOp κ) → LL Z → DestSt κ →
    Run (List Int × LL Z × DestSt κ)
  | [], l, u => .ok ([], l, u)
  | .setCallback k :: ops, l, u => llToRun act fuel ops l (u.setCallback k)
  | .op (.setBuffer size) :: ops, l, u => llToRun act fuel ops (l.setBuffer size) u
  | .op (.decompress flush data) :: ops, l, u =>
    match llDecompress (destCb act) fuel flush l u data with
    | .error e => .error e
    | .ok (ret, l, u) =>
      match llToRun act fuel ops l u with
      | .error e => .error e
      | .ok (rets, l, u) => .ok (ret :: rets, l, u)

end Zwt
