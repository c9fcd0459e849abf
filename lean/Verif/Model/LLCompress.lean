import Verif.Model.Zlib
import Verif.Model.Format

/-!
`src/core/zlibwt_ll_compression_routines.c`: the compress session.
-/

namespace Zwt

/-- `struct ZlibWtCompressSession`, `zlibwt_ll_compression_routines.c:21-28`.  `log` is the
history of callback invocations (the bytes of each).  -/
structure CS (D : Deflater) where
  z : D.τ
  bufSize : Nat
  log : List Bytes

variable {D : Deflater}

/-- The loop of `ZlibWtCompressBufferToCallback`, `:95-107`. -/
def compressLoop : Nat → CS D → Bytes → Run (Int × CS D)
  | 0, _, _ => .error .outOfFuel
  | fuel+1, s, inp =>
    if inp = [] then .ok (0, s)
    else
      let r := D.run s.z Z_PARTIAL_FLUSH inp s.bufSize
      if r.ret = Z_STREAM_ERROR then .ok (Z_STREAM_ERROR, { s with z := r.st })
      else compressLoop fuel { s with z := r.st, log := s.log ++ [r.out] } (inp.drop r.consumed)

/-- `ZlibWtCompressBufferToCallback`, `:81-108` (`a_flush` is ignored by the code). -/
def compress (fuel : Nat) (s : CS D) (data : Bytes) : Run (Int × CS D) :=
  compressLoop fuel s (data.take (uInt data.length))

/-- `ZlibWtSetBufferForCompressSession`, `:111-118`. -/
def CS.setBuffer (s : CS D) (size : Nat) : CS D := { s with bufSize := uInt size }

/-- `ZlibWtCreateTypedCompressSession`, `:32-67`, when `malloc` succeeds; `none` is the null
pointer.  `junk` are the uninitialised reserved bytes of the header. -/
def CS.create (D : Deflater) (fuel : Nat) (kind : Nat) (level : Int) (bufSize : Nat)
    (junk : Bytes) : Run (Option (CS D)) :=
  match D.init level with
  | none => .ok none
  | some z =>
    match compress fuel { z := z, bufSize := uInt bufSize, log := [] }
        (headerBytes VERSION kind junk) with
    | .error e => .error e
    | .ok (ret, s) => if ret ≠ 0 then .ok none else .ok (some s)

/-- What a user may do with a compress session.  `ZlibWtDestroyCompressSession`, `:70-78`, makes
no callback, so a history ends with the last of these. -/
inductive COp
  | setBuffer (size : Nat)
  | compress (data : Bytes)

/-- A history of API calls on a compress session; return codes are collected. -/
def compressRun (fuel : Nat) : List COp → CS D → Run (List Int × CS D)
  | [], s => .ok ([], s)
  | .setBuffer size :: ops, s => compressRun fuel ops (s.setBuffer size)
  | .compress data :: ops, s =>
    match Zwt.compress fuel s data with
    | .error e => .error e
    | .ok (ret, s) =>
      match compressRun fuel ops s with
      | .error e => .error e
      | .ok (rets, s) => .ok (ret :: rets, s)

end Zwt
