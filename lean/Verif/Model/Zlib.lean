import Verif.Model.Basic

/-!
zlib as seen by the code: arbitrary state machines.  What is assumed about them is written down
in `Verif/Spec/Zlib.lean` and appears as an explicit hypothesis of the theorems.
-/

namespace Zwt

/-- `Z_OK`, `Z_STREAM_END`, `Z_STREAM_ERROR`, `Z_DATA_ERROR`, `Z_BUF_ERROR` of `zlib.h`. -/
def Z_OK : Int := 0
def Z_STREAM_END : Int := 1
def Z_STREAM_ERROR : Int := -2
def Z_DATA_ERROR : Int := -3
def Z_BUF_ERROR : Int := -5
/-- `Z_NO_FLUSH`, `Z_PARTIAL_FLUSH`, `Z_FINISH` of `zlib.h`. -/
def Z_NO_FLUSH : Int := 0
def Z_PARTIAL_FLUSH : Int := 1
def Z_FINISH : Int := 4

/-- Outcome of one `inflate`/`deflate` call: return code, new internal state, number of input
bytes taken (`avail_in` before − after), bytes written at `next_out`. -/
structure ZRes (τ : Type) where
  ret : Int
  st : τ
  consumed : Nat
  out : Bytes
  deriving DecidableEq, Repr

/-- `inflateInit` + `inflate(strm, flush)` with the input and the output room as arguments. -/
structure Inflater where
  τ : Type
  init : τ
  run : τ → (flush : Int) → (inp : Bytes) → (availOut : Nat) → ZRes τ

/-- `deflateInit(strm, level)` (`none` = not `Z_OK`) + `deflate(strm, flush)`. -/
structure Deflater where
  τ : Type
  init : (level : Int) → Option τ
  run : τ → (flush : Int) → (inp : Bytes) → (availOut : Nat) → ZRes τ

/-- Conversion of a `size_t` to `uInt`. -/
@[irreducible] def uInt (n : Nat) : Nat := n % U32

end Zwt
