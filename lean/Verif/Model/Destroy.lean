import Verif.Model.Session

/-!
The end of a decompress session: `ZlibWtDestroyLLDecompressSession`,
`src/core/zlibwt_ll_decompress_routines.c:54-60`, which `ZlibWtDestroyDecompressSession`,
`src/core/zlibwt_decompress_routines.c:105-109`, calls after releasing the name.

Two more `inflate` calls are made, with `next_in`, `avail_in`, `next_out` and `avail_out` as the last
decompress call has left them.  Their results are not looked at and no callback is made; what they do
to the user's buffers is recorded.
-/

namespace Zwt

/-- `Z_FULL_FLUSH` of `zlib.h`. -/
def Z_FULL_FLUSH : Int := 3

/-- One of these calls: whether `next_out` and `avail_out` have been given values before, `avail_in`, the
bytes taken from the input buffer, and the bytes written to the output buffer. -/
structure EndCall where
  outSet : Bool
  availIn : Nat
  taken : Bytes
  wrote : Bytes
  deriving DecidableEq, Repr

variable {Z : Inflater}

/-- One of the calls, `:56`, `:57`. -/
def LL.endCall (outSet : Bool) (flush : Int) (l : LL Z) : EndCall × LL Z :=
  let r := Z.run l.z flush l.inp l.availOut
  (⟨outSet, l.inp.length, l.inp.take r.consumed, r.out⟩, l.after r)

/-- The two calls of `ZlibWtDestroyLLDecompressSession`, `:56-57`. -/
def LL.endCalls (outSet : Bool) (l : LL Z) : List EndCall :=
  match l.endCall outSet Z_FULL_FLUSH with
  | (a, l) => [a, (l.endCall outSet Z_FINISH).1]

/-- Destruction of a low-level session.  Creation (`:31-37`) sets neither `next_out` nor `avail_out`;
they are first set before the first `inflate` call, `:102-103`. -/
def llDestroy (l : LL Z) : List EndCall := l.endCalls (decide (l.rets ≠ []))

/-- Destruction of an archive session.  Here creation sets both
(`zlibwt_decompress_routines.c:100`). -/
def sessDestroy (l : LL Z) : List EndCall := l.endCalls true

/-- A low-level session as created (`:19-51`), `room` being the uninitialised `avail_out`. -/
def LL.created (Z : Inflater) (bufSize room : Nat) : LL Z := { LL.create Z bufSize with availOut := room }

end Zwt
