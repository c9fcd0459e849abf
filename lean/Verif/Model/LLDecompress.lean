import Verif.Model.Zlib

/-!
`src/core/zlibwt_ll_decompress_routines.c`: the low-level decompress session.

Loops take fuel; running out of it is the fault `outOfFuel` (the theorems show that it does not
happen).  The callback may change the session (the header callback of the archive session does), so
it gets and returns the session and its own state `υ`.
-/

namespace Zwt

/-- `struct ZlibWtLLDecompressSession`, private `zlibwt_decompress_data.h:30-38`.
`inp` stands for `next_in/avail_in`.  The output side `next_out/avail_out` is `acc`, `availOut`:
the bytes written since the buffer was last set up and the room left.  `rets` is a ghost
recording the return codes of all `inflate` calls (last one first). -/
structure LL (Z : Inflater) where
  z : Z.τ
  inp : Bytes
  availOut : Nat
  acc : Bytes
  totalOut : Nat
  bufSize : Nat
  rets : List Int

variable {Z : Inflater} {υ : Type}

/-- `ZlibWtCreateLLDecompressSession`, `zlibwt_ll_decompress_routines.c:19-51`, when `malloc` and
`inflateInit` succeed.  (`avail_out` is left uninitialised by the C code; every use is preceded by
a set-up, except in `…NoTouchOut`, for which `setupBuffer` must be called first: the archive
session does.) -/
def LL.create (Z : Inflater) (bufSize : Nat) : LL Z :=
  { z := Z.init, inp := [], availOut := 0, acc := [], totalOut := 0, bufSize := uInt bufSize,
    rets := [] }

/-- `ZlibWtSetBufferForLLDecompressSession`, `:63-70`. -/
def LL.setBuffer (l : LL Z) (size : Nat) : LL Z := { l with bufSize := uInt size }

/-- `ZlibWtSetupBufferForLLDecompressSession`, `:83-87`; the same two assignments open the loop
bodies at `:102-103` and `:143-144`. -/
def LL.setup (l : LL Z) : LL Z := { l with availOut := l.bufSize, acc := [] }

/-- Effect of `inflate` on the session (`z_stream` bookkeeping). -/
def LL.after (l : LL Z) (r : ZRes Z.τ) : LL Z :=
  { l with z := r.st, inp := l.inp.drop r.consumed, availOut := l.availOut - r.out.length,
           acc := l.acc ++ r.out, totalOut := l.totalOut + r.out.length, rets := r.ret :: l.rets }

/-- One `inflate` call. -/
def LL.inflate (l : LL Z) (flush : Int) : Int × LL Z :=
  let r := Z.run l.z flush l.inp l.availOut
  (r.ret, l.after r)

/-- The bytes handed to the callback: `bufferForDecompressedData[0 .. size - avail_out)`.
If the buffer was replaced without set-up this is not what `inflate` wrote: a fault. -/
def LL.handed (l : LL Z) : Run Bytes :=
  if l.acc.length + l.availOut = l.bufSize then .ok l.acc else .error .oobRead

/-- A low-level callback. -/
abbrev Cb (Z : Inflater) (υ : Type) := LL Z → υ → Bytes → Run (LL Z × υ)

/-- The loop of `ZlibWtLLDecompressBufferToCallback`, `:101-111`, and the whole of
`ZlibWtLLDecompressBufferToCallbackReadOldIn`, `:138-153`. -/
def readOldIn (cb : Cb Z υ) : Nat → Int → LL Z → υ → Run (Int × LL Z × υ)
  | 0, _, _, _ => .error .outOfFuel
  | fuel+1, flush, l, u =>
    if l.inp = [] then .ok (0, l, u)
    else
      let (ret, l) := l.setup.inflate flush
      if ret ≠ Z_OK then .ok (ret, l, u)
      else
        match l.handed with
        | .error e => .error e
        | .ok buf =>
          match cb l u buf with
          | .error e => .error e
          | .ok (l, u) => readOldIn cb fuel Z_NO_FLUSH l u

/-- `next_in`, `avail_in` set from the arguments, `:98-99`, `:123-124`. -/
def LL.feed (l : LL Z) (data : Bytes) : LL Z := { l with inp := data.take (uInt data.length) }

/-- `ZlibWtLLDecompressBufferToCallback`, `:90-112`. -/
def llDecompress (cb : Cb Z υ) (fuel : Nat) (flush : Int) (l : LL Z) (u : υ) (data : Bytes) :
    Run (Int × LL Z × υ) :=
  readOldIn cb fuel flush (l.feed data) u

/-- The loop of `ZlibWtLLDecompressBufferToCallbackNoTouchOut`, `:126-134`. -/
def noTouchLoop (cb : Cb Z υ) : Nat → Int → LL Z → υ → Run (Int × LL Z × υ)
  | 0, _, _, _ => .error .outOfFuel
  | fuel+1, flush, l, u =>
    if l.inp = [] ∨ l.availOut = 0 then .ok (0, l, u)
    else
      let (ret, l) := l.inflate flush
      if ret ≠ Z_OK then .ok (ret, l, u)
      else
        match l.handed with
        | .error e => .error e
        | .ok buf =>
          match cb l u buf with
          | .error e => .error e
          | .ok (l, u) => noTouchLoop cb fuel Z_NO_FLUSH l u

/-- `ZlibWtLLDecompressBufferToCallbackNoTouchOut`, `:115-135`. -/
def llDecompressNoTouch (cb : Cb Z υ) (fuel : Nat) (flush : Int) (l : LL Z) (u : υ)
    (data : Bytes) : Run (Int × LL Z × υ) :=
  noTouchLoop cb fuel flush (l.feed data) u

/-- A user callback that only looks at its buffer: the calls are recorded. -/
def recordCb : Cb Z (List Bytes) := fun l u buf => .ok (l, u ++ [buf])

/-- What a user of the low-level API may do between creation and destruction. -/
inductive LLOp
  | setBuffer (size : Nat)
  | decompress (flush : Int) (data : Bytes)

/-- A history of API calls on a low-level session; return codes are collected. -/
def llRun (fuel : Nat) : List LLOp → LL Z → List Bytes → Run (List Int × LL Z × List Bytes)
  | [], l, u => .ok ([], l, u)
  | .setBuffer size :: ops, l, u => llRun fuel ops (l.setBuffer size) u
  | .decompress flush data :: ops, l, u =>
    match llDecompress recordCb fuel flush l u data with
    | .error e => .error e
    | .ok (ret, l, u) =>
      match llRun fuel ops l u with
      | .error e => .error e
      | .ok (rets, l, u) => .ok (ret :: rets, l, u)

end Zwt
