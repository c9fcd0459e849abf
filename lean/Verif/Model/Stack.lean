import Verif.Model.HL

/-!
Stack memory asked for during extraction: the buffer for the path of a file,
`src/core/zlibwt_hl_decompress_routines.c:392`.  (Everything else on the stack has a fixed size,
except the recursion of the directory parser, see C24.)  The functions are those of `Model/HL.lean`;
they also give the sizes passed to `alloca`, in order.
-/

namespace Zwt

/-- What a callback passes to `alloca`, `zlibwt_hl_decompress_routines.c:392`. -/
def hlAsk (h : HL) : Ev → List Nat
  | .itemStart .file _ item => [(h.dirPath.getD []).length + 4 + itNameLen item]
  | _ => []

/-- A sequence of callbacks (`hlEvents`). -/
def hlEventsS (os : Os) (out : Bytes) : HL → List Ev → List Nat × Run HL
  | h, [] => ([], .ok h)
  | h, e :: es =>
    match hlEvent os out h e with
    | .error x => (hlAsk h e, .error x)
    | .ok h' =>
      match hlEventsS os out h' es with
      | (asks, r) => (hlAsk h e ++ asks, r)

/-- The loop of `ZlibWtDecompressFileOrDirEx`, `zlibwt_hl_decompress_routines.c:270-286`
(`hlLoop`). -/
def hlLoopS {Z : Inflater} (os : Os) (ok : AllocOracle) (fuel : Nat) (out : Bytes)
    (archiveSize : Nat) :
    Nat → Nat → Nat → Input → LL Z → Sess → HL → List Nat × Run Extracted
  | 0, _, _, _, _, _, _ => ([], .error .outOfFuel)
  | rounds+1, i, total, inp, l, s, h =>
    if nextSize archiveSize total < 1 then
      ([], .ok ⟨h.ret, h.w, total, h.hasError, l.rets, l.availOut, s.pieces⟩)
    else
      let n := nextSize archiveSize total
      let piece := inp.data.take n
      let short : Bool := decide (inp.data.length < n)
      if short && inp.err then
        ([], .ok ⟨CT_NONE, h.w, total + piece.length, h.hasError, l.rets, l.availOut, s.pieces⟩)
      else
        match sessDecompress ok fuel (hlFlush (i + 1)) l s piece with
        | .error e => ([], .error e)
        | .ok (_, l, s') =>
          match hlEventsS os out h (s'.log.drop s.log.length) with
          | (asks, .error e) => (asks, .error e)
          | (asks, .ok h) =>
            if !short && !h.hasError then
              match hlLoopS os ok fuel out archiveSize rounds (i + 1) (total + piece.length)
                { inp with data := inp.data.drop n } l s' h with
              | (more, r) => (asks ++ more, r)
            else
              (asks, .ok ⟨h.ret, h.w, total + piece.length, h.hasError, l.rets, l.availOut,
                s'.pieces⟩)

/-- `ZlibWtDecompressFileOrDirEx`, `zlibwt_hl_decompress_routines.c:213-304` (`extract`). -/
def extractS (Z : Inflater) (os : Os) (ok : AllocOracle) (fuel : Nat) (hdr item : Bytes)
    (out : Bytes) (archiveSize : Nat) (inp : Input) (w : World) : List Nat × Run Extracted :=
  let c := Sess.create Z hdr item DEF_CHUNK_SIZE
  hlLoopS os ok fuel out archiveSize fuel 0 0 inp c.1 c.2 (HL.init w)

end Zwt
