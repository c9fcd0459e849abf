import Verif.Model.LLDecompress
import Verif.Model.DirParser

/-!
The archive decompress session: `src/core/zlibwt_decompress_routines.c` and the entry points of
`src/core/zlibwt_decompress_routines_version_0000.c`.

User callbacks are recorded as events (`Ev`); user callbacks that call back into the session are
not modelled.
-/

namespace Zwt

/-- Which function `ll.clbk` points to. -/
inductive CbTag
  /-- `ZlibWtDecompressCallbackStatHeader` -/
  | hdr
  /-- `ZlibWtDecompressCallbackStatData_version_0000` -/
  | v0
  /-- `ZlibWtDecompressCallbackStatData_dir` -/
  | dir
  /-- `ZlibWtDecompressCallbackStatData_blob_and_file` -/
  | blob
  deriving DecidableEq, Repr

/-- `struct ZlibWtDecompressSession` without its `ll` part (private
`zlibwt_decompress_data.h:41-59`), plus the history `log` of user callbacks.  `hdr` is the memory of
`header` (128 bytes); `d.hasError` is the session's `hasError`; `ownBuf` tells whether the output
buffer is the memory of `header` (as set up at creation).  `pieces` is a ghost recording the
buffers given to the data callbacks. -/
structure Sess where
  cb : CbTag
  hdr : Bytes
  isInited : Bool
  ownBuf : Bool
  tmpSize : Nat
  d : DirSt
  log : List Ev
  pieces : List Bytes
  deriving DecidableEq, Repr

/-- Assignments of `…_version_0000`, `zlibwt_decompress_routines_version_0000.c:34-43` and
`:47-49`.  The reserved bytes of `fileItem` are not assigned. -/
def v0Reset (d : DirSt) : DirSt :=
  { d with item := itemBytes ⟨0, 0, 0, 0, 0, K_SINGLE_BLOB⟩ (d.item.drop 29), fileType := .none,
           stage := .header, offset := 0, secSize := ITEM_SIZE }

/-- `ZlibWtDecompressCallbackStatData_dir` as session callback. -/
def dirCb (ok : AllocOracle) (s : Sess) (buf : Bytes) : Run Sess :=
  match dirData ok (depthFor buf.length) s.d buf with
  | .error e => .error e
  | .ok (d, evs) => .ok { s with d := d, log := s.log ++ evs, pieces := s.pieces ++ [buf] }

/-- `ZlibWtDecompressCallbackStatData_blob_and_file`, `…version_0000.c:213-218`. -/
def blobCb (s : Sess) (buf : Bytes) : Run Sess :=
  .ok { s with log := s.log ++ [.flRead buf], pieces := s.pieces ++ [buf] }

/-- `ZlibWtDecompressCallbackStatData_version_0000`, `…version_0000.c:28-64`. -/
def v0Cb (ok : AllocOracle) (s : Sess) (buf : Bytes) : Run Sess :=
  if hdrKind s.hdr = CT_DIRECTORY then
    dirCb ok { s with d := v0Reset s.d, log := s.log ++ [.drStart], cb := .dir } buf
  else if hdrKind s.hdr = CT_FILE ∨ hdrKind s.hdr = CT_BLOB then
    blobCb { s with log := s.log ++ [.flStart], cb := .blob } buf
  else .ok { s with d := { s.d with hasError := true }, pieces := s.pieces ++ [buf] }

/-- Dispatch through `ll.clbk` for the callbacks that do not touch the `ll` part.
The header callback is never installed when this is used (a fault otherwise). -/
def dataCb {Z : Inflater} (ok : AllocOracle) : Cb Z Sess := fun l s buf =>
  match s.cb with
  | .hdr => .error .typeConfusion
  | .v0 => (v0Cb ok s buf).map (l, ·)
  | .dir => (dirCb ok s buf).map (l, ·)
  | .blob => (blobCb s buf).map (l, ·)

/-- Memory of `header` when its callback gets `buf`: overwritten if it is the output buffer. -/
def Sess.seenHdr (s : Sess) (buf : Bytes) : Bytes :=
  if s.ownBuf then buf ++ s.hdr.drop buf.length else s.hdr

/-- `ZlibWtDecompressCallbackStatHeader`, `zlibwt_decompress_routines.c:34-65`.  If its buffer is
the memory of `header`, the first `bufLen` bytes of `header` are `buf`.  At `:60` the data
callback is given the user's pointer in place of the session: a fault (also when the assertion at
`:59` is compiled out). -/
def headerCb {Z : Inflater} (ok : AllocOracle) (fuel : Nat) : Cb Z Sess := fun l s buf =>
  let s := { s with hdr := s.seenHdr buf }
  if l.totalOut ≥ MAIN_HEADER_SIZE then
    let s := { s with isInited := true, d := { s.d with hasError := false } }
    if hdrVersion s.hdr = 0 then
      let s := { s with cb := .v0, ownBuf := false }
      let l := l.setBuffer s.tmpSize
      if l.totalOut > MAIN_HEADER_SIZE then
        if buf.length > l.totalOut - MAIN_HEADER_SIZE then .error .typeConfusion
        else .error .assertFail
      else
        match readOldIn (dataCb ok) fuel Z_NO_FLUSH l s with
        | .error e => .error e
        | .ok (_, l, s) => .ok (l, s)
    else .ok (l, s)
  else .ok (l, s)

/-- Dispatch through `ll.clbk`. -/
def sessCb {Z : Inflater} (ok : AllocOracle) (fuel : Nat) : Cb Z Sess := fun l s buf =>
  match s.cb with
  | .hdr => headerCb ok fuel l s buf
  | _ => dataCb ok l s buf

/-- `ZlibWtCreateDecompressSession`, `zlibwt_decompress_routines.c:74-102`, when allocation and
`inflateInit` succeed.  `hdr`, `item` are the uninitialised memories of `header` (128 bytes) and
`fileItem` (40 bytes). -/
def Sess.create (Z : Inflater) (hdr item : Bytes) (bufSize : Nat) : LL Z × Sess :=
  ((LL.create Z 0).setBuffer MAIN_HEADER_SIZE |>.setup,
    { cb := .hdr, hdr := hdr, isInited := false, ownBuf := true, tmpSize := uInt bufSize,
      d := { item := item, name := none, fileType := .none, stage := .header, offset := 0,
             secSize := 0, hasError := false, reallocs := 0 },
      log := [], pieces := [] })

/-- `ZlibWtSetBufferForDecompressSession`, `:112-125`. -/
def Sess.setBuffer {Z : Inflater} (l : LL Z) (s : Sess) (size : Nat) : LL Z × Sess :=
  if s.isInited then (l.setBuffer size, { s with ownBuf := false }) else (l, { s with tmpSize := uInt size })

/-- `ZlibWtDecompressBufferToCallback`, `:128-142`. -/
def sessDecompress {Z : Inflater} (ok : AllocOracle) (fuel : Nat) (flush : Int) (l : LL Z)
    (s : Sess) (data : Bytes) : Run (Int × LL Z × Sess) :=
  if s.isInited then llDecompress (sessCb ok fuel) fuel 0 l s data
  else llDecompressNoTouch (sessCb ok fuel) fuel flush l s data

/-- What a user may do with a decompress session. -/
inductive SOp
  | setBuffer (size : Nat)
  | decompress (flush : Int) (data : Bytes)

/-- A history of API calls on a session; return codes are collected. -/
def sessRun {Z : Inflater} (ok : AllocOracle) (fuel : Nat) :
    List SOp → LL Z → Sess → Run (List Int × LL Z × Sess)
  | [], l, s => .ok ([], l, s)
  | .setBuffer size :: ops, l, s =>
    sessRun ok fuel ops (Sess.setBuffer l s size).1 (Sess.setBuffer l s size).2
  | .decompress flush data :: ops, l, s =>
    match sessDecompress ok fuel flush l s data with
    | .error e => .error e
    | .ok (ret, l, s) =>
      match sessRun ok fuel ops l s with
      | .error e => .error e
      | .ok (rets, l, s) => .ok (ret :: rets, l, s)

end Zwt
