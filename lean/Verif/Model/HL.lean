import Verif.Model.FS
import Verif.Model.Session

/-!
Extraction to disk: `src/core/zlibwt_hl_decompress_routines.c` (Unix branches).

The callbacks never look at the session except for `pSession->fileData` (names) and never change
it, so their effects are computed from the session's new callback events after each call of
`ZlibWtDecompressBufferToCallback`.
-/

namespace Zwt

/-- `strrchr`: index of the last occurrence. -/
def lastIndexOf (c : UInt8) : Bytes → Option Nat
  | [] => none
  | b :: bs =>
    match lastIndexOf c bs with
    | some i => some (i + 1)
    | none => if b = c then some 0 else none

/-- The C string at the beginning of memory that is followed by a terminator. -/
def cString (b : Bytes) : Bytes := b.takeWhile (· != 0)

/-- `GetFileDelimeterInline`, `zlibwt_hl_decompress_routines.c:78-84`. -/
def fileDelimiter (path : Bytes) : Option Nat :=
  match lastIndexOf 47 path with
  | some i => some i
  | none => lastIndexOf 92 path

/-- `OsCreateStatic` (Unix), `:177-191`: 0 created, 1 directory exists, 2 go on, −1 error. -/
def osCreate (os : Os) (w : World) (path : Bytes) (mode : Nat) : Int × World :=
  match sysMkdir os w path mode with
  | (.ok, w) => (0, w)
  | (.exist, w) =>
    match sysIsDir os w path with
    | (true, w) => (1, w)
    | (false, w) => (-1, w)
  | (.fail, w) => (2, w)

/-- The second loop of `MkdirRecurseInlineRaw`, `:116-127`; `mem` is the memory of the path (with
NULs at the places in `idxs`). -/
def mkRestore (os : Os) (mode : Nat) : List Nat → Bytes → World → Int × World
  | [], _, w => (0, w)
  | i :: idxs, mem, w =>
    match osCreate os w (cString (mem.set i 47)) mode with
    | (r, w) => if r ≠ 0 then (-1, w) else mkRestore os mode idxs (mem.set i 47) w

/-- The first loop of `MkdirRecurseInlineRaw`, `:101-115`, and what follows it.  The first argument
is `62 - indexInIndexes`; `idxs` is `vIndexes`, last element first. -/
def mkCut (os : Os) (mode : Nat) : Nat → List Nat → Bytes → World → Int × World
  | 0, _, _, w => (-1, w)
  | n+1, idxs, mem, w =>
    match fileDelimiter (cString mem) with
    | none => (-1, w)
    | some i =>
      match osCreate os w (cString (mem.set i 0)) mode with
      | (r, w) =>
        if r = -1 then (-1, w)
        else if r = 0 ∨ r = 1 then
          if (i :: idxs).length < 62 then mkRestore os mode (i :: idxs) (mem.set i 0) w
          else (-1, w)
        else mkCut os mode n (i :: idxs) (mem.set i 0) w

/-- `MkdirRecurseInlineRaw`, `:87-133`. -/
def mkdirRaw (os : Os) (mode : Nat) (path : Bytes) (w : World) : Int × World :=
  match osCreate os w path mode with
  | (r, w) => if r = -1 ∨ r = 0 ∨ r = 1 then (r, w) else mkCut os mode 62 [] path w

/-- `MkdirRecurseInline`, `:136-145`.  `path` is a C string.  If `strdup` fails, −1. -/
def mkdirRecurse (os : Os) (mode : Nat) (path : Bytes) (w : World) : Int × World :=
  if os.noMem w.calls then (-1, w.tick) else mkdirRaw os mode path w.tick

/-- `SDecompressData::fd`. -/
inductive Fd
  /-- −1 -/
  | bad
  /-- the number of a descriptor closed before -/
  | closed
  | opened (f : OpenFile)
  deriving DecidableEq, Repr

/-- `struct SDecompressData`, `:198-210`, and the world.  `dirPath` is the memory of
`directoryPath` up to the terminator at index `directoryPathLen` (`none`: null pointer; then
`directoryPathLen` is 0).  `name` is the memory behind `pFileData->pFileName`. -/
structure HL where
  w : World
  fpOut : Option OpenFile
  dirPath : Option Bytes
  hasError : Bool
  fd : Fd
  ret : Nat
  name : Option Bytes

/-- Initial value, `:241-253`. -/
def HL.init (w : World) : HL :=
  { w := w, fpOut := none, dirPath := none, hasError := false, fd := .bad, ret := CT_NONE,
    name := none }

/-- Permission bits requested by `fopen`. -/
def FOPEN_MODE : Nat := 0o666
/-- `mode_base_dir_zlibandtls`, `io_zlibandtls.h:51`. -/
def BASE_DIR_MODE : Nat := 0o775
/-- `mode_fo_zlibandtls`, `io_zlibandtls.h:50`. -/
def modeFo (mode : Nat) : Nat := 0o777 &&& mode

/-- `DecompressFileStartCallback`, `:326-335`. -/
def hlFileStart (os : Os) (out : Bytes) (h : HL) : HL :=
  match sysOpen os h.w out FOPEN_MODE true with
  | (none, w) => { h with w := w, fpOut := none, hasError := true }
  | (some l, w) => { h with w := w, fpOut := some ⟨l, 0⟩, ret := CT_FILE }

/-- `DecompressFileAndBlobCallback`, `:338-342`.  (stdio buffering is not modelled: the bytes are
written at once.) -/
def hlFileData (os : Os) (h : HL) (d : Bytes) : Run HL :=
  match h.fpOut with
  | none => .error .nullDeref
  | some f =>
    match sysWrite os h.w f d with
    | (f, w) => .ok { h with w := w, fpOut := some f }

/-- `DecompressDirStartCallback`, `:348-365`. -/
def hlDirStart (os : Os) (out : Bytes) (h : HL) : HL :=
  match mkdirRecurse os BASE_DIR_MODE out h.w with
  | (r, w) =>
    if r ≠ 0 then { h with w := w, hasError := true }
    else if os.noMem w.calls then { h with w := w.tick, dirPath := none, hasError := true }
    else { h with w := w.tick, dirPath := some out, ret := CT_DIRECTORY }

/-- The path built at `:374-383` and `:389-396`: `directoryPath`, a slash, and `fileNameLen` bytes
of the name (whose allocation must be long enough). -/
def itemPath (h : HL) (name : Bytes) (nameLen : Nat) : Run Bytes :=
  if nameLen ≤ name.length then .ok (h.dirPath.getD [] ++ 47 :: name.take nameLen)
  else .error .oobRead

/-- Case `ZlibWithToolsFileTypeDir`, `:373-388`. -/
def hlDirItem (os : Os) (h : HL) (name item : Bytes) : Run HL :=
  if os.noMem h.w.calls then .ok { h with w := h.w.tick, hasError := true }
  else
    match itemPath h name (itNameLen item) with
    | .error e => .error e
    | .ok path =>
      match mkdirRecurse os (itMode item) (cString path) h.w.tick with
      | (r, w) =>
        .ok { h with w := w, dirPath := some path, hasError := h.hasError || r != 0 }

/-- Case `ZlibWithToolsFileTypeFile`, `:389-401`.  (`alloca` is taken to succeed; for its sizes see `Model/Stack.lean`.) -/
def hlFileItem (os : Os) (h : HL) (name item : Bytes) : Run HL :=
  match itemPath h name (itNameLen item) with
  | .error e => .error e
  | .ok path =>
    match sysOpen os h.w (cString path) (modeFo (itMode item)) false with
    | (none, w) => .ok { h with w := w, fd := .bad, hasError := true }
    | (some l, w) => .ok { h with w := w, fd := .opened ⟨l, 0⟩ }

/-- `DecompressDirFileOrDirStartCallback`, `:367-407`. -/
def hlItemStart (os : Os) (h : HL) (ft : FType) (name item : Bytes) : Run HL :=
  let h := { h with name := some name }
  match ft with
  | .dir => hlDirItem os h name item
  | .file => hlFileItem os h name item
  | _ => .ok h

/-- Size given to `getcwd`, `:424`. -/
def CWD_SIZE : Nat := 1023

/-- `SymLinkCreateCallback`, `:410-441`.  The target is the C string at `a_buffer`; the bytes known
to be there are `target ++ after`; reading on is a fault. -/
def hlSymLink (os : Os) (h : HL) (target after : Bytes) : Run HL :=
  match sysGetcwd os h.w CWD_SIZE with
  | (none, w) => .ok { h with w := w }
  | (some old, w) =>
    match h.dirPath with
    | none => .ok { h with w := w.tick }          -- chdir(NULL) fails
    | some dir =>
      match sysChdir os w (cString dir) with
      | (false, w) => .ok { h with w := w }
      | (true, w) =>
        match h.name with
        | none => .error .nullDeref
        | some name =>
          match cstr? (target ++ after), cstr? name with
          | some t, some n =>
            match sysSymlink os w t n with
            | (_, w) =>
              match sysChdir os w old with
              | (_, w) => .ok { h with w := w }
          | _, _ => .error .oobRead

/-- `DecompressDirFileReadCallback`, `:444-449`. -/
def hlFileRead (os : Os) (h : HL) (d : Bytes) : Run HL :=
  match h.fd with
  | .bad => .ok { h with w := h.w.tick }
  | .closed => .error .useAfterFree
  | .opened f =>
    match sysWrite os h.w f d with
    | (f, w) => .ok { h with w := w, fd := .opened f }

/-- `DecompressDirFileEndCallback`, `:452-456`. -/
def hlFileEnd (h : HL) : Run HL :=
  match h.fd with
  | .bad => .ok { h with w := h.w.tick }
  | .closed => .error .doubleFree
  | .opened _ => .ok { h with w := h.w.tick, fd := .closed }

/-- `DecompressDirDirEndCallback`, `:459-468`. -/
def hlDirEnd (h : HL) : Run HL :=
  match h.dirPath with
  | none => .error .nullDeref
  | some p =>
    match lastIndexOf 47 (cString p) with
    | none => .error .assertFail
    | some i => .ok { h with dirPath := some (p.take i) }

/-- One callback. -/
def hlEvent (os : Os) (out : Bytes) (h : HL) : Ev → Run HL
  | .flStart => .ok (hlFileStart os out h)
  | .flRead d => hlFileData os h d
  | .drStart => .ok (hlDirStart os out h)
  | .itemStart ft name item => hlItemStart os h ft name item
  | .fileRead d => hlFileRead os h d
  | .fileEnd => hlFileEnd h
  | .dirEnd => hlDirEnd h
  | .symLink t a => hlSymLink os h t a

/-- A sequence of callbacks. -/
def hlEvents (os : Os) (out : Bytes) : HL → List Ev → Run HL
  | h, [] => .ok h
  | h, e :: es =>
    match hlEvent os out h e with
    | .error e => .error e
    | .ok h => hlEvents os out h es

/-- `NextSizeToReadInline`, `:50-61`. -/
def nextSize (archiveSize total : Nat) : Nat :=
  if archiveSize > 0 then
    if archiveSize > total then
      if archiveSize - total < DEF_CHUNK_SIZE then archiveSize - total else DEF_CHUNK_SIZE
    else 0
  else DEF_CHUNK_SIZE

/-- The compressed input: the bytes from the current position on, and whether reading them to the
end gives an error. -/
structure Input where
  data : Bytes
  err : Bool
  deriving DecidableEq, Repr

/-- Flush request for the call number `i` (counted from 1), `:282`. -/
def hlFlush (i : Nat) : Int := Int.ofNat ((i &&& 0x10) >>> 4)

/-- How an extraction ends: the returned enumerator, the world, the number of bytes read, and
`aData.hasError`; for reference also the codes `inflate` returned, the room it left in the output
buffer, and the buffers in which content was delivered. -/
structure Extracted where
  ret : Nat
  w : World
  read : Nat
  hasError : Bool
  codes : List Int
  room : Nat
  pieces : List Bytes

/-- The loop of `ZlibWtDecompressFileOrDirEx`, `:270-286`, and its end; `total` bytes have been
read in `i` rounds. -/
def hlLoop {Z : Inflater} (os : Os) (ok : AllocOracle) (fuel : Nat) (out : Bytes)
    (archiveSize : Nat) : Nat → Nat → Nat → Input → LL Z → Sess → HL → Run Extracted
  | 0, _, _, _, _, _, _ => .error .outOfFuel
  | rounds+1, i, total, inp, l, s, h =>
    if nextSize archiveSize total < 1 then
      .ok ⟨h.ret, h.w, total, h.hasError, l.rets, l.availOut, s.pieces⟩
    else
      let n := nextSize archiveSize total
      let piece := inp.data.take n
      let short : Bool := decide (inp.data.length < n)
      if short && inp.err then
        .ok ⟨CT_NONE, h.w, total + piece.length, h.hasError, l.rets, l.availOut, s.pieces⟩
      else
        match sessDecompress ok fuel (hlFlush (i + 1)) l s piece with
        | .error e => .error e
        | .ok (_, l, s') =>
          match hlEvents os out h (s'.log.drop s.log.length) with
          | .error e => .error e
          | .ok h =>
            if !short && !h.hasError then
              hlLoop os ok fuel out archiveSize rounds (i + 1) (total + piece.length)
                { inp with data := inp.data.drop n } l s' h
            else .ok ⟨h.ret, h.w, total + piece.length, h.hasError, l.rets, l.availOut, s'.pieces⟩

/-- `ZlibWtDecompressFileOrDirEx`, `:213-304`, when the buffers and the session can be created.
`hdr`, `item` are uninitialised memory of the session. -/
def extract (Z : Inflater) (os : Os) (ok : AllocOracle) (fuel : Nat) (hdr item : Bytes)
    (out : Bytes) (archiveSize : Nat) (inp : Input) (w : World) : Run Extracted :=
  let c := Sess.create Z hdr item DEF_CHUNK_SIZE
  hlLoop os ok fuel out archiveSize fuel 0 0 inp c.1 c.2 (HL.init w)

/-- `ZlibWtDecompressFileOrDir`, `:307-322`; `inp` is `none` if the archive cannot be opened. -/
def extractFile (Z : Inflater) (os : Os) (ok : AllocOracle) (fuel : Nat) (hdr item : Bytes)
    (out : Bytes) (archiveSize : Nat) (inp : Option Input) (w : World) : Run Extracted :=
  match inp with
  | none => .ok ⟨CT_NONE, w, 0, false, [], 0, []⟩
  | some inp => extract Z os ok fuel hdr item out archiveSize inp w

end Zwt
