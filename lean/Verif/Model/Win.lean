import Verif.Model.HL

/-!
Extraction to disk on Windows: the `_WIN32` branches of
`src/core/zlibwt_hl_decompress_routines.c` and `include/zlib_with_tools/utils/io_zlibandtls.h`,
`stdio_zlibandtls.h` (`_MSC_VER`), with the code they share with Unix.

First the behaviour of the operating system: `CreateDirectoryA`, `_sopen_s`, `_write`, `_fsopen("wb")`,
`fwrite`.  Simplifications: one drive, no drive letters or `\\server` prefixes, no reparse points,
streams or devices; the umask of the C runtime is 0.  Which names are accepted and which are the same
name (case, dots at the end) is the arbitrary function `Win.key`.  Everything else that can make a
call fail (length of paths, space, locks, access rights) is the arbitrary function `Win.refuses`.
-/

namespace Zwt

inductive WNode
  | dir
  | file (readOnly : Bool) (content : Bytes)
  deriving DecidableEq, Repr

/-- Content of the drive; places are lists of keys. -/
abbrev WFS := Loc → Option WNode

def WFS.put (fs : WFS) (l : Loc) (n : WNode) : WFS := fun l' => if l' = l then some n else fs l'

/-- What the operating system decides, as in `Os`; `key`: what a component of a path is looked up as,
`none` if it is no valid name. -/
structure Win where
  refuses : Nat → Bool
  accepts : Nat → Nat → Nat
  noMem : Nat → Bool
  key : Bytes → Option Bytes

/-- State of the drive and of the process. -/
structure WWorld where
  fs : WFS
  cwd : Loc
  calls : Nat

def WWorld.tick (w : WWorld) : WWorld := { w with calls := w.calls + 1 }

def WWorld.put (w : WWorld) (l : Loc) (n : WNode) : WWorld := { w with fs := w.fs.put l n }

/-- Both slashes separate components. -/
def winSep (b : UInt8) : Bool := b == 47 || b == 92

/-- The parts of a path between slashes. -/
def winSplit : Bytes → List Bytes
  | [] => [[]]
  | c :: cs =>
    if winSep c then [] :: winSplit cs
    else
      match winSplit cs with
      | [] => [[c]]
      | p :: ps => (c :: p) :: ps

/-- Path resolution is textual: `..` takes a component away, whatever there is on the drive. -/
def winWalk (win : Win) : Loc → List Bytes → Option Loc
  | cur, [] => some cur
  | cur, c :: cs =>
    if c = [] ∨ c = [46] then winWalk win cur cs
    else if c = [46, 46] then winWalk win cur.dropLast cs
    else
      match win.key c with
      | none => none
      | some k => winWalk win (cur ++ [k]) cs

/-- Where resolution of a path starts. -/
def winBase (cwd : Loc) (path : Bytes) : Loc := if (path.head?.map winSep) = some true then [] else cwd

/-- The place a path refers to. -/
def winLocate (win : Win) (cwd : Loc) (path : Bytes) : Option Loc :=
  if path = [] then none else winWalk win (winBase cwd path) (winSplit path)

/-- Something can be made at this place. -/
def winParent (fs : WFS) (l : Loc) : Bool := fs l.dropLast == some .dir

/-- `OsCreateStatic` (Windows), `zlibwt_hl_decompress_routines.c:151-172`, with the behaviour of
`CreateDirectoryA`: 0 created, 1 `ERROR_ALREADY_EXISTS` (also for a file), 2 `ERROR_PATH_NOT_FOUND`,
−1 any other error. -/
def winCreate (win : Win) (w : WWorld) (path : Bytes) : Int × WWorld :=
  if win.refuses w.calls then (-1, w.tick)
  else
    match winLocate win w.cwd path with
    | none => (-1, w.tick)
    | some l =>
      match w.fs l with
      | some _ => (1, w.tick)
      | none => if winParent w.fs l then (0, (w.put l .dir).tick) else (2, w.tick)

/-- The second loop of `MkdirRecurseInlineRaw`, `:116-127`. -/
def winRestore (win : Win) : List Nat → Bytes → WWorld → Int × WWorld
  | [], _, w => (0, w)
  | i :: idxs, mem, w =>
    match winCreate win w (cString (mem.set i 47)) with
    | (r, w) => if r ≠ 0 then (-1, w) else winRestore win idxs (mem.set i 47) w

/-- The first loop of `MkdirRecurseInlineRaw`, `:101-115`, and what follows it. -/
def winCut (win : Win) : Nat → List Nat → Bytes → WWorld → Int × WWorld
  | 0, _, _, w => (-1, w)
  | n+1, idxs, mem, w =>
    match fileDelimiter (cString mem) with
    | none => (-1, w)
    | some i =>
      match winCreate win w (cString (mem.set i 0)) with
      | (r, w) =>
        if r = -1 then (-1, w)
        else if r = 0 ∨ r = 1 then
          if (i :: idxs).length < 62 then winRestore win (i :: idxs) (mem.set i 0) w
          else (-1, w)
        else winCut win n (i :: idxs) (mem.set i 0) w

/-- `MkdirRecurseInlineRaw`, `:87-133`. -/
def winMkdirRaw (win : Win) (path : Bytes) (w : WWorld) : Int × WWorld :=
  match winCreate win w path with
  | (r, w) => if r = -1 ∨ r = 0 ∨ r = 1 then (r, w) else winCut win 62 [] path w

/-- `MkdirRecurseInline`, `:136-145`.  The mode has no effect. -/
def winMkdir (win : Win) (path : Bytes) (w : WWorld) : Int × WWorld :=
  if win.noMem w.calls then (-1, w.tick) else winMkdirRaw win path w.tick

/-- `_sopen_s(path, _O_WRONLY | _O_CREAT | _O_BINARY)` and, with `trunc`, `_fsopen(path, "wb")`; a file
that is made is read-only if `readOnly`. -/
def winOpen (win : Win) (w : WWorld) (path : Bytes) (readOnly trunc : Bool) : Option Loc × WWorld :=
  if win.refuses w.calls ∨ (path.getLast?.map winSep) = some true then (none, w.tick)
  else
    match winLocate win w.cwd path with
    | none => (none, w.tick)
    | some l =>
      match w.fs l with
      | some (.file ro _) =>
        if ro then (none, w.tick)
        else if trunc then (some l, (w.put l (.file ro [])).tick)
        else (some l, w.tick)
      | some .dir => (none, w.tick)
      | none =>
        if winParent w.fs l then (some l, (w.put l (.file readOnly [])).tick) else (none, w.tick)

/-- `_write`, also what `fwrite` comes down to. -/
def winWrite (win : Win) (w : WWorld) (f : OpenFile) (data : Bytes) : OpenFile × WWorld :=
  if win.refuses w.calls then (f, w.tick)
  else
    match w.fs f.loc with
    | some (.file ro c) =>
      let d := data.take (win.accepts w.calls data.length)
      ({ f with off := f.off + d.length }, (w.put f.loc (.file ro (pwrite c f.off d))).tick)
    | _ => (f, w.tick)

/-- `struct SDecompressData`, `:198-210`, and the world, as `HL`. -/
structure HLW where
  w : WWorld
  fpOut : Option OpenFile
  dirPath : Option Bytes
  hasError : Bool
  fd : Fd
  ret : Nat

/-- Initial value, `:241-253`. -/
def HLW.init (w : WWorld) : HLW :=
  { w := w, fpOut := none, dirPath := none, hasError := false, fd := .bad, ret := CT_NONE }

/-- `_S_IWRITE`. -/
def S_IWRITE : Nat := 0o200
/-- `mode_fo_zlibandtls`, `io_zlibandtls.h:36`, as far as it has an effect: without `_S_IWRITE` the
file is read-only. -/
def winReadOnly (mode : Nat) : Bool := mode &&& S_IWRITE == 0

/-- `DecompressFileStartCallback`, `:326-335`. -/
def winFileStart (win : Win) (out : Bytes) (h : HLW) : HLW :=
  match winOpen win h.w out false true with
  | (none, w) => { h with w := w, fpOut := none, hasError := true }
  | (some l, w) => { h with w := w, fpOut := some ⟨l, 0⟩, ret := CT_FILE }

/-- `DecompressFileAndBlobCallback`, `:338-342`. -/
def winFileData (win : Win) (h : HLW) (d : Bytes) : Run HLW :=
  match h.fpOut with
  | none => .error .nullDeref
  | some f =>
    match winWrite win h.w f d with
    | (f, w) => .ok { h with w := w, fpOut := some f }

/-- `DecompressDirStartCallback`, `:348-365`. -/
def winDirStart (win : Win) (out : Bytes) (h : HLW) : HLW :=
  match winMkdir win out h.w with
  | (r, w) =>
    if r ≠ 0 then { h with w := w, hasError := true }
    else if win.noMem w.calls then { h with w := w.tick, dirPath := none, hasError := true }
    else { h with w := w.tick, dirPath := some out, ret := CT_DIRECTORY }

/-- The path built at `:374-383` and `:389-396`. -/
def winItemPath (h : HLW) (name : Bytes) (nameLen : Nat) : Run Bytes :=
  if nameLen ≤ name.length then .ok (h.dirPath.getD [] ++ 47 :: name.take nameLen)
  else .error .oobRead

/-- Case `ZlibWithToolsFileTypeDir`, `:373-388`. -/
def winDirItem (win : Win) (h : HLW) (name item : Bytes) : Run HLW :=
  if win.noMem h.w.calls then .ok { h with w := h.w.tick, hasError := true }
  else
    match winItemPath h name (itNameLen item) with
    | .error e => .error e
    | .ok path =>
      match winMkdir win (cString path) h.w.tick with
      | (r, w) => .ok { h with w := w, dirPath := some path, hasError := h.hasError || r != 0 }

/-- Case `ZlibWithToolsFileTypeFile`, `:389-401`. -/
def winFileItem (win : Win) (h : HLW) (name item : Bytes) : Run HLW :=
  match winItemPath h name (itNameLen item) with
  | .error e => .error e
  | .ok path =>
    match winOpen win h.w (cString path) (winReadOnly (itMode item)) false with
    | (none, w) => .ok { h with w := w, fd := .bad, hasError := true }
    | (some l, w) => .ok { h with w := w, fd := .opened ⟨l, 0⟩ }

/-- `DecompressDirFileOrDirStartCallback`, `:367-407`. -/
def winItemStart (win : Win) (h : HLW) (ft : FType) (name item : Bytes) : Run HLW :=
  match ft with
  | .dir => winDirItem win h name item
  | .file => winFileItem win h name item
  | _ => .ok h

/-- `DecompressDirFileReadCallback`, `:444-449`. -/
def winFileRead (win : Win) (h : HLW) (d : Bytes) : Run HLW :=
  match h.fd with
  | .bad => .ok { h with w := h.w.tick }
  | .closed => .error .useAfterFree
  | .opened f =>
    match winWrite win h.w f d with
    | (f, w) => .ok { h with w := w, fd := .opened f }

/-- `DecompressDirFileEndCallback`, `:452-456`. -/
def winFileEnd (h : HLW) : Run HLW :=
  match h.fd with
  | .bad => .ok { h with w := h.w.tick }
  | .closed => .error .doubleFree
  | .opened _ => .ok { h with w := h.w.tick, fd := .closed }

/-- `DecompressDirDirEndCallback`, `:459-468`. -/
def winDirEnd (h : HLW) : Run HLW :=
  match h.dirPath with
  | none => .error .nullDeref
  | some p =>
    match lastIndexOf 47 (cString p) with
    | none => .error .assertFail
    | some i => .ok { h with dirPath := some (p.take i) }

/-- One callback.  `SymLinkCreateCallback`, `:410-418`, does nothing. -/
def winEvent (win : Win) (out : Bytes) (h : HLW) : Ev → Run HLW
  | .flStart => .ok (winFileStart win out h)
  | .flRead d => winFileData win h d
  | .drStart => .ok (winDirStart win out h)
  | .itemStart ft name item => winItemStart win h ft name item
  | .fileRead d => winFileRead win h d
  | .fileEnd => winFileEnd h
  | .dirEnd => winDirEnd h
  | .symLink _ _ => .ok h

/-- A sequence of callbacks. -/
def winEvents (win : Win) (out : Bytes) : HLW → List Ev → Run HLW
  | h, [] => .ok h
  | h, e :: es =>
    match winEvent win out h e with
    | .error e => .error e
    | .ok h => winEvents win out h es

/-- How an extraction ends, as `Extracted`. -/
structure WExtracted where
  ret : Nat
  w : WWorld
  read : Nat
  hasError : Bool
  codes : List Int
  room : Nat
  pieces : List Bytes

/-- The loop of `ZlibWtDecompressFileOrDirEx`, `:270-286`, and its end. -/
def winLoop {Z : Inflater} (win : Win) (ok : AllocOracle) (fuel : Nat) (out : Bytes)
    (archiveSize : Nat) : Nat → Nat → Nat → Input → LL Z → Sess → HLW → Run WExtracted
  | 0, _, _, _, _, _, _ => .error .outOfFuel
  | rounds+1, i, total, inp, l, s, h =>
    if nextSize archiveSize total < 1 then
      .ok ⟨h.ret, h.w, total, h.hasError, l.rets, l.availOut, s.pieces⟩
    else
      let n := nextSize archiveSize total
      let piece := inp.data.take n
      let short : Bool := decide (inp.data.length < n)
      if short && inp.err then
        .ok ⟨CT_NONE, h.w, total + piece.length, h.hasError, l.rets, l.availOut, s.pieces⟩
      else
        match sessDecompress ok fuel (hlFlush (i + 1)) l s piece with
        | .error e => .error e
        | .ok (_, l, s') =>
          match winEvents win out h (s'.log.drop s.log.length) with
          | .error e => .error e
          | .ok h =>
            if !short && !h.hasError then
              winLoop win ok fuel out archiveSize rounds (i + 1) (total + piece.length)
                { inp with data := inp.data.drop n } l s' h
            else .ok ⟨h.ret, h.w, total + piece.length, h.hasError, l.rets, l.availOut, s'.pieces⟩

/-- `ZlibWtDecompressFileOrDirEx`, `:213-304`, when the buffers and the session can be created. -/
def winExtract (Z : Inflater) (win : Win) (ok : AllocOracle) (fuel : Nat) (hdr item : Bytes)
    (out : Bytes) (archiveSize : Nat) (inp : Input) (w : WWorld) : Run WExtracted :=
  let c := Sess.create Z hdr item DEF_CHUNK_SIZE
  winLoop win ok fuel out archiveSize fuel 0 0 inp c.1 c.2 (HLW.init w)

/-- The paths `SHFileOperationA` finds in memory: strings up to the first empty one.  `none`: none of
them is empty, the memory that may be read ends before. -/
def shPaths : Bytes → Bytes → Option (List Bytes)
  | _, [] => none
  | cur, c :: mem =>
    if c = 0 then if cur = [] then some [] else (shPaths [] mem).map (cur :: ·)
    else shPaths (cur ++ [c]) mem

/-- `FO_DELETE` of one path, with everything below it; `false`: not done. -/
def winDelete (win : Win) (w : WWorld) (path : Bytes) : Bool × WWorld :=
  if win.refuses w.calls then (false, w.tick)
  else
    match winLocate win w.cwd path with
    | none => (false, w.tick)
    | some l =>
      if w.fs l = none then (false, w.tick)
      else (true, { w.tick with fs := fun x => if l <+: x then none else w.fs x })

/-- The paths one after the other, up to the first failure. -/
def winDeletes (win : Win) : List Bytes → WWorld → WWorld
  | [], w => w
  | p :: ps, w =>
    match winDelete win w p with
    | (ok, w) => if ok then winDeletes win ps w else w

/-- `RemoveNonEmptyDirectory` (Windows), `src/tools/main_self_extract.c:326-342`: the name is passed as
the list of paths; `after` is what the memory holds behind the NUL of the name.  Simplification: no
wildcards in paths. -/
def winClear (win : Win) (w : WWorld) (dir after : Bytes) : Run WWorld :=
  match shPaths [] (dir ++ 0 :: after) with
  | none => .error .oobRead
  | some ps => .ok (winDeletes win ps w)

end Zwt
