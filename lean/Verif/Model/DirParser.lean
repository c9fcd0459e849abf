import Verif.Model.Format

/-!
The directory-archive parser, `src/core/zlibwt_decompress_routines_version_0000.c`.

User callbacks are recorded as a list of events.  (The callbacks get pointers into the session
and into the output buffer; the event records the bytes they can legally see.)
-/

namespace Zwt

/-- `fileData.fileType` as seen by the callbacks: `0` initially, then
`ZlibWithToolsFileTypeDir/File/SymLink` (`…version_0000.c:41,100,105,109,112`). -/
inductive FType | none | dir | file | symlink
  deriving DecidableEq, Repr

/-- `stage`: `ZLIBWT_DECOMPR_STAGE_*`, `zlibwt_decompress_data.h:19-24`. -/
inductive Stage | header | filename | readfile | fileGap | symLink | symLinkGap
  deriving DecidableEq, Repr

/-- User callbacks of `struct SZlibWtDecompressCallbacks`, in the order they are invoked. -/
inductive Ev
  /-- `clbks.fl.decompressStart` -/
  | flStart
  /-- `clbks.fl.read(buffer)` -/
  | flRead (data : Bytes)
  /-- `clbks.dr.decompressStart` -/
  | drStart
  /-- `clbks.dr.dirOrFileStart(fileData, fileItem)`; `name` is the whole allocation behind
  `fileData->pFileName`, `item` the memory of `*fileItem`. -/
  | itemStart (ft : FType) (name : Bytes) (item : Bytes)
  /-- `clbks.dr.fileRead(buffer)` -/
  | fileRead (data : Bytes)
  /-- `clbks.dr.fileEnd()` -/
  | fileEnd
  /-- `clbks.dr.dirEnd()` -/
  | dirEnd
  /-- `clbks.dr.symLinkCreate(buffer, len)`; `after` are the valid bytes of the same output
  buffer that follow the `len` bytes `target` (the callback is given no terminator). -/
  | symLink (target : Bytes) (after : Bytes)
  deriving DecidableEq, Repr

/-- The part of `struct ZlibWtDecompressSession` used by the directory parser
(`zlibwt_decompress_data.h:41-59`).  `item` is the memory of `fileItem`; on the little-endian
hosts modelled, `le*toh` is the identity on memory.  `name` is the allocation behind
`fileData.pFileName` (`none` = null pointer).  `reallocs` counts `realloc` calls so far and
is the index into the failure oracle (bookkeeping only). -/
structure DirSt where
  item : Bytes
  name : Option Bytes
  fileType : FType
  stage : Stage
  offset : Nat
  secSize : Nat
  hasError : Bool
  reallocs : Nat
  deriving DecidableEq, Repr

/-- Failure oracle for `realloc`: call number and size to success.  (A size-0 request may give
null or not, as the C standard allows: it is one of the oracle's choices.) -/
abbrev AllocOracle := Nat → Nat → Bool

/-- Content of a block after `realloc` to `n` bytes: old bytes kept, new ones arbitrary
(shown as `0xCD`). -/
def reallocContent (old : Option Bytes) (n : Nat) : Bytes :=
  (old.getD [] ++ List.replicate n 0xCD).take n

/-- `FileHeaderClosingStat`, `…version_0000.c:67-82`. -/
def fileHeaderClosing (ok : AllocOracle) (s : DirSt) : DirSt :=
  let n := itNameLenNorm s.item
  if ok s.reallocs n then
    { s with stage := .filename, name := some (reallocContent s.name n), secSize := n,
             reallocs := s.reallocs + 1 }
  else
    { s with stage := .filename, hasError := true, name := none, secSize := n,
             reallocs := s.reallocs + 1 }

/-- The `switch(contentType)` in stage HEADER, `…version_0000.c:97-117`. -/
def headerSwitch (ok : AllocOracle) (s : DirSt) : DirSt × List Ev :=
  if itKind s.item = K_DIR_START then ({ fileHeaderClosing ok s with fileType := .dir }, [])
  else if itKind s.item = K_FILE then ({ fileHeaderClosing ok s with fileType := .file }, [])
  else if itKind s.item = K_SYM_LINK then
    ({ fileHeaderClosing ok s with fileType := .symlink }, [])
  else if itKind s.item = K_DIR_END then ({ s with fileType := .dir }, [.dirEnd])
  else (s, [])

/-- Body of `ZlibWtDecompressCallbackStatData_dir`, `…version_0000.c:85-210`; `recur` is the
nested call to itself at lines 121/152/169/185/200. -/
def dirBody (ok : AllocOracle) (recur : DirSt → Bytes → Run (DirSt × List Ev))
    (s : DirSt) (buf : Bytes) : Run (DirSt × List Ev) :=
    let remn := sub64 s.secSize s.offset
    if s.hasError then .ok (s, [])
    else
      /- lines 120-122 etc.: recurse on what is left of the buffer -/
      let next (s' : DirSt) (evs : List Ev) : Run (DirSt × List Ev) :=
        if buf.length > remn then
          match recur s' (buf.drop remn) with
          | .error e => .error e
          | .ok (s'', evs') => .ok (s'', evs ++ evs')
        else .ok (s', evs)
      match s.stage with
      | .header =>                                            -- 94-128
        if buf.length ≥ remn then
          match memcpyAt s.item s.offset (buf.take remn) with
          | .error e => .error e
          | .ok item =>
            let (s1, evs) := headerSwitch ok { s with item := item }
            next { s1 with offset := 0 } evs
        else
          match memcpyAt s.item s.offset buf with
          | .error e => .error e
          | .ok item => .ok ({ s with item := item, offset := s.offset + buf.length }, [])
      | .filename =>                                          -- 129-159
        match s.name with
        | none => .error .nullDeref
        | some nm =>
          if buf.length ≥ remn then
            match memcpyAt nm s.offset (buf.take remn) with
            | .error e => .error e
            | .ok nm' =>
              let s1 := { s with name := some nm' }
              let ev := Ev.itemStart s.fileType nm' s.item
              if itKind s.item = K_FILE then
                next { s1 with stage := .readfile, secSize := itFileSize s.item, offset := 0 } [ev]
              else if itKind s.item = K_DIR_START then
                next { s1 with stage := .header, secSize := ITEM_SIZE, offset := 0 } [ev]
              else if itKind s.item = K_SYM_LINK then
                next { s1 with stage := .symLink, secSize := itFileSize s.item, offset := 0 } [ev]
              else .ok ({ s1 with hasError := true }, [])
          else
            match memcpyAt nm s.offset buf with
            | .error e => .error e
            | .ok nm' => .ok ({ s with name := some nm', offset := s.offset + buf.length }, [])
      | .readfile =>                                          -- 160-176
        if buf.length ≥ remn then
          if itKind s.item = K_FILE then
            next { s with stage := .fileGap,
                          secSize := sub64 (itFileSizeNorm s.item) (itFileSize s.item),
                          offset := 0 } [.fileRead (buf.take remn), .fileEnd]
          else .error .assertFail
        else .ok ({ s with offset := s.offset + buf.length }, [.fileRead buf])
      | .fileGap | .symLinkGap =>                             -- 177-191
        if buf.length ≥ remn then
          if itKind s.item = K_FILE ∨ itKind s.item = K_SYM_LINK then
            next { s with stage := .header, secSize := ITEM_SIZE, offset := 0 } []
          else .error .assertFail
        else .ok ({ s with offset := s.offset + buf.length }, [])
      | .symLink =>                                           -- 192-206
        if buf.length ≥ remn then
          if itKind s.item = K_SYM_LINK then
            next { s with stage := .symLinkGap,
                          secSize := sub64 (itFileSizeNorm s.item) (itFileSize s.item),
                          offset := 0 } [.symLink (buf.take remn) (buf.drop remn)]
          else .error .assertFail
        else .ok ({ s with offset := s.offset + buf.length }, [])

/-- `ZlibWtDecompressCallbackStatData_dir`, `…version_0000.c:85-210`.  The fuel is the
permitted recursion depth. -/
def dirData (ok : AllocOracle) : Nat → DirSt → Bytes → Run (DirSt × List Ev)
  | 0, _, _ => .error .outOfFuel
  | depth+1, s, buf => dirBody ok (dirData ok depth) s buf

/-- State set up by `ZlibWtDecompressCallbackStatData_version_0000` for a directory archive
(`…version_0000.c:34-51`).  `junk` is the memory of `fileItem` after the assignments (its
reserved bytes are uninitialised).  `fileData.pFileName` is null from session creation
(`zlibwt_decompress_routines.c:94`), `hasError` cleared at `:42`. -/
def dirInit (junk : Bytes) : DirSt :=
  { item := itemBytes ⟨0, 0, 0, 0, 0, K_SINGLE_BLOB⟩ junk, name := none, fileType := .none,
    stage := .header, offset := 0, secSize := ITEM_SIZE, hasError := false, reallocs := 0 }

/-- Recursion depth that always suffices for a buffer of `n` bytes (theorem C24); the model
uses it where the C code relies on the stack being deep enough. -/
def depthFor (n : Nat) : Nat := 4 * (n / 40) + 5

/-- The parser callback applied to a sequence of output buffers, as the decompress loop does. -/
def dirFeed (ok : AllocOracle) : DirSt → List Bytes → Run (DirSt × List Ev)
  | s, [] => .ok (s, [])
  | s, b :: bs =>
    match dirData ok (depthFor b.length) s b with
    | .error e => .error e
    | .ok (s', evs) =>
      match dirFeed ok s' bs with
      | .error e => .error e
      | .ok (s'', evs') => .ok (s'', evs ++ evs')

end Zwt
