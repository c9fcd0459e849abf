import Verif.Model.DirParser

/-!
What `ZlibWtGetCurFileDataForSession` (`src/core/zlibwt_decompress_routines.c:69-72`) gives during the
callbacks of a directory archive.  The parser of `Model/DirParser` is repeated with the content of
`fileData` at every callback; `C94_same_parser` shows that it is the same parser.
-/

namespace Zwt

/-- `struct SDirIterFileData`, the fields the library assigns. -/
structure FileData where
  name : Option Bytes
  type : FType
  deepness : Nat
  deriving DecidableEq, Repr

/-- The content of `fileData`.  `deepness` is assigned only at the start of the archive,
`…version_0000.c:40`. -/
def curFile (s : DirSt) : FileData := ⟨s.name, s.fileType, 0⟩

/-- As `headerSwitch`, `…version_0000.c:97-117`; `fileType` is assigned before the callback, `:112-113`. -/
def headerSwitchCur (ok : AllocOracle) (s : DirSt) : DirSt × List (Ev × FileData) :=
  if itKind s.item = K_DIR_START then ({ fileHeaderClosing ok s with fileType := .dir }, [])
  else if itKind s.item = K_FILE then ({ fileHeaderClosing ok s with fileType := .file }, [])
  else if itKind s.item = K_SYM_LINK then
    ({ fileHeaderClosing ok s with fileType := .symlink }, [])
  else if itKind s.item = K_DIR_END then
    ({ s with fileType := .dir }, [(.dirEnd, curFile { s with fileType := .dir })])
  else (s, [])

/-- As `dirBody`, `…version_0000.c:85-210`. -/
def dirBodyCur (ok : AllocOracle) (recur : DirSt → Bytes → Run (DirSt × List (Ev × FileData)))
    (s : DirSt) (buf : Bytes) : Run (DirSt × List (Ev × FileData)) :=
    let remn := sub64 s.secSize s.offset
    if s.hasError then .ok (s, [])
    else
      let next (s' : DirSt) (evs : List (Ev × FileData)) : Run (DirSt × List (Ev × FileData)) :=
        if buf.length > remn then
          match recur s' (buf.drop remn) with
          | .error e => .error e
          | .ok (s'', evs') => .ok (s'', evs ++ evs')
        else .ok (s', evs)
      match s.stage with
      | .header =>
        if buf.length ≥ remn then
          match memcpyAt s.item s.offset (buf.take remn) with
          | .error e => .error e
          | .ok item =>
            let (s1, evs) := headerSwitchCur ok { s with item := item }
            next { s1 with offset := 0 } evs
        else
          match memcpyAt s.item s.offset buf with
          | .error e => .error e
          | .ok item => .ok ({ s with item := item, offset := s.offset + buf.length }, [])
      | .filename =>
        match s.name with
        | none => .error .nullDeref
        | some nm =>
          if buf.length ≥ remn then
            match memcpyAt nm s.offset (buf.take remn) with
            | .error e => .error e
            | .ok nm' =>
              let s1 := { s with name := some nm' }
              let ev := (Ev.itemStart s.fileType nm' s.item, curFile s1)
              if itKind s.item = K_FILE then
                next { s1 with stage := .readfile, secSize := itFileSize s.item, offset := 0 } [ev]
              else if itKind s.item = K_DIR_START then
                next { s1 with stage := .header, secSize := ITEM_SIZE, offset := 0 } [ev]
              else if itKind s.item = K_SYM_LINK then
                next { s1 with stage := .symLink, secSize := itFileSize s.item, offset := 0 } [ev]
              else .ok ({ s1 with hasError := true }, [])
          else
            match memcpyAt nm s.offset buf with
            | .error e => .error e
            | .ok nm' => .ok ({ s with name := some nm', offset := s.offset + buf.length }, [])
      | .readfile =>
        if buf.length ≥ remn then
          if itKind s.item = K_FILE then
            next { s with stage := .fileGap,
                          secSize := sub64 (itFileSizeNorm s.item) (itFileSize s.item),
                          offset := 0 } [(.fileRead (buf.take remn), curFile s), (.fileEnd, curFile s)]
          else .error .assertFail
        else .ok ({ s with offset := s.offset + buf.length }, [(.fileRead buf, curFile s)])
      | .fileGap | .symLinkGap =>
        if buf.length ≥ remn then
          if itKind s.item = K_FILE ∨ itKind s.item = K_SYM_LINK then
            next { s with stage := .header, secSize := ITEM_SIZE, offset := 0 } []
          else .error .assertFail
        else .ok ({ s with offset := s.offset + buf.length }, [])
      | .symLink =>
        if buf.length ≥ remn then
          if itKind s.item = K_SYM_LINK then
            next { s with stage := .symLinkGap,
                          secSize := sub64 (itFileSizeNorm s.item) (itFileSize s.item),
                          offset := 0 } [(.symLink (buf.take remn) (buf.drop remn), curFile s)]
          else .error .assertFail
        else .ok ({ s with offset := s.offset + buf.length }, [])

/-- As `dirData`. -/
def dirDataCur (ok : AllocOracle) : Nat → DirSt → Bytes → Run (DirSt × List (Ev × FileData))
  | 0, _, _ => .error .outOfFuel
  | depth+1, s, buf => dirBodyCur ok (dirDataCur ok depth) s buf

/-- As `dirFeed`: every callback with what `ZlibWtGetCurFileDataForSession` gives in it. -/
def dirFeedCur (ok : AllocOracle) : DirSt → List Bytes → Run (DirSt × List (Ev × FileData))
  | s, [] => .ok (s, [])
  | s, b :: bs =>
    match dirDataCur ok (depthFor b.length) s b with
    | .error e => .error e
    | .ok (s', evs) =>
      match dirFeedCur ok s' bs with
      | .error e => .error e
      | .ok (s'', evs') => .ok (s'', evs ++ evs')

end Zwt
