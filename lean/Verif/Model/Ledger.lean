import Verif.Model.DirParser

/-!
Resources of the compression and extraction functions: which blocks, streams and descriptors are
acquired and released on which path of `zlibwt_compression_routines.c`,
`zlibwt_ll_compression_routines.c`, `zlibwt_ll_decompress_routines.c`,
`zlibwt_decompress_routines.c` and `zlibwt_hl_decompress_routines.c`.

Simplification: everything a path depends on besides resources (data read, codes of zlib, answers
of the filter, …) is left to an oracle, so the model has every path of the code and possibly more.
Memory used inside zlib is one resource per stream.  `IterateOverDirectoryFilesNoRecurse` is not in
the repository; it is taken to release what it acquires.
-/

namespace Zwt

/-- What can be held. -/
inductive Res
  /-- `malloc`, `realloc`, `strdup` -/
  | block
  /-- `fopen` -/
  | stream
  /-- `open` -/
  | fd
  /-- `deflateInit`, `inflateInit` -/
  | zlib
  deriving DecidableEq, Repr

/-- What is held, each with the number of the acquisition; `tick` counts the oracle's answers. -/
structure Led where
  tick : Nat
  live : List (Nat × Res)
  deriving DecidableEq, Repr

/-- Answers: whether acquisition (or test) number `n` succeeds (comes out true). -/
abbrev Oracle := Nat → Bool

/-- A computation that acquires and releases. -/
def LM (α : Type) := Led → Run (α × Led)

instance : Monad LM where
  pure a := fun l => .ok (a, l)
  bind m f := fun l =>
    match m l with
    | .error e => .error e
    | .ok (a, l) => f a l

/-- A call that may acquire a resource. -/
def acquire (o : Oracle) (r : Res) : LM (Option Nat) := fun l =>
  if o l.tick then .ok (some l.tick, ⟨l.tick + 1, (l.tick, r) :: l.live⟩)
  else .ok (none, ⟨l.tick + 1, l.live⟩)

/-- `free`, `fclose`, `close`, `deflateEnd`, `inflateEnd`. -/
def release (r : Res) (id : Nat) : LM Unit := fun l =>
  if (id, r) ∈ l.live then .ok ((), { l with live := l.live.erase (id, r) })
  else .error .doubleFree

/-- `free(p)` with `p` possibly null. -/
def releaseOpt (r : Res) : Option Nat → LM Unit
  | none => pure ()
  | some id => release r id

/-- Something else decides. -/
def ask (o : Oracle) : LM Bool := fun l => .ok (o l.tick, { l with tick := l.tick + 1 })

/-- Leaving defined behaviour, or the process. -/
def fault {α : Type} (e : Fault) : LM α := fun _ => .error e

/-! ### Compression -/

/-- `ZlibWtDestroyCompressSession`, `zlibwt_ll_compression_routines.c:70-78`: the stream, then the
session. -/
def ledDestroyCS (s : Nat × Nat) : LM Unit := do
  release .zlib s.2
  release .block s.1

/-- `ZlibWtCreateTypedCompressSession`, `:32-67`. -/
def ledCreateCS (o : Oracle) : LM (Option (Nat × Nat)) := do
  match ← acquire o .block with
  | none => pure none
  | some s =>
    match ← acquire o .zlib with
    | none =>
      release .block s
      pure none
    | some z =>
      if ← ask o then pure (some (s, z))
      else
        ledDestroyCS (s, z)
        pure none

/-- `ZlibWtCompressFileEx`, `zlibwt_compression_routines.c:164-183`. -/
def ledCompressFile (o : Oracle) : LM Int := do
  match ← acquire o .block with
  | none => pure 1
  | some bi =>
    match ← acquire o .block with
    | none =>
      release .block bi
      pure 1
    | some bo =>
      match ← ledCreateCS o with
      | none => fault .nullDeref
      | some s =>
        let ok ← ask o
        ledDestroyCS s
        release .block bo
        release .block bi
        pure (if ok then 0 else 1)

/-- The tree a walk meets. -/
inductive Tour
  | done
  | file (rest : Tour)
  | link (rest : Tour)
  | dir (sub rest : Tour)
  | other (rest : Tour)
  deriving DecidableEq, Repr

/-- Case `ZlibWithToolsFileTypeFile` of the walk's callback, `:408-428`. -/
def ledVisitFile (o : Oracle) : LM Unit := do
  match ← acquire o .stream with
  | none => pure ()
  | some f =>
    if ← ask o then                       -- fstat
      release .stream f
    else release .stream f

/-- Case `ZlibWithToolsFileTypeSymLink`, `:429-483`. -/
def ledVisitLink (o : Oracle) : LM Unit := do
  match ← acquire o .block with
  | none => fault .processExit
  | some b =>
    if ← ask o then release .block b      -- readlink
    else fault .processExit

/-- The walk, `:350-490`.  Before each entry: is the walk over?  Is the entry skipped? -/
def ledWalk (o : Oracle) : Tour → LM Unit
  | .done => pure ()
  | .file rest => do
    if ← ask o then pure ()
    else
      if ← ask o then pure () else ledVisitFile o
      ledWalk o rest
  | .link rest => do
    if ← ask o then pure ()
    else
      if ← ask o then pure () else ledVisitLink o
      ledWalk o rest
  | .dir sub rest => do
    if ← ask o then pure ()
    else
      if ← ask o then pure () else ledWalk o sub
      ledWalk o rest
  | .other rest => ledWalk o rest

/-- The loop over the extra buffers, `:213-220`, `:261-268`: did all of them go well? -/
def ledExtras (o : Oracle) : Nat → LM Bool
  | 0 => pure true
  | n+1 => do
    if ← ask o then ledExtras o n else pure false

/-- `ZlibWtCompressDirectoryWithBufferExRoot`, `:187-231`, `ZlibWtCompressDirectoryWithBufferEx`,
`:235-279` (`n` extra buffers), `ZlibWtCompressDirectoryEx`, `:284-315` (`n = 0`). -/
def ledCompressDir (o : Oracle) (n : Nat) (t : Tour) : LM Int := do
  match ← acquire o .block with
  | none => pure 1
  | some bo =>
    match ← acquire o .block with
    | none =>
      release .block bo
      pure 1
    | some bi =>
      match ← ledCreateCS o with
      | none => pure 1
      | some s =>
        if ← ledExtras o n then
          ledWalk o t
          ledDestroyCS s
          release .block bi
          release .block bo
          let ok ← ask o
          pure (if ok then 0 else 2)
        else
          ledDestroyCS s
          release .block bi
          release .block bo
          pure 2

/-! ### Extraction -/

/-- What the extraction callbacks and the session hold (`struct SDecompressData`,
`zlibwt_hl_decompress_routines.c:198-210`; `fileData.pFileName`).  A descriptor number stays in
`fd` after `close`. -/
structure Hold where
  fp : Option Nat
  dir : Option Nat
  fd : Option Nat
  name : Option Nat
  deriving DecidableEq, Repr

/-- Steps of an extraction that touch resources or use what they acquired. -/
inductive LEv
  /-- `realloc` of the name, `FileHeaderClosingStat`, `…version_0000.c:76-81` -/
  | name
  | flStart
  | flRead
  | drStart
  | dirItem
  | fileItem
  | linkItem
  | fileRead
  | fileEnd
  | dirEnd
  | symLink
  deriving DecidableEq, Repr

/-- `MkdirRecurseInline`, `zlibwt_hl_decompress_routines.c:136-145`. -/
def ledMkdir (o : Oracle) : LM Bool := do
  match ← acquire o .block with
  | none => pure false
  | some p =>
    let ok ← ask o
    release .block p
    pure ok

/-- One step. -/
def ledEvent (o : Oracle) (h : Hold) : LEv → LM Hold
  | .name => do
    match ← acquire o .block with
    | some p =>
      releaseOpt .block h.name
      pure { h with name := some p }
    | none =>
      if ← ask o then                     -- a request for no bytes may free and give null
        releaseOpt .block h.name
        pure { h with name := none }
      else pure { h with name := none }
  | .flStart => do                        -- :326-335
    let f ← acquire o .stream
    pure { h with fp := f }
  | .flRead =>                            -- :338-342
    if h.fp = none then fault .nullDeref else pure h
  | .drStart => do                        -- :348-365
    if ← ledMkdir o then
      let p ← acquire o .block
      pure { h with dir := p }
    else pure h
  | .dirItem => do                        -- :373-388
    match ← acquire o .block with
    | none => pure h
    | some p =>
      releaseOpt .block h.dir
      let _ ← ledMkdir o
      pure { h with dir := some p }
  | .fileItem => do                       -- :389-401
    let f ← acquire o .fd
    pure { h with fd := f }
  | .linkItem => pure h
  | .fileRead => pure h
  | .fileEnd => do                        -- :452-456
    releaseOpt .fd h.fd
    pure h
  | .dirEnd => do                         -- :459-468
    if h.dir = none then fault .nullDeref
    else if ← ask o then pure h else fault .assertFail
  | .symLink => pure h

/-- Several steps. -/
def ledEvents (o : Oracle) : Hold → List LEv → LM Hold
  | h, [] => pure h
  | h, e :: es => do
    let h ← ledEvent o h e
    ledEvents o h es

/-- `ZlibWtCreateLLDecompressSession`, `zlibwt_ll_decompress_routines.c:19-51`, called by
`ZlibWtCreateDecompressSession`, `zlibwt_decompress_routines.c:74-102`.  If `inflateInit` fails, the
session is not freed. -/
def ledCreateDS (o : Oracle) : LM (Option (Nat × Nat)) := do
  match ← acquire o .block with
  | none => pure none
  | some s =>
    match ← acquire o .zlib with
    | none => pure none
    | some z => pure (some (s, z))

/-- `ZlibWtDestroyDecompressSession`, `zlibwt_decompress_routines.c:105-109`, and
`ZlibWtDestroyLLDecompressSession`, `zlibwt_ll_decompress_routines.c:54-60`. -/
def ledDestroyDS (s : Nat × Nat) (name : Option Nat) : LM Unit := do
  releaseOpt .block name
  release .zlib s.2
  release .block s.1

/-- The loop of `ZlibWtDecompressFileOrDirEx`, `:270-286`: the calls of
`ZlibWtDecompressBufferToCallback` with the steps each makes.  Result: what is held, and the number
of calls made. -/
def ledRounds (o : Oracle) : Hold → List (List LEv) → LM (Hold × Nat)
  | h, [] => pure (h, 0)
  | h, es :: rest => do
    if ← ask o then
      let h ← ledEvents o h es
      if ← ask o then
        let r ← ledRounds o h rest
        pure (r.1, r.2 + 1)
      else pure (h, 1)
    else pure (h, 0)

/-- `ZlibWtDecompressFileOrDirEx`, `:213-304` (the clean-up at `:277-280` and at `:290-293` is the
same).  Result: the number of calls of `ZlibWtDecompressBufferToCallback`. -/
def ledExtract (o : Oracle) (rounds : List (List LEv)) : LM Nat := do
  match ← acquire o .block with
  | none => pure 0
  | some bo =>
    match ← acquire o .block with
    | none =>
      release .block bo
      pure 0
    | some bi =>
      match ← ledCreateDS o with
      | none =>
        release .block bi
        release .block bo
        pure 0
      | some s =>
        let r ← ledRounds o ⟨none, none, none, none⟩ rounds
        releaseOpt .stream r.1.fp
        ledDestroyDS s r.1.name
        release .block bi
        release .block bo
        pure r.2

/-- `ZlibWtDecompressFileOrDir`, `:307-322`. -/
def ledExtractFile (o : Oracle) (rounds : List (List LEv)) : LM Nat := do
  match ← acquire o .stream with
  | none => pure 0
  | some f =>
    let n ← ledExtract o rounds
    release .stream f
    pure n

end Zwt
