import Verif.Model.HLTest

/-!
`src/tests/main_zlibwt_ll_test.cpp`: a program that archives files and directories and extracts
archives through a decompress session of its own.

Simplifications as in `Model/HLTest.lean`; the counter of rounds (`int`, `:112`) does not overflow,
which would take 2^31 rounds of 4096 bytes.
-/

namespace Zwt

/-- `struct SDecompressData`, `:33-42`, and the world.  `dirPath` is the memory of `directoryPath` up
to the terminator at index `directoryPathLen` (`none`: null pointer; then `directoryPathLen` is 0).
`lost` counts the open descriptors whose number has been overwritten. -/
structure LT where
  w : World
  fpOut : Option OpenFile
  dirPath : Option Bytes
  hasError : Bool
  fd : Fd
  lost : Nat

/-- Initial value, `:89`. -/
def LT.init (w : World) : LT :=
  { w := w, fpOut := none, dirPath := none, hasError := false, fd := .bad, lost := 0 }

/-- Size given to `snprintf`, `:232`: at most one byte less is written. -/
def LT_NAME_SIZE : Nat := 4095

/-- `DecompressFileStartCallback`, `:171-178`. -/
def ltFileStart (os : Os) (out : Bytes) (h : LT) : LT :=
  match sysOpen os h.w out FOPEN_MODE true with
  | (none, w) => { h with w := w, fpOut := none, hasError := true }
  | (some l, w) => { h with w := w, fpOut := some ⟨l, 0⟩ }

/-- `DecompressFileAndBlobCallback`, `:181-185`. -/
def ltFileData (os : Os) (h : LT) (d : Bytes) : Run LT :=
  match h.fpOut with
  | none => .error .nullDeref
  | some f =>
    match sysWrite os h.w f d with
    | (f, w) => .ok { h with w := w, fpOut := some f }

/-- `DecompressDirStartCallback`, `:190-206`. -/
def ltDirStart (os : Os) (out : Bytes) (h : LT) : LT :=
  match sysMkdir os h.w out 0o775 with
  | (.ok, w) =>
    if os.noMem w.calls then { h with w := w.tick, dirPath := none, hasError := true }
    else { h with w := w.tick, dirPath := some out }
  | (_, w) => { h with w := w, hasError := true }

/-- The first branch of `DecompressDirFileOrDirStartCallback`, `:212-229`. -/
def ltDirItem (os : Os) (h : LT) (name item : Bytes) : Run LT :=
  if os.noMem h.w.calls then .ok { h with w := h.w.tick, hasError := true }
  else if itNameLen item ≤ name.length then
    let path := h.dirPath.getD [] ++ 47 :: name.take (itNameLen item)
    match sysMkdir os h.w.tick (cString path) (itMode item) with
    | (.ok, w) => .ok { h with w := w, dirPath := some path }
    | (_, w) => .ok { h with w := w, dirPath := some path, hasError := true }
  else .error .oobRead

/-- The descriptor is overwritten. -/
def LT.lose (h : LT) : Nat :=
  match h.fd with
  | .opened _ => h.lost + 1
  | _ => h.lost

/-- For reference: whether the descriptor in `fd` is open. -/
def LT.held (h : LT) : Nat :=
  match h.fd with
  | .opened _ => 1
  | _ => 0

/-- The second branch, `:230-240`, for everything that is not a directory. -/
def ltOtherItem (os : Os) (h : LT) (name item : Bytes) : Run LT :=
  match h.dirPath with
  | none => .error .nullDeref
  | some dir =>
    match cstr? name with
    | none => .error .oobRead
    | some n =>
      match sysOpen os h.w ((cString dir ++ 47 :: n).take (LT_NAME_SIZE - 1)) (modeFo (itMode item))
          false with
      | (none, w) => .ok { h with w := w, fd := .bad, hasError := true, lost := h.lose }
      | (some l, w) => .ok { h with w := w, fd := .opened ⟨l, 0⟩, lost := h.lose }

/-- `DecompressDirFileReadCallback`, `:244-249`. -/
def ltFileRead (os : Os) (h : LT) (d : Bytes) : Run LT :=
  match h.fd with
  | .bad => .ok { h with w := h.w.tick }
  | .closed => .error .useAfterFree
  | .opened f =>
    match sysWrite os h.w f d with
    | (f, w) => .ok { h with w := w, fd := .opened f }

/-- `DecompressDirFileEndCallback`, `:252-256`. -/
def ltFileEnd (h : LT) : Run LT :=
  match h.fd with
  | .bad => .ok { h with w := h.w.tick }
  | .closed => .error .doubleFree
  | .opened _ => .ok { h with w := h.w.tick, fd := .closed }

/-- `DecompressDirDirEndCallback`, `:259-267`. -/
def ltDirEnd (h : LT) : Run LT :=
  match h.dirPath with
  | none => .error .nullDeref
  | some p =>
    match lastIndexOf 47 (cString p) with
    | none => .error .assertFail
    | some i => .ok { h with dirPath := some (p.take i) }

/-- One callback.  The one for links, `:270-275`, does nothing. -/
def ltEvent (os : Os) (out : Bytes) (h : LT) : Ev → Run LT
  | .flStart => .ok (ltFileStart os out h)
  | .flRead d => ltFileData os h d
  | .drStart => .ok (ltDirStart os out h)
  | .itemStart .dir name item => ltDirItem os h name item
  | .itemStart _ name item => ltOtherItem os h name item
  | .fileRead d => ltFileRead os h d
  | .fileEnd => ltFileEnd h
  | .dirEnd => ltDirEnd h
  | .symLink _ _ => .ok h

/-- A sequence of callbacks. -/
def ltEvents (os : Os) (out : Bytes) : LT → List Ev → Run LT
  | h, [] => .ok h
  | h, e :: es =>
    match ltEvent os out h e with
    | .error e => .error e
    | .ok h => ltEvents os out h es

/-- How an extraction ends: the data of the callbacks; for reference also the codes `inflate`
returned, the room it left in the output buffer, and the buffers in which content was delivered. -/
structure LTEnd where
  st : LT
  codes : List Int
  room : Nat
  pieces : List Bytes

/-- Sizes of both buffers, `:91`, `:110`. -/
def LT_CHUNK : Nat := 4096

/-- The loop, `:115-126`; `i` rounds have been made. -/
def ltLoop {Z : Inflater} (os : Os) (ok : AllocOracle) (fuel : Nat) (out : Bytes) :
    Nat → Nat → Input → LL Z → Sess → LT → Run LTEnd
  | 0, _, _, _, _, _ => .error .outOfFuel
  | rounds+1, i, inp, l, s, h =>
    let piece := inp.data.take LT_CHUNK
    let short : Bool := decide (inp.data.length < LT_CHUNK)
    if short && inp.err then .ok ⟨h, l.rets, l.availOut, s.pieces⟩
    else
      match sessDecompress ok fuel (hlFlush (i + 1)) l s piece with
      | .error e => .error e
      | .ok (_, l, s') =>
        match ltEvents os out h (s'.log.drop s.log.length) with
        | .error e => .error e
        | .ok h =>
          if !short && !h.hasError then
            ltLoop os ok fuel out rounds (i + 1) { inp with data := inp.data.drop LT_CHUNK } l s' h
          else .ok ⟨h, l.rets, l.availOut, s'.pieces⟩

/-- The extraction, `:89-133`, when the session can be created.  `hdr`, `item` are uninitialised memory
of the session. -/
def ltExtract (Z : Inflater) (os : Os) (ok : AllocOracle) (fuel : Nat) (hdr item : Bytes)
    (out : Bytes) (inp : Input) (w : World) : Run LTEnd :=
  let c := Sess.create Z hdr item LT_CHUNK
  ltLoop os ok fuel out fuel 0 inp c.1 c.2 (LT.init w)

/-- Case `b`, `:82-137`: `nReturn` is 1 and is not changed. -/
def llTestExtract (Z : Inflater) (os : Os) (ok : AllocOracle) (fuel : Nat) (hdr item : Bytes)
    (inp out : Bytes) (w : World) : Run (Int × World) :=
  match sysOpenRead os w inp with
  | (none, w) => .ok (1, w)
  | (some l, w) =>
    match ltExtract Z os ok fuel hdr item out (contentAt w l) w with
    | .error e => .error e
    | .ok r => .ok (1, r.st.w)

/-- `main`, `:48-152`, with `a_argv[1 …]` = `args`: exit status and the world.  The statements of cases
`a`, `:66-81`, and `c`, `:138-146`, are those of the other program (`main_zlibwt_hl_test.cpp`). -/
def llTestMain (D : Deflater) (Z : Inflater) (os : Os) (fuel : Nat) (env : HlTestEnv)
    (args : List Bytes) (w : World) : Run (Int × World) :=
  match args with
  | fn :: inp :: more =>
    let out := more.head?.getD (strB "out.zlib")
    if fn.head? = some 97 then hlTestFile D os fuel env.junk inp out w
    else if fn.head? = some 98 then llTestExtract Z os env.ok fuel env.hdr env.item inp out w
    else if fn.head? = some 99 then hlTestDir D os fuel env.junk env.see .plain inp out w
    else .ok (1, w)
  | _ => .ok (1, w)

end Zwt
