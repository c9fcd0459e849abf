import Verif.Model.Walk

/-!
Archiving a directory in which the archive itself lies: the directory functions of
`src/core/zlibwt_compression_routines.c` called with a callback that writes to a file, as
`src/tools/main_compressdir.cpp:64-77`, `:105-109`, `src/tests/main_zlibwt_hl_test.cpp:62-70`,
`:115-119` and `src/tests/main_zlibwt_ll_test.cpp:138-146` do.  None of these programs excludes the output
file from the walk.

`Model/Walk.lean` has files that do not change while the function runs.  Here the output file is
different: what is found in it is what has been written so far.  All other files are as there.
-/

namespace Zwt

/-- The output file: the paths that lead to it, its mode, and what the output stream holds back: of `n`
bytes given to `fwrite`, the first `shown n` are in the file. -/
structure Own where
  path : Bytes → Bool
  mode : Nat
  shown : Nat → Nat

variable {σ : Type} {D : Deflater}

/-- Content of the output file when the buffers `out` have been passed to the session `s`. -/
def ownContent (own : Own) (fuel : Nat) (s : CS D) (out : List Bytes) : Run Bytes :=
  match compressRun fuel (out.map .compress) s with
  | .error e => .error e
  | .ok (_, s) => .ok (s.log.flatten.take (own.shown s.log.flatten.length))

/-- `CompressSingleFileFromFile`, `zlibwt_compression_routines.c:318-334`, from offset `off` on, for the
output file, whose content is `seen` of what has been passed to the session.  A short read meets the
end of the file.  (Reading it gives no error, and the reading stream keeps no bytes of earlier reads:
the size asked for is a multiple of its buffer.) -/
def readOwn (seen : List Bytes → Run Bytes) : Nat → Nat → W σ → Run (W σ)
  | 0, _, _ => .error .outOfFuel
  | fuel+1, off, w =>
    match seen w.out with
    | .error e => .error e
    | .ok c =>
      let piece := (c.drop off).take DEF_CHUNK_SIZE
      if piece.length < DEF_CHUNK_SIZE then .ok (w.put piece)
      else readOwn seen fuel (off + DEF_CHUNK_SIZE) (w.put piece)

/-- `case ZlibWithToolsFileTypeFile`, `:407-425`, with `CompressArbitraryBufferAsFileInline`, `:59-92`, for
the output file: `fstat` gives the size before the record is written, and then the file is read. -/
def visitOwn (own : Own) (seen : List Bytes → Run Bytes) (fuel : Nat) (env : Env) (name : Bytes) (w : W σ) :
    Run (Int × W σ) :=
  match seen w.out with
  | .error e => .error e
  | .ok c =>
    match w.putItem (itemSized (env.itemMem w.out.length) name own.mode K_FILE c.length) name with
    | .error e => .error e
    | .ok w =>
      match readOwn seen fuel 0 w with
      | .error e => .error e
      | .ok w =>
        match padding U64 (norm64 (u64 c.length)) (u64 c.length) with
        | .error e => .error e
        | .ok pad => .ok (0, w.put pad)

/-- `ZlibWtFolderCompressDirIterCallbackStatic`, `:351-489`. -/
def visitLive (own : Own) (seen : List Bytes → Run Bytes) (env : Env) (flt : Filter σ) :
    Nat → Bytes → Entry → W σ → Run (Int × W σ)
  | 0, _, _, _ => .error .outOfFuel
  | fuel+1, dir, e, w =>
    if w.hasError ∨ w.shouldExit then .ok (EXIT_ALL, w)
    else if isDot e.name then .ok (0, w)
    else if (flt w.fs dir e).1 ≠ 0 then
      if (flt w.fs dir e).1 = EXIT_ALL then .ok (EXIT_ALL, { w.ask flt dir e with shouldExit := true })
      else .ok (0, w.ask flt dir e)
    else if e.ty = .file ∧ own.path (joinPath dir e.name) = true then
      visitOwn own seen (fuel + 1) env e.name (w.ask flt dir e)
    else
      visitEntry env
        (fun path w => iterate (visitLive own seen env flt fuel path) ((env.list path).getD []) w)
        dir e (w.ask flt dir e)

/-- What the directory functions write into their session, and the return value. -/
def dirWritesLive (own : Own) (seen : List Bytes → Run Bytes) (env : Env) (flt : Filter σ) (fuel : Nat)
    (fn : DirFn) (dir : Bytes) (fs : σ) : Run (Int × W σ) :=
  match dirExtras env fn ⟨fs, false, false, [], []⟩ with
  | .error e => .error e
  | .ok (false, w) => .ok (2, w)
  | .ok (true, w) =>
    match iterate (visitLive own seen env flt fuel dir) ((env.list dir).getD []) w with
    | .error e => .error e
    | .ok w => .ok (if w.hasError then 2 else 0, w)

/-- The directory functions with their session, writing to the file `own`: return value, the pieces
written, and the history of filter calls. -/
def compressDirLive (D : Deflater) (own : Own) (env : Env) (flt : Filter σ) (fuel : Nat) (fn : DirFn)
    (dir : Bytes) (fs : σ) (level : Int) (junk : Bytes) :
    Run (Int × List Bytes × List (Bytes × Entry × Int)) :=
  match CS.create D fuel CT_DIRECTORY level DEF_CHUNK_SIZE junk with
  | .error e => .error e
  | .ok none => .ok (1, [], [])
  | .ok (some s) =>
    match dirWritesLive own (ownContent own fuel s) env flt fuel fn dir fs with
    | .error e => .error e
    | .ok (ret, w) =>
      match compressRun fuel (w.out.map .compress) s with
      | .error e => .error e
      | .ok (_, s) => .ok (ret, s.log, w.shown)

end Zwt
