import Verif.Model.Walk

/-!
Compression of directories on Windows: `src/core/zlibwt_compression_routines.c` with its `_WIN32`
branches.  The code shared with Unix is taken from `Model/Walk`; only the functions that contain or
lead to a branch are repeated.  The system calls are those of `Env`: `lstat` and `readlink` are never
used here.
-/

namespace Zwt

variable {σ : Type}

/-- The `switch` on the type, `:388-486`: the case of symbolic links is empty on Windows (`:428-429`,
`:481`). -/
def winVisitEntry (env : Env) (sub : Bytes → W σ → Run (W σ)) (dir : Bytes) (e : Entry) (w : W σ) :
    Run (Int × W σ) :=
  match e.ty with
  | .dir => visitDir env sub (joinPath dir e.name) e.name w
  | .file => visitFile env (joinPath dir e.name) e.name w
  | .symlink => .ok (0, w)
  | .other => .ok (0, w)

/-- `ZlibWtFolderCompressDirIterCallbackStatic`, `:351-489`, on Windows. -/
def winVisit (env : Env) (flt : Filter σ) : Nat → Bytes → Entry → W σ → Run (Int × W σ)
  | 0, _, _, _ => .error .outOfFuel
  | fuel+1, dir, e, w =>
    if w.hasError ∨ w.shouldExit then .ok (EXIT_ALL, w)
    else if isDot e.name then .ok (0, w)
    else if (flt w.fs dir e).1 ≠ 0 then
      if (flt w.fs dir e).1 = EXIT_ALL then .ok (EXIT_ALL, { w.ask flt dir e with shouldExit := true })
      else .ok (0, w.ask flt dir e)
    else
      winVisitEntry env
        (fun path w => iterate (winVisit env flt fuel path) ((env.list path).getD []) w)
        dir e (w.ask flt dir e)

/-- `_S_IREAD | _S_IWRITE`, `:146`. -/
def MODE_WIN : Nat := 0o600

/-- `ZlibWtFolderCompressBufferAsFileInlineRaw`, `:113-154`, on Windows (`:146`). -/
def winExtraParts (env : Env) (content : Bytes) : Bytes → List Bytes → W σ → Run (Int × W σ)
  | name, [], w => extraRoot env w ⟨name, content, MODE_WIN⟩
  | name, next :: rest, w =>
    let m := env.itemMem w.out.length
    match w.putItem (itemPlain m name 0 K_DIR_START) name with
    | .error e => .error e
    | .ok w =>
      match winExtraParts env content next rest w with
      | .error e => .error e
      | .ok (_, w) => .ok (0, w.put (itemPlain m name 0 K_DIR_END))

/-- `ZlibWtFolderCompressBufferAsFileInline`, `:157-159`. -/
def winExtraNested (env : Env) (w : W σ) (x : Extra) : Run (Int × W σ) :=
  winExtraParts env x.content (splitSlash x.path).1 (splitSlash x.path).2 w

/-- The part of the directory functions that writes the extra buffers. -/
def winDirExtras (env : Env) : DirFn → W σ → Run (Bool × W σ)
  | .plain, w => .ok (true, w)
  | .root xs, w => extras (extraRoot env) xs w
  | .nested xs, w => extras (winExtraNested env) xs w

/-- What the three directory functions write into their session (`:187-231`, `:235-279`, `:284-315`),
and their return value. -/
def winDirWrites (env : Env) (flt : Filter σ) (fuel : Nat) (fn : DirFn) (dir : Bytes) (fs : σ) :
    Run (Int × W σ) :=
  match winDirExtras env fn ⟨fs, false, false, [], []⟩ with
  | .error e => .error e
  | .ok (false, w) => .ok (2, w)
  | .ok (true, w) =>
    match iterate (winVisit env flt fuel dir) ((env.list dir).getD []) w with
    | .error e => .error e
    | .ok w => .ok (if w.hasError then 2 else 0, w)

/-- The three functions with their session, as `compressDir`. -/
def winCompressDir (D : Deflater) (env : Env) (flt : Filter σ) (fuel : Nat) (fn : DirFn) (dir : Bytes)
    (fs : σ) (level : Int) (junk : Bytes) : Run (Int × List Bytes) :=
  match CS.create D fuel CT_DIRECTORY level DEF_CHUNK_SIZE junk with
  | .error e => .error e
  | .ok none => .ok (1, [])
  | .ok (some s) =>
    match winDirWrites env flt fuel fn dir fs with
    | .error e => .error e
    | .ok (ret, w) =>
      match compressRun fuel (w.out.map .compress) s with
      | .error e => .error e
      | .ok (_, s) => .ok (ret, s.log)

end Zwt
