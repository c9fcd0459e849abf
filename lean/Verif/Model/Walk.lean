import Verif.Model.Format
import Verif.Model.LLCompress

/-!
`src/core/zlibwt_compression_routines.c`: what the directory and file compression functions write
into the compress session.

The return codes of `ZlibWtCompressBufferToCallback` are ignored throughout that file, so the
bytes written can be computed apart from the session: `W.out` is the list of buffers passed to
it, in order.  The file system is seen through `Env`; directory iteration
(`IterateOverDirectoryFilesNoRecurse`, not part of the repository) is assumed to call back once per
listed entry in listing order, to stop when the callback returns `DIRITER_EXIT_ALL`, and to do
nothing if the directory cannot be listed.  Only the non-Windows code is modelled.
-/

namespace Zwt

/-- `DIRITER_EXIT_ALL`. -/
def EXIT_ALL : Int := 387
/-- `ZLIBWT_MAX_PATH_MIN1`, private `io_zlibandtls.h`: size given to `snprintf`. -/
def MAX_PATH_MIN1 : Nat := 4095

/-- `enum ZlibWithToolsFileType` as seen by the callback; `other` is the `default:` case. -/
inductive EType
  | dir | file | symlink | other
  deriving DecidableEq, Repr

/-- `DirIterFileData`: name (a C string) and type. -/
structure Entry where
  name : Bytes
  ty : EType
  deriving DecidableEq, Repr

/-- An opened file: result of `fstat` (`mode`, `size`), the bytes `fread` will give, and whether
a read error follows them. -/
structure FileObs where
  fstat : Option (Nat × Nat)
  data : Bytes
  err : Bool

/-- The file system and the uninitialised memory seen by one compression call.
`itemMem k`: content of the uninitialised `struct SFileItem` (40 bytes) when `k` buffers have been
written; `linkMem k`: of the memory returned by `malloc` for a link target. -/
structure Env where
  list : Bytes → Option (List Entry)
  /-- `st_mode` after `stat` (whatever it is if that fails: the code does not check) -/
  statMode : Bytes → Nat
  fopen : Bytes → Option FileObs
  /-- `st_mode`, `st_size` after `lstat` (not checked either) -/
  lstat : Bytes → Nat × Nat
  readlink : Bytes → Option Bytes
  itemMem : Nat → Bytes
  linkMem : Nat → Bytes

/-- `struct SDirectoryCompressData`, `:30-46`, with the filter's own state `fs`, the buffers
written `out` and the history `shown` of filter calls (directory, entry, result). -/
structure W (σ : Type) where
  fs : σ
  hasError : Bool
  shouldExit : Bool
  out : List Bytes
  shown : List (Bytes × Entry × Int)

/-- The user's filter; it may keep state. -/
abbrev Filter (σ : Type) := σ → Bytes → Entry → Int × σ

variable {σ : Type}

/-- `ZlibWtCompressBufferToCallback(session, _, data, len)`. -/
def W.put (w : W σ) (data : Bytes) : W σ := { w with out := w.out ++ [data] }

/-- `snprintf_di(vcStrFilePath, ZLIBWT_MAX_PATH_MIN1, "%s/%s", dir, name)`, `:388`. -/
def joinPath (dir name : Bytes) : Bytes := (dir ++ 47 :: name).take (MAX_PATH_MIN1 - 1)

/-- `:366-368`. -/
def isDot (name : Bytes) : Bool := name == [46] || name == [46, 46]

/-- Padding: `dummyLen = norm - len` in an unsigned type of `m` values, the assertion, and the
bytes of `s_vcDummyBuffer` (`:57`, `:79-81`, `:88-90`, `:396-398`, …). -/
def padding (m norm len : Nat) : Run Bytes :=
  let d := if len ≤ norm then norm - len else norm + m - len
  if d < 9 then .ok (List.replicate d 0) else .error .assertFail

/-- `fileNameLen = (uint32_t)strlen(name)`. -/
@[irreducible] def nameLen32 (name : Bytes) : Nat := name.length % U32

/-- Conversion to `uint64_t`. -/
@[irreducible] def u64 (n : Nat) : Nat := n % U64

/-- Item memory with `fileNameLen`, `fileNameLenNorm`, mode and kind assigned; `fileSize`,
`fileSizeNorm` and the reserved bytes keep the content `m` of the memory. -/
def itemPlain (m name : Bytes) (mode kind : Nat) : Bytes :=
  itemBytes { itemFields m with nameLen := nameLen32 name, nameLenNorm := norm32 (nameLen32 name),
                                mode := uInt mode, kind := kind } (m.drop 29)

/-- … and with the sizes assigned as well. -/
def itemSized (m name : Bytes) (mode kind size : Nat) : Bytes :=
  itemBytes ⟨u64 size, norm64 (u64 size), nameLen32 name, norm32 (nameLen32 name), uInt mode,
    kind⟩ (m.drop 29)

/-- Item, name and padding of the name. -/
def W.putItem (w : W σ) (item name : Bytes) : Run (W σ) :=
  match padding U32 (norm32 (nameLen32 name)) (nameLen32 name) with
  | .error e => .error e
  | .ok pad => .ok (((w.put item).put (name.take (nameLen32 name))).put pad)

/-- Loop of `CompressSingleFileFromFile`, `:318-334`: `fread` of `ZLIBWT_DEF_CHUNK_SIZE` bytes until
end of file; a short read meets the end of file, or the read error if there is one.
Result: buffers written, and whether a read error occurred. -/
def readFile (data : Bytes) (err : Bool) : List Bytes × Bool :=
  if data.length < DEF_CHUNK_SIZE then
    if err then ([], true) else ([data], false)
  else
    let r := readFile (data.drop DEF_CHUNK_SIZE) err
    (data.take DEF_CHUNK_SIZE :: r.1, r.2)
termination_by data.length
decreasing_by simp [DEF_CHUNK_SIZE] at *; omega

/-- `CompressArbitraryBufferAsFileInline`, `:59-92`.  `pieces`, `rerr`: what the function passed
as `a_compressFnc` writes and whether it fails. -/
def asFile (w : W σ) (m name : Bytes) (mode size : Nat) (pieces : List Bytes) (rerr : Bool) :
    Run (Int × W σ) :=
  match w.putItem (itemSized m name mode K_FILE size) name with
  | .error e => .error e
  | .ok w =>
    let w := { w with out := w.out ++ pieces }
    if rerr then .ok (EXIT_ALL, { w with hasError := true })
    else
      match padding U64 (norm64 (u64 size)) (u64 size) with
      | .error e => .error e
      | .ok pad => .ok (0, w.put pad)

/-- `IterateOverDirectoryFilesNoRecurse`. -/
def iterate (cb : Entry → W σ → Run (Int × W σ)) : List Entry → W σ → Run (W σ)
  | [], w => .ok w
  | e :: es, w =>
    match cb e w with
    | .error f => .error f
    | .ok (ret, w) => if ret = EXIT_ALL then .ok w else iterate cb es w

/-- `case ZlibWithToolsFileTypeFile`, `:407-425`. -/
def visitFile (env : Env) (path name : Bytes) (w : W σ) : Run (Int × W σ) :=
  match env.fopen path with
  | none => .ok (EXIT_ALL, { w with hasError := true })
  | some f =>
    match f.fstat with
    | none => .ok (EXIT_ALL, { w with hasError := true })
    | some (mode, size) =>
      asFile w (env.itemMem w.out.length) name mode size (readFile f.data f.err).1
        (readFile f.data f.err).2

/-- `case ZlibWithToolsFileTypeSymLink`, `:426-483`; `malloc` is taken to succeed (it ends in
`exit` otherwise).  `targNameLen` is `st_size`; bytes that `readlink` did not fill are those of the
fresh memory. -/
def visitLink (env : Env) (path name : Bytes) (w : W σ) : Run (Int × W σ) :=
  let mode := (env.lstat path).1
  let size := (env.lstat path).2
  match env.readlink path with
  | none => .error .processExit
  | some target =>
    if size < (target.take (size + 1)).length then .error .processExit
    else
      match w.putItem (itemSized (env.itemMem w.out.length) name mode K_SYM_LINK size) name with
      | .error e => .error e
      | .ok w =>
        match padding U64 (norm64 (u64 size)) (u64 size) with
        | .error e => .error e
        | .ok pad => .ok (0, (w.put ((target ++ env.linkMem w.out.length).take size)).put pad)

/-- `case ZlibWithToolsFileTypeDirectory`, `:391-406`; `sub path` is the nested iteration. -/
def visitDir (env : Env) (sub : Bytes → W σ → Run (W σ)) (path name : Bytes) (w : W σ) :
    Run (Int × W σ) :=
  let m := env.itemMem w.out.length
  let mode := env.statMode path
  match w.putItem (itemPlain m name mode K_DIR_START) name with
  | .error f => .error f
  | .ok w =>
    match sub path w with
    | .error f => .error f
    | .ok w => .ok (0, w.put (itemPlain m name mode K_DIR_END))

/-- The `switch` on the type, `:388-486`. -/
def visitEntry (env : Env) (sub : Bytes → W σ → Run (W σ)) (dir : Bytes) (e : Entry) (w : W σ) :
    Run (Int × W σ) :=
  match e.ty with
  | .dir => visitDir env sub (joinPath dir e.name) e.name w
  | .file => visitFile env (joinPath dir e.name) e.name w
  | .symlink => visitLink env (joinPath dir e.name) e.name w
  | .other => .ok (0, w)

/-- A call of the user's filter. -/
def W.ask (w : W σ) (flt : Filter σ) (dir : Bytes) (e : Entry) : W σ :=
  { w with fs := (flt w.fs dir e).2, shown := w.shown ++ [(dir, e, (flt w.fs dir e).1)] }

/-- `ZlibWtFolderCompressDirIterCallbackStatic`, `:351-489`.  The recursion through
`IterateOverDirectoryFilesNoRecurse` takes fuel. -/
def visit (env : Env) (flt : Filter σ) : Nat → Bytes → Entry → W σ → Run (Int × W σ)
  | 0, _, _, _ => .error .outOfFuel
  | fuel+1, dir, e, w =>
    if w.hasError ∨ w.shouldExit then .ok (EXIT_ALL, w)
    else if isDot e.name then .ok (0, w)
    else if (flt w.fs dir e).1 ≠ 0 then
      if (flt w.fs dir e).1 = EXIT_ALL then .ok (EXIT_ALL, { w.ask flt dir e with shouldExit := true })
      else .ok (0, w.ask flt dir e)
    else
      visitEntry env (fun path w => iterate (visit env flt fuel path) ((env.list path).getD []) w)
        dir e (w.ask flt dir e)

/-- `IterateOverDirectoryFilesNoRecurse(a_directoryPath, …)` at top level. -/
def walk (env : Env) (flt : Filter σ) (fuel : Nat) (dir : Bytes) (w : W σ) : Run (W σ) :=
  iterate (visit env flt fuel dir) ((env.list dir).getD []) w

/-! ### Extra buffers -/

/-- `struct SZlibWtExtraCompressionBuffer`. -/
structure Extra where
  path : Bytes
  content : Bytes
  mode : Nat

/-- `ZlibWtFolderCompressBufferAsDirRootFileInline`, `:95-110`. -/
def extraRoot (env : Env) (w : W σ) (x : Extra) : Run (Int × W σ) :=
  asFile w (env.itemMem w.out.length) x.path x.mode x.content.length [x.content] false

/-- `S_IRUSR|S_IWUSR|S_IRGRP|S_IROTH`, `:148`. -/
def MODE_0644 : Nat := 0o644

/-- What successive `strchr(path, '/')` cut a path into, `:121`, `:140`: the parts before each
`'/'` and the part after the last one. -/
def splitSlash : Bytes → Bytes × List Bytes
  | [] => ([], [])
  | c :: cs =>
    let r := splitSlash cs
    if c = 47 then ([], r.1 :: r.2) else (c :: r.1, r.2)

/-- `ZlibWtFolderCompressBufferAsFileInlineRaw`, `:113-154`, on the path whose parts are
`name :: rest`; a part that precedes a `'/'` becomes a directory.  (The return value of the
recursive call is ignored.) -/
def extraParts (env : Env) (content : Bytes) : Bytes → List Bytes → W σ → Run (Int × W σ)
  | name, [], w => extraRoot env w ⟨name, content, MODE_0644⟩
  | name, next :: rest, w =>
    let m := env.itemMem w.out.length
    match w.putItem (itemPlain m name 0 K_DIR_START) name with
    | .error e => .error e
    | .ok w =>
      match extraParts env content next rest w with
      | .error e => .error e
      | .ok (_, w) => .ok (0, w.put (itemPlain m name 0 K_DIR_END))

/-- `ZlibWtFolderCompressBufferAsFileInline`, `:157-159`. -/
def extraNested (env : Env) (w : W σ) (x : Extra) : Run (Int × W σ) :=
  extraParts env x.content (splitSlash x.path).1 (splitSlash x.path).2 w

/-- The loops over the extra buffers, `:211-218` and `:259-266`: `false` is `return 2`. -/
def extras (one : W σ → Extra → Run (Int × W σ)) : List Extra → W σ → Run (Bool × W σ)
  | [], w => .ok (true, w)
  | x :: xs, w =>
    match one w x with
    | .error e => .error e
    | .ok (ret, w) => if ret ≠ 0 then .ok (false, w) else extras one xs w

/-- Which of the three directory functions is called. -/
inductive DirFn
  /-- `ZlibWtCompressDirectoryEx` -/
  | plain
  /-- `ZlibWtCompressDirectoryWithBufferExRoot` -/
  | root (xs : List Extra)
  /-- `ZlibWtCompressDirectoryWithBufferEx` -/
  | nested (xs : List Extra)

/-- The part of the directory functions that writes the extra buffers. -/
def dirExtras (env : Env) : DirFn → W σ → Run (Bool × W σ)
  | .plain, w => .ok (true, w)
  | .root xs, w => extras (extraRoot env) xs w
  | .nested xs, w => extras (extraNested env) xs w

/-- What `ZlibWtCompressDirectoryEx`, `:284-315` (resp. `…WithBufferExRoot`, `:187-231`,
`…WithBufferEx`, `:235-279`) writes into its session, and its return value. -/
def dirWrites (env : Env) (flt : Filter σ) (fuel : Nat) (fn : DirFn) (dir : Bytes) (fs : σ) :
    Run (Int × W σ) :=
  match dirExtras env fn ⟨fs, false, false, [], []⟩ with
  | .error e => .error e
  | .ok (false, w) => .ok (2, w)
  | .ok (true, w) =>
    match walk env flt fuel dir w with
    | .error e => .error e
    | .ok w => .ok (if w.hasError then 2 else 0, w)

/-- The three functions with their session: buffers of `ZLIBWT_DEF_CHUNK_SIZE` bytes, allocation
succeeding.  Result: return value, and the pieces passed to the user's callback. -/
def compressDir (D : Deflater) (env : Env) (flt : Filter σ) (fuel : Nat) (fn : DirFn) (dir : Bytes)
    (fs : σ) (level : Int) (junk : Bytes) : Run (Int × List Bytes) :=
  match CS.create D fuel CT_DIRECTORY level DEF_CHUNK_SIZE junk with
  | .error e => .error e
  | .ok none => .ok (1, [])
  | .ok (some s) =>
    match dirWrites env flt fuel fn dir fs with
    | .error e => .error e
    | .ok (ret, w) =>
      match compressRun fuel (w.out.map .compress) s with
      | .error e => .error e
      | .ok (_, s) => .ok (ret, s.log)

/-- `ZlibWtCompressFileEx`, `:164-183`, allocation succeeding.  There is no check of the session
pointer. -/
def compressFile (D : Deflater) (fuel : Nat) (data : Bytes) (err : Bool) (level : Int)
    (junk : Bytes) : Run (Int × List Bytes) :=
  match CS.create D fuel CT_FILE level DEF_CHUNK_SIZE junk with
  | .error e => .error e
  | .ok none => .error .nullDeref
  | .ok (some s) =>
    match compressRun fuel ((readFile data err).1.map .compress) s with
    | .error e => .error e
    | .ok (_, s) => .ok (if (readFile data err).2 then 1 else 0, s.log)

end Zwt
