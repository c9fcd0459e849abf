import Verif.Model.HL

/-!
Extraction call by call.  `ZlibWtDecompressFileOrDirEx` and its callbacks
(`src/core/zlibwt_hl_decompress_routines.c`, Unix branches) as programs that make one call of the
operating system (or of the allocator) at a time, so that they can be interrupted between calls and
run side by side with other programs in one process (which share the file system and the working
directory).  The definitions follow those of `Verif.Model.HL` line by line;
`Verif.Proofs.Conc` shows that a program run alone does what the function there says.
-/

namespace Zwt

/-- The calls made.  `alloc`: `malloc`/`strdup`; `nop`: `close`, or a call with an invalid argument
(`write(-1)`, `close(-1)`, `chdir(NULL)`); `isDir`: `stat`; `openFile`: `open`, or `fopen("wb")`;
`write`: `write`, or `fwrite`. -/
inductive Call
  | alloc
  | nop
  | mkdir (path : Bytes) (mode : Nat)
  | isDir (path : Bytes)
  | openFile (path : Bytes) (mode : Nat) (trunc : Bool)
  | write (f : OpenFile) (data : Bytes)
  | symlink (target path : Bytes)
  | chdir (path : Bytes)
  | getcwd (size : Nat)

/-- What a call returns (`alloc`: whether it failed). -/
@[reducible] def Call.Res : Call → Type
  | .alloc => Bool
  | .nop => Unit
  | .mkdir _ _ => MkRes
  | .isDir _ => Bool
  | .openFile _ _ _ => Option Loc
  | .write _ _ => OpenFile
  | .symlink _ _ => Bool
  | .chdir _ => Bool
  | .getcwd _ => Option Bytes

/-- A call, carried out. -/
def Call.exec (os : Os) (w : World) : (c : Call) → c.Res × World
  | .alloc => (os.noMem w.calls, w.tick)
  | .nop => ((), w.tick)
  | .mkdir p m => sysMkdir os w p m
  | .isDir p => sysIsDir os w p
  | .openFile p m t => sysOpen os w p m t
  | .write f d => sysWrite os w f d
  | .symlink t p => sysSymlink os w t p
  | .chdir p => sysChdir os w p
  | .getcwd n => sysGetcwd os w n

/-- A program: finished, or about to make a call. -/
inductive Prog (α : Type)
  | ret (a : α)
  | call (c : Call) (k : c.Res → Prog α)

namespace Prog

variable {α β : Type}

/-- One program after the other. -/
def bind : Prog α → (α → Prog β) → Prog β
  | .ret a, k => k a
  | .call c p, k => .call c fun r => (p r).bind k

/-- The program run alone to its end. -/
def run (os : Os) : Prog α → World → α × World
  | .ret a, w => (a, w)
  | .call c k, w => (k (c.exec os w).1).run os (c.exec os w).2

/-- One call of the program (nothing if it has finished). -/
def step (os : Os) : Prog α → World → Prog α × World
  | .ret a, w => (.ret a, w)
  | .call c k, w => (k (c.exec os w).1, (c.exec os w).2)

/-- The program run alone for `n` calls: what is left of it, and the world. -/
def after (os : Os) : Nat → Prog α → World → Prog α × World
  | 0, p, w => (p, w)
  | n+1, p, w => after os n (p.step os w).1 (p.step os w).2

/-- Result of a finished program. -/
def result : Prog α → Option α
  | .ret a => some a
  | .call _ _ => none

end Prog

/-- Programs side by side in one process: the ones named by `sched` make one call each, in this
order. -/
def play {ι α : Type} [DecidableEq ι] (os : Os) :
    List ι → (ι → Prog α) → World → (ι → Prog α) × World
  | [], ps, w => (ps, w)
  | i :: sched, ps, w =>
    play os sched (fun j => if j = i then ((ps i).step os w).1 else ps j) ((ps i).step os w).2

/-! ### The programs -/

/-- `OsCreateStatic` (Unix), `zlibwt_hl_decompress_routines.c:177-191`. -/
def osCreateP (path : Bytes) (mode : Nat) : Prog Int :=
  .call (.mkdir path mode) fun (r : MkRes) =>
    match r with
    | .ok => .ret 0
    | .exist => .call (.isDir path) fun (b : Bool) => .ret (if b then 1 else -1)
    | .fail => .ret 2

/-- The second loop of `MkdirRecurseInlineRaw`, `:116-127`. -/
def mkRestoreP (mode : Nat) : List Nat → Bytes → Prog Int
  | [], _ => .ret 0
  | i :: idxs, mem =>
    (osCreateP (cString (mem.set i 47)) mode).bind fun r =>
      if r ≠ 0 then .ret (-1) else mkRestoreP mode idxs (mem.set i 47)

/-- The first loop of `MkdirRecurseInlineRaw`, `:101-115`, and what follows it. -/
def mkCutP (mode : Nat) : Nat → List Nat → Bytes → Prog Int
  | 0, _, _ => .ret (-1)
  | n+1, idxs, mem =>
    match fileDelimiter (cString mem) with
    | none => .ret (-1)
    | some i =>
      (osCreateP (cString (mem.set i 0)) mode).bind fun r =>
        if r = -1 then .ret (-1)
        else if r = 0 ∨ r = 1 then
          if (i :: idxs).length < 62 then mkRestoreP mode (i :: idxs) (mem.set i 0)
          else .ret (-1)
        else mkCutP mode n (i :: idxs) (mem.set i 0)

/-- `MkdirRecurseInlineRaw`, `:87-133`. -/
def mkdirRawP (mode : Nat) (path : Bytes) : Prog Int :=
  (osCreateP path mode).bind fun r =>
    if r = -1 ∨ r = 0 ∨ r = 1 then .ret r else mkCutP mode 62 [] path

/-- `MkdirRecurseInline`, `:136-145`. -/
def mkdirRecurseP (mode : Nat) (path : Bytes) : Prog Int :=
  .call .alloc fun (bad : Bool) => if bad then .ret (-1) else mkdirRawP mode path

/-- `struct SDecompressData`, `:198-210` (as `HL`, without the world). -/
structure HLv where
  fpOut : Option OpenFile
  dirPath : Option Bytes
  hasError : Bool
  fd : Fd
  ret : Nat
  name : Option Bytes

/-- Initial value, `:241-253`. -/
def HLv.init : HLv :=
  { fpOut := none, dirPath := none, hasError := false, fd := .bad, ret := CT_NONE, name := none }

/-- `DecompressFileStartCallback`, `:326-335`. -/
def hlFileStartP (out : Bytes) (h : HLv) : Prog HLv :=
  .call (.openFile out FOPEN_MODE true) fun (r : Option Loc) =>
    match r with
    | none => .ret { h with fpOut := none, hasError := true }
    | some l => .ret { h with fpOut := some ⟨l, 0⟩, ret := CT_FILE }

/-- `DecompressFileAndBlobCallback`, `:338-342`. -/
def hlFileDataP (h : HLv) (d : Bytes) : Prog (Run HLv) :=
  match h.fpOut with
  | none => .ret (.error .nullDeref)
  | some f => .call (.write f d) fun (f : OpenFile) => .ret (.ok { h with fpOut := some f })

/-- `DecompressDirStartCallback`, `:348-365`. -/
def hlDirStartP (out : Bytes) (h : HLv) : Prog HLv :=
  (mkdirRecurseP BASE_DIR_MODE out).bind fun r =>
    if r ≠ 0 then .ret { h with hasError := true }
    else .call .alloc fun (bad : Bool) =>
      if bad then .ret { h with dirPath := none, hasError := true }
      else .ret { h with dirPath := some out, ret := CT_DIRECTORY }

/-- The path built at `:374-383` and `:389-396`. -/
def itemPathV (h : HLv) (name : Bytes) (nameLen : Nat) : Run Bytes :=
  if nameLen ≤ name.length then .ok (h.dirPath.getD [] ++ 47 :: name.take nameLen)
  else .error .oobRead

/-- Case `ZlibWithToolsFileTypeDir`, `:373-388`. -/
def hlDirItemP (h : HLv) (name item : Bytes) : Prog (Run HLv) :=
  .call .alloc fun (bad : Bool) =>
    if bad then .ret (.ok { h with hasError := true })
    else
      match itemPathV h name (itNameLen item) with
      | .error e => .ret (.error e)
      | .ok path =>
        (mkdirRecurseP (itMode item) (cString path)).bind fun r =>
          .ret (.ok { h with dirPath := some path, hasError := h.hasError || r != 0 })

/-- Case `ZlibWithToolsFileTypeFile`, `:389-401`. -/
def hlFileItemP (h : HLv) (name item : Bytes) : Prog (Run HLv) :=
  match itemPathV h name (itNameLen item) with
  | .error e => .ret (.error e)
  | .ok path =>
    .call (.openFile (cString path) (modeFo (itMode item)) false) fun (r : Option Loc) =>
      match r with
      | none => .ret (.ok { h with fd := .bad, hasError := true })
      | some l => .ret (.ok { h with fd := .opened ⟨l, 0⟩ })

/-- `DecompressDirFileOrDirStartCallback`, `:367-407`. -/
def hlItemStartP (h : HLv) (ft : FType) (name item : Bytes) : Prog (Run HLv) :=
  let h := { h with name := some name }
  match ft with
  | .dir => hlDirItemP h name item
  | .file => hlFileItemP h name item
  | _ => .ret (.ok h)

/-- `SymLinkCreateCallback`, `:410-441`. -/
def hlSymLinkP (h : HLv) (target after : Bytes) : Prog (Run HLv) :=
  .call (.getcwd CWD_SIZE) fun (r : Option Bytes) =>
    match r with
    | none => .ret (.ok h)
    | some old =>
      match h.dirPath with
      | none => .call .nop fun (_ : Unit) => .ret (.ok h)
      | some dir =>
        .call (.chdir (cString dir)) fun (b : Bool) =>
          match b with
          | false => .ret (.ok h)
          | true =>
            match h.name with
            | none => .ret (.error .nullDeref)
            | some name =>
              match cstr? (target ++ after), cstr? name with
              | some t, some n =>
                .call (.symlink t n) fun (_ : Bool) =>
                  .call (.chdir old) fun (_ : Bool) => .ret (.ok h)
              | _, _ => .ret (.error .oobRead)

/-- `DecompressDirFileReadCallback`, `:444-449`. -/
def hlFileReadP (h : HLv) (d : Bytes) : Prog (Run HLv) :=
  match h.fd with
  | .bad => .call .nop fun (_ : Unit) => .ret (.ok h)
  | .closed => .ret (.error .useAfterFree)
  | .opened f =>
    .call (.write f d) fun (f : OpenFile) => .ret (.ok { h with fd := .opened f })

/-- `DecompressDirFileEndCallback`, `:452-456`. -/
def hlFileEndP (h : HLv) : Prog (Run HLv) :=
  match h.fd with
  | .bad => .call .nop fun (_ : Unit) => .ret (.ok h)
  | .closed => .ret (.error .doubleFree)
  | .opened _ => .call .nop fun (_ : Unit) => .ret (.ok { h with fd := .closed })

/-- `DecompressDirDirEndCallback`, `:459-468`. -/
def hlDirEndP (h : HLv) : Prog (Run HLv) :=
  match h.dirPath with
  | none => .ret (.error .nullDeref)
  | some p =>
    match lastIndexOf 47 (cString p) with
    | none => .ret (.error .assertFail)
    | some i => .ret (.ok { h with dirPath := some (p.take i) })

/-- One callback. -/
def hlEventP (out : Bytes) (h : HLv) : Ev → Prog (Run HLv)
  | .flStart => (hlFileStartP out h).bind fun h => .ret (.ok h)
  | .flRead d => hlFileDataP h d
  | .drStart => (hlDirStartP out h).bind fun h => .ret (.ok h)
  | .itemStart ft name item => hlItemStartP h ft name item
  | .fileRead d => hlFileReadP h d
  | .fileEnd => hlFileEndP h
  | .dirEnd => hlDirEndP h
  | .symLink t a => hlSymLinkP h t a

/-- Go on unless there was a fault. -/
def andThen {α β : Type} (p : Prog (Run α)) (k : α → Prog (Run β)) : Prog (Run β) :=
  p.bind fun r =>
    match r with
    | .error e => .ret (.error e)
    | .ok a => k a

/-- A sequence of callbacks. -/
def hlEventsP (out : Bytes) : HLv → List Ev → Prog (Run HLv)
  | h, [] => .ret (.ok h)
  | h, e :: es => andThen (hlEventP out h e) fun h => hlEventsP out h es

/-- How an extraction ends (as `Extracted`, without the world). -/
structure Ended where
  ret : Nat
  read : Nat
  hasError : Bool
  codes : List Int
  room : Nat
  pieces : List Bytes
  deriving DecidableEq, Repr

/-- The loop of `ZlibWtDecompressFileOrDirEx`, `:270-286`, and its end. -/
def hlLoopP {Z : Inflater} (ok : AllocOracle) (fuel : Nat) (out : Bytes)
    (archiveSize : Nat) : Nat → Nat → Nat → Input → LL Z → Sess → HLv → Prog (Run Ended)
  | 0, _, _, _, _, _, _ => .ret (.error .outOfFuel)
  | rounds+1, i, total, inp, l, s, h =>
    if nextSize archiveSize total < 1 then
      .ret (.ok ⟨h.ret, total, h.hasError, l.rets, l.availOut, s.pieces⟩)
    else
      let n := nextSize archiveSize total
      let piece := inp.data.take n
      let short : Bool := decide (inp.data.length < n)
      if short && inp.err then
        .ret (.ok ⟨CT_NONE, total + piece.length, h.hasError, l.rets, l.availOut, s.pieces⟩)
      else
        match sessDecompress ok fuel (hlFlush (i + 1)) l s piece with
        | .error e => .ret (.error e)
        | .ok (_, l, s') =>
          andThen (hlEventsP out h (s'.log.drop s.log.length)) fun h =>
            if !short && !h.hasError then
              hlLoopP ok fuel out archiveSize rounds (i + 1) (total + piece.length)
                { inp with data := inp.data.drop n } l s' h
            else
              .ret (.ok ⟨h.ret, total + piece.length, h.hasError, l.rets, l.availOut, s'.pieces⟩)

/-- `ZlibWtDecompressFileOrDirEx`, `:213-304`, when the buffers and the session can be created. -/
def extractP (Z : Inflater) (ok : AllocOracle) (fuel : Nat) (hdr item : Bytes) (out : Bytes)
    (archiveSize : Nat) (inp : Input) : Prog (Run Ended) :=
  let c := Sess.create Z hdr item DEF_CHUNK_SIZE
  hlLoopP ok fuel out archiveSize fuel 0 0 inp c.1 c.2 HLv.init

end Zwt
