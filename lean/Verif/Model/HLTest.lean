import Verif.Model.HL
import Verif.Model.Walk
import Verif.Model.Args

/-!
`src/tests/main_zlibwt_hl_test.cpp`: a program that archives files and directories and extracts
archives, together with the disk it works on.

Simplifications: input files, source directories and archives to be extracted are read as they are
after the output file has been opened (so archives that lie in their own source, or that the extraction
overwrites, are outside this model); what the `FILE` functions buffer is written at once; a NUL cannot
be in an argument.  Output to the terminal is left out.
-/

namespace Zwt

/-- `fopen(path, "rb")`.  (A directory can be opened; reading from it then fails.) -/
def sysOpenRead (os : Os) (w : World) (path : Bytes) : Option Loc × World :=
  if os.refuses w.calls then (none, w.tick)
  else
    match locate os w true path with
    | none => (none, w.tick)
    | some l =>
      match w.fs l with
      | some (.file m _) =>
        if path.getLast? = some 47 ∨ ¬ (os.root || m &&& 0o400 != 0) then (none, w.tick)
        else (some l, w.tick)
      | some (.dir m) => if os.root || m &&& 0o400 != 0 then (some l, w.tick) else (none, w.tick)
      | _ => (none, w.tick)

/-- What reading an opened file gives. -/
def contentAt (w : World) (l : Loc) : Input :=
  match w.fs l with
  | some (.file _ c) => ⟨c, false⟩
  | _ => ⟨[], true⟩

/-- `CompressFileAndBlobCallback`, `:115-119`, called for the pieces of an archive. -/
def writePieces (os : Os) : List Bytes → OpenFile → World → World
  | [], _, w => w
  | d :: ds, f, w => writePieces os ds (sysWrite os w f d).1 (sysWrite os w f d).2

/-- `DirCompressFilterFunction`, `:122-125`. -/
def hlTestFilter : Filter Unit := fun _ _ _ => (0, ())

/-- The cases that archive a directory, `:62-70`, `:71-84`, `:85-106`: `fn` is the function called. -/
def hlTestDir (D : Deflater) (os : Os) (fuel : Nat) (junk : Bytes) (see : World → Env) (fn : DirFn)
    (inp out : Bytes) (w : World) : Run (Int × World) :=
  match sysOpen os w out FOPEN_MODE true with
  | (none, w) => .ok (1, w)
  | (some l, w) =>
    match compressDir D (see w) hlTestFilter fuel fn inp () 9 junk with
    | .error e => .error e
    | .ok (ret, log) => .ok (ret, writePieces os log ⟨l, 0⟩ w)

/-- The case that archives a file, `:43-57`. -/
def hlTestFile (D : Deflater) (os : Os) (fuel : Nat) (junk : Bytes) (inp out : Bytes) (w : World) :
    Run (Int × World) :=
  match sysOpenRead os w inp with
  | (none, w) => .ok (1, w)
  | (some li, w) =>
    match sysOpen os w out FOPEN_MODE true with
    | (none, w) => .ok (1, w)
    | (some lo, w) =>
      match compressFile D fuel (contentAt w li).data (contentAt w li).err 9 junk with
      | .error e => .error e
      | .ok (ret, log) => .ok (ret, writePieces os log ⟨lo, 0⟩ w)

/-- The case that extracts, `:58-62`, through `ZlibWtDecompressFileOrDir`. -/
def hlTestExtract (Z : Inflater) (os : Os) (ok : AllocOracle) (fuel : Nat) (hdr item : Bytes)
    (inp out : Bytes) (w : World) : Run (Int × World) :=
  match extractFile Z os ok fuel hdr item out 0
      ((sysOpenRead os w inp).1.map (contentAt (sysOpenRead os w inp).2)) (sysOpenRead os w inp).2 with
  | .error e => .error e
  | .ok r => .ok (if r.ret = CT_NONE then 1 else 0, r.w)

/-- The extra file of case `d`, `:77-80`; `mode` is not initialised. -/
def hlTestExtra (mode : Nat) : Extra := ⟨strB "__not_updateabe_files", strB "mconfig.bconf" ++ [0], mode⟩

/-- The extra files of case `e`, `:91-100`. -/
def hlTestExtras (m0 m1 m2 : Nat) : List Extra :=
  [⟨strB "a/b/__not_updateabe_files", strB "mconfig.bconf" ++ [0], m0⟩,
   ⟨strB "plugins/a/b/__not_updateabe_files2", strB "mconfig.bconf" ++ [0], m1⟩,
   ⟨strB "plugins/a/b/c/__not_updateabe_files3", strB "mconfig.bconf" ++ [0], m2⟩]

/-- What a run depends on besides the disk and the arguments: the library's uninitialised memory
(`junk`, `hdr`, `item`), the program's (`modes`), the outcome of allocations, and what the compression
functions see of a disk. -/
structure HlTestEnv where
  ok : AllocOracle
  junk : Bytes
  hdr : Bytes
  item : Bytes
  modes : Nat → Nat
  see : World → Env

/-- `main`, `:25-112`, with `a_argv[1 …]` = `args`: exit status and the world. -/
def hlTestMain (D : Deflater) (Z : Inflater) (os : Os) (fuel : Nat) (env : HlTestEnv)
    (args : List Bytes) (w : World) : Run (Int × World) :=
  match args with
  | fn :: inp :: more =>
    let out := more.head?.getD (strB "out.zlib")
    if fn.head? = some 97 then hlTestFile D os fuel env.junk inp out w
    else if fn.head? = some 98 then hlTestExtract Z os env.ok fuel env.hdr env.item inp out w
    else if fn.head? = some 99 then hlTestDir D os fuel env.junk env.see .plain inp out w
    else if fn.head? = some 100 then
      hlTestDir D os fuel env.junk env.see (.root [hlTestExtra (env.modes 0)]) inp out w
    else if fn.head? = some 101 then
      hlTestDir D os fuel env.junk env.see
        (.nested (hlTestExtras (env.modes 0) (env.modes 1) (env.modes 2))) inp out w
    else .ok (1, w)
  | _ => .ok (1, w)

end Zwt
