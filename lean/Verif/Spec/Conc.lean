import Verif.Spec.LinkSafe
import Verif.Spec.FS
import Verif.Model.Conc

/-! What is left on the disk by an extraction that was interrupted; extractions at the same time. -/

namespace Zwt

/-- `a` is `b`, or a beginning of it: the same directory or link, or a file with the same
permissions and a beginning of the content. -/
def Node.partOf : Node → Node → Prop
  | .dir m, b => b = .dir m
  | .link t, b => b = .link t
  | .file m c, b => ∃ c', b = .file m c' ∧ c <+: c'

/-- Everything in `fs` is in `fs'`, complete or as a beginning. -/
def FS.partOf (fs fs' : FS) : Prop := ∀ l a, fs l = some a → ∃ b, fs' l = some b ∧ a.partOf b

/-- One of several extractions: the memory its buffers are made of, the path `pre ++ name/names…` to
extract to, and what is read. -/
structure Job where
  hdr : Bytes
  item : Bytes
  pre : Bytes
  dir : Loc
  name : Bytes
  names : List Bytes
  size : Nat
  inp : Input

/-- The output path. -/
def Job.out (j : Job) : Bytes := j.pre ++ joinNames (j.name :: j.names)

/-- The first of the names on the path that need not exist. -/
def Job.place (j : Job) : Loc := j.dir ++ [j.name]

/-- The uncompressed archive (`size` 0: to the end of the input). -/
def Job.archive (j : Job) (plain : Bytes → Bytes) : Bytes :=
  plain (if j.size > 0 then j.inp.data.take j.size else j.inp.data)

/-- `pre` leads to a directory that can be entered, at and below `name` there are no links, and the
archive is that of a file, or that of a directory whose entries have ordinary names, are no links and
have no unmatched ends; in this case the output directory can be created. -/
structure Job.Safe (os : Os) (w : World) (ok : AllocOracle) (plain : Bytes → Bytes) (j : Job) :
    Prop where
  hdr : j.hdr.length = 128
  item : j.item.length = 40
  zero : 0 ∉ j.pre
  inDir : InDir os w j.pre j.dir
  enter : searchable os w.fs j.dir = true
  plainNames : ∀ x ∈ j.name :: j.names, PlainName x
  back : 92 ∉ j.pre ++ j.name
  noLink : ∀ q t, w.fs (j.place ++ q) ≠ some (.link t)
  kind : hdrKind ((j.archive plain).take 128) ≠ CT_DIRECTORY ∨
    (mkdirRecurse os BASE_DIR_MODE j.out w).1 = 0 ∧
    (∀ a ∈ (specParse ok 0 ((j.archive plain).drop 128)).atoms, SafeEntry a) ∧
    balance 0 (specParse ok 0 ((j.archive plain).drop 128)).atoms ≠ none

/-- As `Job.Safe`, for archives that may have links: no file and no directory has the path of an
earlier link or a path through one, and the working directory can be entered by its path. -/
structure Job.SafeL (os : Os) (w : World) (ok : AllocOracle) (plain : Bytes → Bytes) (j : Job) :
    Prop where
  hdr : j.hdr.length = 128
  item : j.item.length = 40
  zero : 0 ∉ j.pre
  inDir : InDir os w j.pre j.dir
  enter : searchable os w.fs j.dir = true
  plainNames : ∀ x ∈ j.name :: j.names, PlainName x
  back : 92 ∉ j.pre ++ j.name
  noLink : ∀ q t, w.fs (j.place ++ q) ≠ some (.link t)
  home : CwdBack os w.fs w.cwd
  kind : hdrKind ((j.archive plain).take 128) ≠ CT_DIRECTORY ∨
    (mkdirRecurse os BASE_DIR_MODE j.out w).1 = 0 ∧
    LinkSafe [] [] (specParse ok 0 ((j.archive plain).drop 128)).atoms

/-- A program amid other activity in the same process: `none` is its next call, `some g` is something
that others do. -/
def amid {α : Type} (os : Os) : List (Option (World → World)) → Prog α → World → Prog α × World
  | [], p, w => (p, w)
  | none :: s, p, w => amid os s (p.step os w).1 (p.step os w).2
  | some g :: s, p, w => amid os s p (g w)

/-- Something that leaves alone the working directory, everything at and below `r`, and the
directories and links that are in `w0`. -/
def Elsewhere (w0 : World) (r : Loc) (g : World → World) : Prop :=
  ∀ w, (g w).cwd = w.cwd ∧ (∀ q, (g w).fs (r ++ q) = w.fs (r ++ q)) ∧
    ∀ l a, w0.fs l = some a → (∀ m c, a ≠ .file m c) → w.fs l = some a → (g w).fs l = some a

/-- The same, but the working directory may change. -/
def ElsewhereFs (w0 : World) (r : Loc) (g : World → World) : Prop :=
  ∀ w, (∀ q, (g w).fs (r ++ q) = w.fs (r ++ q)) ∧
    ∀ l a, w0.fs l = some a → (∀ m c, a ≠ .file m c) → w.fs l = some a → (g w).fs l = some a

end Zwt
