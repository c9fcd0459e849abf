import Verif.Spec.Win
import Verif.Spec.Disk
import Verif.Model.WinWalk

/-! Compression of a directory of a Windows drive. -/

namespace Zwt

variable {σ : Type}

/-- The filter that also refuses all links. -/
def Filter.noLinks (flt : Filter σ) : Filter σ := fun s d e =>
  if (flt s d e).1 = 0 ∧ e.ty = .symlink then (1, (flt s d e).2) else flt s d e

/-- Every directory above something is a directory. -/
def WFS.tree (fs : WFS) : Prop := ∀ l k n, fs (l ++ [k]) = some n → fs l = some .dir

/-- Type of a node as the directory iteration reports it. -/
def WNode.type : WNode → EType
  | .dir => .dir
  | .file _ _ => .file

/-- `es` are the entries of the directory at `l`, each once, in any order, perhaps with `.` and `..`,
and perhaps with links, which are not part of this model of drives. -/
structure WLists (win : Win) (fs : WFS) (l : Loc) (es : List Entry) : Prop where
  once : (es.map (·.name)).Nodup
  apart : ∀ e ∈ es, ∀ e' ∈ es, WinName win e.name → WinName win e'.name →
    win.same e.name = win.same e'.name → e.name = e'.name
  real : ∀ e ∈ es, e.name = [46] ∨ e.name = [46, 46] ∨ WinName win e.name ∧
    ((e.ty = .symlink ∧ fs (l ++ [win.same e.name]) = none) ∨
      ∃ n, fs (l ++ [win.same e.name]) = some n ∧ e.ty = n.type)
  all : ∀ k n, fs (l ++ [k]) = some n → ∃ e ∈ es, WinName win e.name ∧ win.same e.name = k

/-- What the compression functions see through `env` is the drive of `w`, as far as paths have at most
240 bytes and files less than 2 GiB (`fstat` fails beyond: `st_size` has 32 bits).  The permissions
reported for files are 0444 and 0666; those of directories can be anything. -/
structure WShows (win : Win) (w : WWorld) (env : Env) : Prop where
  list : ∀ p l, p.length ≤ 240 → winLocate win w.cwd p = some l → w.fs l = some .dir →
    ∃ es, env.list p = some es ∧ WLists win w.fs l es
  stat : ∀ p l, p.length ≤ 240 → winLocate win w.cwd p = some l → w.fs l = some .dir →
    env.statMode p < 2 ^ 32
  open' : ∀ p l ro c, p.length ≤ 240 → winLocate win w.cwd p = some l → w.fs l = some (.file ro c) →
    c.length < 2 ^ 31 →
    env.fopen p = some ⟨some (0o100000 ||| if ro then 0o444 else 0o666, c.length), c, false⟩

/-- The path `p` leads to a directory at `l`; files below are smaller than 2 GiB, and the paths of
everything listed below `p` have at most 240 bytes. -/
structure WArchivable (win : Win) (w : WWorld) (env : Env) (p : Bytes) (l : Loc) : Prop where
  leads : winLocate win w.cwd p = some l
  isDir : w.fs l = some .dir
  files : ∀ q ro c, w.fs (l ++ q) = some (.file ro c) → c.length < 2 ^ 31
  top : p.length ≤ 240
  short : ∀ (ns : List Bytes) (es : List Entry) (e : Entry), (∀ x ∈ ns, WinName win x) →
    env.list (p ++ (ns.map (47 :: ·)).flatten) = some es → e ∈ es → WinName win e.name →
    (p ++ (ns.map (47 :: ·)).flatten).length + 1 + e.name.length ≤ 240

/-- The drive `fs'` is `fs` with a copy of the directory at `l` of the drive `src`, in the directory `b`,
which is new with the directories on the way to it from `top`. -/
def WCopyOf (src : WFS) (l : Loc) (fs fs' : WFS) (top b : Loc) : Prop :=
  (∀ l', top <+: l' → l' <+: b → fs' l' = some .dir) ∧
  (∀ q, q ≠ [] → fs' (b ++ q) = src (l ++ q)) ∧
  ∀ l', ¬ (top <+: l' ∧ l' <+: b) → (∀ q, q ≠ [] → l' ≠ b ++ q) → fs' l' = fs l'

end Zwt
