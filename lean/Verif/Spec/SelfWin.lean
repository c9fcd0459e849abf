import Verif.Spec.WinDisk
import Verif.Spec.SelfDisk

/-! What a self-extracting program should pack on Windows, and what it needs of the drive. -/

namespace Zwt

/-- The path `arg0` is that of `n` in the directory `dir`. -/
def ExePath (arg0 dir n : Bytes) : Prop :=
  92 ∉ n ∧ 47 ∉ n ∧ (arg0 = dir ++ 92 :: n ∨ arg0 = dir ++ 47 :: n ∧ 92 ∉ dir)

/-- The drive without what is at the places `ls`. -/
def WFS.omit (fs : WFS) (ls : List Loc) : WFS := fun x => if x ∈ ls then none else fs x

/-- The drive without what is at `l` and below. -/
def WFS.without (fs : WFS) (l : Loc) : WFS := fun x => if l <+: x then none else fs x

/-- As `WShows`, while the files at `used` are in use: they cannot be opened (`_SH_DENYRW`). -/
structure WShowsBut (win : Win) (w : WWorld) (env : Env) (used : List Loc) : Prop where
  list : ∀ p l, p.length ≤ 240 → winLocate win w.cwd p = some l → w.fs l = some .dir →
    ∃ es, env.list p = some es ∧ WLists win w.fs l es
  stat : ∀ p l, p.length ≤ 240 → winLocate win w.cwd p = some l → w.fs l = some .dir →
    env.statMode p < 2 ^ 32
  open' : ∀ p l ro c, p.length ≤ 240 → winLocate win w.cwd p = some l → w.fs l = some (.file ro c) →
    c.length < 2 ^ 31 → l ∉ used →
    env.fopen p = some ⟨some (0o100000 ||| if ro then 0o444 else 0o666, c.length), c, false⟩
  shut : ∀ p l, p.length ≤ 240 → winLocate win w.cwd p = some l → l ∈ used → env.fopen p = none

/-- Below the directory at `l`, with the path `p`, nothing but directories is called `x`, except in the
directory at `d`; and what is there is listed with exactly this spelling. -/
def WSole (win : Win) (env : Env) (p : Bytes) (l : Loc) (x : Bytes) (d : Loc) : Prop :=
  ∀ (ns : List Bytes) (es : List Entry) (e : Entry), (∀ y ∈ ns, WinName win y) →
    env.list (p ++ (ns.map (47 :: ·)).flatten) = some es → e ∈ es → WinName win e.name → e.ty ≠ .dir →
    (e.name = x → l ++ ns.map win.same = d) ∧
    (l ++ ns.map win.same = d → win.same e.name = win.same x → e.name = x)

end Zwt
