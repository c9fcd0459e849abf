import Verif.Spec.Win
import Verif.Spec.HLSample
import Verif.Spec.WalkSample
import Verif.Model.Walk

/-! A small drive, and flat directories on Unix. -/

namespace Zwt

namespace WinSample

/-- Names are compared without case; `:` and `*` are not allowed. -/
def win : Win where
  refuses _ := false
  accepts _ n := n
  noMem _ := false
  key n := if 58 ∈ n ∨ 42 ∈ n then none
    else some (n.map fun c => if 65 ≤ c ∧ c ≤ 90 then c + 32 else c)

theorem win_quiet : win.quiet := ⟨fun _ => rfl, fun _ _ => Nat.le_refl _, fun _ => rfl⟩

/-- Working directory `c`, with a file `x` in it. -/
def drive : WWorld where
  fs l := if l = [] ∨ l = [[99]] then some .dir else if l = [[99], [120]] then some (.file false [5, 5])
    else none
  cwd := [[99]]
  calls := 0

inductive View
  | fault (e : Fault)
  | done (ret : Nat) (hasError : Bool) (nodes : List (Option WNode))
  deriving DecidableEq

def view (ls : List Loc) : Run WExtracted → View
  | .error e => .fault e
  | .ok r => .done r.ret r.hasError (ls.map r.w.fs)

theorem view_done {ls : List Loc} {r : Run WExtracted} {n : Nat} {e : Bool} {ns : List (Option WNode)}
    (h : view ls r = .done n e ns) :
    ∃ x, r = .ok x ∧ x.ret = n ∧ x.hasError = e ∧ ls.map x.w.fs = ns := by
  cases r with
  | error e => simp [view] at h
  | ok x => simp only [view, View.done.injEq] at h; exact ⟨x, rfl, h⟩

/-- A directory `r` with files and links to `t`. -/
def flat (es : List Entry) (cont : Bytes → Bytes) : Env where
  list p := if p = [114] then some es else none
  statMode _ := 0o755
  fopen p := some ⟨some (0o644, (cont (p.drop 2)).length), cont (p.drop 2), false⟩
  lstat _ := (0o777, 1)
  readlink _ := some [116]
  itemMem _ := List.replicate 40 170
  linkMem _ := []

/-- The archive of a directory, made on Unix and extracted to `o` on the drive. -/
def both (env : Env) : Run WExtracted :=
  match compressDir queueD env acceptAll 20 .plain [114] () 6 (List.replicate 120 0xEE) with
  | .ok (_, log) => winExtract copyI win (fun _ _ => true) 5 HLSample.hdrMem HLSample.itemMem [111] 0
      ⟨log.flatten, false⟩ drive
  | .error e => .error e

end WinSample

end Zwt
