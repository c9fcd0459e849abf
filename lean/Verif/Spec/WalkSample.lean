import Verif.Spec.Forest

/-! A small file system used in examples: directory `r` with `.`, `..`, file `a` (bytes 1 2),
directory `d` (holding the empty file `b`), link `l` to `t`, a socket `s` and an unreadable
file `u`. -/

namespace Zwt

def sampleEnv : Env where
  list p := if p = [114] then some [⟨[46], .dir⟩, ⟨[46, 46], .dir⟩, ⟨[97], .file⟩, ⟨[100], .dir⟩,
      ⟨[108], .symlink⟩, ⟨[115], .other⟩, ⟨[117], .file⟩]
    else if p = [114, 47, 100] then some [⟨[98], .file⟩] else none
  statMode _ := 0o755
  fopen p := if p = [114, 47, 97] then some ⟨some (0o640, 2), [1, 2], false⟩
    else if p = [114, 47, 100, 47, 98] then some ⟨some (0o600, 0), [], false⟩ else none
  lstat _ := (0o777, 1)
  readlink p := if p = [114, 47, 108] then some [116] else none
  itemMem _ := List.replicate 40 170
  linkMem _ := []

def sampleForest : Forest :=
  .file [97] 0o640 [1, 2] <| .dir [100] 0o755 (.file [98] 0o600 [] .nil) <|
    .link [108] 0o777 [116] <| .other [115] <| .bad [117] .nil

theorem sample_fits {dir name : Bytes} {mode : Nat} (h1 : name ≠ [46] ∧ name ≠ [46, 46])
    (h2 : (pathOf dir name).length ≤ 100) (h3 : mode < 1000) : FitsName dir name mode :=
  ⟨h1, by omega, by
    have : name.length ≤ (pathOf dir name).length := by simp [pathOf]; omega
    omega, by omega⟩

theorem sampleMirror : Mirror sampleEnv [114] ((sampleEnv.list [114]).getD []) sampleForest := by
  refine .dot (.inl rfl) (.dot (.inr rfl) (.file (sample_fits ?_ ?_ ?_) ?_ ?_ (.dir (es' := [⟨[98], .file⟩])
    (sample_fits ?_ ?_ ?_) ?_ ?_ (.file (sample_fits ?_ ?_ ?_) ?_ ?_ .nil) (.link (sample_fits ?_ ?_ ?_) ?_ ?_ ?_
      (.other (sample_fits ?_ ?_ ?_) (.bad (sample_fits ?_ ?_ ?_) (.inl ?_) .nil))))))
  all_goals first | decide | rfl

/-- Accepts everything. -/
def acceptAll : Filter Unit := fun _ _ _ => (0, ())

/-- Counts its calls; rejects entries of type `other`, and asks to stop at the `k`-th call. -/
def countFilter (k : Nat) : Filter Nat :=
  fun n _ e => (if n = k then 387 else if e.ty = .other then 1 else 0, n + 1)

end Zwt
