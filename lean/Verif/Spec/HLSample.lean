import Verif.Spec.FS
import Verif.Spec.Toy

/-! Small archives and file systems used in examples and witnesses.  With the copying codec
`copyI` compressed and plain bytes are the same. -/

namespace Zwt.HLSample

/-- Zero padding as the compressor writes it. -/
def pad (n : Nat) : Bytes := List.replicate (8 - n % 8) 0

/-- An item record. -/
def item (kind size nameLen mode : Nat) : Bytes :=
  itemBytes ⟨size, size + (8 - size % 8), nameLen, nameLen + (8 - nameLen % 8), mode, kind⟩
    (List.replicate 11 0xAA)

/-- An encoding of a tree. -/
def encode : Forest → Bytes
  | .nil => []
  | .file n m c r =>
    item 0 c.length n.length m ++ n ++ pad n.length ++ c ++ pad c.length ++ encode r
  | .link n m t r =>
    item 4 t.length n.length m ++ n ++ pad n.length ++ t ++ pad t.length ++ encode r
  | .dir n m s r =>
    item 1 0 n.length m ++ n ++ pad n.length ++ encode s ++ item 2 0 0 0 ++ encode r
  | .other _ r => encode r
  | .bad _ r => encode r

/-- Archive header. -/
def header (kind : Nat) : Bytes := headerBytes 0 kind (List.replicate 120 0xEE)

/-- Directory archive. -/
def dirArc (f : Forest) : Bytes := header CT_DIRECTORY ++ encode f

/-- File archive. -/
def fileArc (c : Bytes) : Bytes := header CT_FILE ++ c

/-- File system with the given nodes. -/
def fsOf (nodes : List (Loc × Node)) : FS := fun l => (nodes.find? (·.1 = l)).map (·.2)

/-- `/`, `/h` (104), `/h/w` (119), working directory `/h/w`. -/
def world (extra : List (Loc × Node)) : World :=
  { fs := fsOf (extra ++ [([], .dir 0o755), ([[104]], .dir 0o755), ([[104], [119]], .dir 0o755)])
    cwd := [[104], [119]]
    calls := 0 }

/-- Ordinary user, umask 022, nothing refused. -/
def os : Os :=
  { refuses := fun _ => false, accepts := fun _ n => n, allow := 0o755, root := false,
    noMem := fun _ => false }

theorem os_quiet : os.quiet := ⟨fun _ => rfl, fun _ n => Nat.le_refl n, fun _ => rfl⟩

/-- Memory of the session. -/
def hdrMem : Bytes := List.replicate 128 0
def itemMem : Bytes := List.replicate 40 0

/-- Extraction of `arc` to `out`. -/
def run (os : Os) (arc out : Bytes) (w : World) : Run Extracted :=
  extract copyI os (fun _ _ => true) 5 hdrMem itemMem out 0 ⟨arc, false⟩ w

/-- What is observed of a run. -/
inductive View
  | fault (e : Fault)
  /-- result, working directory, some nodes -/
  | done (ret : Nat) (cwd : Loc) (nodes : List (Option Node))
  deriving DecidableEq, Repr

def view (ls : List Loc) : Run Extracted → View
  | .error e => .fault e
  | .ok r => .done r.ret r.w.cwd (ls.map r.w.fs)

/-- Result of a run that ends without fault. -/
theorem view_done {ls : List Loc} {r : Run Extracted} {n : Nat} {c : Loc} {ns : List (Option Node)}
    (h : view ls r = .done n c ns) :
    ∃ x, r = .ok x ∧ x.ret = n ∧ x.w.cwd = c ∧ ls.map x.w.fs = ns := by
  cases r with
  | error e => simp [view] at h
  | ok x => simp only [view, View.done.injEq] at h; exact ⟨x, rfl, h⟩

theorem view_fault {ls : List Loc} {r : Run Extracted} {e : Fault} (h : view ls r = .fault e) :
    r = .error e := by
  cases r with
  | error e' => simp only [view, View.fault.injEq] at h; rw [h]
  | ok x => simp [view] at h

open HLSample in
/-- The sample world is a tree. -/
theorem world_tree : (world []).fs.tree := by
  refine ⟨⟨0o755, by decide +kernel⟩, ?_⟩
  intro l c n h
  have key : ∀ x : Loc, (world []).fs x ≠ none → x = [] ∨ x = [[104]] ∨ x = [[104], [119]] := by
    intro x hx
    simp only [world, fsOf, List.nil_append, List.find?] at hx
    by_cases h1 : x = []
    · exact .inl h1
    · by_cases h2 : x = [[104]]
      · exact .inr (.inl h2)
      · by_cases h3 : x = [[104], [119]]
        · exact .inr (.inr h3)
        · exfalso; apply hx
          simp [Ne.symm h1, Ne.symm h2, Ne.symm h3]
  rcases key _ (by rw [h]; simp) with h | h | h
  · simp at h
  · have : l = [] := by
      have := congrArg List.dropLast h
      simpa using this
    subst this
    exact ⟨0o755, by decide +kernel⟩
  · have : l = [[104]] := by
      have := congrArg List.dropLast h
      simpa using this
    subst this
    exact ⟨0o755, by decide +kernel⟩

end Zwt.HLSample
