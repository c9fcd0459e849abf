import Verif.Proofs.Repro
import Verif.Props.Walk

/-! C67: what besides the tree goes into an archive. -/

namespace Zwt

variable {D : Deflater} {plain : Bytes → Bytes} {σ : Type}

/-- Same as `sampleEnv`, with other uninitialised memory. -/
def sampleEnv' : Env := { sampleEnv with itemMem := fun k => List.replicate 40 k.toUInt8 }

theorem sampleView : SameView sampleEnv sampleEnv' :=
  ⟨rfl, rfl, rfl, rfl, rfl, fun _ => by simp [sampleEnv, sampleEnv'], fun _ => rfl⟩

/-- C67, what holds for every file system, filter and directory function: of two calls that find
other content in uninitialised memory, the outcome is the same, the filter is shown the same, and
the buffers written agree but for the bytes that `Alike` lists.
Missing: those bytes, see `C67_nothing_but_the_tree_false`. -/
theorem C67_written_alike_partial {env env' : Env} (V : SameView env env') (flt : Filter σ)
    (fuel : Nat) (fn : DirFn) (dir : Bytes) (fs : σ) :
    (∃ e, dirWrites env flt fuel fn dir fs = .error e ∧ dirWrites env' flt fuel fn dir fs = .error e) ∨
    ∃ ret w w', dirWrites env flt fuel fn dir fs = .ok (ret, w) ∧
      dirWrites env' flt fuel fn dir fs = .ok (ret, w') ∧ w.fs = w'.fs ∧ w.shown = w'.shown ∧
      AllAlike w.out w'.out := by
  have := dirWrites_same V flt fuel fn dir fs
  generalize dirWrites env flt fuel fn dir fs = a at this ⊢
  generalize dirWrites env' flt fuel fn dir fs = b at this ⊢
  cases this with
  | err e => exact .inl ⟨e, rfl, rfl⟩
  | ok r h => exact .inr ⟨r, _, _, rfl, rfl, h.fs, h.shown, h.out⟩

/-- C67, what holds of the archives: both hold the same tree, and nothing else can be told from
either by reading it.
Missing: equality of the archives (`C67_nothing_but_the_tree_false`). -/
theorem C67_same_tree_partial (C : DeflateOK D plain) {env env' : Env} (V : SameView env env')
    (flt : Filter σ) {dir : Bytes} {es : List Entry} {f : Forest} (hl : env.list dir = some es)
    (hm : Mirror env dir es f) (fs : σ) (level : Int) (z : D.τ) (hz : D.init level = some z)
    (junk junk' : Bytes) (hj : junk.length = 120) (hj' : junk'.length = 120)
    (hst : (select flt dir f fs).status ≠ .failed) :
    ∃ n0 log log' F, (∀ fuel, n0 ≤ fuel →
        compressDir D env flt fuel .plain dir fs level junk = .ok (0, log) ∧
        compressDir D env' flt fuel .plain dir fs level junk' = .ok (0, log')) ∧
      IsArchive plain junk F log ∧ IsArchive plain junk' F log' := by
  have hm' : Mirror env' dir es f := by
    clear hl hst
    induction hm with
    | nil => exact .nil
    | dot h _ ih => exact .dot h ih
    | file h1 h2 h3 _ ih => exact .file h1 h2 (by rw [← V.fopen]; exact h3) ih
    | bad h1 h2 _ ih => exact .bad h1 (by unfold Unreadable at h2 ⊢; rw [← V.fopen]; exact h2) ih
    | link h1 h2 h3 h4 _ ih =>
      exact .link h1 h2 (by rw [← V.lstat]; exact h3) (by rw [← V.readlink]; exact h4) ih
    | dir h1 h2 h3 _ _ ih1 ih2 =>
      exact .dir h1 (by rw [← V.statMode]; exact h2) (by rw [← V.list]; exact h3) ih1 ih2
    | other h1 _ ih => exact .other h1 ih
  obtain ⟨n0, log, a1, a2⟩ := C27_directory_archive C env (fun k => (V.item k).1) flt hl hm fs level z hz
    junk hj hst
  obtain ⟨n1, log', b1, b2⟩ := C27_directory_archive C env' (fun k => (V.item k).2) flt
    (by rw [← V.list]; exact hl) hm' fs level z hz junk' hj' hst
  exact ⟨max n0 n1, log, log', _, fun fuel hf => ⟨a1 fuel (by omega), b1 fuel (by omega)⟩, a2, b2⟩

/-- Example: the two views of the sample tree, and records that do differ. -/
example := C67_written_alike_partial sampleView (keepFilter fun _ e => e.name ≠ [117]) 5 .plain [114] ()

example : SameView sampleEnv sampleEnv' ∧
    (dirWrites sampleEnv (keepFilter fun _ e => e.name ≠ [117]) 5 .plain [114] ()).isOk ∧
    ((dirWrites sampleEnv (keepFilter fun _ e => e.name ≠ [117]) 5 .plain [114] ()).toOption.map
        (·.2.out) ≠
      (dirWrites sampleEnv' (keepFilter fun _ e => e.name ≠ [117]) 5 .plain [114] ()).toOption.map
        (·.2.out)) ∧
    (select (keepFilter fun _ e => e.name ≠ [117]) [114] sampleForest ()).status ≠ .failed :=
  ⟨sampleView, by decide +kernel, by decide +kernel, by decide⟩

/-- C67 is false: archives of the same tree differ; already the header of an archive holds 120 bytes
of whatever the stack held before. -/
theorem C67_nothing_but_the_tree_false :
    ¬ ∀ (D : Deflater) (plain : Bytes → Bytes), DeflateOK D plain → ∀ (env env' : Env),
      SameView env env' → ∀ (dir : Bytes) (fuel : Nat) (level : Int) (junk junk' : Bytes)
        (log log' : List Bytes), junk.length = 120 → junk'.length = 120 →
      compressDir D env acceptAll fuel .plain dir () level junk = .ok (0, log) →
      compressDir D env' acceptAll fuel .plain dir () level junk' = .ok (0, log') →
      log.flatten = log'.flatten := by
  intro h
  have V : SameView emptyEnv emptyEnv :=
    ⟨rfl, rfl, rfl, rfl, rfl, fun _ => by simp [emptyEnv], fun _ => rfl⟩
  have key : ∀ b : UInt8, b = 1 ∨ b = 2 → ∃ log, compressDir queueD emptyEnv acceptAll 5 .plain [114] ()
      6 (List.replicate 120 b) = .ok (0, log) ∧ log.flatten = headerBytes 0 1 (List.replicate 120 b) := by
    intro b hb
    have : (match compressDir queueD emptyEnv acceptAll 5 .plain [114] () 6 (List.replicate 120 b) with
      | .ok (r, log) => decide (r = 0 ∧ log.flatten = headerBytes 0 1 (List.replicate 120 b))
      | .error _ => false) = true := by rcases hb with rfl | rfl <;> decide +kernel
    split at this
    · rename_i r log e
      simp only [decide_eq_true_eq] at this
      obtain ⟨rfl, h2⟩ := this
      exact ⟨log, e, h2⟩
    · simp at this
  obtain ⟨l1, a1, a2⟩ := key 1 (.inl rfl)
  obtain ⟨l2, b1, b2⟩ := key 2 (.inr rfl)
  have := h queueD id queueDOK emptyEnv emptyEnv V [114] 5 6 _ _ l1 l2 List.length_replicate
    List.length_replicate a1 b1
  rw [a2, b2] at this
  exact absurd this (by decide +kernel)

end Zwt
