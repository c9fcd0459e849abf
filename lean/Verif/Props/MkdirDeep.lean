import Verif.Proofs.MkdirDeep
import Verif.Props.HLRound

/-! C88: output directories of any depth. -/

namespace Zwt

/-- C88.  If more than 62 directories of the path are missing, creating it reports −1.  Nothing is
changed, except that the topmost one has been created if exactly 63 are missing. -/
theorem C88_too_deep (os : Os) (hq : os.quiet) (mode : Nat) (w : World)
    (pre : Bytes) (h0 : 0 ∉ pre) (d : Loc) (hd : InDir os w pre d) (ho : OpenDir os w.fs d)
    (n : Bytes) (ns : List Bytes) (hn : ∀ x ∈ n :: ns, PlainName x) (hnew : w.fs (d ++ [n]) = none)
    (hlen : 63 ≤ (n :: ns).length) :
    ∃ w', mkdirRecurse os mode (pre ++ joinNames (n :: ns)) w = (-1, w') ∧ w'.cwd = w.cwd ∧
      (∀ x, x ≠ d ++ [n] → w'.fs x = w.fs x) ∧
      w'.fs (d ++ [n]) = if (n :: ns).length = 63 then some (.dir (dirMode os mode)) else none := by
  simp only [List.length_cons] at hlen ⊢
  obtain ⟨w', h1, h2, h3⟩ := mkdirRecurse_deep os hq mode w pre d n ns
    (hd.front ho.searchable h0) ho hn hnew (by omega)
  refine ⟨w', h1, h3, ?_, ?_⟩
  · intro x hx
    rw [h2, deepLeft]
    split
    · simp [FS.put, hx]
    · rfl
  · rw [h2, deepLeft]
    by_cases h : ns.length = 62
    · rw [if_pos h, if_pos (by omega)]; simp [FS.put]
    · rw [if_neg h, if_neg (by omega), hnew]

/-- A path of `k` names `x`. -/
def deepPath (k : Nat) : List Bytes := List.replicate k [120]

theorem deepPath_plain (k : Nat) : ∀ x ∈ deepPath k, PlainName x := by
  intro x hx
  rw [(List.mem_replicate.mp hx).2]
  decide

/-- The working directory of the samples. -/
theorem HLSample.here : InDir HLSample.os (HLSample.world []) [] (HLSample.world []).cwd ∧
    OpenDir HLSample.os (HLSample.world []).fs (HLSample.world []).cwd ∧
    (HLSample.world []).fs ((HLSample.world []).cwd ++ [[120]]) = none :=
  ⟨.rel, ⟨0o755, by decide +kernel, by simp [Enterable]⟩, by decide +kernel⟩

open HLSample in
example := C88_too_deep os os_quiet 0o775 (world []) [] (by simp) _ here.1 here.2.1 [120] (deepPath 62)
  (deepPath_plain 63) here.2.2 (by decide)

open HLSample in
/-- C88 is false: 63 missing directories, nothing refused. -/
theorem C88_any_depth_false :
    ¬ ∀ (os : Os) (mode : Nat) (w : World) (n : Bytes) (ns : List Bytes), os.quiet →
      OpenDir os w.fs w.cwd → (∀ x ∈ n :: ns, PlainName x) → w.fs (w.cwd ++ [n]) = none →
      Enterable os (dirMode os mode) → (mkdirRecurse os mode (joinNames (n :: ns)) w).1 = 0 := by
  intro h
  have h1 := h os 0o775 (world []) [120] (deepPath 62) os_quiet here.2.1 (deepPath_plain 63) here.2.2
    (by simp [Enterable]; decide)
  obtain ⟨w', h2, _⟩ := C88_too_deep os os_quiet 0o775 (world []) [] (by simp) _ here.1 here.2.1 [120]
    (deepPath 62) (deepPath_plain 63) here.2.2 (by decide)
  rw [List.nil_append] at h2
  rw [h2] at h1
  have h1 : (-1 : Int) = 0 := h1
  exact absurd h1 (by decide)

open HLSample in
/-- C88 is false, second part: a creation that fails can leave a directory behind. -/
theorem C88_left_behind_false :
    ¬ ∀ (os : Os) (mode : Nat) (w : World) (n : Bytes) (ns : List Bytes), os.quiet →
      OpenDir os w.fs w.cwd → (∀ x ∈ n :: ns, PlainName x) → w.fs (w.cwd ++ [n]) = none →
      Enterable os (dirMode os mode) → (mkdirRecurse os mode (joinNames (n :: ns)) w).1 ≠ 0 →
      (mkdirRecurse os mode (joinNames (n :: ns)) w).2.fs = w.fs := by
  intro h
  obtain ⟨w', h2, _, _, h3⟩ := C88_too_deep os os_quiet 0o775 (world []) [] (by simp) _ here.1 here.2.1
    [120] (deepPath 62) (deepPath_plain 63) here.2.2 (by decide)
  rw [List.nil_append] at h2
  have h1 := h os 0o775 (world []) [120] (deepPath 62) os_quiet here.2.1 (deepPath_plain 63) here.2.2
    (by simp [Enterable]; decide) (by rw [h2]; show (-1 : Int) ≠ 0; decide)
  rw [h2] at h1
  have h4 : w'.fs = (world []).fs := h1
  rw [h4, here.2.2, if_pos (by decide)] at h3
  cases h3

/-- C88, what holds: all or nothing.  Either all missing directories are created (at most 62 of
them) and 0 is reported, or nothing is changed and −1 is reported.  Missing: exactly 63 missing
directories, and success for more. -/
theorem C88_all_or_nothing_partial (os : Os) (hq : os.quiet) (mode : Nat) (w : World) (ht : w.fs.tree)
    (pre : Bytes) (h0 : 0 ∉ pre) (d : Loc) (hd : InDir os w pre d) (ho : OpenDir os w.fs d)
    (n : Bytes) (ns : List Bytes) (hn : ∀ x ∈ n :: ns, PlainName x) (hnew : w.fs (d ++ [n]) = none)
    (he : Enterable os (dirMode os mode)) (hlen : (n :: ns).length ≠ 63) :
    ∃ r w', mkdirRecurse os mode (pre ++ joinNames (n :: ns)) w = (r, w') ∧ w'.cwd = w.cwd ∧
      (r = 0 ∧ (n :: ns).length ≤ 62 ∧
          (∀ j, j ≤ ns.length → w'.fs (d ++ n :: ns.take j) = some (.dir (dirMode os mode))) ∧
          (∀ x, (∀ j, j ≤ ns.length → x ≠ d ++ n :: ns.take j) → w'.fs x = w.fs x) ∨
        r = -1 ∧ 62 < (n :: ns).length ∧ w'.fs = w.fs) := by
  by_cases h : (n :: ns).length ≤ 62
  · obtain ⟨w', h1, h2, h3, h4⟩ := C38_mkdir_recurse_creates os hq mode w ht pre h0 d hd ho n ns hn hnew
      (.inr he) (by simpa using h)
    exact ⟨0, w', h1, h2, .inl ⟨rfl, h, h3, h4⟩⟩
  · obtain ⟨w', h1, h2, h3, h4⟩ := C88_too_deep os hq mode w pre h0 d hd ho n ns hn hnew (by omega)
    refine ⟨-1, w', h1, h2, .inr ⟨rfl, by omega, ?_⟩⟩
    funext x
    by_cases hx : x = d ++ [n]
    · rw [hx, h4, if_neg hlen, hnew]
    · exact h3 x hx

open HLSample in
example := C88_all_or_nothing_partial os os_quiet 0o775 (world []) world_tree [] (by simp) _
  here.1 here.2.1 [120] (deepPath 2) (deepPath_plain 3) here.2.2 (by simp [Enterable]; decide) (by decide)

end Zwt
