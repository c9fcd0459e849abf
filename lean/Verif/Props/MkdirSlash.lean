import Verif.Proofs.MkdirSlash
import Verif.Props.HL
import Verif.Props.HLFail

/-! C57: several missing directories given with a slash at the end. -/

namespace Zwt

variable {Z : Inflater} {plain : Bytes → Bytes}

/-- C57 fails whenever it can: `pre` leads to the existing directory `d` in which there is no `n`.
Creating `pre/n/x/…/`, with a slash at the end, gives −1 for every choice of two or more missing
directories (up to 61), although all of them are created, and nothing else. -/
theorem C57_several (os : Os) (hq : os.quiet) (mode : Nat) (w : World) (ht : w.fs.tree)
    (pre : Bytes) (h0 : 0 ∉ pre) (d : Loc) (hd : InDir os w pre d) (ho : OpenDir os w.fs d)
    (n : Bytes) (ns : List Bytes) (hn : ∀ x ∈ n :: ns, PlainName x) (hnew : w.fs (d ++ [n]) = none)
    (he : Enterable os (dirMode os mode)) (h1 : 2 ≤ (n :: ns).length) (h2 : (n :: ns).length ≤ 61) :
    ∃ w', mkdirRecurse os mode (pre ++ joinNames (n :: ns) ++ [47]) w = (-1, w') ∧ w'.cwd = w.cwd ∧
      (∀ j, j ≤ ns.length → w'.fs (d ++ n :: ns.take j) = some (.dir (dirMode os mode))) ∧
      ∀ x, (∀ j, j ≤ ns.length → x ≠ d ++ n :: ns.take j) → w'.fs x = w.fs x := by
  obtain ⟨x, xs, rfl⟩ : ∃ x xs, ns = x :: xs := by
    cases ns with
    | nil => simp at h1
    | cons x xs => exact ⟨x, xs, rfl⟩
  simp only [List.length_cons] at h2
  obtain ⟨w', h1, h2, h3⟩ := mkdirRecurse_slash os hq mode w pre d n x xs
    (hd.front ho.searchable h0) ho hn (ht.absent hnew) he (by omega)
  obtain ⟨g1, g2⟩ := mkChain_at w.fs (dirMode os mode) (n :: x :: xs) d
  refine ⟨w', h1, h3, ?_, ?_⟩
  · intro j hj
    rw [h2]
    have := g1 (j + 1) (by omega) (by simp only [List.length_cons] at hj ⊢; omega)
    simpa using this
  · intro y hy
    rw [h2]
    refine g2 y ?_
    intro j h1 h2
    obtain ⟨k, rfl⟩ : ∃ k, j = k + 1 := ⟨j - 1, by omega⟩
    have := hy k (by simpa using h2)
    simpa using this

open HLSample in
/-- `o/p/` in `/h/w`. -/
example := C57_several os os_quiet 0o775 (world []) world_tree [] (by decide)
  [[104], [119]] .rel ⟨0o755, by decide +kernel, .inr (by decide)⟩ [111] [[112]] (by decide +kernel)
  (by decide +kernel) (.inr (by decide)) (by decide) (by decide)

/-- So no directory archive can be extracted to such a path: whatever the archive, success is not
reported. -/
theorem C57_extraction (C : InflateOK Z plain) (ok : AllocOracle) (hdr item : Bytes)
    (hh : hdr.length = 128) (hi : item.length = 40) (os : Os) (hq : os.quiet) (w : World)
    (ht : w.fs.tree) (pre : Bytes) (h0 : 0 ∉ pre) (d : Loc) (hd : InDir os w pre d)
    (ho : OpenDir os w.fs d) (n : Bytes) (ns : List Bytes) (hn : ∀ x ∈ n :: ns, PlainName x)
    (hnew : w.fs (d ++ [n]) = none) (he : Enterable os (dirMode os 0o775))
    (h1 : 2 ≤ (n :: ns).length) (h2 : (n :: ns).length ≤ 61) (chunk : Nat) (inp : Input)
    (hk : hdrKind ((plain (allowed chunk 0 inp.data)).take 128) = CT_DIRECTORY) :
    ∃ n0 X, (∀ fuel, n0 ≤ fuel →
        extract Z os ok fuel hdr item (pre ++ joinNames (n :: ns) ++ [47]) chunk inp w = X) ∧
      ∀ r, X = .ok r → r.ret = CT_NONE := by
  obtain ⟨w', g, _⟩ := C57_several os hq BASE_DIR_MODE w ht pre h0 d hd ho n ns hn hnew he h1 h2
  exact C41_unavailable_outdir_partial C ok hdr item hh hi os _ w chunk inp hk (by
    rw [g]; show (-1 : Int) ≠ 0; decide)

open HLSample in
/-- An archive of one file, extracted to `o/p/`: nothing reported, and (C41) the file goes to the
root. -/
example :=
  (C57_extraction copyIOK (fun _ _ => true) (List.replicate 128 0) (List.replicate 40 0)
    List.length_replicate List.length_replicate os os_quiet (world []) world_tree [] (by decide)
    [[104], [119]] .rel ⟨0o755, by decide +kernel, .inr (by decide)⟩ [111] [[112]] (by decide +kernel)
    (by decide +kernel) (.inr (by decide)) (by decide) (by decide) 0
    ⟨dirArc (.file [97] 0o640 [1, 2, 3] .nil), false⟩ (by decide +kernel))

end Zwt
