import Verif.Proofs.HLBeyond
import Verif.Proofs.Confine
import Verif.Spec.HLSample

/-! C37, C38: reading the archive, creating the output directory. -/

namespace Zwt

variable {Z : Inflater} {plain : Bytes → Bytes}

open HLSample in
/-- The runs used in the examples: an archive of a file and a link is extracted to `o`. -/
example : view [[[104], [119], [111]], [[104], [119], [111], [97]], [[104], [119], [111], [108]]]
    (run os (dirArc (.file [97] 0o640 [1, 2, 3] (.link [108] 0o777 [116] .nil))) [111] (world [])) =
    .done CT_DIRECTORY [[104], [119]]
      [some (.dir 0o755), some (.file 0o640 [1, 2, 3]), some (.link [116])] := by decide +kernel

/-! ### C37 -/

/-- C37.  With a positive archive size `n`, extraction reads `n` bytes of the input or all of it if
there are less; with 0 it reads all of it.  It stops before only after an error in a callback.
(Reading ends: a result exists.) -/
theorem C37_archive_size (C : InflateOK Z plain) (ok : AllocOracle) (hdr item : Bytes)
    (hh : hdr.length = 128) (hi : item.length = 40) (os : Os) (out : Bytes) (w : World) (n : Nat)
    (inp : Input) :
    ∃ n0 X, (∀ fuel, n0 ≤ fuel → extract Z os ok fuel hdr item out n inp w = X) ∧
      ∀ r, X = .ok r →
        r.read ≤ (if n = 0 then inp.data.length else min n inp.data.length) ∧
        (r.hasError = false →
          r.read = if n = 0 then inp.data.length else min n inp.data.length) := by
  have hlim : (allowed n 0 inp.data).length =
      if n = 0 then inp.data.length else min n inp.data.length := by
    simp only [allowed]
    by_cases hn : n = 0
    · simp [hn]
    · rw [if_pos (by omega), if_neg hn, List.length_take]; simp
  obtain ⟨n0, X, hX, hrun⟩ := extract_end C ok hdr item hh hi os out w n inp
  refine ⟨n0, X, hrun, ?_⟩
  intro r hr
  subst hr
  rw [← hlim]
  cases hX with
  | stop _ _ hp hf _ =>
    refine ⟨by simpa using hp.length_le, fun he => ?_⟩
    rw [hf he]; rfl
  | readErr => exact ⟨by simp, fun _ => by simp⟩

open HLSample in
example := C37_archive_size copyIOK (fun _ _ => true) hdrMem itemMem (by decide +kernel) (by decide +kernel)
    os [111] (world []) 131 ⟨fileArc [1, 2, 3] ++ [4, 5], false⟩

/-- C37, second part: bytes beyond the archive size have no influence at all. -/
theorem C37_beyond_ignored (Z : Inflater) (os : Os) (ok : AllocOracle) (fuel : Nat)
    (hdr item out : Bytes) (n : Nat) (hn : 0 < n) (archive beyond beyond' : Bytes)
    (ha : archive.length = n) (err err' : Bool) (w : World) :
    extract Z os ok fuel hdr item out n ⟨archive ++ beyond, err⟩ w =
      extract Z os ok fuel hdr item out n ⟨archive ++ beyond', err'⟩ w := by
  refine hlLoop_beyond os ok fuel out n hn err err' fuel 0 0 _ _ _ _ _ ?_ ?_ ?_
  · simp; omega
  · simp; omega
  · simp [← ha]

open HLSample in
/-- Example: a file archive followed by other bytes, with and without limit. -/
example :
    (view [[[104], [119], [111]]] (extract copyI os (fun _ _ => true) 5 hdrMem itemMem [111] 131
      ⟨fileArc [1, 2, 3] ++ [4, 5], false⟩ (world []))) = .done CT_FILE [[104], [119]] [some (.file 0o644 [1, 2, 3])] ∧
    (view [[[104], [119], [111]]] (extract copyI os (fun _ _ => true) 5 hdrMem itemMem [111] 0
      ⟨fileArc [1, 2, 3] ++ [4, 5], false⟩ (world []))) =
        .done CT_FILE [[104], [119]] [some (.file 0o644 [1, 2, 3, 4, 5])] := by decide +kernel

/-! ### C38 -/

/-- In a tree nothing is below a place where there is nothing. -/
theorem FS.tree.absent {fs : FS} (h : fs.tree) {l : Loc} (hl : fs l = none) : Absent fs l := by
  suffices key : ∀ k p, p.length = k → fs (l ++ p) = none from fun p => key _ p rfl
  intro k
  induction k with
  | zero => intro p hp; rw [List.length_eq_zero_iff.mp hp]; simpa using hl
  | succ k ih =>
    intro p hp
    rcases List.eq_nil_or_concat p with rfl | ⟨p', c, rfl⟩
    · simp at hp
    · cases hx : fs (l ++ p'.concat c) with
      | none => rfl
      | some n =>
        rw [List.concat_eq_append, ← List.append_assoc] at hx
        obtain ⟨m, hm⟩ := h.2 _ _ _ hx
        rw [ih p' (by simpa using hp)] at hm; simp at hm

/-- C38.  `pre` leads to the existing directory `d` in which there is no `n`: creating the directory
`pre/n/ns…` creates `d/n` and the missing directories below it and nothing else, and reports 0.
(The new directories must permit entering them if there are several.) -/
theorem C38_mkdir_recurse_creates (os : Os) (hq : os.quiet) (mode : Nat) (w : World) (ht : w.fs.tree)
    (pre : Bytes) (h0 : 0 ∉ pre) (d : Loc) (hd : InDir os w pre d) (ho : OpenDir os w.fs d)
    (n : Bytes) (ns : List Bytes) (hn : ∀ x ∈ n :: ns, PlainName x) (hnew : w.fs (d ++ [n]) = none)
    (he : ns = [] ∨ Enterable os (dirMode os mode)) (hlen : ns.length ≤ 61) :
    ∃ w', mkdirRecurse os mode (pre ++ joinNames (n :: ns)) w = (0, w') ∧ w'.cwd = w.cwd ∧
      (∀ j, j ≤ ns.length → w'.fs (d ++ n :: ns.take j) = some (.dir (dirMode os mode))) ∧
      ∀ x, (∀ j, j ≤ ns.length → x ≠ d ++ n :: ns.take j) → w'.fs x = w.fs x := by
  obtain ⟨w', h1, h2, h3⟩ := mkdirRecurse_new os hq mode w pre d n ns
    (hd.front ho.searchable h0) ho hn (ht.absent hnew) he hlen
  obtain ⟨g1, g2⟩ := mkChain_at w.fs (dirMode os mode) (n :: ns) d
  refine ⟨w', h1, h3, ?_, ?_⟩
  · intro j hj
    rw [h2]
    have := g1 (j + 1) (by omega) (by simp; omega)
    simpa using this
  · intro x hx
    rw [h2]
    refine g2 x ?_
    intro j h1 h2
    obtain ⟨k, rfl⟩ : ∃ k, j = k + 1 := ⟨j - 1, by omega⟩
    have := hx k (by simpa using h2)
    simpa using this

open HLSample in
/-- `o/p` in `/h/w`. -/
example := C38_mkdir_recurse_creates os os_quiet 0o775 (world []) world_tree [] (by decide)
  [[104], [119]] .rel ⟨0o755, by decide +kernel, .inr (by decide)⟩ [111] [[112]] (by decide +kernel)
  (by decide +kernel) (.inr (.inr (by decide))) (by decide)

/-- C38.  If the path leads to a directory, nothing is changed and 1 is reported. -/
theorem C38_mkdir_recurse_exists (os : Os) (hq : os.quiet) (mode : Nat) (w : World) (path : Bytes)
    (l : Loc) (m : Nat) (hl : locate os w true path = some l) (hd : w.fs l = some (.dir m)) :
    ∃ w', mkdirRecurse os mode path w = (1, w') ∧ w'.fs = w.fs ∧ w'.cwd = w.cwd := by
  have hne : path ≠ [] := by intro h; rw [h] at hl; simp [locate] at hl
  have hl2 := hl
  rw [locate, if_neg hne] at hl
  obtain ⟨k, hk⟩ := resolve_walks os w.fs l m hd _ _ _ hl
  obtain ⟨e, he1, he2⟩ := hk.exists (by rw [hd]; simp)
  have hm : sysMkdir os w.tick path mode = (.exist, w.tick.tick) := by
    have : locate os w.tick false path = some e := by rw [locate, if_neg hne]; exact he1
    simp only [sysMkdir, hq.1, Bool.false_eq_true, if_false, this]
    cases hx : w.fs e with
    | none => exact absurd hx he2
    | some n =>
      have : w.tick.fs e = some n := hx
      simp only [this]
  have hs : sysIsDir os w.tick.tick path = (true, w.tick.tick.tick) := by
    have h1 : locate os w.tick.tick true path = some l := hl2
    have h2 : w.tick.tick.fs l = some (.dir m) := hd
    simp only [sysIsDir, hq.1, Bool.false_eq_true, if_false, h1, h2]
  refine ⟨w.tick.tick.tick, ?_, rfl, rfl⟩
  rw [mkdirRecurse, if_neg (by simp [hq.2.2]), mkdirRaw, osCreate, hm]
  simp only [hs]
  simp

open HLSample in
/-- Example: `x/y` is created in the working directory `/h/w`, then it exists. -/
example :
    (mkdirRecurse os 0o775 [120, 47, 121] (world [])).1 = 0 ∧
    [[[104], [119], [120]], [[104], [119], [120], [121]], [[104], [120]]].map
      (mkdirRecurse os 0o775 [120, 47, 121] (world [])).2.fs =
        [some (.dir 0o755), some (.dir 0o755), none] ∧
    (mkdirRecurse os 0o775 [120, 47, 121] (mkdirRecurse os 0o775 [120, 47, 121] (world [])).2).1 = 1 := by
  decide +kernel

/-! ### C57 -/

open HLSample in
/-- C57 is false: `x/y/` with no `x` (and nothing refused) gives −1 although both directories have
been created.  (So extraction to `x/y/` fails, with the effects of C41.) -/
theorem C57_mkdir_recurse_trailing_slash_false :
    (mkdirRecurse os 0o775 [120, 47, 121, 47] (world [])).1 = -1 ∧
      [[[104], [119], [120]], [[104], [119], [120], [121]]].map
        (mkdirRecurse os 0o775 [120, 47, 121, 47] (world [])).2.fs =
        [some (.dir 0o755), some (.dir 0o755)] := by decide +kernel

/-- C57, what holds: it works if only the last directory is missing.  Missing: several missing
directories, where it always fails (`C57_several`). -/
theorem C57_mkdir_trailing_slash_partial (os : Os) (hq : os.quiet) (mode : Nat) (w : World)
    (pre : Bytes) (h0 : 0 ∉ pre) (d : Loc) (hd : InDir os w pre d) (ho : OpenDir os w.fs d)
    (n : Bytes) (hn : PlainName n) (hnew : w.fs (d ++ [n]) = none) :
    ∃ w', mkdirRecurse os mode (pre ++ n ++ [47]) w = (0, w') ∧ w'.cwd = w.cwd ∧
      w'.fs (d ++ [n]) = some (.dir (dirMode os mode)) ∧ ∀ x, x ≠ d ++ [n] → w'.fs x = w.fs x := by
  have hl : locate os w.tick false (pre ++ n ++ [47]) = some (d ++ [n]) := by
    obtain ⟨_, b, cs, k, h1, h2⟩ := hd.front ho.searchable h0
    have hp := h2 n hn.1 hn.head
    have e : pre ++ n ++ [47] = (pre ++ n) ++ 47 :: [] := rfl
    rw [e, locate, if_neg (by simp), pathBase_append _ _ _ (by simp [hn.1]), splitPath_append,
      show w.tick.cwd = w.cwd from rfl, hp.1, hp.2, splitPath_plain n hn.2.2.2.1, List.append_assoc,
      show w.tick.fs = w.fs from rfl,
      h1.resolve false _ (by simp), List.singleton_append,
      resolve_missing os w.fs false k d n _ hn ho.searchable hnew]
    simp [splitPath]
  have hnew' : w.tick.fs (d ++ [n]) = none := hnew
  have hw : writable os w.tick.fs d = true := ho.writable
  refine ⟨(w.tick.put (d ++ [n]) (.dir (dirMode os mode))).tick, ?_, rfl, ?_, ?_⟩
  · rw [mkdirRecurse, if_neg (by simp [hq.2.2]), mkdirRaw]
    simp only [osCreate, sysMkdir, hq.1, Bool.false_eq_true, if_false, hl, hnew', addNode,
      List.dropLast_concat, hw, if_true, dirMode]
    simp
  · simp [World.tick, World.put, FS.put]
  · intro x hx
    simp [World.tick, World.put, FS.put, hx]

open HLSample in
example : (mkdirRecurse os 0o775 [120, 47] (world [])).1 = 0 ∧ PlainName [120] ∧
    (world []).fs ((world []).cwd ++ [[120]]) = none := by decide +kernel

end Zwt
