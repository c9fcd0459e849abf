import Verif.Proofs.Remove
import Verif.Props.SelfDisk

/-! C92: removing a directory. -/

namespace Zwt

/-- C92, what holds: if `n` is a directory in the working directory, or nothing, and all directories from
there on can be read and changed, then removing `n` removes it with everything in it, and nothing else;
symbolic links are removed, not followed.
Missing: `n` being a link (`C92_link_false`) or a file (`C92_file`); paths beyond 4094 bytes (`C92_endless_false`);
directories without permissions (`C92_locked_false`). -/
theorem C92_removed_partial (env : RmEnv) (os : Os) (hq : os.quiet) (w : World) (ht : w.fs.tree)
    (n : Bytes) (R : Reads os env w) (S : ShortBelow w n) (O : OwnBelow os w n)
    (ho : OpenDir os w.fs w.cwd)
    (hd : ∀ node, w.fs (w.cwd ++ [n]) = some node → ∃ m, node = .dir m) (fuel : Nat)
    (hf : 4095 ≤ fuel) : ∃ w', removeDir env os fuel n w = .ok w' ∧ Without n w w' := by
  obtain ⟨mc, hc, hmc⟩ := ho
  obtain ⟨hs, hwr⟩ := hmc.search hc
  have K : RmOk os env w n := ⟨hq.1, ht, R, S, O, hs⟩
  have hT : Thinned w w := ⟨rfl, fun _ => .inr rfl⟩
  cases hn : w.fs (w.cwd ++ [n]) with
  | none =>
    have hbelow : ∀ x, w.cwd ++ [n] <+: x → w.fs x = none := by
      rintro x ⟨q, rfl⟩
      cases q with
      | nil => simpa using hn
      | cons a q => exact ht.below (by rw [hn]; simp) (by simp)
    have hloc := locate_rmAt (os := os) (v := w) S.name (q := []) (by simp) hs (by simp)
    simp only [rmAt, List.map_nil, List.flatten_nil, List.append_nil] at hloc
    have hl : env.list w n = none := by
      cases h : env.list w n with
      | none => rfl
      | some es =>
        obtain ⟨l, m, h1, h2, _⟩ := R.list w hT _ _ h
        rw [hloc true (by rw [hn]; simp)] at h1
        cases h1
        rw [hn] at h2; cases h2
    obtain ⟨fuel, rfl⟩ : ∃ f, fuel = f + 1 := ⟨fuel - 1, by omega⟩
    have hloc' : locate os w.tick false n = some (w.cwd ++ [n]) := hloc false (by simp)
    refine ⟨w.tick.tick, ?_, rfl, fun x hx => hbelow x hx, fun _ _ => rfl⟩
    simp only [removeDir, rmTree, hl, Option.getD_none, rmEach]
    rw [if_neg (by simp [hq.1])]
    simp only [sysRmdir]
    rw [if_neg (by simp [hq.1]), hloc']
    simp only [show w.tick.fs (w.cwd ++ [n]) = none from hn]
  | some node =>
    obtain ⟨m, rfl⟩ := hd node hn
    have hdirs : ∀ j, j ≤ ([] : List Bytes).length → ∃ m, w.fs (w.cwd ++ n :: ([] : List Bytes).take j) =
        some (.dir m) := by
      intro j _; exact ⟨m, by simpa using hn⟩
    obtain ⟨v, a1, a2, a3, a4⟩ := rmTree_all K fuel [] w (by simp) hdirs (by omega) hT
      ⟨rfl, fun _ _ => rfl⟩ (fun _ _ => rfl)
    have hv : v.fs (w.cwd ++ [n]) = some (.dir m) := by
      rw [a4 _ (fun x r e => ?_), hn]
      have := congrArg List.length e
      simp at this
    have hvc : v.fs w.cwd = w.fs w.cwd := by
      refine a4 _ (fun x r e => ?_)
      have := congrArg List.length e
      simp at this
    have T : Thinned w v := by
      refine ⟨a2, fun x => ?_⟩
      by_cases hx : ∃ y r, x = w.cwd ++ n :: [] ++ y :: r
      · obtain ⟨y, r, rfl⟩ := hx; exact .inl (a3 y r)
      · exact .inr (a4 x (fun y r h => hx ⟨y, r, h⟩))
    have hloc := locate_rmAt (os := os) (v := v) S.name (q := []) (by simp)
      (by rw [a2]; simpa only [searchable, hvc] using hs) (by simp) false (by simp)
    simp only [rmAt, List.map_nil, List.flatten_nil, List.append_nil, a2] at hloc a1
    have hrm : sysRmdir env os v n = (true, { v with fs := v.fs.del (w.cwd ++ [n]) }.tick) := by
      unfold sysRmdir
      rw [if_neg (by simp [hq.1]), hloc]
      simp only [hv]
      rw [if_pos, dropNode_ok]
      · rw [List.dropLast_concat]
        simpa only [writable, hvc] using hwr
      · refine ⟨by simp, (R.bare v T _).mpr (fun x => by simpa using a3 x []), ?_⟩
        rw [splitPath_plain n S.name.2.2.2.1]
        intro h
        exact S.name.2.1 (by simpa using h)
    refine ⟨{ v with fs := v.fs.del (w.cwd ++ [n]) }.tick, ?_, a2, fun x hx => ?_, fun x hx => ?_⟩
    · simp only [removeDir, a1, hrm]
    · show v.fs.del _ x = none
      unfold FS.del
      obtain ⟨q, rfl⟩ := hx
      split
      · rfl
      · rename_i hne
        cases q with
        | nil => simp at hne
        | cons a q => simpa using a3 a q
    · show v.fs.del _ x = w.fs x
      unfold FS.del
      rw [if_neg, a4]
      · rintro y r rfl
        exact hx ⟨y :: r, by simp⟩
      · rintro rfl
        exact hx ⟨[], by simp⟩

/-- C92, what holds whatever fails: removing `n` creates and changes nothing, and removes nothing outside
`n`.
Missing: `n` being a link (`C92_link_false`); paths beyond 4094 bytes. -/
theorem C92_confined_partial (env : RmEnv) (os : Os) (w : World) (n : Bytes) (R : Reads os env w)
    (S : ShortBelow w n) (hl : ∀ t, w.fs (w.cwd ++ [n]) ≠ some (.link t)) (fuel : Nat) (w' : World)
    (h : removeDir env os fuel n w = .ok w') :
    w'.cwd = w.cwd ∧ (∀ x, w'.fs x = none ∨ w'.fs x = w.fs x) ∧
      ∀ x, ¬ w.cwd ++ [n] <+: x → w'.fs x = w.fs x := by
  have hn : rmAt n [] = n := by simp [rmAt]
  have key : CutBelow w n w' := by
    simp only [removeDir] at h
    rw [← hn] at h
    cases hr : rmTree env os fuel (rmAt n []) w with
    | error x => rw [hr] at h; cases h
    | ok p =>
      obtain ⟨c, v⟩ := p
      have h1 := rmTree_inside R S fuel [] w c v (by simp) (fun j hj => by simp at hj)
        (by simpa using hl) (.refl w n) hr
      rw [hr] at h
      simp only [Except.ok.injEq] at h
      rw [← h]
      exact h1.rmdir S.name (by simp) (fun j hj => by simp at hj) env os
  exact ⟨key.1.1, key.1.2, key.2⟩

/-- A file `n` is not an extraction directory: it stays, and nothing else changes, whatever fails. -/
theorem C92_file (env : RmEnv) (os : Os) (w : World) (n : Bytes) (hn : PlainName n) (R : Reads os env w)
    (m : Nat) (c : Bytes) (hf : w.fs (w.cwd ++ [n]) = some (.file m c)) (fuel : Nat) (h : 0 < fuel) :
    ∃ w', removeDir env os fuel n w = .ok w' ∧ w'.fs = w.fs ∧ w'.cwd = w.cwd := by
  have only : ∀ (v : World) follow l, v.fs = w.fs → v.cwd = w.cwd → locate os v follow n = some l →
      l = w.cwd ++ [n] := by
    intro v follow l h1 h2 h3
    have := locate_rmAt_only (os := os) (v := v) hn (q := []) (by simp) (by simp) follow
      (fun _ t => by rw [h1, h2]; rw [hf]; simp) (by simpa [rmAt] using h3)
    rw [h2] at this
    exact this
  have hl : env.list w n = none := by
    cases h : env.list w n with
    | none => rfl
    | some es =>
      obtain ⟨l, m, h1, h2, _⟩ := R.list w ⟨rfl, fun _ => .inr rfl⟩ _ _ h
      rw [only w true l rfl rfl h1, hf] at h2
      cases h2
  have hrm : ∀ v : World, v.fs = w.fs → v.cwd = w.cwd →
      (sysRmdir env os v n).2.fs = w.fs ∧ (sysRmdir env os v n).2.cwd = w.cwd := by
    intro v h1 h2
    unfold sysRmdir
    split
    · exact ⟨h1, h2⟩
    · split
      · exact ⟨h1, h2⟩
      · rename_i l hloc
        rw [only v false l h1 h2 hloc, h1, hf]
        exact ⟨h1, h2⟩
  obtain ⟨fuel, rfl⟩ : ∃ f, fuel = f + 1 := ⟨fuel - 1, by omega⟩
  have hT : rmTree env os (fuel + 1) n w = .ok (0, w.tick) := by
    simp only [rmTree, hl, Option.getD_none, rmEach]
    split <;> rfl
  refine ⟨_, by simp only [removeDir, hT]; rfl, ?_⟩
  exact hrm w.tick rfl rfl

/-- C92 for the self extractor: if the removal of the program is the one above, then what C87 assumes of
it holds on every disk on which an earlier extraction directory, if there is one, can be removed. -/
theorem C92_self_extract (env : SelfDiskEnv) (renv : RmEnv) (os : Os) (hq : os.quiet) (fuel : Nat)
    (hf : 4095 ≤ fuel) (hrm : ∀ v v', removeDir renv os fuel (strB ".out_dir") v = .ok v' → env.remove v = v')
    (w : World) (ht : w.fs.tree) (R : Reads os renv w) (S : ShortBelow w (strB ".out_dir"))
    (O : OwnBelow os w (strB ".out_dir")) (ho : OpenDir os w.fs w.cwd)
    (hd : ∀ node, w.fs (w.cwd ++ [strB ".out_dir"]) = some node → ∃ m, node = .dir m) :
    ∀ v, v.fs = w.fs → v.cwd = w.cwd → Without (strB ".out_dir") v (env.remove v) := by
  rintro ⟨fs, cwd, k⟩ rfl rfl
  obtain ⟨w', h1, h2⟩ := C92_removed_partial renv os hq ⟨w.fs, w.cwd, k⟩ ht (strB ".out_dir")
    ⟨fun v hv => R.list v hv, fun v hv => R.can v hv, fun v hv => R.bare v hv⟩
    ⟨S.name, S.names, S.limit⟩ O ho hd fuel hf
  rw [hrm _ _ h1]
  exact h2

/-! ### Examples and witnesses -/

namespace RmSample
open HLSample CopySample

/-- `/h/w/.out_dir` with a file, a directory with a link in it, and the file `/h/w/y` it leads to. -/
def nodes : List (Loc × Node) :=
  [([[104], [119], strB ".out_dir"], .dir 0o755),
   ([[104], [119], strB ".out_dir", [97]], .file 0o444 [1]),
   ([[104], [119], strB ".out_dir", [100]], .dir 0o700),
   ([[104], [119], strB ".out_dir", [100], [107]], .link (strB "../../y")),
   ([[104], [119], [121]], .file 0o644 [2])]

/-- A link `.out_dir` to the directory `d`, which has a file. -/
def linked : List (Loc × Node) :=
  [([[104], [119], strB ".out_dir"], .link [100]), ([[104], [119], [100]], .dir 0o755),
   ([[104], [119], [100], [97]], .file 0o644 [1])]

/-- A directory in `.out_dir` that its owner cannot read. -/
def locked : List (Loc × Node) :=
  [([[104], [119], strB ".out_dir"], .dir 0o755), ([[104], [119], strB ".out_dir", [100]], .dir 0o300),
   ([[104], [119], strB ".out_dir", [100], [97]], .file 0o644 [1])]

/-- Directories in directories: the last but one has a path of 4094 bytes. -/
def chain : List Bytes := List.replicate 15 (List.replicate 255 97) ++ [List.replicate 245 97, [120]]

def deep : List (Loc × Node) :=
  (List.range 18).map fun i => ([104] :: [119] :: strB ".out_dir" :: chain.take i, .dir 0o755)

def env (nodes : List (Loc × Node)) : RmEnv := rmEnvOf os (places nodes)

/-- The removal and some nodes afterwards. -/
def run (nodes : List (Loc × Node)) (ls : List Loc) : Run (List (Option Node)) :=
  match removeDir (env nodes) os 9 (strB ".out_dir") (world nodes) with
  | .error e => .error e
  | .ok w => .ok (ls.map w.fs)

theorem run_ok {nodes : List (Loc × Node)} {ls : List Loc} {ns : List (Option Node)}
    (h : run nodes ls = .ok ns) :
    ∃ w, removeDir (env nodes) os 9 (strB ".out_dir") (world nodes) = .ok w ∧ ls.map w.fs = ns := by
  simp only [run] at h
  split at h
  · cases h
  · rename_i w hw
    exact ⟨w, hw, Except.ok.inj h⟩

theorem tree_of (nodes : List (Loc × Node)) (h0 : ∃ m, (world nodes).fs [] = some (.dir m))
    (h : ∀ x ∈ places nodes, x = [] ∨ (match (world nodes).fs x.dropLast with
      | some (.dir _) => true
      | _ => false) = true) : (world nodes).fs.tree := by
  refine ⟨h0, fun l c n hn => ?_⟩
  have := h _ (world_places nodes (l ++ [c]) (by rw [hn]; simp))
  rw [List.dropLast_concat] at this
  rcases this with h | h
  · simp at h
  · split at h
    · exact ⟨_, ‹_›⟩
    · cases h

theorem reads_of (nodes : List (Loc × Node)) (h1 : (places nodes).Nodup)
    (h2 : ∀ x ∈ places nodes, x.getLast? ≠ some [46] ∧ x.getLast? ≠ some [46, 46]) :
    Reads os (env nodes) (world nodes) := reads_rmEnvOf os _ _ h1 (world_places nodes) h2

theorem names_of (nodes : List (Loc × Node))
    (h : ∀ x ∈ places nodes, [[104], [119], strB ".out_dir"] <+: x → ∀ y ∈ x, PlainName y) :
    ∀ q x node, (world nodes).fs ((world nodes).cwd ++ strB ".out_dir" :: q ++ [x]) = some node →
      PlainName x := by
  intro q x node hn
  exact h _ (world_places nodes _ (by rw [hn]; simp)) ⟨q ++ [x], by simp [world]⟩ x (by simp)

theorem short_of (nodes : List (Loc × Node))
    (h : ∀ x ∈ places nodes, [[104], [119], strB ".out_dir"] <+: x → (∀ y ∈ x, PlainName y) ∧
      (strB ".out_dir" ++ ((x.drop 3).map (47 :: ·)).flatten).length ≤ 4094) :
    ShortBelow (world nodes) (strB ".out_dir") := by
  refine ⟨by decide +kernel, names_of nodes fun x hx hp => (h x hx hp).1, fun q node hn => ?_⟩
  have := (h _ (world_places nodes _ (by rw [hn]; simp)) ⟨q, by simp [world]⟩).2
  simpa [world] using this

theorem own_of (nodes : List (Loc × Node))
    (h : ∀ x ∈ places nodes, [[104], [119], strB ".out_dir"] <+: x → (match (world nodes).fs x with
      | some (.dir m) => decide (m &&& 0o700 = 0o700)
      | _ => true) = true) : OwnBelow os (world nodes) (strB ".out_dir") := by
  intro q m hn
  have := h _ (world_places nodes _ (by rw [hn]; simp)) ⟨q, by simp [world]⟩
  rw [hn] at this
  have hm : m &&& 0o700 = 0o700 := by simpa using this
  have h4 : m &&& 0o400 = 0o400 := by
    rw [show (0o400 : Nat) = 0o700 &&& 0o400 by decide, ← Nat.and_assoc, hm]
  have h1 : m &&& 0o100 = 0o100 := by
    rw [show (0o100 : Nat) = 0o700 &&& 0o100 by decide, ← Nat.and_assoc, hm]
  have h2 : m &&& 0o200 = 0o200 := by
    rw [show (0o200 : Nat) = 0o700 &&& 0o200 by decide, ← Nat.and_assoc, hm]
  exact ⟨.inr (by rw [h4]; decide), .inr ⟨by rw [h1]; decide, by rw [h2]; decide⟩⟩

end RmSample

open HLSample RmSample in
/-- Example: everything below `.out_dir` goes, what the link leads to stays. -/
example : RmSample.run RmSample.nodes (CopySample.places RmSample.nodes) =
    .ok [none, none, none, none, some (.file 0o644 [2]), some (.dir 0o755), some (.dir 0o755),
      some (.dir 0o755)] := by decide +kernel

open HLSample RmSample in
/-- Example: the hypotheses of `C92_removed_partial`. -/
example := C92_removed_partial (RmSample.env RmSample.nodes) os os_quiet (world RmSample.nodes)
  (tree_of _ ⟨0o755, by decide +kernel⟩ (by decide +kernel)) (strB ".out_dir")
  (reads_of _ (by decide +kernel) (by decide +kernel)) (short_of _ (by decide +kernel))
  (own_of _ (by decide +kernel)) ⟨0o755, by decide +kernel, .inr (by decide)⟩
  (fun node h => ⟨0o755, Option.some.inj (h.symm.trans (by decide +kernel))⟩) 4095 (Nat.le_refl _)

open HLSample RmSample in
/-- Example: the hypotheses of `C92_confined_partial`, for the disk with the unreadable directory. -/
example (w' : World) := C92_confined_partial (RmSample.env locked) os (world locked) (strB ".out_dir")
  (reads_of _ (by decide +kernel) (by decide +kernel)) (short_of _ (by decide +kernel))
  (fun t h => by rw [show (world locked).fs ((world locked).cwd ++ [strB ".out_dir"]) =
    some (.dir 0o755) by decide +kernel] at h; cases h) 9 w'

open HLSample RmSample in
/-- Example: a file `.out_dir`. -/
example := C92_file (RmSample.env [([[104], [119], strB ".out_dir"], .file 0o644 [1])]) os
  (world [([[104], [119], strB ".out_dir"], .file 0o644 [1])]) (strB ".out_dir") (by decide)
  (reads_of _ (by decide +kernel) (by decide +kernel)) 0o644 [1] (by decide +kernel) 9 (by decide)

open HLSample RmSample in
/-- Example: the hypotheses of `C92_self_extract`. -/
example := C92_self_extract { SelfSample.env with
    remove := fun v => match removeDir (RmSample.env RmSample.nodes) os 4095 (strB ".out_dir") v with
      | .ok v' => v'
      | .error _ => v } (RmSample.env RmSample.nodes) os os_quiet 4095 (Nat.le_refl _)
  (fun v v' h => by simp only [h]) (world RmSample.nodes)
  (tree_of _ ⟨0o755, by decide +kernel⟩ (by decide +kernel))
  (reads_of _ (by decide +kernel) (by decide +kernel)) (short_of _ (by decide +kernel))
  (own_of _ (by decide +kernel)) ⟨0o755, by decide +kernel, .inr (by decide)⟩
  (fun node h => ⟨0o755, Option.some.inj (h.symm.trans (by decide +kernel))⟩)

open HLSample RmSample in
/-- C92 is false of links: if `.out_dir` is a link to a directory, the content of that directory is
removed, outside `.out_dir`; the link stays. -/
theorem C92_link_false :
    ¬ ∀ (env : RmEnv) (w w' : World) (n : Bytes) (fuel : Nat), w.fs.tree → Reads os env w →
      ShortBelow w n → removeDir env os fuel n w = .ok w' →
      ∀ x, ¬ w.cwd ++ [n] <+: x → w'.fs x = w.fs x := by
  intro h
  have k : RmSample.run linked [[[104], [119], [100], [97]], [[104], [119], strB ".out_dir"]] =
      .ok [none, some (.link [100])] := by decide +kernel
  obtain ⟨w', h1, h2⟩ := run_ok k
  have := h (RmSample.env linked) (world linked) w' (strB ".out_dir") 9
    (tree_of _ ⟨0o755, by decide +kernel⟩ (by decide +kernel))
    (reads_of _ (by decide +kernel) (by decide +kernel)) (short_of _ (by decide +kernel)) h1
    [[104], [119], [100], [97]] (by decide)
  simp only [List.map_cons, List.map_nil, List.cons.injEq, and_true] at h2
  rw [h2.1] at this
  revert this
  decide +kernel

open HLSample RmSample in
/-- C92 is false of directories without permissions: they stay. -/
theorem C92_locked_false :
    ¬ ∀ (env : RmEnv) (w w' : World) (n : Bytes) (fuel : Nat), w.fs.tree → Reads os env w →
      ShortBelow w n → OpenDir os w.fs w.cwd →
      (∀ node, w.fs (w.cwd ++ [n]) = some node → ∃ m, node = .dir m) →
      removeDir env os fuel n w = .ok w' → w'.fs (w.cwd ++ [n]) = none := by
  intro h
  have k : RmSample.run locked [[[104], [119], strB ".out_dir"]] = .ok [some (.dir 0o755)] := by
    decide +kernel
  obtain ⟨w', h1, h2⟩ := run_ok k
  have := h (RmSample.env locked) (world locked) w' (strB ".out_dir") 9
    (tree_of _ ⟨0o755, by decide +kernel⟩ (by decide +kernel))
    (reads_of _ (by decide +kernel) (by decide +kernel)) (short_of _ (by decide +kernel))
    ⟨0o755, by decide +kernel, .inr (by decide)⟩
    (fun node h => ⟨0o755, Option.some.inj (h.symm.trans (by decide +kernel))⟩) h1
  simp only [List.map_cons, List.map_nil, List.cons.injEq, and_true] at h2
  rw [show ((world locked).cwd ++ [strB ".out_dir"]) = [[104], [119], strB ".out_dir"] from rfl, h2] at this
  cases this

namespace RmSample
open HLSample CopySample

/-- The path of the directory `i` levels below `.out_dir`. -/
def deepPath (i : Nat) : Bytes := rmAt (strB ".out_dir") (chain.take i)

/-- What the removal sees: one directory in each directory, whose path, cut, is the next one up to 4094
bytes, and there the path of the directory itself. -/
def deepSees (i : Nat) : Bool :=
  match (env deep).list (world deep) (deepPath i) with
  | some [e] => decide (e.ty = .dir) && !isDot e.name &&
      rmPath (deepPath i) e.name == deepPath (if i = 16 then 16 else i + 1)
  | _ => false

theorem deep_endless (k : Nat) :
    ∀ fuel i, i ≤ 16 → rmTree (env deep) os fuel (deepPath i) { world deep with calls := k } =
      .error .outOfFuel := by
  intro fuel
  induction fuel generalizing k with
  | zero => intros; rfl
  | succ fuel ih =>
    intro i hi
    have hs : ∀ i ∈ List.range 17, deepSees i = true := by decide +kernel
    have h := hs i (by simpa using by omega)
    have hl : (env deep).list { world deep with calls := k } (deepPath i) =
        (env deep).list (world deep) (deepPath i) := rfl
    unfold deepSees at h
    split at h
    · rename_i e he
      simp only [Bool.and_eq_true, decide_eq_true_eq, Bool.not_eq_true', beq_iff_eq] at h
      obtain ⟨⟨h1, h2⟩, h3⟩ := h
      simp only [rmTree, os_quiet.1, Bool.false_eq_true, if_false, hl, he, Option.getD_some, rmEach, h1,
        h2, h3]
      have := ih (k + 1) (if i = 16 then 16 else i + 1) (by split <;> omega)
      simp only [World.tick]
      rw [this]
    · cases h

end RmSample

set_option maxRecDepth 100000 in
open HLSample RmSample in
/-- C92 is false of long paths: in a directory whose path has 4094 bytes the removal takes that directory
for each of its subdirectories, and never ends. -/
theorem C92_endless_false :
    ¬ ∀ (env : RmEnv) (w : World) (n : Bytes), w.fs.tree → Reads os env w → PlainName n →
      OwnBelow os w n → OpenDir os w.fs w.cwd →
      (∀ node, w.fs (w.cwd ++ [n]) = some node → ∃ m, node = .dir m) →
      ∃ fuel w', removeDir env os fuel n w = .ok w' := by
  intro h
  obtain ⟨fuel, w', h⟩ := h (RmSample.env deep) (world deep) (strB ".out_dir")
    (tree_of _ ⟨0o755, by decide +kernel⟩ (by decide +kernel))
    (reads_of _ (by decide +kernel) (by decide +kernel)) (by decide +kernel)
    (own_of _ (by decide +kernel)) ⟨0o755, by decide +kernel, .inr (by decide)⟩
    (fun node h => ⟨0o755, Option.some.inj (h.symm.trans (by decide +kernel))⟩)
  have := deep_endless (world deep).calls fuel 0 (by omega)
  rw [show deepPath 0 = strB ".out_dir" by decide +kernel] at this
  simp only [removeDir, this] at h
  cases h

end Zwt
