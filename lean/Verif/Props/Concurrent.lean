import Verif.Proofs.ConcAbs
import Verif.Spec.HLSample
import Verif.Spec.Toy

/-! C77, C78: extractions at the same time in one process. -/

namespace Zwt

variable {Z : Inflater} {plain : Bytes → Bytes}

/-- The program of one of several extractions. -/
def Job.prog (Z : Inflater) (ok : AllocOracle) (fuel : Nat) (j : Job) : Prog (Run Ended) :=
  extractP Z ok fuel j.hdr j.item j.out j.size j.inp

/-- C77, what holds: any number of extractions of archives without links, run side by side in one
process with their calls in any order, to places none of which is inside another, do not affect each
other: each is, after any number of turns, where it would be alone after as many calls, and what is at
and below its place is what would be there; everything else on the disk, and the working directory, is
as before.
Missing: archives with links (`C77_concurrent_link_false`), places with a common directory that does
not exist yet (`C77_concurrent_parent_false`), refused calls. -/
theorem C77_concurrent_partial {ι : Type} [DecidableEq ι] (C : InflateOK Z plain) (ok : AllocOracle)
    (os : Os) (hq : os.quiet) (w : World) (j : ι → Job) (hj : ∀ i, (j i).Safe os w ok plain)
    (hapart : ∀ i k, i ≠ k → ¬ (j i).place <+: (j k).place) :
    ∃ n0 : ι → Nat, ∀ fuel : ι → Nat, (∀ i, n0 i ≤ fuel i) → ∀ sched : List ι,
      let R := play os sched (fun i => (j i).prog Z ok (fuel i)) w
      (∀ i, let alone := ((j i).prog Z ok (fuel i)).after os (sched.count i) w
        R.1 i = alone.1 ∧ ∀ q, R.2.fs ((j i).place ++ q) = alone.2.fs ((j i).place ++ q)) ∧
      (∀ x, (∀ i, ¬ (j i).place <+: x) → R.2.fs x = w.fs x) ∧ R.2.cwd = w.cwd := by
  have hl := fun i => safe_local C ok os hq w (j i) (hj i)
  refine ⟨fun i => (hl i).choose, fun fuel hf sched => ?_⟩
  obtain ⟨h1, h2, h3⟩ := play_local os w (fun i => (j i).place) hapart sched
    (fun i => (j i).prog Z ok (fuel i)) (fun _ => w) w
    (fun i => (hl i).choose_spec (fuel i) (hf i)) (fun i => .refl (hj i).steady) rfl
  exact ⟨fun i => ⟨(h1 i).1, (h1 i).2.same⟩, h2, h3⟩

/-- C77, at the end: an extraction that has had enough turns returns what it would return alone, and
what is at and below its place is what would be there.
Missing: what `C77_concurrent_partial` misses. -/
theorem C77_concurrent_end_partial {ι : Type} [DecidableEq ι] (C : InflateOK Z plain)
    (ok : AllocOracle) (os : Os) (hq : os.quiet) (w : World) (j : ι → Job)
    (hj : ∀ i, (j i).Safe os w ok plain) (hapart : ∀ i k, i ≠ k → ¬ (j i).place <+: (j k).place) :
    ∃ n0 : ι → Nat, ∀ fuel : ι → Nat, (∀ i, n0 i ≤ fuel i) → ∃ turns : ι → Nat,
      ∀ sched : List ι, ∀ i, turns i ≤ sched.count i →
      let R := play os sched (fun i => (j i).prog Z ok (fuel i)) w
      ∀ r, extract Z os ok (fuel i) (j i).hdr (j i).item (j i).out (j i).size (j i).inp w = .ok r →
        (∃ e, (R.1 i).result = some (.ok e) ∧ e.ret = r.ret ∧ e.hasError = r.hasError ∧
          e.read = r.read) ∧
        ∀ q, R.2.fs ((j i).place ++ q) = r.w.fs ((j i).place ++ q) := by
  obtain ⟨n0, h⟩ := C77_concurrent_partial C ok os hq w j hj hapart
  refine ⟨n0, fun fuel hf => ?_⟩
  have ht := fun i => ((j i).prog Z ok (fuel i)).after_run os w
  refine ⟨fun i => (ht i).choose, fun sched i hi r hr => ?_⟩
  obtain ⟨h1, _, _⟩ := h fuel hf sched
  obtain ⟨h2, h3⟩ := h1 i
  have ha := (ht i).choose_spec _ hi
  rw [ha] at h2 h3
  rw [← extractP_run] at hr
  have hx : ((j i).prog Z ok (fuel i)).run os w =
    (extractP Z ok (fuel i) (j i).hdr (j i).item (j i).out (j i).size (j i).inp).run os w := rfl
  rw [hx] at h2 h3
  cases hrun : (extractP Z ok (fuel i) (j i).hdr (j i).item (j i).out (j i).size (j i).inp).run os w with
  | mk e w' =>
    rw [hrun] at hr h2 h3
    cases e with
    | error e => simp [toExtracted, Except.map] at hr
    | ok e =>
      simp only [toExtracted, Except.map, Except.ok.injEq] at hr
      subst hr
      exact ⟨⟨e, by rw [h2]; rfl, rfl, rfl, rfl⟩, h3⟩

namespace ConcSample

open HLSample

/-- Extraction of `arc` to `name/names…` in the working directory. -/
def job (arc name : Bytes) (names : List Bytes) : Job :=
  ⟨hdrMem, itemMem, [], [[104], [119]], name, names, 0, ⟨arc, false⟩⟩

/-- Two extractions. -/
def two (a b : Job) (i : Bool) : Job := if i then b else a

/-- The two programs, run in the given order. -/
def race (a b : Job) (sched : List Bool) (w : World) : (Bool → Prog (Run Ended)) × World :=
  play os sched (fun i => (two a b i).prog copyI (fun _ _ => true) 5) w

/-- What an extraction has returned. -/
def answer (p : Prog (Run Ended)) : Option Nat :=
  match p.result with
  | some (.ok e) => some e.ret
  | _ => none

end ConcSample

open HLSample ConcSample in
/-- Example: the tree `d/a` extracted to `o/p` and a file extracted to `x`, calls alternating. -/
example : os.quiet ∧
    (∀ i, (two (job (dirArc (.dir [100] 0o755 (.file [97] 0o640 [7] .nil) .nil)) [111] [[112]])
      (job (fileArc [1, 2, 3]) [120] []) i).Safe os (world []) (fun _ _ => true) id) ∧
    (∀ i k : Bool, i ≠ k →
      ¬ (two (job (dirArc (.dir [100] 0o755 (.file [97] 0o640 [7] .nil) .nil)) [111] [[112]])
        (job (fileArc [1, 2, 3]) [120] []) i).place <+:
      (two (job (dirArc (.dir [100] 0o755 (.file [97] 0o640 [7] .nil) .nil)) [111] [[112]])
        (job (fileArc [1, 2, 3]) [120] []) k).place) ∧
    (let R := race (job (dirArc (.dir [100] 0o755 (.file [97] 0o640 [7] .nil) .nil)) [111] [[112]])
      (job (fileArc [1, 2, 3]) [120] []) ((List.replicate 12 [false, true]).flatten) (world [])
     [[[111]], [[111], [112]], [[111], [112], [100]], [[111], [112], [100], [97]], [[120]]].map
       (fun l => R.2.fs ([[104], [119]] ++ l)) =
       [some (.dir 0o755), some (.dir 0o755), some (.dir 0o755), some (.file 0o640 [7]),
        some (.file 0o644 [1, 2, 3])] ∧
     answer (R.1 false) = some CT_DIRECTORY ∧ answer (R.1 true) = some CT_FILE) := by
  have hno : ∀ (w : Bytes) (q : Loc) (t : Bytes), w ≠ [] →
      (world []).fs ([[104], [119], w] ++ q) ≠ some (.link t) := by
    intro w q t _
    simp [world, fsOf]
  refine ⟨os_quiet, ?_, by decide +kernel, by decide +kernel⟩
  intro i
  cases i
  · exact ⟨by decide +kernel, by decide +kernel, by decide +kernel, .rel, by decide +kernel,
      by decide +kernel, by decide +kernel, fun q t => hno [111] q t (by decide),
      .inr (by decide +kernel)⟩
  · exact ⟨by decide +kernel, by decide +kernel, by decide +kernel, .rel, by decide +kernel,
      by decide +kernel, by decide +kernel, fun q t => hno [120] q t (by decide),
      .inl (by decide +kernel)⟩

open HLSample ConcSample in
/-- C77 is false for archives with links: while the extraction of an archive with a link to `o` is
making the link, a file extracted to `x` goes to `o/x`. -/
theorem C77_concurrent_link_false :
    let R := race (job (dirArc (.link [108] 0o777 [97] .nil)) [111] []) (job (fileArc [1, 2, 3]) [120] [])
      ([false, false, false, false, false] ++ [true, true, true] ++ [false, false, false]) (world [])
    answer (R.1 false) = some CT_DIRECTORY ∧ answer (R.1 true) = some CT_FILE ∧
    R.2.fs [[104], [119], [120]] = none ∧
    R.2.fs [[104], [119], [111], [120]] = some (.file 0o644 [1, 2, 3]) ∧
    -- alone
    ((two (job (fileArc [1, 2, 3]) [120] []) (job (fileArc [1, 2, 3]) [120] []) true).prog copyI
      (fun _ _ => true) 5 |>.run os (world [])).2.fs [[104], [119], [120]] =
        some (.file 0o644 [1, 2, 3]) := by
  decide +kernel

open HLSample ConcSample in
/-- C77 is false for output directories with common parents that do not exist: extracted to `o/p/a`
and `o/p/b` at the same time, one of the archives is lost (and its extraction returns 0), because
each of the two gives up when the other one has created a directory that was missing before. -/
theorem C77_concurrent_parent_false :
    let a := job (dirArc (.file [97] 0o640 [7] .nil)) [111] [[112], [97]]
    let b := job (dirArc (.file [97] 0o640 [7] .nil)) [111] [[112], [98]]
    let R := race a b ((List.replicate 20 [false, true]).flatten) (world [])
    answer (R.1 false) = some CT_DIRECTORY ∧ answer (R.1 true) = some CT_NONE ∧
    R.2.fs [[104], [119], [111], [112], [97], [97]] = some (.file 0o640 [7]) ∧
    R.2.fs [[104], [119], [111], [112], [98]] = none ∧
    -- alone
    answer (.ret ((b.prog copyI (fun _ _ => true) 5).run os (world [])).1) = some CT_DIRECTORY := by
  decide +kernel

/-- C78: an extraction of an archive without links, amid anything else going on in the process (or in
other processes) that leaves alone its place, the working directory, and the directories and links
that were there when it began, goes as it would alone: after any number of its calls it is where it
would be, and so is what is at and below its place. -/
theorem C78_undisturbed (C : InflateOK Z plain) (ok : AllocOracle) (os : Os) (hq : os.quiet)
    (w : World) (j : Job) (hj : j.Safe os w ok plain) :
    ∃ n0, ∀ fuel, n0 ≤ fuel → ∀ acts : List (Option (World → World)),
      (∀ g, some g ∈ acts → Elsewhere w j.place g) →
      let R := amid os acts (j.prog Z ok fuel) w
      let alone := (j.prog Z ok fuel).after os (acts.countP Option.isNone) w
      R.1 = alone.1 ∧ R.2.cwd = w.cwd ∧ ∀ q, R.2.fs (j.place ++ q) = alone.2.fs (j.place ++ q) := by
  obtain ⟨n0, hl⟩ := safe_local C ok os hq w j hj
  refine ⟨n0, fun fuel hf acts hg => ?_⟩
  obtain ⟨h1, h2⟩ := amid_local os w j.place acts hg (j.prog Z ok fuel) w w (hl fuel hf) (.refl hj.steady)
  exact ⟨h1, h2.right.cwd, h2.same⟩

/-- C78 for absolute output paths: the others may also change the working directory, as extractions of
archives with links do. -/
theorem C78_absolute (C : InflateOK Z plain) (ok : AllocOracle) (os : Os) (hq : os.quiet)
    (w : World) (j : Job) (hj : j.Safe os w ok plain) (habs : j.out.head? = some 47) :
    ∃ n0, ∀ fuel, n0 ≤ fuel → ∀ acts : List (Option (World → World)),
      (∀ g, some g ∈ acts → ElsewhereFs w j.place g) →
      let R := amid os acts (j.prog Z ok fuel) w
      let alone := (j.prog Z ok fuel).after os (acts.countP Option.isNone) w
      R.1 = alone.1 ∧ ∀ q, R.2.fs (j.place ++ q) = alone.2.fs (j.place ++ q) := by
  have hpre : j.pre.head? = some 47 := by
    have hn := (hj.plainNames _ List.mem_cons_self)
    rw [Job.out_eq] at habs
    cases hp : j.pre with
    | nil =>
      rw [hp] at habs
      have := hn.head
      cases hnm : j.name with
      | nil => exact absurd hnm hn.1
      | cons a as => rw [hnm] at this habs; exact absurd habs (by simpa using this)
    | cons a pre => rw [hp] at habs; simpa using habs
  obtain ⟨n0, hl⟩ := safe_near C ok os hq w j hj
  refine ⟨n0, fun fuel hf acts hg => ?_⟩
  obtain ⟨h1, h2⟩ := amid_free os w j.place acts hg (j.prog Z ok fuel) w w
    ((hl fuel hf).mono fun c _ hc => ⟨(hc.local hq hj.base).1, hc.free hpre⟩) (.refl hj.steady)
  exact ⟨h1, h2.same⟩

open HLSample ConcSample in
/-- Example: the tree `d/a` is extracted to `/h/w/o/p` while another extraction makes links in `/h/w/z`: it
goes there and back, and the rest is as alone.  Extracted to `o/p` the files would be lost. -/
example :
    let j : Job := { job (dirArc (.dir [100] 0o755 (.file [97] 0o640 [7] .nil) .nil)) [111] [[112]] with
      pre := [47, 104, 47, 119, 47] }
    let go : World → World := fun w => { w with cwd := [[104], [119], [122]] }
    let back : World → World := fun w => { w with cwd := [[104], [119]] }
    let acts : List (Option (World → World)) := (List.replicate 6 [some go, none, some back, none]).flatten
    j.Safe os (world [([[104], [119], [122]], .dir 0o755)]) (fun _ _ => true) id ∧
    j.out.head? = some 47 ∧ (∀ g, some g ∈ acts → ElsewhereFs (world [([[104], [119], [122]], .dir 0o755)]) j.place g) ∧
    (let R := amid os acts (j.prog copyI (fun _ _ => true) 5) (world [([[104], [119], [122]], .dir 0o755)])
     answer R.1 = some CT_DIRECTORY ∧
     R.2.fs [[104], [119], [111], [112], [100], [97]] = some (.file 0o640 [7])) ∧
    (let R := amid os acts ({ j with pre := [] }.prog copyI (fun _ _ => true) 5)
        (world [([[104], [119], [122]], .dir 0o755)])
     R.2.fs [[104], [119], [111], [112], [100], [97]] = none) := by
  refine ⟨⟨by decide +kernel, by decide +kernel, by decide +kernel, ?_, by decide +kernel,
    by decide +kernel, by decide +kernel, fun q t => ?_, .inr (by decide +kernel)⟩, by decide +kernel,
    ?_, by decide +kernel, by decide +kernel⟩
  · exact InDir.path (p := [47, 104, 47, 119]) (by decide +kernel)
  · show (world [([[104], [119], [122]], .dir 0o755)]).fs ([[104], [119], [111]] ++ q) ≠ _
    simp [world, fsOf]
  · intro g hg w
    simp only [List.mem_flatten, List.mem_replicate] at hg
    obtain ⟨l, ⟨_, rfl⟩, hg⟩ := hg
    simp only [List.mem_cons, Option.some.injEq, List.not_mem_nil, or_false, reduceCtorEq, false_or] at hg
    rcases hg with rfl | rfl
    · exact ⟨fun _ => rfl, fun _ _ _ _ h => h⟩
    · exact ⟨fun _ => rfl, fun _ _ _ _ h => h⟩

open HLSample ConcSample in
/-- Example: between the calls of the extraction of `d/a` to `o/p`, the file `y` is written and removed
again. -/
example : (job (dirArc (.dir [100] 0o755 (.file [97] 0o640 [7] .nil) .nil)) [111] [[112]]).Safe os
      (world []) (fun _ _ => true) id ∧
    (∀ g ∈ [fun w : World => w.put [[104], [119], [121]] (.file 0o600 [5]),
        fun w : World => { w with fs := fun l => if l = [[104], [119], [121]] then none else w.fs l }],
      Elsewhere (world []) [[104], [119], [111]] g) ∧
    (let R := amid os ((List.replicate 6 [none, some fun w : World => w.put [[104], [119], [121]] (.file 0o600 [5]),
        none, some fun w : World => { w with fs := fun l => if l = [[104], [119], [121]] then none else w.fs l }]).flatten)
      ((job (dirArc (.dir [100] 0o755 (.file [97] 0o640 [7] .nil) .nil)) [111] [[112]]).prog copyI
        (fun _ _ => true) 5) (world [])
     answer R.1 = some CT_DIRECTORY ∧ R.2.fs [[104], [119], [121]] = none ∧
     R.2.fs [[104], [119], [111], [112], [100], [97]] = some (.file 0o640 [7])) := by
  have hne : ∀ q : Loc, [[104], [119], [111]] ++ q ≠ [[104], [119], [121]] := by
    intro q; simp
  have hnone : ∀ a : Node, (world []).fs [[104], [119], [121]] ≠ some a := by
    intro a; simp [world, fsOf]
  refine ⟨⟨by decide +kernel, by decide +kernel, by decide +kernel, .rel, by decide +kernel,
    by decide +kernel, by decide +kernel, fun q t => ?_, .inr (by decide +kernel)⟩, ?_, by decide +kernel⟩
  · show (world []).fs ([[104], [119], [111]] ++ q) ≠ _
    simp [world, fsOf]
  · intro g hg w
    simp only [List.mem_cons, List.not_mem_nil, or_false] at hg
    rcases hg with rfl | rfl
    · refine ⟨rfl, fun q => ?_, fun l a h1 _ h3 => ?_⟩
      · simp only [World.put, FS.put, if_neg (hne q)]
      · by_cases hl : l = [[104], [119], [121]]
        · subst hl; exact absurd h1 (hnone a)
        · simpa only [World.put, FS.put, if_neg hl] using h3
    · refine ⟨rfl, fun q => ?_, fun l a h1 _ h3 => ?_⟩
      · simp only [if_neg (hne q)]
      · by_cases hl : l = [[104], [119], [121]]
        · subst hl; exact absurd h1 (hnone a)
        · simpa only [if_neg hl] using h3

end Zwt
