import Verif.Proofs.ConcLink
import Verif.Props.Concurrent

/-! C77, C78: extractions at the same time in one process, one of them making links. -/

namespace Zwt

variable {Z : Inflater} {plain : Bytes → Bytes}

/-- C78 for archives with links: an extraction during which no file or directory has a path through a
link made before goes, amid anything else that leaves alone its place, the working directory, and the
directories and links that were there when it began, as it would alone. -/
theorem C78_links (C : InflateOK Z plain) (ok : AllocOracle) (os : Os) (hq : os.quiet)
    (w : World) (j : Job) (hj : j.SafeL os w ok plain) :
    ∃ n0, ∀ fuel, n0 ≤ fuel → ∀ acts : List (Option (World → World)),
      (∀ g, some g ∈ acts → Elsewhere w j.place g) →
      let R := amid os acts (j.prog Z ok fuel) w
      let alone := (j.prog Z ok fuel).after os (acts.countP Option.isNone) w
      R.1 = alone.1 ∧ R.2.cwd = alone.2.cwd ∧
        ∀ q, R.2.fs (j.place ++ q) = alone.2.fs (j.place ++ q) := by
  obtain ⟨n0, hl⟩ := safeL_localAt C ok os hq w j hj
  refine ⟨n0, fun fuel hf acts hg => ?_⟩
  obtain ⟨h1, h2⟩ := amid_localAt os w j.place acts hg (j.prog Z ok fuel) w w (hl fuel hf)
    (.refl (Keeps.refl _))
  exact ⟨h1, h2.cwd, h2.same⟩

theorem Job.pre_abs {os : Os} {w : World} {ok : AllocOracle} {plain : Bytes → Bytes} {j : Job}
    (hj : j.Safe os w ok plain) (habs : j.out.head? = some 47) : j.pre.head? = some 47 := by
  have hn := (hj.plainNames _ List.mem_cons_self)
  rw [Job.out_eq] at habs
  cases hp : j.pre with
  | nil =>
    rw [hp] at habs
    have := hn.head
    cases hnm : j.name with
    | nil => exact absurd hnm hn.1
    | cons a as => rw [hnm] at this habs; exact absurd habs (by simpa using this)
  | cons a pre => rw [hp] at habs; simpa using habs

/-- C77 with links: any number of extractions to places none of which is inside another, one of them
(`i0`) possibly of an archive with links, the others without links and to absolute paths, do not affect
each other, whatever the order of their calls.
Missing: two archives with links, or a relative output path beside one (`C77_concurrent_link_false`),
places with a common directory that does not exist yet (`C77_concurrent_parent_false`), refused
calls. -/
theorem C77_one_link_partial {ι : Type} [DecidableEq ι] (C : InflateOK Z plain) (ok : AllocOracle)
    (os : Os) (hq : os.quiet) (w : World) (j : ι → Job) (i0 : ι) (h0 : (j i0).SafeL os w ok plain)
    (hj : ∀ i, i ≠ i0 → (j i).Safe os w ok plain ∧ (j i).out.head? = some 47)
    (hapart : ∀ i k, i ≠ k → ¬ (j i).place <+: (j k).place) :
    ∃ n0 : ι → Nat, ∀ fuel : ι → Nat, (∀ i, n0 i ≤ fuel i) → ∀ sched : List ι,
      let R := play os sched (fun i => (j i).prog Z ok (fuel i)) w
      (∀ i, let alone := ((j i).prog Z ok (fuel i)).after os (sched.count i) w
        R.1 i = alone.1 ∧ ∀ q, R.2.fs ((j i).place ++ q) = alone.2.fs ((j i).place ++ q)) ∧
      (∀ x, (∀ i, ¬ (j i).place <+: x) → R.2.fs x = w.fs x) ∧
      R.2.cwd = (((j i0).prog Z ok (fuel i0)).after os (sched.count i0) w).2.cwd := by
  obtain ⟨m0, hm0⟩ := safeL_localAt C ok os hq w (j i0) h0
  have hl := fun i (hi : i ≠ i0) => safe_near C ok os hq w (j i) (hj i hi).1
  refine ⟨fun i => if hi : i = i0 then m0 else (hl i hi).choose, fun fuel hf sched => ?_⟩
  refine play_mixed os w (fun i => (j i).place) hapart i0 sched
    (fun i => (j i).prog Z ok (fuel i)) (fun _ => w) w ?_ ?_ ?_ (.refl (Keeps.refl _))
  · intro i hi
    have := hf i
    simp only at this
    rw [dif_neg hi] at this
    refine ((hl i hi).choose_spec (fuel i) this).mono fun c _ hc => ⟨?_, ?_⟩
    · exact (hc.local hq (hj i hi).1.base).1
    · exact hc.free (Job.pre_abs (hj i hi).1 (hj i hi).2)
  · have := hf i0
    simp only at this
    rw [dif_pos trivial] at this
    exact hm0 (fuel i0) this
  · intro i hi
    exact .refl (hj i hi).1.steady

open HLSample in
theorem home_back : CwdBack os (world []).fs (world []).cwd := by
  refine ⟨?_, ?_⟩
  · intro c hc
    rcases List.mem_cons.mp hc with rfl | hc
    · decide
    · rcases List.mem_cons.mp hc with rfl | hc
      · decide
      · simp at hc
  · rintro l ⟨t, ht⟩
    have hl : l = [] ∨ l = [[104]] ∨ l = [[104], [119]] := by
      match l, ht with
      | [], _ => exact .inl rfl
      | [a], h => simp [world] at h; simp [h]
      | [a, b], h => simp [world] at h; simp [h]
      | a :: b :: c :: d, h => simp [world] at h
    rcases hl with rfl | rfl | rfl <;> decide +kernel

open HLSample ConcSample in
/-- Example: an archive with a link, a directory and a file is extracted to `o` while, in the middle of
the making of the link, a file is extracted to `/h/w/x`. -/
example :
    let a := job (dirArc (.link [108] 0o777 [97] (.dir [100] 0o755 (.file [97] 0o640 [7] .nil) .nil))) [111] []
    let b : Job := { job (fileArc [1, 2, 3]) [120] [] with pre := [47, 104, 47, 119, 47] }
    os.quiet ∧ a.SafeL os (world []) (fun _ _ => true) id ∧ b.Safe os (world []) (fun _ _ => true) id ∧
    b.out.head? = some 47 ∧ ¬ a.place <+: b.place ∧ ¬ b.place <+: a.place ∧
    (let R := race a b ([false, false, false, false, false] ++ [true, true, true] ++
        List.replicate 12 false) (world [])
     answer (R.1 false) = some CT_DIRECTORY ∧ answer (R.1 true) = some CT_FILE ∧
     R.2.cwd = [[104], [119]] ∧ R.2.fs [[104], [119], [120]] = some (.file 0o644 [1, 2, 3]) ∧
     R.2.fs [[104], [119], [111], [108]] = some (.link [97]) ∧
     R.2.fs [[104], [119], [111], [100], [97]] = some (.file 0o640 [7])) := by
  refine ⟨os_quiet, ⟨by decide +kernel, by decide +kernel, by decide +kernel, .rel, by decide +kernel,
    by decide +kernel, by decide +kernel, fun q t => ?_, home_back, .inr (by decide +kernel)⟩,
    ⟨by decide +kernel, by decide +kernel, by decide +kernel, ?_, by decide +kernel, by decide +kernel,
      by decide +kernel, fun q t => ?_, .inl (by decide +kernel)⟩,
    by decide +kernel, by decide +kernel, by decide +kernel, by decide +kernel⟩
  · show (world []).fs ([[104], [119], [111]] ++ q) ≠ _
    simp [world, fsOf]
  · exact InDir.path (p := [47, 104, 47, 119]) (by decide +kernel)
  · show (world []).fs ([[104], [119], [120]] ++ q) ≠ _
    simp [world, fsOf]

open HLSample ConcSample in
/-- Example: while the link is being made, the file `y` is written. -/
example :
    let a := job (dirArc (.link [108] 0o777 [97] (.file [97] 0o640 [7] .nil))) [111] []
    let g : World → World := fun w => w.put [[104], [119], [121]] (.file 0o600 [5])
    let acts : List (Option (World → World)) := (List.replicate 14 [none, some g]).flatten
    a.SafeL os (world []) (fun _ _ => true) id ∧ (∀ g, some g ∈ acts → Elsewhere (world []) a.place g) ∧
    (let R := amid os acts (a.prog copyI (fun _ _ => true) 5) (world [])
     answer R.1 = some CT_DIRECTORY ∧ R.2.fs [[104], [119], [111], [108]] = some (.link [97]) ∧
     R.2.fs [[104], [119], [111], [97]] = some (.file 0o640 [7]) ∧
     R.2.fs [[104], [119], [121]] = some (.file 0o600 [5])) := by
  refine ⟨⟨by decide +kernel, by decide +kernel, by decide +kernel, .rel, by decide +kernel,
    by decide +kernel, by decide +kernel, fun q t => ?_, home_back, .inr (by decide +kernel)⟩, ?_,
    by decide +kernel⟩
  · show (world []).fs ([[104], [119], [111]] ++ q) ≠ _
    simp [world, fsOf]
  · intro g hg w
    simp only [List.mem_flatten, List.mem_replicate] at hg
    obtain ⟨l, ⟨_, rfl⟩, hg⟩ := hg
    simp only [List.mem_cons, Option.some.injEq, List.not_mem_nil, or_false, reduceCtorEq, false_or] at hg
    subst hg
    refine ⟨rfl, fun q => ?_, fun l a h1 _ h3 => ?_⟩
    · show (w.fs.put [[104], [119], [121]] (.file 0o600 [5])) ([[104], [119], [111]] ++ q) =
        w.fs ([[104], [119], [111]] ++ q)
      simp [FS.put]
    · by_cases hl : l = [[104], [119], [121]]
      · subst hl; simp [world, fsOf] at h1
      · simpa only [World.put, FS.put, if_neg hl] using h3

end Zwt
