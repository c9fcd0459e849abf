import Verif.Proofs.Lossy
import Verif.Proofs.ConcClosed
import Verif.Props.Interrupt
import Verif.Proofs.Sample

/-! C80: failing calls during extraction. -/

namespace Zwt

variable {Z : Inflater} {plain : Bytes → Bytes}

theorem Prog.run_stop {α : Type} (os : Os) (n : Nat) (p : Prog α) : ∀ (w : World),
    (p.run os w).2.calls ≤ n → p.run (os.stopAt n) w = p.run os w := by
  induction p with
  | ret a => intro w _; rfl
  | call c k ih =>
    intro w h
    have hw : w.calls < n := by
      have := Prog.run_calls os (k (c.exec os w).1) (c.exec os w).2
      rw [Call.exec_calls] at this
      exact Nat.lt_of_lt_of_le this h
    have he := Call.exec_stop os n w c hw
    simp only [Prog.run] at h ⊢
    rw [he]
    exact ih _ _ h

theorem Forest.remains_stop (os : Os) (k : Nat) (f : Forest) (p : List Bytes) (a : Option Node) :
    f.remains (os.stopAt k) p a ↔ f.remains os p a := by
  have h : ∀ (f : Forest) p, f.lookup (os.stopAt k) p = f.lookup os p := by
    intro f
    induction f with
    | nil => intro p; rfl
    | file n m c r ih => intro p; simp only [Forest.lookup, ih]; rfl
    | link n m t r ih => intro p; simp only [Forest.lookup, ih]
    | dir n m s r ihs ih =>
      intro p
      cases p with
      | nil => rfl
      | cons x xs => simp only [Forest.lookup, ihs, ih]; rfl
    | other n r ih => intro p; exact ih p
    | bad n r ih => intro p; exact ih p
  cases a with
  | none => exact Iff.rfl
  | some a => cases a <;> simp only [Forest.remains, h]

theorem LeftOver.stop {os : Os} {k : Nat} {fs now : FS} {d : Loc} {n : Bytes} {ns : List Bytes}
    {f : Forest} (h : LeftOver (os.stopAt k) fs now d n ns f) : LeftOver os fs now d n ns f := by
  refine ⟨h.outside, fun q => ?_⟩
  rcases h.inside q with c | c | ⟨p, c1, c2, c3⟩
  · exact .inl c
  · exact .inr (.inl c)
  · exact .inr (.inr ⟨p, c1, c2, (Forest.remains_stop os k f p _).mp c3⟩)

/-- After the creation of the output directory, successful or not. -/
theorem leftOver_mkdir {os : Os} {w : World} {pre : Bytes} {d : Loc} {n : Bytes}
    (B : Base os w pre d n) (ha : Absent w.fs (d ++ [n])) (ns : List Bytes)
    (hns : ∀ x ∈ ns, PlainName x) (f : Forest) :
    LeftOver os w.fs (mkdirRecurse os BASE_DIR_MODE (pre ++ n ++ slashed ns) w).2.fs d n ns f := by
  have c0 : ConfL w w pre (d ++ [n]) [] :=
    ⟨fun _ _ => rfl, fun q t h => by rw [ha q] at h; simp at h, .inr rfl, Keeps.refl _⟩
  obtain ⟨c1, c2⟩ := B.mkdirs_added c0 ns hns (fun l hl => by simp at hl) BASE_DIR_MODE
  refine ⟨c1.out, fun q => ?_⟩
  rcases c2 (d ++ n :: q) with c | ⟨_, k2, _, k4⟩
  · left
    rw [c]
    have := ha q
    simpa using this
  · right; left
    obtain ⟨t, ht⟩ := k4
    simp only [List.append_assoc, List.cons_append] at ht
    have := List.append_cancel_left ht
    simp only [List.cons.injEq, true_and] at this
    exact ⟨⟨t, this⟩, _, k2⟩

/-- The callbacks that convey a tree, whatever fails. -/
theorem leftOver_tree {os : Os} {w : World} {pre : Bytes} {d : Loc} {n : Bytes}
    (B : Base os w pre d n) (ha : Absent w.fs (d ++ [n])) (ns : List Bytes)
    (hns : ∀ x ∈ ns, PlainName x) (hmem : ∀ k, os.noMem k = false)
    (hmk : (mkdirRecurse os BASE_DIR_MODE (pre ++ n ++ slashed ns) w).1 = 0)
    {f : Forest} (hf : f.proper) (hfl : f.noLinks ∨ pre.head? = some 47) {evs : List Ev}
    (he : EvsOf f evs) :
    ∃ h', hlEvents os (pre ++ n ++ slashed ns) (HL.init w) (.drStart :: evs) = .ok h' ∧
      LeftOver os w.fs h'.w.fs d n ns f := by
  have c0 : ConfL w w pre (d ++ [n]) [] :=
    ⟨fun _ _ => rfl, fun q t h => by rw [ha q] at h; simp at h, .inr rfl, Keeps.refl _⟩
  obtain ⟨c1, c2⟩ := B.mkdirs_added c0 ns hns (fun l hl => by simp at hl) BASE_DIR_MODE
  have c3 := leftOver_mkdir B ha ns hns f
  cases hm : mkdirRecurse os BASE_DIR_MODE (pre ++ n ++ slashed ns) w with
  | mk r w1 =>
  rw [hm] at hmk c1 c2 c3
  have hr : r = 0 := hmk
  simp only at c1 c2 c3
  have hnone : ∀ q, w.fs (d ++ n :: q) = none := by
    intro q; have := ha q; simpa using this
  obtain ⟨h', _, g1, g2, g3, g4, _, g5⟩ := tree_any B (pre ++ n ++ slashed ns) hmem he
    { HL.init w with
      w := w1.tick
      dirPath := some (pre ++ n ++ slashed ns)
      ret := CT_DIRECTORY } ns [] hf hfl rfl hns c1.tick (fun _ _ _ l hl => by simp at hl) (by
      intro x hx p
      show w1.fs _ = _
      rcases c2 (d ++ n :: ns ++ [x] ++ p) with c | ⟨_, _, _, k4⟩
      · rw [c, show d ++ n :: ns ++ [x] ++ p = d ++ n :: (ns ++ [x] ++ p) by simp]; exact hnone _
      · have := k4.length_le
        simp only [List.length_append, List.length_cons, List.length_nil] at this
        omega)
  refine ⟨h', ?_, g4.out, fun q => ?_⟩
  · simp only [hlEvents, hlEvent, hlDirStart, HL.init, hm, hr, hmem]
    simp only [HL.init] at g1
    simpa using g1
  · by_cases hq : ∃ x ∈ f.names, ∃ p, d ++ n :: q = d ++ n :: ns ++ x :: p
    · obtain ⟨x, hx, p, hxp⟩ := hq
      right; right
      have e : q = ns ++ x :: p := by
        simp only [List.append_assoc, List.cons_append] at hxp
        have := List.append_cancel_left hxp
        simpa using this
      refine ⟨x :: p, by simp, e, ?_⟩
      rw [hxp]
      exact g5.kept x hx p
    · rcases g5.other (d ++ n :: q) (fun x hx p hxp => hq ⟨x, hx, p, hxp⟩) with
        c | ⟨_, _, k3, m, k4, _⟩
      · rcases c3.inside q with k | k | ⟨p, k1, rfl, k3⟩
        · left; rw [c]; exact k
        · right; left; rw [c]; exact k
        · -- nothing below the output directory yet
          left
          rw [c]
          show w1.fs _ = none
          rcases c2 (d ++ n :: (ns ++ p)) with k | ⟨_, _, _, k4⟩
          · rw [k]; exact hnone _
          · have := k4.length_le
            have := List.length_pos_iff.mpr k1
            simp only [List.length_append, List.length_cons] at *
            omega
      · right; left
        obtain ⟨t, ht⟩ := k3
        simp only [List.append_assoc, List.cons_append] at ht
        have := List.append_cancel_left ht
        simp only [List.cons.injEq, true_and] at this
        exact ⟨⟨t, this⟩, m, k4⟩

/-- The first callbacks of such a history, stopped after any number of calls. -/
theorem leftOver_log {os : Os} {w : World} {pre : Bytes} {d : Loc} {n : Bytes}
    (B : ∀ k, Base (os.stopAt k) w pre d n) (ha : Absent w.fs (d ++ [n])) (ns : List Bytes)
    (hns : ∀ x ∈ ns, PlainName x) (hmem : ∀ k, os.noMem k = false)
    (hmk : (mkdirRecurse os BASE_DIR_MODE (pre ++ n ++ slashed ns) w).1 = 0)
    {f : Forest} (hf : f.proper) (hfl : f.noLinks ∨ pre.head? = some 47) {evs rest : List Ev}
    (he : EvsOf f (evs ++ rest)) (k : Nat) :
    LeftOver os w.fs ((hlEventsP (pre ++ n ++ slashed ns) HLv.init (.drStart :: evs)).after os k w).2.fs
      d n ns f := by
  rw [(Prog.after_stop os k _ w).1]
  generalize w.calls + k = K
  generalize hp : hlEventsP (pre ++ n ++ slashed ns) HLv.init (.drStart :: evs) = p
  -- stop where the callbacks end, if not earlier
  obtain ⟨K', hK', hK⟩ : ∃ K', K' ≤ (p.run (os.stopAt K') w).2.calls ∧
      p.run (os.stopAt K') w = p.run (os.stopAt K) w := by
    by_cases hc : (p.run (os.stopAt K) w).2.calls < K
    · have h1 := Prog.run_before os K p w hc
      refine ⟨(p.run os w).2.calls, ?_, ?_⟩
      · rw [Prog.run_stop os _ p w (Nat.le_refl _)]; exact Nat.le_refl _
      · rw [h1, Prog.run_stop os _ p w (Nat.le_refl _)]
    · exact ⟨K, by omega, rfl⟩
  rw [← hK]
  subst hp
  by_cases h0 : (mkdirRecurse (os.stopAt K') BASE_DIR_MODE (pre ++ n ++ slashed ns) w).1 = 0
  · obtain ⟨h', g1, g2⟩ := leftOver_tree (B K') ha ns hns hmem h0 hf hfl he
    have hrun := hlEventsP_run (os.stopAt K') (pre ++ n ++ slashed ns) (.drStart :: (evs ++ rest))
      HLv.init w
    rw [show HLv.init.at w = HL.init w from rfl, g1,
      show Ev.drStart :: (evs ++ rest) = (Ev.drStart :: evs) ++ rest from rfl, hlEventsP_append,
      andThen_run] at hrun
    cases hx : (hlEventsP (pre ++ n ++ slashed ns) HLv.init (.drStart :: evs)).run (os.stopAt K') w with
    | mk r w' =>
      rw [hx] at hrun hK'
      cases r with
      | error e => simp [toHL, Except.map] at hrun
      | ok v =>
        simp only at hrun hK'
        have hst := Prog.run_stopped os K' (hlEventsP (pre ++ n ++ slashed ns) v rest) w' hK'
        cases hy : (hlEventsP (pre ++ n ++ slashed ns) v rest).run (os.stopAt K') w' with
        | mk r2 w2 =>
          rw [hy] at hrun hst
          cases r2 with
          | error e => simp [toHL, Except.map] at hrun
          | ok v2 =>
            simp only [toHL, Except.map, Except.ok.injEq] at hrun
            subst hrun
            have : w2.fs = w'.fs := hst.1
            show LeftOver os w.fs w'.fs d n ns f
            rw [← this]
            exact g2.stop
  · -- stopped in the creation of the output directory
    have hstop : K' ≤ (mkdirRecurse (os.stopAt K') BASE_DIR_MODE (pre ++ n ++ slashed ns) w).2.calls := by
      apply Nat.le_of_not_lt
      intro hlt
      rw [← mkdirRecurseP_run] at hlt h0
      rw [Prog.run_before os K' _ w hlt, mkdirRecurseP_run] at h0
      exact h0 hmk
    have c1 := leftOver_mkdir (B K') ha ns hns f
    have hev : hlEventsP (pre ++ n ++ slashed ns) HLv.init (.drStart :: evs) =
        (mkdirRecurseP BASE_DIR_MODE (pre ++ n ++ slashed ns)).bind fun r =>
          andThen ((if r ≠ 0 then (.ret { HLv.init with hasError := true } : Prog HLv)
            else .call .alloc fun (bad : Bool) =>
              if bad then .ret { HLv.init with dirPath := none, hasError := true }
              else .ret { HLv.init with
                dirPath := some (pre ++ n ++ slashed ns), ret := CT_DIRECTORY }).bind
            fun h => .ret (.ok h)) fun v => hlEventsP (pre ++ n ++ slashed ns) v evs := by
      simp only [hlEventsP, hlEventP, hlDirStartP, andThen, Prog.bind_assoc]
    rw [hev, Prog.run_bind, mkdirRecurseP_run]
    obtain ⟨f1, _⟩ := Prog.run_stopped os K' (andThen
      ((if (mkdirRecurse (os.stopAt K') BASE_DIR_MODE (pre ++ n ++ slashed ns) w).1 ≠ 0 then
          (.ret { HLv.init with hasError := true } : Prog HLv)
        else .call .alloc fun (bad : Bool) =>
          if bad then .ret { HLv.init with dirPath := none, hasError := true }
          else .ret { HLv.init with
            dirPath := some (pre ++ n ++ slashed ns), ret := CT_DIRECTORY }).bind
        fun h => .ret (.ok h)) fun v => hlEventsP (pre ++ n ++ slashed ns) v evs) _ hstop
    rw [f1]
    exact c1.stop

/-- C80, what holds: an archive of a tree without symbolic links, or a beginning of it, is extracted
to a path whose directories do not exist yet; the output directory can be created and there is memory
for the paths of directories (allocations for names may fail).  Whatever other calls the system refuses, however little of the data handed to a write
it stores, and after any number of calls: nothing outside the output directory is changed, and inside
it there is at every place what the archive has there, or nothing — a file has its mode and parts of
its content in order, a directory has its mode or the mode of a directory inside it.
Missing: links (`C80_links_false`, `C80_links_partial`), an output directory that cannot be created (`C41_unavailable_outdir_false`), memory running
out for the path of a directory (`C80_failing_calls_false`). -/
theorem C80_failing_calls_partial (C : InflateOK Z plain) (ok : AllocOracle)
    (hdr item : Bytes) (hh : hdr.length = 128) (hi : item.length = 40)
    (os : Os) (hmem : ∀ k, os.noMem k = false) (w : World) (ht : w.fs.tree) (pre : Bytes)
    (h0 : 0 ∉ pre) (d : Loc) (hd : InDir os w pre d) (hsd : searchable os w.fs d = true) (n : Bytes)
    (ns : List Bytes) (hn : ∀ x ∈ n :: ns, PlainName x) (hback : 92 ∉ pre ++ n)
    (hnew : w.fs (d ++ [n]) = none)
    (hmk : (mkdirRecurse os BASE_DIR_MODE (pre ++ joinNames (n :: ns)) w).1 = 0)
    {f : Forest} (hf : f.proper) (hfl : f.noLinks) {junk t : Bytes} (hj : junk.length = 120)
    (he : Encodes f t) (size : Nat) (inp : Input)
    (harc : plain (allowed size 0 inp.data) <+: headerBytes 0 1 junk ++ t) :
    ∃ n0, ∀ fuel, n0 ≤ fuel → ∀ k, LeftOver os w.fs
      ((extractP Z ok fuel hdr item (pre ++ joinNames (n :: ns)) size inp).after os k w).2.fs d n ns f := by
  have hpath : pre ++ joinNames (n :: ns) = pre ++ n ++ slashed ns := by
    rw [joinNames_slashed]; simp
  rw [hpath] at hmk ⊢
  have B : ∀ k, Base (os.stopAt k) w pre d n := fun k =>
    ⟨(hd.stop k).front hsd h0, hsd, hn n List.mem_cons_self, hback⟩
  have hold : LeftOver os w.fs w.fs d n ns f :=
    ⟨fun _ _ => rfl, fun q => .inl (by have := (ht.absent hnew) q; simpa using this)⟩
  obtain ⟨n0, hn0⟩ := extractP_all C ok hdr item hh hi os (pre ++ n ++ slashed ns) w size inp
    (fun c w' => LeftOver os w.fs (c.exec os w').2.fs d n ns f) (by
      intro P pieces log hP hlog
      rcases log_tree_any hj he ok hf hfl (hP.trans harc) hlog with rfl | ⟨evs, rest, rfl, hev⟩
      · trivial
      · refine Prog.all_of_after os (fun w' => LeftOver os w.fs w'.fs d n ns f) _ w fun k => ?_
        exact leftOver_log B (ht.absent hnew) ns (fun x hx => hn x (List.mem_cons_of_mem _ hx)) hmem
          hmk hf (.inl hfl) hev k)
  exact ⟨n0, fun fuel hfu k => Prog.after_of_all os (fun w' => LeftOver os w.fs w'.fs d n ns f) k _ w
    hold (hn0 fuel hfu)⟩

namespace LossySample
open HLSample

/-- The tree `d/e/a`, `b`. -/
def tree : Forest :=
  .dir [100] 0o750 (.dir [101] 0o700 (.file [97] 0o640 [7, 8, 9] .nil) .nil) (.file [98] 0o600 [3] .nil)

/-- The attempts to create `d` are refused, and writes store all but the last byte. -/
def shaky : Os := { os with refuses := fun j => j == 7 || j == 8, accepts := fun _ n => n - 1 }

/-- One allocation fails: that of the path of the directory `d`. -/
def poor : Os := { os with noMem := fun j => j == 5 }

theorem tree_proper : tree.proper := by
  simp only [tree, Forest.proper]
  decide +kernel

/-- Example: the hypotheses of `C80_failing_calls_partial` hold for `tree` extracted to `o/p` while
the attempts to create `d` are refused and writes store all but their last byte.  In the end `o/p/d`
is there, with the mode of `d/e` (0700 instead of 0750): the attempt to create `d/e` has created it;
the files lack their last byte. -/
example : (∀ k, shaky.noMem k = false) ∧ (world []).fs.tree ∧
    InDir shaky (world []) [] [[104], [119]] ∧
    searchable shaky (world []).fs [[104], [119]] = true ∧ (∀ x ∈ [[111], [112]], PlainName x) ∧
    (world []).fs [[104], [119], [111]] = none ∧
    (mkdirRecurse shaky BASE_DIR_MODE ([] ++ joinNames [[111], [112]]) (world [])).1 = 0 ∧
    tree.proper ∧ tree.noLinks ∧ Encodes tree (encode tree) ∧
    id (allowed 0 0 (dirArc tree)) <+: headerBytes 0 1 (List.replicate 120 0xEE) ++ encode tree ∧
    [[[111], [112]], [[111], [112], [100]], [[111], [112], [100], [101]],
      [[111], [112], [100], [101], [97]], [[111], [112], [98]]].map (fun l =>
        ((extractP copyI (fun _ _ => true) 5 hdrMem itemMem [111, 47, 112] 0
          ⟨dirArc tree, false⟩).after shaky 30 (world [])).2.fs ([[104], [119]] ++ l)) =
      [some (.dir 0o755), some (.dir 0o700), some (.dir 0o700), some (.file 0o640 [7, 8]),
        some (.file 0o600 [])] := by
  refine ⟨fun _ => rfl, world_tree, .rel, by decide +kernel, by decide +kernel, by decide +kernel,
    by decide +kernel, tree_proper, ⟨⟨trivial, trivial⟩, trivial⟩, encodes _ (by decide +kernel), ?_,
    by decide +kernel⟩
  exact List.prefix_refl _

end LossySample

open HLSample LossySample in
/-- C80 is false: if one allocation fails, that of the path of the directory `d` of the archive, then
the files of `d` are put into the output directory and the entry `b` after `d` is put beside the
output directory `o/p`. -/
theorem C80_failing_calls_false :
    ¬ ∀ (Z : Inflater) (plain : Bytes → Bytes) (_ : InflateOK Z plain) (fuel : Nat) (hdr item : Bytes)
      (os : Os) (w : World) (n : Bytes) (ns : List Bytes) (f : Forest) (junk t : Bytes) (size : Nat)
      (inp : Input) (r : Extracted), hdr.length = 128 → item.length = 40 →
      (∀ k, os.refuses k = false) → w.fs.tree → OpenDir os w.fs w.cwd → (∀ x ∈ n :: ns, PlainName x) →
      w.fs (w.cwd ++ [n]) = none →
      (mkdirRecurse os BASE_DIR_MODE (joinNames (n :: ns)) w).1 = 0 →
      f.proper → f.noLinks → junk.length = 120 → Encodes f t →
      plain (allowed size 0 inp.data) = headerBytes 0 1 junk ++ t →
      extract Z os (fun _ _ => true) fuel hdr item (joinNames (n :: ns)) size inp w = .ok r →
      LeftOver os w.fs r.w.fs w.cwd n ns f := by
  intro h
  have key : view [[[104], [119], [111], [98]]] (run poor (dirArc tree) [111, 47, 112] (world [])) =
      .done CT_DIRECTORY [[104], [119]] [some (.file 0o600 [3])] := by decide +kernel
  obtain ⟨x, hx, _, _, h4⟩ := view_done key
  have L := h copyI id copyIOK 5 hdrMem itemMem poor (world []) [111] [[112]] tree
    (List.replicate 120 0xEE) (encode tree) 0 ⟨dirArc tree, false⟩ x (by decide +kernel)
    (by decide +kernel) (fun _ => rfl) world_tree ⟨0o755, by decide +kernel, .inr (by decide)⟩
    (by decide +kernel) (by decide +kernel) (by decide +kernel) tree_proper
    ⟨⟨trivial, trivial⟩, trivial⟩ (by decide +kernel) (encodes _ (by decide +kernel)) (by decide +kernel) hx
  have h5 : x.w.fs [[104], [119], [111], [98]] = some (.file 0o600 [3]) := by simpa using h4
  rcases L.inside [[98]] with c | ⟨_, m, c⟩ | ⟨p, _, c, _⟩
  · rw [show (world []).cwd ++ [111] :: [[98]] = [[104], [119], [111], [98]] from rfl, h5] at c
    cases c
  · rw [show (world []).cwd ++ [111] :: [[98]] = [[104], [119], [111], [98]] from rfl, h5] at c
    cases c
  · simp at c

/-- C80 with links, what holds: as `C80_failing_calls_partial` for every tree, if the output path is
absolute.  Links are made in their directories only, with their targets (if the target does not lie in
one buffer, with a non-empty end of it), also when the return to the working directory is refused, or
when the extraction ends with a fault at the end of a target.
Missing: relative output paths (`C80_links_false`); an output directory that cannot be created; memory
running out. -/
theorem C80_links_partial (C : InflateOK Z plain) (ok : AllocOracle) (hok : ∀ k n, ok k n = true)
    (hdr item : Bytes) (hh : hdr.length = 128) (hi : item.length = 40)
    (os : Os) (hmem : ∀ k, os.noMem k = false) (w : World) (ht : w.fs.tree) (pre : Bytes)
    (h0 : 0 ∉ pre) (habs : pre.head? = some 47) (d : Loc) (hd : InDir os w pre d)
    (hsd : searchable os w.fs d = true) (n : Bytes)
    (ns : List Bytes) (hn : ∀ x ∈ n :: ns, PlainName x) (hback : 92 ∉ pre ++ n)
    (hnew : w.fs (d ++ [n]) = none)
    (hmk : (mkdirRecurse os BASE_DIR_MODE (pre ++ joinNames (n :: ns)) w).1 = 0)
    {f : Forest} (hf : f.proper) {junk t : Bytes} (hj : junk.length = 120)
    (he : Encodes f t) (size : Nat) (inp : Input)
    (harc : plain (allowed size 0 inp.data) <+: headerBytes 0 1 junk ++ t) :
    ∃ n0, ∀ fuel, n0 ≤ fuel → ∀ k, ∃ g, Relinked f g ∧ LeftOver os w.fs
      ((extractP Z ok fuel hdr item (pre ++ joinNames (n :: ns)) size inp).after os k w).2.fs d n ns g := by
  have hpath : pre ++ joinNames (n :: ns) = pre ++ n ++ slashed ns := by
    rw [joinNames_slashed]; simp
  rw [hpath] at hmk ⊢
  have B : ∀ k, Base (os.stopAt k) w pre d n := fun k =>
    ⟨(hd.stop k).front hsd h0, hsd, hn n List.mem_cons_self, hback⟩
  have hself : Relinked f f := by
    obtain ⟨_, _, _, p2⟩ := he.atomsOf ok hok 0
    exact p2.relinked_refl hf
  have hold : ∃ g, Relinked f g ∧ LeftOver os w.fs w.fs d n ns g :=
    ⟨f, hself, fun _ _ => rfl, fun q => .inl (by have := (ht.absent hnew) q; simpa using this)⟩
  obtain ⟨n0, hn0⟩ := extractP_all C ok hdr item hh hi os (pre ++ n ++ slashed ns) w size inp
    (fun c w' => ∃ g, Relinked f g ∧ LeftOver os w.fs (c.exec os w').2.fs d n ns g) (by
      intro P pieces log hP hlog
      rcases log_relinked hj he ok hok hf (hP.trans harc) hlog with
        ⟨rfl, _⟩ | ⟨g, evs, rest, k1, _, rfl, hev, _⟩
      · trivial
      · refine hlEventsP_closed os _ (.drStart :: evs) _ _ ?_
        refine Prog.all_of_after os (fun w' => ∃ g, Relinked f g ∧ LeftOver os w.fs w'.fs d n ns g) _ w
          fun k => ⟨g, k1, ?_⟩
        exact leftOver_log B (ht.absent hnew) ns (fun x hx => hn x (List.mem_cons_of_mem _ hx)) hmem
          hmk (k1.proper hf) (.inr habs) hev k)
  exact ⟨n0, fun fuel hfu k => Prog.after_of_all os
    (fun w' => ∃ g, Relinked f g ∧ LeftOver os w.fs w'.fs d n ns g) k _ w hold (hn0 fuel hfu)⟩

namespace LossySample
open HLSample

/-- A link `l` and a directory `d`. -/
def linkTree : Forest := .link [108] 0o777 [116] (.dir [100] 0o755 .nil .nil)

/-- The return to the old working directory after the creation of the link is refused. -/
def stray : Os := { os with refuses := fun j => j == 6 }

theorem linkTree_proper : linkTree.proper := by simp +decide [linkTree, Forest.proper, PlainName]

/-- Example: the hypotheses of `C80_links_partial` hold for `linkTree` extracted to `/h/w/o` while that
return is refused.  In the end `o/l` and `o/d` are there (compare `C80_links_false`); the working
directory has changed. -/
example : ([47, 104, 47, 119, 47] : Bytes).head? = some 47 ∧
    InDir stray (world []) [47, 104, 47, 119, 47] [[104], [119]] ∧
    searchable stray (world []).fs [[104], [119]] = true ∧
    (mkdirRecurse stray BASE_DIR_MODE ([47, 104, 47, 119, 47] ++ joinNames [[111]]) (world [])).1 = 0 ∧
    linkTree.proper ∧ Encodes linkTree (encode linkTree) ∧
    id (allowed 0 0 (dirArc linkTree)) <+: headerBytes 0 1 (List.replicate 120 0xEE) ++ encode linkTree ∧
    ((extractP copyI (fun _ _ => true) 5 hdrMem itemMem [47, 104, 47, 119, 47, 111] 0
      ⟨dirArc linkTree, false⟩).after stray 30 (world [])).2.cwd = [[104], [119], [111]] ∧
    [[[111]], [[111], [108]], [[111], [100]], [[111], [111], [100]]].map (fun l =>
        ((extractP copyI (fun _ _ => true) 5 hdrMem itemMem [47, 104, 47, 119, 47, 111] 0
          ⟨dirArc linkTree, false⟩).after stray 30 (world [])).2.fs ([[104], [119]] ++ l)) =
      [some (.dir 0o755), some (.link [116]), some (.dir 0o755), none] := by
  refine ⟨rfl, .path (p := [47, 104, 47, 119]) (by decide +kernel), by decide +kernel, by decide +kernel,
    linkTree_proper, encodes _ (by decide +kernel), List.prefix_refl _, by decide +kernel,
    by decide +kernel⟩

end LossySample

open HLSample LossySample in
/-- C80 is false with links and a relative output path: if one call is refused, the one that returns to
the old working directory after a link is made, then the directory `d` of the archive appears as `o/o/d`
instead of `o/d`. -/
theorem C80_links_false :
    ¬ ∀ (Z : Inflater) (plain : Bytes → Bytes) (_ : InflateOK Z plain) (fuel : Nat) (hdr item : Bytes)
      (os : Os) (w : World) (n : Bytes) (ns : List Bytes) (f : Forest) (junk t : Bytes) (size : Nat)
      (inp : Input) (r : Extracted), hdr.length = 128 → item.length = 40 →
      (∀ k, os.noMem k = false) → w.fs.tree → OpenDir os w.fs w.cwd → (∀ x ∈ n :: ns, PlainName x) →
      w.fs (w.cwd ++ [n]) = none →
      (mkdirRecurse os BASE_DIR_MODE (joinNames (n :: ns)) w).1 = 0 →
      f.proper → junk.length = 120 → Encodes f t →
      plain (allowed size 0 inp.data) = headerBytes 0 1 junk ++ t →
      extract Z os (fun _ _ => true) fuel hdr item (joinNames (n :: ns)) size inp w = .ok r →
      LeftOver os w.fs r.w.fs w.cwd n ns f := by
  intro h
  have key : view [[[104], [119], [111], [111], [100]]]
      (run stray (dirArc linkTree) [111] (world [])) =
      .done CT_DIRECTORY [[104], [119], [111]] [some (.dir 0o755)] := by decide +kernel
  obtain ⟨x, hx, _, _, h4⟩ := view_done key
  have L := h copyI id copyIOK 5 hdrMem itemMem stray (world []) [111] [] linkTree
    (List.replicate 120 0xEE) (encode linkTree) 0 ⟨dirArc linkTree, false⟩ x (by decide +kernel)
    (by decide +kernel) (fun _ => rfl) world_tree ⟨0o755, by decide +kernel, .inr (by decide)⟩
    (by decide +kernel) (by decide +kernel) (by decide +kernel)
    linkTree_proper
    (by decide +kernel) (encodes _ (by decide +kernel)) (by decide +kernel) hx
  have h5 : x.w.fs ((world []).cwd ++ [111] :: [[111], [100]]) = some (.dir 0o755) := by
    show x.w.fs [[104], [119], [111], [111], [100]] = _
    simpa using h4
  rcases L.inside [[111], [100]] with c | ⟨c, _⟩ | ⟨p, _, c, k⟩
  · rw [h5] at c; cases c
  · exact absurd c.length_le (by decide)
  · rw [h5] at k
    simp only [List.nil_append] at c
    subst c
    obtain ⟨⟨m, k⟩, _⟩ := k
    rw [show linkTree.lookup stray [[111], [100]] = none by decide +kernel] at k
    cases k

open HLSample LossySample in
/-- C80 with the modes of directories is false: in the example above the directory `d` gets the mode
of `d/e` instead of its own. -/
theorem C80_directory_mode_false :
    ¬ ∀ (Z : Inflater) (plain : Bytes → Bytes) (_ : InflateOK Z plain) (fuel : Nat) (hdr item : Bytes)
      (os : Os) (w : World) (n : Bytes) (ns : List Bytes) (f : Forest) (junk t : Bytes) (size : Nat)
      (inp : Input) (r : Extracted), hdr.length = 128 → item.length = 40 →
      (∀ k, os.noMem k = false) → w.fs.tree → OpenDir os w.fs w.cwd → (∀ x ∈ n :: ns, PlainName x) →
      w.fs (w.cwd ++ [n]) = none →
      (mkdirRecurse os BASE_DIR_MODE (joinNames (n :: ns)) w).1 = 0 →
      f.proper → f.noLinks → junk.length = 120 → Encodes f t →
      plain (allowed size 0 inp.data) = headerBytes 0 1 junk ++ t →
      extract Z os (fun _ _ => true) fuel hdr item (joinNames (n :: ns)) size inp w = .ok r →
      ∀ p m m', f.lookup os p = some (.dir m) → r.w.fs (w.cwd ++ n :: ns ++ p) = some (.dir m') →
        m' = m := by
  intro h
  have key : view [[[104], [119], [111], [112], [100]]]
      (run shaky (dirArc tree) [111, 47, 112] (world [])) =
      .done CT_DIRECTORY [[104], [119]] [some (.dir 0o700)] := by decide +kernel
  obtain ⟨x, hx, _, _, h4⟩ := view_done key
  have L := h copyI id copyIOK 5 hdrMem itemMem shaky (world []) [111] [[112]] tree
    (List.replicate 120 0xEE) (encode tree) 0 ⟨dirArc tree, false⟩ x (by decide +kernel)
    (by decide +kernel) (fun _ => rfl) world_tree ⟨0o755, by decide +kernel, .inr (by decide)⟩
    (by decide +kernel) (by decide +kernel) (by decide +kernel) tree_proper
    ⟨⟨trivial, trivial⟩, trivial⟩ (by decide +kernel) (encodes _ (by decide +kernel)) (by decide +kernel) hx
    [[100]] 0o750 0o700 (by decide +kernel) (by
      show x.w.fs [[104], [119], [111], [112], [100]] = _
      simpa using h4)
  exact absurd L (by decide)

end Zwt
