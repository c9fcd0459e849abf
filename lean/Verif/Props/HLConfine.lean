import Verif.Proofs.Confine
import Verif.Proofs.HLEnd
import Verif.Props.HL
import Verif.Spec.HLSample

/-! C42: what extraction can touch. -/

namespace Zwt

variable {Z : Inflater} {plain : Bytes → Bytes}

theorem LinkSfx.eq_of_noLink {a b : List Atom} (h : LinkSfx a b) : (∀ t, Atom.link t ∉ b) → a = b := by
  induction h with
  | nil => intro _; rfl
  | same x _ ih => intro hb; rw [ih (fun t ht => hb t (List.mem_cons_of_mem _ ht))]
  | @link t t' _ _ _ _ ih => intro hb; exact absurd List.mem_cons_self (hb t')

/-- The callbacks of a directory archive with safe entries, after the creation of the output
directory. -/
theorem confined_log {os : Os} {w : World} {pre : Bytes} {d : Loc} {n : Bytes}
    (B : Base os w pre d n) (ha : Absent w.fs (d ++ [n])) (ns : List Bytes)
    (hns : ∀ x ∈ ns, PlainName x) (hmem : ∀ k, os.noMem k = false)
    (hmk : (mkdirRecurse os BASE_DIR_MODE (pre ++ n ++ slashed ns) w).1 = 0) (ok : AllocOracle)
    (Q : Bytes) (hs : ∀ a ∈ (specParse ok 0 (Q.drop 128)).atoms, SafeEntry a)
    (hb : balance 0 (specParse ok 0 (Q.drop 128)).atoms ≠ none)
    (hk : hdrKind (Q.take 128) = CT_DIRECTORY) (P : Bytes) (hP : P <+: Q) (pieces : List Bytes)
    (log : List Ev) (size : Nat) (hlog : ArchiveLog ok size P pieces log) :
    ∃ h', hlEvents os (pre ++ n ++ slashed ns) (HL.init w) log = .ok h' ∧
      Conf w h'.w (d ++ [n]) := by
  have c0 : Conf w w (d ++ [n]) :=
    ⟨fun _ _ => rfl, fun q t => by rw [ha q]; simp, rfl, Keeps.refl _⟩
  cases hlog with
  | short => exact ⟨_, rfl, c0⟩
  | version => exact ⟨_, rfl, c0⟩
  | empty => exact ⟨_, rfl, c0⟩
  | unknown => exact ⟨_, rfl, c0⟩
  | @file h chunks a1 a2 a3 =>
    obtain ⟨t, rfl⟩ := hP
    rw [List.append_assoc, List.take_left' a1] at hk
    rw [hk] at a3
    exact absurd a3 (by decide)
  | @dir hd _ evs owed a1 a2 a3 a4 a5 a6 a7 a8 a9 a10 =>
    obtain ⟨u, hu⟩ := hP
    have hd2 : Q.drop 128 = pieces.flatten ++ u := by
      rw [← hu, List.append_assoc, List.drop_left' a1]
    rw [hd2] at hs hb
    have hpre := specParse_prefix ok 0 pieces.flatten u
    have hnl : ∀ t, Atom.link t ∉ (specParse ok 0 pieces.flatten).atoms :=
      fun t ht => hs _ (hpre.subset ht)
    rw [← a8.eq_of_noLink hnl] at hpre
    obtain ⟨v, hv⟩ := hpre
    rw [← hv] at hs hb
    have c1 := B.mkdirs c0 ns hns BASE_DIR_MODE
    cases hm : mkdirRecurse os BASE_DIR_MODE (pre ++ n ++ slashed ns) w with
    | mk r w1 =>
      rw [hm] at hmk c1
      have hr : r = 0 := hmk
      have I : Inside w pre d n ns
          { HL.init w with
            w := w1.tick
            dirPath := some (pre ++ n ++ slashed ns)
            ret := CT_DIRECTORY } .idle [] :=
        ⟨by simp, by simp, c1.tick, by simp [HL.init], by simp⟩
      obtain ⟨h', g1, g2, _⟩ := inside_events B ns hns (pre ++ n ++ slashed ns) hmem evs _ .idle [] I a10
        (fun a ha => hs a (List.mem_append_left _ (List.mem_append_left _ ha)))
        (balance_after (balance_after hb))
      refine ⟨h', ?_, g2⟩
      simp only [hlEvents, hlEvent, hlDirStart, HL.init, hm, hr, hmem]
      simp only [HL.init] at g1
      simpa using g1

/-- C42, what holds for directory archives: if every entry has an ordinary name (one path component)
and none is a symbolic link, directory ends do not outnumber directory starts, and the output
directory is created, then extraction has no undefined behaviour and changes nothing outside the
topmost directory created, however many other calls the system refuses.
Missing: entries named `../x`, links, unmatched directory ends, an output directory that cannot be
created (`C41_unavailable_outdir_false`), memory running out for the path of a directory
(`C80_failing_calls_false`). -/
theorem C42_confined_partial (C : InflateOK Z plain) (ok : AllocOracle) (hdr item : Bytes)
    (hh : hdr.length = 128) (hi : item.length = 40) (os : Os) (hmem : ∀ k, os.noMem k = false)
    (w : World) (ht : w.fs.tree) (pre : Bytes) (h0 : 0 ∉ pre) (d : Loc) (hd : InDir os w pre d)
    (hsd : searchable os w.fs d = true) (n : Bytes) (ns : List Bytes)
    (hn : ∀ x ∈ n :: ns, PlainName x) (hback : 92 ∉ pre ++ n) (hnew : w.fs (d ++ [n]) = none)
    (hmk : (mkdirRecurse os BASE_DIR_MODE (pre ++ joinNames (n :: ns)) w).1 = 0)
    (size : Nat) (inp : Input)
    (hk : hdrKind ((plain (allowed size 0 inp.data)).take 128) = CT_DIRECTORY)
    (hv : hdrVersion ((plain (allowed size 0 inp.data)).take 128) = 0)
    (hs : ∀ a ∈ (specParse ok 0 ((plain (allowed size 0 inp.data)).drop 128)).atoms, SafeEntry a)
    (hb : balance 0 (specParse ok 0 ((plain (allowed size 0 inp.data)).drop 128)).atoms ≠ none) :
    ∃ n0 r, (∀ fuel, n0 ≤ fuel →
        extract Z os ok fuel hdr item (pre ++ joinNames (n :: ns)) size inp w = .ok r) ∧
      (∀ x, ¬ d ++ [n] <+: x → r.w.fs x = w.fs x) ∧ r.w.cwd = w.cwd := by
  have hpath : pre ++ joinNames (n :: ns) = pre ++ n ++ slashed ns := by
    rw [joinNames_slashed]; simp
  rw [hpath] at hmk ⊢
  obtain ⟨n0, X, h1, h2, h3⟩ :=
    extract_ends C ok hdr item hh hi os (pre ++ n ++ slashed ns) w size inp
  have B : Base os w pre d n := ⟨hd.front hsd h0, hsd, hn n List.mem_cons_self, hback⟩
  have key := fun P hP pieces log => confined_log B (ht.absent hnew) ns
    (fun x hx => hn x (List.mem_cons_of_mem _ hx)) hmem hmk ok _ hs hb hk P hP pieces log DEF_CHUNK_SIZE
  cases hX : X with
  | error e =>
    cases h3 e hX with
    | callback a b c =>
      obtain ⟨h', g1, _⟩ := key _ a _ _ b
      rw [g1] at c; cases c
    | version a b => exact absurd hv b
  | ok r =>
    obtain ⟨P, log, h, D⟩ := h2 r hX
    obtain ⟨h', g1, g2⟩ := key P D.pre _ log D.arch
    rw [D.run] at g1
    cases g1
    refine ⟨n0, r, fun f hf => by rw [h1 f hf, hX], ?_, ?_⟩
    · rw [D.world]; exact g2.out
    · rw [D.world]; exact g2.cwd

open HLSample in
/-- Example: an archive with a directory `d` holding a file `a`, extracted to `o/p`; the tenth call
is refused. -/
example : InDir { os with refuses := fun k => k == 9 } (world []) [] [[104], [119]] ∧
    searchable os (world []).fs [[104], [119]] = true ∧
    (∀ x ∈ [[111], [112]], PlainName x) ∧ (world []).fs [[104], [119], [111]] = none ∧
    (mkdirRecurse { os with refuses := fun k => k == 9 } BASE_DIR_MODE
      ([] ++ joinNames [[111], [112]]) (world [])).1 = 0 ∧
    (specParse (fun _ _ => true) 0
      ((dirArc (.dir [100] 0o755 (.file [97] 0o640 [7] .nil) .nil)).drop 128)).atoms.length = 5 ∧
    (∀ a ∈ (specParse (fun _ _ => true) 0
      ((dirArc (.dir [100] 0o755 (.file [97] 0o640 [7] .nil) .nil)).drop 128)).atoms, SafeEntry a) ∧
    balance 0 (specParse (fun _ _ => true) 0
      ((dirArc (.dir [100] 0o755 (.file [97] 0o640 [7] .nil) .nil)).drop 128)).atoms ≠ none := by
  refine ⟨?_, by decide +kernel, by decide +kernel, by decide +kernel, by decide +kernel,
    by decide +kernel, by decide +kernel, by decide +kernel⟩
  exact .rel

open HLSample in
/-- C42 is false: an archive with a file named `../x`, extracted to `o`, creates `x` beside `o`.
(Nothing is refused, `o` did not exist, the archive has no links.) -/
theorem C42_confined_false :
    ¬ ∀ (Z : Inflater) (plain : Bytes → Bytes) (_ : InflateOK Z plain) (ok : AllocOracle)
      (fuel : Nat) (hdr item : Bytes) (os : Os) (n : Bytes) (w : World) (size : Nat) (inp : Input)
      (r : Extracted), hdr.length = 128 → item.length = 40 → os.quiet → PlainName n →
      w.fs (w.cwd ++ [n]) = none →
      (∀ t, Atom.link t ∉ (specParse ok 0 ((plain (allowed size 0 inp.data)).drop 128)).atoms) →
      balance 0 (specParse ok 0 ((plain (allowed size 0 inp.data)).drop 128)).atoms = some 0 →
      extract Z os ok fuel hdr item n size inp w = .ok r →
      ∀ x, ¬ w.cwd ++ [n] <+: x → r.w.fs x = w.fs x := by
  intro h
  have key : view [[[104], [119], [120]]] (run os
      (dirArc (.file [46, 46, 47, 120] 0o640 [1, 2, 3] .nil)) [111] (world [])) =
      .done CT_DIRECTORY [[104], [119]] [some (.file 0o640 [1, 2, 3])] := by decide +kernel
  obtain ⟨x, hx, _, _, h4⟩ := view_done key
  have := h copyI id copyIOK _ _ _ _ _ _ _ _ _ x (by decide +kernel) (by decide +kernel) os_quiet
    (by decide +kernel) (by decide +kernel) (fun t ht => ?_) (by decide +kernel) hx
    [[104], [119], [120]] (by decide +kernel)
  · rw [List.map_cons, this, List.map_nil] at h4
    exact absurd h4 (by decide +kernel)
  · have : ∀ a ∈ (specParse (fun _ _ => true) 0 ((id (allowed 0 0
        (dirArc (.file [46, 46, 47, 120] 0o640 [1, 2, 3] .nil)))).drop 128)).atoms,
        (match a with | .link _ => false | _ => true) = true := by decide +kernel
    exact absurd (this _ ht) (by simp)

open HLSample in
/-- C42 is false also for archives whose names are all plain: with one directory end too many the
following file is created beside the output directory `p/o`. -/
theorem C42_confined_extra_end_false :
    view [[[104], [119], [112], [97]]] (run os
      (header CT_DIRECTORY ++ item 2 0 0 0 ++ encode (.file [97] 0o640 [1, 2, 3] .nil))
      [112, 47, 111] (world [])) =
      .done CT_DIRECTORY [[104], [119]] [some (.file 0o640 [1, 2, 3])] := by decide +kernel

open HLSample in
/-- C42 is false also for archives whose names are all plain and whose ends match: a link `l` to
`..` followed by a directory `l` with a file `x` creates `x` beside the output directory. -/
theorem C42_confined_link_false :
    view [[[104], [119], [120]]] (run os
      (dirArc (.link [108] 0o777 [46, 46] (.dir [108] 0o755 (.file [120] 0o640 [1, 2, 3] .nil) .nil)))
      [111] (world [])) =
      .done CT_DIRECTORY [[104], [119]] [some (.file 0o640 [1, 2, 3])] := by decide +kernel

/-- `fopen` changes at most the place the path leads to. -/
theorem open_only (os : Os) (w : World) (p : Bytes) (mode : Nat) (t : Bool) :
    (sysOpen os w p mode t).2.cwd = w.cwd ∧
    (∀ x, locate os w true p ≠ some x → (sysOpen os w p mode t).2.fs x = w.fs x) ∧
    ∀ l, (sysOpen os w p mode t).1 = some l → locate os w true p = some l := by
  simp only [sysOpen]
  split
  · exact ⟨rfl, fun _ _ => rfl, by simp⟩
  · cases hl : locate os w true p with
    | none => exact ⟨rfl, fun _ _ => rfl, by simp⟩
    | some l =>
      have hput : ∀ n x, some l ≠ some x → w.fs.put l n x = w.fs x := by
        intro n x hx
        simp only [FS.put]
        rw [if_neg (fun h => hx (by rw [h]))]
      simp only [addNode]
      split
      · split
        · exact ⟨rfl, fun _ _ => rfl, by simp⟩
        · split
          · exact ⟨rfl, fun x hx => hput _ x hx, by simp⟩
          · exact ⟨rfl, fun _ _ => rfl, by simp⟩
      · exact ⟨rfl, fun _ _ => rfl, by simp⟩
      · split
        · exact ⟨rfl, fun _ _ => rfl, by simp⟩
        · by_cases hw : writable os w.fs l.dropLast = true
          · simp only [hw, if_true]
            exact ⟨rfl, fun x hx => hput _ x hx, by simp⟩
          · simp only [hw]
            exact ⟨rfl, fun _ _ => rfl, by simp⟩

theorem flReads_only (os : Os) (out : Bytes) (l : Loc) (ds : List Bytes) :
    ∀ (h h' : HL), (∀ f, h.fpOut = some f → f.loc = l) →
    hlEvents os out h (ds.map .flRead) = .ok h' →
    h'.w.cwd = h.w.cwd ∧ ∀ x, x ≠ l → h'.w.fs x = h.w.fs x := by
  induction ds with
  | nil => intro h h' _ hr; cases hr; exact ⟨rfl, fun _ _ => rfl⟩
  | cons d ds ih =>
    intro h h' hf hr
    simp only [List.map_cons, hlEvents, hlEvent, hlFileData] at hr
    cases hfp : h.fpOut with
    | none => rw [hfp] at hr; cases hr
    | some f =>
      rw [hfp] at hr
      simp only at hr
      obtain ⟨g1, g2⟩ := ih _ h' (by
        intro f' hf'
        cases hf'
        have := hf f hfp
        simp only [sysWrite]
        split
        · exact this
        · split <;> exact this) hr
      have hl := hf f hfp
      refine ⟨g1.trans ?_, fun x hx => (g2 x hx).trans ?_⟩
      · simp only [sysWrite]
        split
        · rfl
        · split <;> rfl
      · simp only [sysWrite]
        split
        · rfl
        · split
          · simp only [World.tick, World.put, FS.put]
            rw [if_neg (by rw [hl]; exact hx)]
          · rfl

/-- C42, what holds for other archives: extraction changes at most the place the output path leads
to, whatever the system refuses.
Missing: directory archives, see `C42_confined_partial`. -/
theorem C42_file_archive_partial (C : InflateOK Z plain) (ok : AllocOracle) (hdr item : Bytes)
    (hh : hdr.length = 128) (hi : item.length = 40) (os : Os) (out : Bytes) (w : World) (n : Nat)
    (inp : Input) (hk : hdrKind ((plain (allowed n 0 inp.data)).take 128) ≠ CT_DIRECTORY) :
    ∃ n0 X, (∀ fuel, n0 ≤ fuel → extract Z os ok fuel hdr item out n inp w = X) ∧
      ∀ r, X = .ok r → r.w.cwd = w.cwd ∧
        ∀ x, locate os w true out ≠ some x → r.w.fs x = w.fs x := by
  obtain ⟨n0, X, h1, h2, _⟩ := extract_ends C ok hdr item hh hi os out w n inp
  refine ⟨n0, X, h1, ?_⟩
  intro r hr
  obtain ⟨P, log, h, D⟩ := h2 r hr
  have hrun := D.run
  rw [D.world]
  cases D.arch.kind with
  | none => cases hrun; exact ⟨rfl, fun _ _ => rfl⟩
  | dir a1 a2 a3 a4 =>
    rw [(take_header D.pre a1).1] at a3
    exact absurd a3 hk
  | @file ds a1 a2 a3 a4 a5 =>
    obtain ⟨o1, o2, o3⟩ := open_only os w out FOPEN_MODE true
    cases ho : (sysOpen os w out FOPEN_MODE true).1 with
    | none =>
      cases ds with
      | nil => exact absurd rfl a4
      | cons d ds => rw [file_bad os out w d ds ho] at hrun; cases hrun
    | some l =>
      cases hs : sysOpen os w out FOPEN_MODE true with
      | mk ol w' =>
        rw [hs] at ho o1 o2 o3
        cases ho
        simp only [hlEvents, hlEvent, hlFileStart, HL.init, hs] at hrun
        obtain ⟨g1, g2⟩ := flReads_only os out l ds _ h (by intro f hf; cases hf; rfl) hrun
        refine ⟨g1.trans o1, fun x hx => ?_⟩
        exact (g2 x (fun e => hx (by rw [e]; exact o3 l rfl))).trans (o2 x hx)

open HLSample in
/-- Example: the output file exists already and the file system is full after one byte. -/
example : hdrKind ((id (allowed 0 0 (fileArc [1, 2, 3]))).take 128) ≠ CT_DIRECTORY ∧
    view [[[104], [119], [111]]] (run { os with accepts := fun _ _ => 1 } (fileArc [1, 2, 3]) [111]
      (world [([[104], [119], [111]], .file 0o600 [9, 9, 9, 9, 9])])) =
        .done CT_FILE [[104], [119]] [some (.file 0o600 [1])] := by decide +kernel

end Zwt
