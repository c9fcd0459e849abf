import Verif.Proofs.HLNew
import Verif.Spec.HLSample

/-! C41, C43–C46: extraction when things go wrong. -/

namespace Zwt

variable {Z : Inflater} {plain : Bytes → Bytes}

/-! ### C41 -/

/-- C41, what holds: if the output directory exists or cannot be created, extraction of a directory
archive does not report success.  Missing: that nothing is changed, see
`C41_unavailable_outdir_false`. -/
theorem C41_unavailable_outdir_partial (C : InflateOK Z plain) (ok : AllocOracle) (hdr item : Bytes)
    (hh : hdr.length = 128) (hi : item.length = 40) (os : Os) (out : Bytes) (w : World) (n : Nat)
    (inp : Input) (hk : hdrKind ((plain (allowed n 0 inp.data)).take 128) = CT_DIRECTORY)
    (hd : (mkdirRecurse os BASE_DIR_MODE out w).1 ≠ 0) :
    ∃ n0 X, (∀ fuel, n0 ≤ fuel → extract Z os ok fuel hdr item out n inp w = X) ∧
      ∀ r, X = .ok r → r.ret = CT_NONE := by
  obtain ⟨n0, X, h1, h2, _⟩ := extract_ends C ok hdr item hh hi os out w n inp
  refine ⟨n0, X, h1, ?_⟩
  intro r hr
  obtain ⟨P, log, h, D⟩ := h2 r hr
  rcases D.ret with hret | hret
  · rw [hret]
    have hrun := D.run
    cases D.arch.kind with
    | none => cases hrun; rfl
    | file a1 _ a3 =>
      rw [(take_header D.pre a1).1, hk] at a3
      exact absurd a3 (by decide)
    | dir _ _ _ a4 =>
      rw [dirStart_ret os out w _ h a4 hrun]
      rcases hlDirStart_ret os out w with h | h
      · exact h
      · exact absurd h.2 hd
  · exact hret.1

open HLSample in
example : hdrKind ((id (allowed 0 0 (dirArc .nil))).take 128) = CT_DIRECTORY ∧
    (mkdirRecurse os BASE_DIR_MODE [111] (world [([[104], [119], [111]], .dir 0o755)])).1 ≠ 0 := by
  decide +kernel

/-- C41, what holds, second part: if there is something at the output path (with no backslash in it)
extraction of a directory archive does not report success, whatever the system refuses.
Missing: that nothing is changed (`C41_unavailable_outdir_false`). -/
theorem C41_existing_output_partial (C : InflateOK Z plain) (ok : AllocOracle) (hdr item : Bytes)
    (hh : hdr.length = 128) (hi : item.length = 40) (os : Os) (out : Bytes) (h0 : 0 ∉ out)
    (hback : 92 ∉ out) (w : World) (n : Nat) (inp : Input)
    (hk : hdrKind ((plain (allowed n 0 inp.data)).take 128) = CT_DIRECTORY) (l : Loc)
    (hl : locate os w true out = some l) (hx : w.fs l ≠ none) :
    ∃ n0 X, (∀ fuel, n0 ≤ fuel → extract Z os ok fuel hdr item out n inp w = X) ∧
      ∀ r, X = .ok r → r.ret = CT_NONE := by
  refine C41_unavailable_outdir_partial C ok hdr item hh hi os out w n inp hk ?_
  intro hm
  cases hr : mkdirRecurse os BASE_DIR_MODE out w with
  | mk x w' =>
    rw [hr] at hm
    have hm : x = 0 := hm
    subst hm
    obtain ⟨_, _, _, h⟩ := mkdirRecurse_success hr
    exact hx ((h h0 hback).1 l hl)

open HLSample in
/-- Example: `o` is a file; the first `mkdir` is refused for another reason. -/
example : locate { os with refuses := fun k => k == 1 }
      (world [([[104], [119], [111]], .file 0o644 [])]) true [111] = some [[104], [119], [111]] ∧
    view [] (run { os with refuses := fun k => k == 1 } (dirArc .nil) [111]
      (world [([[104], [119], [111]], .file 0o644 [])])) = .done CT_NONE [[104], [119]] [] := by
  decide +kernel

open HLSample in
/-- C41 is false: `o` exists; extracting an archive with a file `a` to `o` returns 'none', but has
created the file `/a`, at the root of the file system.  (The process is privileged; an ordinary
user would meet the same with an archive that has a directory `tmp`.) -/
theorem C41_unavailable_outdir_false :
    ¬ ∀ (Z : Inflater) (plain : Bytes → Bytes) (_ : InflateOK Z plain) (ok : AllocOracle)
      (fuel : Nat) (hdr item : Bytes) (os : Os) (out : Bytes) (w : World) (n : Nat) (inp : Input)
      (r : Extracted), hdr.length = 128 → item.length = 40 →
      (mkdirRecurse os BASE_DIR_MODE out w).1 ≠ 0 →
      hdrKind ((plain (allowed n 0 inp.data)).take 128) = CT_DIRECTORY →
      extract Z os ok fuel hdr item out n inp w = .ok r → r.w.fs = w.fs := by
  intro h
  have key : view [[[97]]] (run { os with root := true }
      (dirArc (.file [97] 0o640 [1, 2, 3] .nil)) [111] (world [([[104], [119], [111]], .dir 0o755)])) =
      .done CT_NONE [[104], [119]] [some (.file 0o640 [1, 2, 3])] := by decide +kernel
  obtain ⟨x, hx, _, _, h4⟩ := view_done key
  have := h copyI id copyIOK _ _ _ _ _ _ _ _ _ x (by decide +kernel) (by decide +kernel)
    (by decide +kernel) (by decide +kernel) hx
  rw [this] at h4
  exact absurd h4 (by decide +kernel)

/-! ### C43 -/

/-- C43, what holds: success is reported only if the header is complete and of version 0 and the
output directory was created (resp. the output file opened), and only if no read error was met.
Missing: entries that could not be created and archives that end too early. -/
theorem C43_failure_reported_partial (C : InflateOK Z plain) (ok : AllocOracle) (hdr item : Bytes)
    (hh : hdr.length = 128) (hi : item.length = 40) (os : Os) (out : Bytes) (w : World) (n : Nat)
    (inp : Input) :
    ∃ n0 X, (∀ fuel, n0 ≤ fuel → extract Z os ok fuel hdr item out n inp w = X) ∧
      ∀ r, X = .ok r → r.ret ≠ CT_NONE →
        128 ≤ (plain (allowed n 0 inp.data)).length ∧
        hdrVersion ((plain (allowed n 0 inp.data)).take 128) = 0 ∧
        ((r.ret = CT_DIRECTORY ∧ hdrKind ((plain (allowed n 0 inp.data)).take 128) = CT_DIRECTORY ∧
            (mkdirRecurse os BASE_DIR_MODE out w).1 = 0) ∨
          (r.ret = CT_FILE ∧ (hdrKind ((plain (allowed n 0 inp.data)).take 128) = CT_FILE ∨
              hdrKind ((plain (allowed n 0 inp.data)).take 128) = CT_BLOB) ∧
            (sysOpen os w out FOPEN_MODE true).1 ≠ none)) := by
  obtain ⟨n0, X, h1, h2, _⟩ := extract_ends C ok hdr item hh hi os out w n inp
  refine ⟨n0, X, h1, ?_⟩
  intro r hr hne
  obtain ⟨P, log, h, D⟩ := h2 r hr
  rcases D.ret with hret | hret
  · rw [hret] at hne ⊢
    have hrun := D.run
    cases D.arch.kind with
    | none => cases hrun; exact absurd rfl hne
    | file a1 a2 a3 a4 =>
      obtain ⟨e1, e2⟩ := take_header D.pre a1
      rw [e1] at a2 a3
      refine ⟨e2, a2, .inr ?_⟩
      rw [flStart_ret os out w _ h hrun] at hne ⊢
      rcases hlFileStart_ret os out w with h | h
      · exact absurd h.1 hne
      · exact ⟨h.1, a3, h.2⟩
    | dir a1 a2 a3 a4 =>
      obtain ⟨e1, e2⟩ := take_header D.pre a1
      rw [e1] at a2 a3
      refine ⟨e2, a2, .inl ?_⟩
      rw [dirStart_ret os out w _ h a4 hrun] at hne ⊢
      rcases hlDirStart_ret os out w with h | h
      · exact absurd h hne
      · exact ⟨h.1, a3, h.2⟩
  · exact absurd hret.1 hne

open HLSample in
example := C43_failure_reported_partial copyIOK (fun _ _ => true) hdrMem itemMem List.length_replicate
  List.length_replicate os [111] (world []) 0 ⟨fileArc [1, 2], false⟩

/-- C43, read errors: an extraction that meets a read error before any error in a callback does not
report success.
Missing: what `C43_failure_reported_partial` misses. -/
theorem C43_read_error_partial (C : InflateOK Z plain) (ok : AllocOracle) (hdr item : Bytes)
    (hh : hdr.length = 128) (hi : item.length = 40) (os : Os) (out : Bytes) (w : World) (n : Nat)
    (data : Bytes) (hn : n = 0 ∨ data.length < n) :
    ∃ n0 X, (∀ fuel, n0 ≤ fuel → extract Z os ok fuel hdr item out n ⟨data, true⟩ w = X) ∧
      ∀ r, X = .ok r → r.hasError = false → r.ret = CT_NONE := by
  obtain ⟨n0, X, h1, h2, _⟩ := extract_ends C ok hdr item hh hi os out w n ⟨data, true⟩
  refine ⟨n0, X, h1, ?_⟩
  intro r hr he
  obtain ⟨P, log, h, D⟩ := h2 r hr
  exact D.noErr he rfl hn

open HLSample in
/-- Example: a truncated copy of an archive on a disk with a read error; it is reported. -/
example : view [[[104], [119], [111], [97]]] (extract copyI os (fun _ _ => true) 5 hdrMem itemMem
      [111] 0 ⟨(dirArc (.file [97] 0o640 [1, 2, 3] .nil)).take 170, true⟩ (world [])) =
    .done CT_NONE [[104], [119]] [none] ∧
    (view [[[104], [119], [111]]] (extract copyI os (fun _ _ => true) 5 hdrMem itemMem [111] 0
      ⟨fileArc [1, 2, 3], false⟩ (world []))) =
        .done CT_FILE [[104], [119]] [some (.file 0o644 [1, 2, 3])] := by decide +kernel

open HLSample in
/-- C43 is false: an archive that ends in the middle of a file of 3 bytes is extracted
'successfully', with 1 byte in the file.  (Nothing is refused, every code of zlib is `Z_OK`.) -/
theorem C43_failure_reported_false :
    ¬ ∀ (Z : Inflater) (plain : Bytes → Bytes) (_ : InflateOK Z plain) (ok : AllocOracle)
      (fuel : Nat) (hdr item : Bytes) (os : Os) (out : Bytes) (w : World) (n : Nat) (inp : Input)
      (r : Extracted) (missing : Nat), hdr.length = 128 → item.length = 40 → 0 < missing →
      hdrKind ((plain (allowed n 0 inp.data)).take 128) = CT_DIRECTORY →
      (specParse ok 0 ((plain (allowed n 0 inp.data)).drop 128)).ending = .inFile missing →
      extract Z os ok fuel hdr item out n inp w = .ok r → r.ret = CT_NONE := by
  intro h
  have key : view [[[104], [119], [111], [97]]] (run os
      ((dirArc (.file [97] 0o640 [1, 2, 3] .nil)).take 177) [111] (world [])) =
      .done CT_DIRECTORY [[104], [119]] [some (.file 0o640 [1])] := by decide +kernel
  obtain ⟨x, hx, h2, _, _⟩ := view_done key
  have := h copyI id copyIOK _ _ _ _ _ _ _ _ _ x 2 (by decide +kernel) (by decide +kernel)
    (by decide) (by decide +kernel) (by decide +kernel) hx
  rw [h2] at this
  exact absurd this (by decide)

open HLSample in
/-- C43 is false also for entries that cannot be created: the name of a file is too long for the
system (`open` refused, call 3), the rest of the archive is skipped, and success is reported. -/
theorem C43_refused_entry_reported_false :
    view [[[104], [119], [111], [97]]] (run { os with refuses := fun k => k == 3 }
      (dirArc (.file [97] 0o640 [1, 2, 3] .nil)) [111] (world [])) =
      .done CT_DIRECTORY [[104], [119]] [none] := by decide +kernel

/-! ### C44 -/

/-- C44, what holds for file archives: whatever was in the output file before, after a successful
extraction it holds exactly the payload (all of it if `inflate` always returned `Z_OK` and left
room), and nothing else is changed; an existing file keeps its permissions.
Missing: directory archives that name a file twice, see `C44_exact_content_false`. -/
theorem C44_exact_content_partial (C : InflateOK Z plain) (ok : AllocOracle) (hdr item : Bytes)
    (hh : hdr.length = 128) (hi : item.length = 40) (os : Os) (hq : os.quiet) (out : Bytes)
    (w : World) (n : Nat) (inp : Input) :
    ∃ n0 X, (∀ fuel, n0 ≤ fuel → extract Z os ok fuel hdr item out n inp w = X) ∧
      ∀ r, X = .ok r → r.ret = CT_FILE → ∃ l m payload, locate os w true out = some l ∧
        (∀ x, w.fs l = some x → ∃ c, x = .file m c) ∧
        r.w.fs = w.fs.put l (.file m payload) ∧ r.w.cwd = w.cwd ∧
        payload <+: (plain (allowed n 0 inp.data)).drop 128 ∧
        (inp.err = false → (∀ c ∈ r.codes, c = Z_OK) →
          0 < r.room ∨ C.Prompt (allowed n 0 inp.data) →
          payload = (plain (allowed n 0 inp.data)).drop 128) := by
  obtain ⟨n0, X, h1, h2, _⟩ := extract_ends C ok hdr item hh hi os out w n inp
  refine ⟨n0, X, h1, ?_⟩
  intro r hr hne
  obtain ⟨P, log, h, D⟩ := h2 r hr
  have hret : r.ret = h.ret := by
    rcases D.ret with h | h
    · exact h
    · rw [hne] at h; exact absurd h.1 (by decide)
  rw [hret] at hne
  have hrun := D.run
  cases D.arch.kind with
  | none =>
    cases hrun
    have : CT_NONE = CT_FILE := hne
    exact absurd this (by decide)
  | dir a1 a2 a3 a4 =>
    rw [dirStart_ret os out w _ h a4 hrun] at hne
    rcases hlDirStart_ret os out w with h | h
    · rw [h] at hne; exact absurd hne (by decide)
    · rw [h.1] at hne; exact absurd hne (by decide)
  | @file ds a1 a2 a3 a4 a5 =>
    rw [flStart_ret os out w _ h hrun] at hne
    rcases hlFileStart_ret os out w with h' | h'
    · rw [h'.1] at hne; exact absurd hne (by decide)
    · cases ho : (sysOpen os w out FOPEN_MODE true).1 with
      | none => exact absurd ho h'.2
      | some l =>
        obtain ⟨h2, m, b1, b2, b3, b4, b5, b6, b7⟩ := file_good os hq out w l ds ho
        rw [hrun] at b1
        cases b1
        refine ⟨l, m, ds.flatten, b5, b7, by rw [D.world]; exact b6, by rw [D.world]; exact b4, ?_, ?_⟩
        · rw [← a5]
          obtain ⟨t, ht⟩ := D.pre
          rw [← ht, List.drop_append_of_le_length a1]
          exact List.prefix_append _ _
        · intro he hc hroom
          rcases D.full he (by rw [D.error, b3]) hc hroom (.inr a1) with h | h
          · rw [← a5, h]
          · exact absurd a2 h.2

open HLSample in
/-- Example: the output file existed, read-only for others and longer than the payload. -/
example : view [[[104], [119], [111]]] (run os (fileArc [1, 2, 3]) [111]
      (world [([[104], [119], [111]], .file 0o600 [9, 9, 9, 9, 9])])) =
        .done CT_FILE [[104], [119]] [some (.file 0o600 [1, 2, 3])] := by decide +kernel

/-- C44, what holds for file archives on a disk that is full or fails: the output file holds bytes of
the payload only, in their order, though some may be missing; nothing else is changed.  (That bytes are
missing is not reported, see `C44_full_disk_false`.)
Missing: the rest of the payload, and a report that it is missing. -/
theorem C44_unreliable_disk_partial (C : InflateOK Z plain) (ok : AllocOracle) (hdr item : Bytes)
    (hh : hdr.length = 128) (hi : item.length = 40) (os : Os) (out : Bytes)
    (w : World) (n : Nat) (inp : Input) :
    ∃ n0 X, (∀ fuel, n0 ≤ fuel → extract Z os ok fuel hdr item out n inp w = X) ∧
      ∀ r, X = .ok r → r.ret = CT_FILE → ∃ l m c, locate os w true out = some l ∧
        (∀ x, w.fs l = some x → ∃ c', x = .file m c') ∧
        r.w.fs = w.fs.put l (.file m c) ∧ r.w.cwd = w.cwd ∧
        c.Sublist ((plain (allowed n 0 inp.data)).drop 128) := by
  obtain ⟨n0, X, h1, h2, _⟩ := extract_ends C ok hdr item hh hi os out w n inp
  refine ⟨n0, X, h1, ?_⟩
  intro r hr hne
  obtain ⟨P, log, h, D⟩ := h2 r hr
  have hret : r.ret = h.ret := by
    rcases D.ret with h | h
    · exact h
    · rw [hne] at h; exact absurd h.1 (by decide)
  rw [hret] at hne
  have hrun := D.run
  cases D.arch.kind with
  | none =>
    cases hrun
    have : CT_NONE = CT_FILE := hne
    exact absurd this (by decide)
  | dir a1 a2 a3 a4 =>
    rw [dirStart_ret os out w _ h a4 hrun] at hne
    rcases hlDirStart_ret os out w with h | h
    · rw [h] at hne; exact absurd hne (by decide)
    · rw [h.1] at hne; exact absurd hne (by decide)
  | @file ds a1 a2 a3 a4 a5 =>
    rw [flStart_ret os out w _ h hrun] at hne
    rcases hlFileStart_ret os out w with h' | h'
    · rw [h'.1] at hne; exact absurd hne (by decide)
    · cases ho : (sysOpen os w out FOPEN_MODE true).1 with
      | none => exact absurd ho h'.2
      | some l =>
        obtain ⟨h2, m, e, b1, b0, b2, b4, b5, b6, b7⟩ := file_any os out w l ds ho
        rw [hrun] at b1
        cases b1
        refine ⟨l, m, e, b5, b7, by rw [D.world]; exact b6, by rw [D.world]; exact b4, b0.trans ?_⟩
        rw [← a5]
        obtain ⟨t, ht⟩ := D.pre
        rw [← ht, List.drop_append_of_le_length a1]
        exact (List.prefix_append _ _).sublist

open HLSample in
example := C44_unreliable_disk_partial copyIOK (fun _ _ => true) hdrMem itemMem List.length_replicate
  List.length_replicate os [111] (world []) 0 ⟨fileArc [1, 2], false⟩

open HLSample in
/-- C44 is false on a full disk: of the three bytes only one is written, and success is reported. -/
theorem C44_full_disk_false :
    view [[[104], [119], [111]]] (run { os with accepts := fun _ _ => 1 } (fileArc [1, 2, 3]) [111]
      (world [])) = .done CT_FILE [[104], [119]] [some (.file 0o644 [1])] := by decide +kernel

open HLSample in
/-- C44 is false: an archive that has the file `a` twice, with contents `hello` and `x`, leaves
`xello` in it.  (Nothing is refused; an existing file is overwritten but not truncated.) -/
theorem C44_exact_content_false :
    view [[[104], [119], [111], [97]]] (run os
      (dirArc (.file [97] 0o640 [104, 101, 108, 108, 111] (.file [97] 0o640 [120] .nil))) [111]
      (world [])) =
      .done CT_DIRECTORY [[104], [119]] [some (.file 0o640 [120, 101, 108, 108, 111])] := by
  decide +kernel

/-! ### C45 -/

theorem LinkSfx.link_mem {a b : List Atom} (h : LinkSfx a b) : ∀ t, Atom.link t ∈ a →
    ∃ t', Atom.link t' ∈ b := by
  induction h with
  | nil => intro t ht; simp at ht
  | same x _ ih =>
    intro t ht
    rcases List.mem_cons.mp ht with rfl | ht
    · exact ⟨t, List.mem_cons_self⟩
    · obtain ⟨t', h⟩ := ih t ht
      exact ⟨t', List.mem_cons_of_mem _ h⟩
  | @link t1 t2 _ _ _ _ ih =>
    intro t ht
    exact ⟨t2, List.mem_cons_self⟩

/-- C45, what holds: the working directory is the same afterwards if the archive has no links
(whatever the system does), or if the system refuses no call and the directories above the working
directory can be entered.  Missing: see `C45_cwd_preserved_false`. -/
theorem C45_cwd_preserved_partial (C : InflateOK Z plain) (ok : AllocOracle) (hdr item : Bytes)
    (hh : hdr.length = 128) (hi : item.length = 40) (os : Os) (out : Bytes) (w : World) (n : Nat)
    (inp : Input)
    (hc : (∀ t, Atom.link t ∉ (specParse ok 0 ((plain (allowed n 0 inp.data)).drop 128)).atoms) ∨
      ((∀ k, os.refuses k = false) ∧ CwdBack os w.fs w.cwd)) :
    ∃ n0 X, (∀ fuel, n0 ≤ fuel → extract Z os ok fuel hdr item out n inp w = X) ∧
      ∀ r, X = .ok r → r.w.cwd = w.cwd := by
  obtain ⟨n0, X, h1, h2, _⟩ := extract_ends C ok hdr item hh hi os out w n inp
  refine ⟨n0, X, h1, ?_⟩
  intro r hr
  obtain ⟨P, log, h, D⟩ := h2 r hr
  rw [D.world]
  refine (hlEvents_keeps os out log _ h D.run).2.2.2 ?_
  rcases hc with hc | hc
  · left
    have hpre := D.pre
    have harch := D.arch
    generalize r.pieces = chunks at harch
    cases harch with
    | short => simp
    | version => simp
    | empty => simp
    | unknown => simp
    | file =>
      intro e he
      rcases List.mem_cons.mp he with rfl | he
      · trivial
      · obtain ⟨d, _, rfl⟩ := List.mem_map.mp he
        trivial
    | @dir hd _ evs owed a1 a2 a3 a4 a5 a6 a7 a8 a9 a10 =>
      intro e he
      rcases List.mem_cons.mp he with rfl | he
      · trivial
      · cases e with
        | symLink t a =>
          exfalso
          have hm : Atom.link t ∈ atoms evs ++ owed := by
            refine List.mem_append_left _ ?_
            rw [atoms, List.mem_flatMap]
            exact ⟨_, he, by simp [Ev.atoms]⟩
          obtain ⟨t', ht'⟩ := a8.link_mem t hm
          obtain ⟨u, hu⟩ := hpre
          have hd2 : (plain (allowed n 0 inp.data)).drop 128 = chunks.flatten ++ u := by
            rw [← hu, List.append_assoc, List.drop_left' a1]
          obtain ⟨v, hv⟩ := specParse_prefix ok 0 chunks.flatten u
          refine hc t' ?_
          rw [hd2, ← hv]
          exact List.mem_append_left _ ht'
        | _ => trivial
  · right; exact hc

open HLSample in
example : CwdBack os (world []).fs (world []).cwd ∧ (∀ k, os.refuses k = false) ∧
    view [[[104], [119], [111], [108]]] (run os
      (dirArc (.link [108] 0o777 [116] .nil)) [111] (world [])) =
      .done CT_DIRECTORY [[104], [119]] [some (.link [116])] := by
  refine ⟨⟨?_, ?_⟩, fun _ => rfl, by decide +kernel⟩
  · intro c hc
    rcases List.mem_cons.mp hc with rfl | hc
    · decide
    · rcases List.mem_cons.mp hc with rfl | hc
      · decide
      · simp at hc
  · rintro l ⟨t, ht⟩
    have hl : l = [] ∨ l = [[104]] ∨ l = [[104], [119]] := by
      match l, ht with
      | [], _ => exact .inl rfl
      | [a], h => simp [world] at h; simp [h]
      | [a, b], h => simp [world] at h; simp [h]
      | a :: b :: c :: d, h => simp [world] at h
    rcases hl with rfl | rfl | rfl <;> decide +kernel

open HLSample in
/-- C45 is false: the directory `/h` above the working directory `/h/w` cannot be entered (mode
644); extracting an archive with a link to `o` leaves the process in `/h/w/o`, because the way back
by absolute path fails.  (Nothing is refused.) -/
theorem C45_cwd_preserved_false :
    ¬ ∀ (Z : Inflater) (plain : Bytes → Bytes) (_ : InflateOK Z plain) (ok : AllocOracle)
      (fuel : Nat) (hdr item : Bytes) (os : Os) (out : Bytes) (w : World) (n : Nat) (inp : Input)
      (r : Extracted), hdr.length = 128 → item.length = 40 → os.quiet →
      extract Z os ok fuel hdr item out n inp w = .ok r → r.w.cwd = w.cwd := by
  intro h
  have key : view [] (run os (dirArc (.link [108] 0o777 [116] .nil)) [111]
      (world [([[104]], .dir 0o644)])) =
      .done CT_DIRECTORY [[104], [119], [111]] [] := by decide +kernel
  obtain ⟨x, hx, _, h3, _⟩ := view_done key
  have := h copyI id copyIOK _ _ _ _ _ _ _ _ _ x (by decide +kernel) (by decide +kernel) os_quiet hx
  rw [this] at h3
  exact absurd h3 (by decide +kernel)

/-! ### C46 -/

/-- C46, what holds: if the output file cannot be opened, an extraction that ends reports 'none' and
has changed nothing.  Missing: it ends only if the archive has no payload at all. -/
theorem C46_unwritable_output_partial (C : InflateOK Z plain) (ok : AllocOracle) (hdr item : Bytes)
    (hh : hdr.length = 128) (hi : item.length = 40) (os : Os) (out : Bytes) (w : World) (n : Nat)
    (inp : Input) (hk : hdrKind ((plain (allowed n 0 inp.data)).take 128) ≠ CT_DIRECTORY)
    (ho : (sysOpen os w out FOPEN_MODE true).1 = none) :
    ∃ n0 X, (∀ fuel, n0 ≤ fuel → extract Z os ok fuel hdr item out n inp w = X) ∧
      ∀ r, X = .ok r → r.ret = CT_NONE ∧ r.w = w := by
  obtain ⟨n0, X, h1, h2, _⟩ := extract_ends C ok hdr item hh hi os out w n inp
  refine ⟨n0, X, h1, ?_⟩
  intro r hr
  obtain ⟨P, log, h, D⟩ := h2 r hr
  have hrun := D.run
  cases D.arch.kind with
  | none =>
    cases hrun
    refine ⟨?_, D.world⟩
    rcases D.ret with h | h
    · exact h
    · exact h.1
  | dir a1 a2 a3 a4 =>
    rw [(take_header D.pre a1).1] at a3
    exact absurd a3 hk
  | @file ds a1 a2 a3 a4 a5 =>
    exfalso
    cases ds with
    | nil => exact a4 rfl
    | cons d ds =>
      rw [file_bad os out w d ds ho] at hrun
      cases hrun

open HLSample in
/-- Example: `o` is a directory. -/
example : (sysOpen os (world [([[104], [119], [111]], .dir 0o755)]) [111] FOPEN_MODE true).1 = none ∧
    view [] (run os (fileArc []) [111] (world [([[104], [119], [111]], .dir 0o755)])) =
      .done CT_NONE [[104], [119]] [] := by decide +kernel

open HLSample in
/-- C46 is false: `o` is a directory; extracting a file archive to `o` writes through a null
`FILE` pointer. -/
theorem C46_unwritable_output_false :
    run os (fileArc [1]) [111] (world [([[104], [119], [111]], .dir 0o755)]) = .error .nullDeref := by
  refine view_fault (ls := []) ?_
  decide +kernel

end Zwt
