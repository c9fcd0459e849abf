import Verif.Proofs.HLNew
import Verif.Spec.HLSample

/-! C61–C65: what extraction does at most, for every archive (also damaged and malicious ones) and
every behaviour of the operating system. -/

namespace Zwt

variable {Z : Inflater} {plain : Bytes → Bytes}

/-! ### C61 -/

/-- C61.  Nothing is removed or replaced: directories and symbolic links that existed are as before,
files that existed are files with the same permissions, and extraction of a directory archive does
not shorten them.  Every node is in a directory if that was so before. -/
theorem C61_nothing_removed (C : InflateOK Z plain) (ok : AllocOracle) (hdr item : Bytes)
    (hh : hdr.length = 128) (hi : item.length = 40) (os : Os) (out : Bytes) (w : World) (n : Nat)
    (inp : Input) :
    ∃ n0 X, (∀ fuel, n0 ≤ fuel → extract Z os ok fuel hdr item out n inp w = X) ∧
      ∀ r, X = .ok r →
        (∀ l m, w.fs l = some (.dir m) → r.w.fs l = some (.dir m)) ∧
        (∀ l t, w.fs l = some (.link t) → r.w.fs l = some (.link t)) ∧
        (∀ l m c, w.fs l = some (.file m c) → ∃ c', r.w.fs l = some (.file m c') ∧
          (hdrKind ((plain (allowed n 0 inp.data)).take 128) = CT_DIRECTORY →
            c.length ≤ c'.length)) ∧
        (w.fs.tree → r.w.fs.tree) := by
  obtain ⟨n0, X, h1, h2, _⟩ := extract_ends C ok hdr item hh hi os out w n inp
  refine ⟨n0, X, h1, ?_⟩
  intro r hr
  obtain ⟨P, log, h, D⟩ := h2 r hr
  obtain ⟨t, k, ht, _, hf⟩ := D.fsRun
  refine ⟨hf.keeps.1, hf.keeps.2, ?_, hf.tree⟩
  intro l m c hl
  obtain ⟨c', g1, g2, _⟩ := hf.files hl
  exact ⟨c', g1, fun hk => g2 (ht hk)⟩

open HLSample in
/-- Example: an archive with the file `../f` and a directory named as the existing file `../g`, in
whose parent there is a link. -/
example : view [[[104], [119], [102]], [[104], [119], [103]], [[104], [119], [108]]] (run os
      (dirArc (.file [46, 46, 47, 102] 0o640 [1] (.dir [46, 46, 47, 103] 0o755 .nil .nil))) [111]
      (world [([[104], [119], [102]], .file 0o600 [7, 8, 9]), ([[104], [119], [103]], .file 0o600 [5]),
        ([[104], [119], [108]], .link [120])])) =
      .done CT_DIRECTORY [[104], [119]]
        [some (.file 0o600 [1, 8, 9]), some (.file 0o600 [5]), some (.link [120])] := by decide +kernel

/-! ### C62 -/

/-- C62.  Whatever modes an archive asks for, everything new has only permissions among
`rwxrwxrwx` (directories also the sticky bit) that the umask leaves; no new file or directory is
set-user-ID or set-group-ID. -/
theorem C62_no_special_permissions (C : InflateOK Z plain) (ok : AllocOracle) (hdr item : Bytes)
    (hh : hdr.length = 128) (hi : item.length = 40) (os : Os) (out : Bytes) (w : World) (n : Nat)
    (inp : Input) :
    ∃ n0 X, (∀ fuel, n0 ≤ fuel → extract Z os ok fuel hdr item out n inp w = X) ∧
      ∀ r, X = .ok r → ∀ l, w.fs l = none →
        (∀ m, r.w.fs l = some (.dir m) → ∀ i, m.testBit i = true →
          i ≤ 9 ∧ os.allow.testBit i = true) ∧
        (∀ m c, r.w.fs l = some (.file m c) → ∀ i, m.testBit i = true →
          i ≤ 8 ∧ os.allow.testBit i = true) := by
  have hb : ∀ k i, (2 ^ k - 1 : Nat).testBit i = true → i < k := by
    intro k i h
    rw [Nat.testBit_two_pow_sub_one] at h
    exact of_decide_eq_true h
  obtain ⟨n0, X, h1, h2, _⟩ := extract_ends C ok hdr item hh hi os out w n inp
  refine ⟨n0, X, h1, ?_⟩
  intro r hr l hl
  obtain ⟨P, log, h, D⟩ := h2 r hr
  obtain ⟨t, k, _, _, hf⟩ := D.fsRun
  refine ⟨fun m hm i hi => ?_, fun m c hm i hi => ?_⟩
  · have := hf.added hl hm i hi
    have h10 := hb 10 i this.1
    exact ⟨by omega, this.2⟩
  · have := (hf.added hl hm).2 i hi
    have h9 := hb 9 i this.1
    exact ⟨by omega, this.2⟩

open HLSample in
/-- Example: a file and a directory of mode 7777. -/
example : view [[[104], [119], [111], [97]], [[104], [119], [111], [100]]] (run os
      (dirArc (.file [97] 0o7777 [1] (.dir [100] 0o7777 .nil .nil))) [111] (world [])) =
      .done CT_DIRECTORY [[104], [119]] [some (.file 0o755 [1]), some (.dir 0o755)] := by
  decide +kernel

/-! ### C63 -/

/-- C63.  Extraction ends, for every input. -/
theorem C63_extraction_ends (C : InflateOK Z plain) (ok : AllocOracle) (hdr item : Bytes)
    (hh : hdr.length = 128) (hi : item.length = 40) (os : Os) (out : Bytes) (w : World) (n : Nat)
    (inp : Input) :
    ∃ n0 X, (∀ fuel, n0 ≤ fuel → extract Z os ok fuel hdr item out n inp w = X) ∧
      X ≠ .error .outOfFuel := by
  obtain ⟨n0, X, h1, _, h3⟩ := extract_ends C ok hdr item hh hi os out w n inp
  refine ⟨n0, X, h1, ?_⟩
  intro hX
  cases h3 _ hX with
  | callback _ _ c => exact hlEvents_fuel os out _ _ c
  | version _ _ e => cases e

open HLSample in
/-- Example: the archive is cut in the middle of a record, and with no fuel it does not end. -/
example : view [] (run os ((dirArc (.file [97] 0o640 [1, 2, 3] .nil)).take 150) [111] (world [])) =
      .done CT_DIRECTORY [[104], [119]] [] ∧
    extract copyI os (fun _ _ => true) 0 hdrMem itemMem [111] 0
      ⟨dirArc (.file [97] 0o640 [1, 2, 3] .nil), false⟩ (world []) = .error .outOfFuel := by
  exact ⟨by decide +kernel, rfl⟩

/-! ### C64 -/

/-- C64.  What extraction adds is bounded by the length of the decompressed archive: no file gets
longer than the payload part of the archive (or than it was), and at most 62 nodes per 40 bytes are
new. -/
theorem C64_bounded_by_archive (C : InflateOK Z plain) (ok : AllocOracle) (hdr item : Bytes)
    (hh : hdr.length = 128) (hi : item.length = 40) (os : Os) (out : Bytes) (w : World) (n : Nat)
    (inp : Input) :
    ∃ n0 X, (∀ fuel, n0 ≤ fuel → extract Z os ok fuel hdr item out n inp w = X) ∧
      ∀ r, X = .ok r →
        (∀ l m c, r.w.fs l = some (.file m c) →
          c.length ≤ (plain (allowed n 0 inp.data)).length - 128 ∨
          ∃ m' c', w.fs l = some (.file m' c') ∧ c.length ≤ c'.length) ∧
        ∃ new : List Loc, 40 * new.length ≤ 62 * (plain (allowed n 0 inp.data)).length ∧
          ∀ l, w.fs l = none → r.w.fs l ≠ none → l ∈ new := by
  obtain ⟨n0, X, h1, h2, _⟩ := extract_ends C ok hdr item hh hi os out w n inp
  refine ⟨n0, X, h1, ?_⟩
  intro r hr
  obtain ⟨P, log, h, D⟩ := h2 r hr
  obtain ⟨t, k, _, hk, hf⟩ := D.fsRun
  refine ⟨?_, ?_⟩
  · intro l m c hl
    cases hx : w.fs l with
    | none => exact .inl (hf.added hx hl).1
    | some x =>
      cases x with
      | dir m' => rw [hf.keeps.1 _ _ hx] at hl; simp at hl
      | link m' => rw [hf.keeps.2 _ _ hx] at hl; simp at hl
      | file m' c' =>
        obtain ⟨c2, g1, _, g3⟩ := hf.files hx
        rw [g1] at hl
        cases hl
        rcases g3 with g | g
        · exact .inr ⟨_, _, rfl, g⟩
        · exact .inl g
  · obtain ⟨L, g1, g2⟩ := hf.count
    exact ⟨L, by rw [g1]; exact hk, g2⟩

open HLSample in
/-- Example: one directory record makes three directories. -/
example : view [[[104], [119], [111]], [[104], [119], [111], [97]], [[104], [119], [111], [97], [98]],
      [[104], [119], [111], [97], [98], [99]]]
    (run os (dirArc (.dir [97, 47, 98, 47, 99] 0o755 .nil .nil)) [111] (world [])) =
      .done CT_DIRECTORY [[104], [119]]
        [some (.dir 0o755), some (.dir 0o755), some (.dir 0o755), some (.dir 0o755)] := by
  decide +kernel

/-! ### C65 -/

/-- C65.  Extraction returns 'none', 'directory' or 'file'.  If it returns 'directory' the output
path (written with slashes, and with none at its end) leads to a directory that this call has made;
if it returns 'file' there is a file where it led to. -/
theorem C65_success_means_output (C : InflateOK Z plain) (ok : AllocOracle) (hdr item : Bytes)
    (hh : hdr.length = 128) (hi : item.length = 40) (os : Os) (out : Bytes) (h0 : 0 ∉ out)
    (hback : 92 ∉ out) (hlast : out.getLast? ≠ some 47) (w : World) (ht : w.fs.tree) (n : Nat)
    (inp : Input) :
    ∃ n0 X, (∀ fuel, n0 ≤ fuel → extract Z os ok fuel hdr item out n inp w = X) ∧
      ∀ r, X = .ok r →
        (r.ret = CT_NONE ∨
        (r.ret = CT_DIRECTORY ∧ ∃ l m, w.fs l = none ∧ r.w.fs l = some (.dir m) ∧
          locate os { r.w with cwd := w.cwd } true out = some l) ∨
        (r.ret = CT_FILE ∧ ∃ l m c, r.w.fs l = some (.file m c) ∧
          locate os w true out = some l)) := by
  obtain ⟨n0, X, h1, h2, _⟩ := extract_ends C ok hdr item hh hi os out w n inp
  refine ⟨n0, X, h1, ?_⟩
  intro r hr
  obtain ⟨P, log, h, D⟩ := h2 r hr
  rcases D.ret with hret | hret
  · rw [hret]
    have hrun := D.run
    cases D.arch.kind with
    | none => cases hrun; exact .inl rfl
    | @file ds a1 a2 a3 a4 =>
      rw [flStart_ret os out w _ h hrun]
      rcases hlFileStart_ret os out w with g | g
      · exact .inl g.1
      · refine .inr (.inr ⟨g.1, ?_⟩)
        cases ho : sysOpen os w out FOPEN_MODE true with
        | mk ol w' =>
          cases ol with
          | none => rw [ho] at g; exact absurd rfl g.2
          | some l =>
            obtain ⟨m, o1, o2, o3, o4⟩ := open_trunc os w w' out _ l ho
            have hl : w'.fs l = some (.file m []) := by rw [o1, FS.put_same]
            simp only [hlEvents, hlEvent, hlFileStart, HL.init, ho] at hrun
            obtain ⟨k, _, hf⟩ := hlEvents_run os true out _ 0 _ h (fun _ => rfl) ⟨by
              intro f hf; cases hf; simp, by simp⟩ hrun
            obtain ⟨c', f1, _⟩ := hf.files hl
            exact ⟨l, m, c', by rw [D.world]; exact f1, o3⟩
    | dir a1 a2 a3 a4 =>
      rw [dirStart_ret os out w _ h a4 hrun]
      rcases hlDirStart_ret os out w with g | g
      · exact .inl g
      · refine .inr (.inl ⟨g.1, ?_⟩)
        cases hm : mkdirRecurse os BASE_DIR_MODE out w with
        | mk x w1 =>
          rw [hm] at g
          have hx : x = 0 := g.2
          subst hx
          obtain ⟨l, m1, m2, m3⟩ := mkdirRecurse_success hm
          obtain ⟨m4, n', k, d, c, cs, m5, rfl, m6, rfl⟩ := (m3 h0 hback).2 ht hlast
          simp only [hlEvents, hlEvent] at hrun
          have hw : Keeps w1.fs h.w.fs := by
            have := (hlEvents_keeps os out _ _ h hrun).1
            simp only [hlDirStart, HL.init, hm] at this
            split at this
            · exact this
            · split at this <;> exact this
          have hne : out ≠ [] := by
            intro e; rw [e] at m5 m4; simp [locate] at m4
          refine ⟨_, _, m1, by rw [D.world]; exact hw.1 _ _ m2, ?_⟩
          rw [locate, if_neg hne]
          show resolve os r.w.fs true MAX_LINKS (pathBase w.cwd out) (splitPath out) = _
          rw [D.world, m5]
          exact (m6.mono hw).resolve_end
  · exact .inl hret.1

open HLSample in
/-- Example: an output path of two new directories, with a link on the way. -/
example : (∀ c ∈ ([108, 47, 120, 47, 121] : Bytes), c ≠ 0 ∧ c ≠ 92) ∧
    view [[[104], [120], [121]], [[104], [120], [121], [97]]] (run { os with root := true }
      (dirArc (.file [97] 0o640 [1] .nil)) [108, 47, 120, 47, 121]
      (world [([[104], [119], [108]], .link [46, 46])])) =
      .done CT_DIRECTORY [[104], [119]] [some (.dir 0o755), some (.file 0o640 [1])] := by
  decide +kernel

open HLSample in
/-- The restriction to paths without backslash matters: in a working directory that cannot be
written, with a directory `a` that can, extraction to the single name `a\b` makes the directory
`a/b`, and nothing named `a\b`; for an archive with no files it reports success. -/
theorem C65_backslash_false :
    view [[[104], [119], [97], [98]], [[104], [119], [97, 92, 98]]] (run os
      (header CT_DIRECTORY ++ List.replicate 8 0) [97, 92, 98]
      (world [([[104], [119]], .dir 0o555), ([[104], [119], [97]], .dir 0o755)])) =
      .done CT_DIRECTORY [[104], [119]] [some (.dir 0o755), none] := by decide +kernel

end Zwt
