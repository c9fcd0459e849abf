import Verif.Proofs.WinFile
import Verif.Props.WinSuccess

/-! C106: archives of single files on Windows.  C104: more on what reported success means there. -/

namespace Zwt

variable {Z : Inflater} {D : Deflater} {plain : Bytes → Bytes}

/-! ### C106 -/

/-- C106, what holds: let a non-empty file be compressed on Unix and its archive be extracted on Windows
to a path that can be opened for writing.  Then there is no undefined behaviour, and if the decompressor
accepts the archive (which it does if it gives up only on streams that have ended or are defective) and
has room left at its end (or withholds nothing there), 'file' is returned, the file there has the content
of the original and is not read-only, and nothing else has changed.
Missing: the empty file (`C106_empty_false`); paths that cannot be opened (`C106_unopened_false`);
archives whose last output piece fills the 512 KiB buffer (C08). -/
theorem C106_file_partial (CD : DeflateOK D plain) (C : InflateOK Z plain)
    (content : Bytes) (hc : content ≠ []) (level : Int) (z : D.τ) (hz : D.init level = some z)
    (junk : Bytes) (hj : junk.length = 120) (ok : AllocOracle) (hdr item : Bytes)
    (hh : hdr.length = 128) (hi : item.length = 40) (win : Win) (hq : win.quiet) (out : Bytes)
    (w : WWorld) (l : Loc) (ho : (winOpen win w out false true).1 = some l) :
    ∃ n1 log b, (∀ fuel, n1 ≤ fuel → compressFile D fuel content false level junk = .ok (0, log)) ∧
      log.getLast? = some b ∧
      ∀ size data, allowed size 0 data = log.flatten → b.length < 524288 →
        ∃ n0 r, (∀ fuel, n0 ≤ fuel →
            winExtract Z win ok fuel hdr item out size ⟨data, false⟩ w = .ok r) ∧
          (C.Final → CD.Fits → ∀ c ∈ r.codes, c = Z_OK) ∧
          ((∀ c ∈ r.codes, c = Z_OK) → 0 < r.room ∨ C.Prompt log.flatten →
            r.ret = CT_FILE ∧ r.w.cwd = w.cwd ∧ winLocate win w.cwd out = some l ∧
            r.w.fs = w.fs.put l (.file false content) ∧
            ∀ x, w.fs l = some x → ∃ c, x = .file false c) := by
  obtain ⟨f1, f2, f3⟩ := readFile_ok content false
  obtain ⟨s0, s, n1, rets, c1, copen, _, b, c2, c3⟩ := session_writes_good CD CT_FILE level z hz junk hj
    (readFile content false).1 f3
  refine ⟨n1, s.log, b, ?_, c2, ?_⟩
  · intro fuel hf
    simp only [compressFile, (c1 fuel hf).1, (c1 fuel hf).2, f1]
    rfl
  intro size data hal hb
  have harc : plain (allowed size 0 data) = headerBytes 0 2 junk ++ content := by
    rw [hal, c3 hb, f2 rfl]; rfl
  obtain ⟨n0, r, r1, r2, r3⟩ := winExtract_file_content C (CD.plain_nil hz) hc hj ok hdr item hh hi win hq
    out w l ho size data harc
  rw [hal] at r2 r3
  exact ⟨n0, r, r1, fun hF hT => r2 hF (copen hT), r3⟩

open WinSample in
/-- Example: the existing file `x`, under another spelling, and a new file `o`. -/
example : ∃ (_ : DeflateOK queueD id) (_ : InflateOK copyI id), (queueD.init 6).isSome ∧ win.quiet ∧
    (winOpen win drive [88] false true).1 = some [[99], [120]] ∧
    (winOpen win drive [111] false true).1 = some [[99], [111]] :=
  ⟨queueDOK, copyIOK, by decide, win_quiet, by decide +kernel, by decide +kernel⟩

open WinSample HLSample in
example : view [[[99], [120]]] (winExtract copyI win (fun _ _ => true) 5 hdrMem itemMem [88] 0
      ⟨fileArc [1, 2, 3], false⟩ drive) = .done CT_FILE false [some (.file false [1, 2, 3])] := by
  decide +kernel

/-- C106, what holds on a drive that is full or fails: after 'file' has been returned the output file holds
bytes of the payload only, in their order, though some may be missing; nothing else is changed.
Missing: the rest of the payload, and a report that it is missing (`C106_full_false`). -/
theorem C106_unreliable_partial (C : InflateOK Z plain) (ok : AllocOracle) (hdr item : Bytes)
    (hh : hdr.length = 128) (hi : item.length = 40) (win : Win) (out : Bytes) (w : WWorld) (n : Nat)
    (inp : Input) (hk : hdrKind ((plain (allowed n 0 inp.data)).take 128) ≠ CT_DIRECTORY) :
    ∃ n0 X, (∀ fuel, n0 ≤ fuel → winExtract Z win ok fuel hdr item out n inp w = X) ∧
      ∀ r, X = .ok r → r.ret = CT_FILE → ∃ l c, winLocate win w.cwd out = some l ∧
        (∀ x, w.fs l = some x → ∃ c', x = .file false c') ∧
        r.w.fs = w.fs.put l (.file false c) ∧ r.w.cwd = w.cwd ∧
        c.Sublist ((plain (allowed n 0 inp.data)).drop 128) := by
  obtain ⟨n0, X, h1, h2, _⟩ := winExtract_ends C ok hdr item hh hi win out w n inp
  refine ⟨n0, X, h1, ?_⟩
  intro r hr hne
  obtain ⟨P, log, h, D⟩ := h2 r hr
  have hret : r.ret = h.ret := by
    rcases D.ret with h | h
    · exact h
    · rw [hne] at h; exact absurd h.1 (by decide)
  rw [hret] at hne
  have hrun := D.run
  cases D.arch.kind with
  | none =>
    cases hrun
    have : CT_NONE = CT_FILE := hne
    exact absurd this (by decide)
  | dir a1 a2 a3 a4 =>
    rw [(take_header D.pre a1).1] at a3
    exact absurd a3 hk
  | @file ds a1 a2 a3 a4 a5 =>
    cases ho : (winOpen win w out false true).1 with
    | none =>
      exfalso
      cases ds with
      | nil => exact a4 rfl
      | cons d ds =>
        rw [win_file_bad win out w d ds ho] at hrun
        cases hrun
    | some l =>
      obtain ⟨h2, e, b1, b0, b2, b4, b5, b6, b7⟩ := win_file_any win out w l ds ho
      rw [hrun] at b1
      cases b1
      refine ⟨l, e, b5, b7, by rw [D.world]; exact b6, by rw [D.world]; exact b4, b0.trans ?_⟩
      rw [← a5]
      obtain ⟨t, ht⟩ := D.pre
      rw [← ht, List.drop_append_of_le_length a1]
      exact (List.prefix_append _ _).sublist

open WinSample HLSample in
example := C106_unreliable_partial copyIOK (fun _ _ => true) hdrMem itemMem List.length_replicate
  List.length_replicate win [111] drive 0 ⟨fileArc [1, 2], false⟩ (by decide +kernel)

/-- C106, what holds if the output file cannot be opened: an extraction that ends returns 'none' and has
changed nothing.
Missing: it ends only if the archive has no payload at all (`C106_unopened_false`). -/
theorem C106_unopened_partial (C : InflateOK Z plain) (ok : AllocOracle) (hdr item : Bytes)
    (hh : hdr.length = 128) (hi : item.length = 40) (win : Win) (out : Bytes) (w : WWorld) (n : Nat)
    (inp : Input) (hk : hdrKind ((plain (allowed n 0 inp.data)).take 128) ≠ CT_DIRECTORY)
    (ho : (winOpen win w out false true).1 = none) :
    ∃ n0 X, (∀ fuel, n0 ≤ fuel → winExtract Z win ok fuel hdr item out n inp w = X) ∧
      ∀ r, X = .ok r → r.ret = CT_NONE ∧ r.w = w := by
  obtain ⟨n0, X, h1, h2, _⟩ := winExtract_ends C ok hdr item hh hi win out w n inp
  refine ⟨n0, X, h1, ?_⟩
  intro r hr
  obtain ⟨P, log, h, D⟩ := h2 r hr
  have hrun := D.run
  cases D.arch.kind with
  | none =>
    cases hrun
    refine ⟨?_, D.world⟩
    rcases D.ret with h | h
    · exact h
    · exact h.1
  | dir a1 a2 a3 a4 =>
    rw [(take_header D.pre a1).1] at a3
    exact absurd a3 hk
  | @file ds a1 a2 a3 a4 a5 =>
    exfalso
    cases ds with
    | nil => exact a4 rfl
    | cons d ds =>
      rw [win_file_bad win out w d ds ho] at hrun
      cases hrun

namespace WinSample

/-- As `drive`, and the file `x` is read-only. -/
def lockedDrive : WWorld where
  fs l := if l = [] ∨ l = [[99]] then some .dir else if l = [[99], [120]] then some (.file true [5, 5])
    else none
  cwd := [[99]]
  calls := 0

end WinSample

open WinSample HLSample in
/-- Example: to the read-only file, an archive without payload. -/
example : (winOpen win lockedDrive [120] false true).1 = none ∧
    view [[[99], [120]]] (winExtract copyI win (fun _ _ => true) 5 hdrMem itemMem [120] 0
      ⟨fileArc [], false⟩ lockedDrive) = .done CT_NONE false [some (.file true [5, 5])] := by decide +kernel

open WinSample HLSample in
/-- C106 is false if the output file cannot be opened: with a read-only file there, a null `FILE` pointer
is written through. -/
theorem C106_unopened_false :
    winExtract copyI win (fun _ _ => true) 5 hdrMem itemMem [120] 0 ⟨fileArc [1], false⟩ lockedDrive =
      .error .nullDeref := by
  have k : view [] (winExtract copyI win (fun _ _ => true) 5 hdrMem itemMem [120] 0 ⟨fileArc [1], false⟩
    lockedDrive) = .fault .nullDeref := by decide +kernel
  cases h : winExtract copyI win (fun _ _ => true) 5 hdrMem itemMem [120] 0 ⟨fileArc [1], false⟩
    lockedDrive with
  | error e => rw [h] at k; cases k; rfl
  | ok r => rw [h] at k; cases k

open WinSample HLSample in
/-- C106 is false on a full drive: of three bytes one is written, and success is reported. -/
theorem C106_full_false :
    view [[[99], [111]]] (winExtract copyI { win with accepts := fun _ _ => 1 } (fun _ _ => true) 5 hdrMem
      itemMem [111] 0 ⟨fileArc [1, 2, 3], false⟩ drive) =
      .done CT_FILE false [some (.file false [1])] := by decide +kernel

open WinSample HLSample in
/-- C106 is false for the empty file: nothing is created and 'none' is returned. -/
theorem C106_empty_false :
    ¬ ∀ (D : Deflater) (Z : Inflater) (plain : Bytes → Bytes) (_ : DeflateOK D plain)
      (_ : InflateOK Z plain) (content junk : Bytes) (fuel fuel' : Nat) (w : WWorld) (out : Bytes)
      (log : List Bytes) (r : WExtracted), junk.length = 120 →
      (winOpen win w out false true).1 ≠ none →
      compressFile D fuel content false 6 junk = .ok (0, log) →
      winExtract Z win (fun _ _ => true) fuel' hdrMem itemMem out 0 ⟨log.flatten, false⟩ w = .ok r →
      (∀ c ∈ r.codes, c = Z_OK) → r.ret = CT_FILE := by
  intro h
  have hrf : readFile [] false = ([[]], false) := by rw [readFile]; simp [DEF_CHUNK_SIZE]
  have key : (match compressFile queueD 5 [] false 6 (List.replicate 120 0xEE) with
      | .ok (c, log) => decide (c = 0) && (match winExtract copyI win (fun _ _ => true) 5 hdrMem itemMem
          [111] 0 ⟨log.flatten, false⟩ drive with
        | .ok r => decide (r.ret = CT_NONE ∧ ∀ c ∈ r.codes, c = Z_OK)
        | .error _ => false)
      | .error _ => false) = true := by
    simp only [compressFile, hrf]
    decide +kernel
  cases hc : compressFile queueD 5 [] false 6 (List.replicate 120 0xEE) with
  | error e => rw [hc] at key; simp at key
  | ok x =>
    obtain ⟨c, log⟩ := x
    rw [hc] at key
    simp only [Bool.and_eq_true, decide_eq_true_eq] at key
    obtain ⟨rfl, key⟩ := key
    cases hr : winExtract copyI win (fun _ _ => true) 5 hdrMem itemMem [111] 0 ⟨log.flatten, false⟩
      drive with
    | error e => rw [hr] at key; simp at key
    | ok r =>
      rw [hr] at key
      simp only [decide_eq_true_eq] at key
      have := h queueD copyI id queueDOK copyIOK [] (List.replicate 120 0xEE) 5 _ _ [111] log r
        List.length_replicate (by decide +kernel) hc hr key.2
      rw [key.1] at this
      exact absurd this (by decide)

/-! ### C104 -/

/-- C104, the archive: success is reported only if the header is complete and of version 0, and as the
kind of archive the header tells; and, if no callback failed, not after a read error. -/
theorem C104_header (C : InflateOK Z plain) (ok : AllocOracle) (hdr item : Bytes)
    (hh : hdr.length = 128) (hi : item.length = 40) (win : Win) (out : Bytes) (w : WWorld) (n : Nat)
    (inp : Input) :
    ∃ n0 X, (∀ fuel, n0 ≤ fuel → winExtract Z win ok fuel hdr item out n inp w = X) ∧
      ∀ r, X = .ok r →
        (r.ret ≠ CT_NONE → 128 ≤ (plain (allowed n 0 inp.data)).length ∧
          hdrVersion ((plain (allowed n 0 inp.data)).take 128) = 0 ∧
          (r.ret = CT_DIRECTORY ∧ hdrKind ((plain (allowed n 0 inp.data)).take 128) = CT_DIRECTORY ∨
            r.ret = CT_FILE ∧ (hdrKind ((plain (allowed n 0 inp.data)).take 128) = CT_FILE ∨
              hdrKind ((plain (allowed n 0 inp.data)).take 128) = CT_BLOB))) ∧
        (inp.err = true → n = 0 ∨ inp.data.length < n → r.hasError = false → r.ret = CT_NONE) := by
  obtain ⟨n0, X, h1, h2, _⟩ := winExtract_ends C ok hdr item hh hi win out w n inp
  refine ⟨n0, X, h1, fun r hr => ?_⟩
  obtain ⟨P, log, h, D⟩ := h2 r hr
  refine ⟨fun hne => ?_, fun he hn hno => D.noErr hno he hn⟩
  rcases D.ret with hret | hret
  · rw [hret] at hne ⊢
    have hrun := D.run
    cases D.arch.kind with
    | none => cases hrun; exact absurd rfl hne
    | file a1 a2 a3 a4 =>
      obtain ⟨e1, e2⟩ := take_header D.pre a1
      rw [e1] at a2 a3
      refine ⟨e2, a2, .inr ⟨?_, a3⟩⟩
      simp only [winEvents, winEvent] at hrun
      obtain ⟨_, _, k3⟩ := winEvents_keeps win out _ _ h hrun
      rw [k3 (by intro e he; obtain ⟨d, _, rfl⟩ := List.mem_map.mp he; trivial)] at hne ⊢
      simp only [winFileStart] at hne ⊢
      split at hne
      · exact absurd rfl hne
      · rfl
    | dir a1 a2 a3 a4 =>
      obtain ⟨e1, e2⟩ := take_header D.pre a1
      rw [e1] at a2 a3
      refine ⟨e2, a2, .inl ⟨?_, a3⟩⟩
      simp only [winEvents, winEvent] at hrun
      obtain ⟨_, _, k3⟩ := winEvents_keeps win out _ _ h hrun
      rw [k3 (proto_inner _ .idle a4)] at hne ⊢
      simp only [winDirStart] at hne ⊢
      split at hne
      · exact absurd rfl hne
      · rename_i hx
        rw [if_neg hx]
        split at hne
        · exact absurd rfl hne
        · rename_i hy
          rw [if_neg hy]
  · exact absurd hret.1 hne

open WinSample HLSample in
/-- Example: a read error after the header and some of the tree. -/
example : view [] (winExtract copyI win (fun _ _ => true) 5 hdrMem itemMem [111] 0
      ⟨(dirArc (.file [97] 0o640 [1, 2, 3] .nil)).take 170, true⟩ drive) = .done CT_NONE false [] ∧
    view [] (winExtract copyI win (fun _ _ => true) 5 hdrMem itemMem [111] 0
      ⟨dirArc (.file [97] 0o640 [1, 2, 3] .nil), false⟩ drive) = .done CT_DIRECTORY false [] := by
  decide +kernel

end Zwt
