import Verif.Proofs.WinFaults
import Verif.Props.Faults
import Verif.Spec.WinSample

/-! C108 on Windows. -/

namespace Zwt

variable {Z : Inflater} {plain : Bytes → Bytes}

/-- C108, on Windows: the faults there are, and when.  Whatever the archive, the file system and the system do, an
extraction that does not return has met one of these:
* an archive of another version (an assertion);
* an archive of a single file, when the output cannot be opened (a null pointer);
* an end of a directory when the output directory has not been created (a null pointer), or when the
  path has no slash left (an assertion);
* a record of a file or directory with a length of the name beyond the stored name (a read beyond an
  allocation).
In particular nothing is freed twice or used after that, nothing is written out of bounds, and the
process is not ended.  Missing: that none of these occur, which is false (`C108_windows_false`). -/
theorem C108_windows_faults_partial (C : InflateOK Z plain) (ok : AllocOracle) (hdr item : Bytes)
    (hh : hdr.length = 128) (hi : item.length = 40) (win : Win) (out : Bytes) (w : WWorld) (n : Nat)
    (inp : Input) :
    ∃ n0 X, (∀ fuel, n0 ≤ fuel → winExtract Z win ok fuel hdr item out n inp w = X) ∧
      ∀ e, X = .error e →
        (e = .assertFail ∧ 128 ≤ (plain (allowed n 0 inp.data)).length ∧
          hdrVersion ((plain (allowed n 0 inp.data)).take 128) ≠ 0) ∨
        (e = .nullDeref ∧ (hdrKind ((plain (allowed n 0 inp.data)).take 128) = CT_FILE ∨
            hdrKind ((plain (allowed n 0 inp.data)).take 128) = CT_BLOB) ∧
          (winOpen win w out false true).1 = none) ∨
        (hdrKind ((plain (allowed n 0 inp.data)).take 128) = CT_DIRECTORY ∧
          ((e = .nullDeref ∧
              Atom.dirEnd ∈ (specParse ok 0 ((plain (allowed n 0 inp.data)).drop 128)).atoms ∧
              ((winMkdir win out w).1 ≠ 0 ∨
                win.noMem (winMkdir win out w).2.calls = true)) ∨
            (e = .assertFail ∧
              Atom.dirEnd ∈ (specParse ok 0 ((plain (allowed n 0 inp.data)).drop 128)).atoms) ∨
            (e = .oobRead ∧
              ∃ a ∈ (specParse ok 0 ((plain (allowed n 0 inp.data)).drop 128)).atoms, a.overlong))) := by
  obtain ⟨n0, X, h1, _, h3⟩ := winExtract_ends C ok hdr item hh hi win out w n inp
  refine ⟨n0, X, h1, ?_⟩
  intro e he
  cases h3 e he with
  | version a b c => exact .inl ⟨c, a, b⟩
  | callback a b c =>
    rcases b.split a with rfl | ⟨k, ds, rfl⟩ | ⟨k, evs, rfl, g1, _, g3, _⟩
    · cases c
    · obtain ⟨f1, f2⟩ := winEvents_file_fault win out w ds e c
      exact .inr (.inl ⟨f1, k, f2⟩)
    · refine .inr (.inr ⟨k, ?_⟩)
      rcases winEvents_faults win out evs _ .idle trivial g1 e c with ⟨a1, a2, a3⟩ | ⟨a1, a2⟩ | ⟨a1, a2⟩
      · refine .inl ⟨a1, g3 _ a3 (fun t => by simp), ?_⟩
        rcases winDirStart_made win out w with ⟨p, _⟩ | ⟨_, p⟩
        · rw [p] at a2; cases a2
        · exact p
      · exact .inr (.inl ⟨a1, g3 _ a2 (fun t => by simp)⟩)
      · refine .inr (.inr ⟨a1, ?_⟩)
        obtain ⟨a, a2, a3⟩ := a2
        exact ⟨a, g3 a a2 (fun t h => by rw [h] at a3; exact a3), a3⟩

/-- C108, on Windows: archives that are safe in this respect.  If lengths of names keep to the names,
directories have no NUL in their names, and every end of a directory has its
start, the extraction returns, whatever else is in the archive (such as `..` in names), and whichever
calls the system refuses, as long as there is memory for paths. -/
theorem C108_windows_defined_partial (C : InflateOK Z plain) (ok : AllocOracle) (hdr item : Bytes)
    (hh : hdr.length = 128) (hi : item.length = 40) (win : Win) (hmem : ∀ k, win.noMem k = false)
    (out : Bytes) (h0 : 0 ∉ out) (w : WWorld) (n : Nat) (inp : Input)
    (hv : hdrVersion ((plain (allowed n 0 inp.data)).take 128) = 0)
    (hk : hdrKind ((plain (allowed n 0 inp.data)).take 128) = CT_DIRECTORY)
    (hs : ∀ a ∈ (specParse ok 0 ((plain (allowed n 0 inp.data)).drop 128)).atoms,
      ¬ a.overlong ∧ ¬ a.nulDir)
    (hb : balance 0 (specParse ok 0 ((plain (allowed n 0 inp.data)).drop 128)).atoms ≠ none) :
    ∃ n0 r, ∀ fuel, n0 ≤ fuel → winExtract Z win ok fuel hdr item out n inp w = .ok r := by
  obtain ⟨n0, X, h1, _, h3⟩ := winExtract_ends C ok hdr item hh hi win out w n inp
  cases hX : X with
  | ok r => exact ⟨n0, r, fun f hf => by rw [h1 f hf, hX]⟩
  | error e =>
    exfalso
    cases h3 e hX with
    | version a b c => exact b hv
    | callback a b c =>
      rcases b.split a with rfl | ⟨k, ds, rfl⟩ | ⟨k, evs, rfl, g1, _, g4, g5⟩
      · cases c
      · rw [hk] at k; exact absurd k (by decide)
      · have hp : pathDepth 0 (winDirStart win out (HLW.init w)).dirPath := by
          rcases winDirStart_made win out w with ⟨p, _⟩ | ⟨p, _⟩ <;> rw [p]
          · exact ⟨h0, Nat.zero_le _⟩
          · rfl
        have hc : winEvents win out (winDirStart win out (HLW.init w)) evs = .error e := c
        have := winEvents_leave win hmem out evs _ .idle 0 trivial hp g1 (by
          intro a ha hn
          exact (hs a (g4 a ha (fun t h => by rw [h] at hn; exact hn))).2 hn) (g5 hb) e hc
        subst this
        rcases winEvents_faults win out evs _ .idle trivial g1 _ hc with ⟨a1, _⟩ | ⟨a1, _⟩ | ⟨_, a2⟩
        · cases a1
        · cases a1
        · obtain ⟨a, a2, a3⟩ := a2
          exact (hs a (g4 a a2 (fun t h => by rw [h] at a3; exact a3))).1 a3

open WinSample HLSample in
/-- The theorem for an archive with a file `../x` and a link in a directory `a/b`, while a call is
refused. -/
example := C108_windows_defined_partial copyIOK (fun _ _ => true) hdrMem itemMem (by decide +kernel)
  (by decide +kernel) { win with refuses := fun k => k == 3 } (fun _ => rfl) [111] (by decide) drive
  0 ⟨oddArc, false⟩ (by decide +kernel) (by decide +kernel) (by decide +kernel) (by decide +kernel)

open WinSample HLSample in
example := C108_windows_faults_partial copyIOK (fun _ _ => true) hdrMem itemMem (by decide +kernel)
  (by decide +kernel) win [111] drive 0 ⟨longNameArc, false⟩

open WinSample HLSample in
/-- Faults of the list occur; `x` is the file that exists. -/
example :
    WinSample.view [] (winExtract copyI win (fun _ _ => true) 5 hdrMem itemMem [111] 0
      ⟨longNameArc, false⟩ drive) = .fault .oobRead ∧
    WinSample.view [] (winExtract copyI win (fun _ _ => true) 5 hdrMem itemMem [111] 0
      ⟨endArc, false⟩ drive) = .fault .assertFail ∧
    WinSample.view [] (winExtract copyI win (fun _ _ => true) 5 hdrMem itemMem [120] 0
      ⟨endArc, false⟩ drive) = .fault .nullDeref := by
  decide +kernel

open WinSample HLSample in
/-- C108 is false on Windows too. -/
theorem C108_windows_false :
    ¬ ∀ (Z : Inflater) (plain : Bytes → Bytes) (_ : InflateOK Z plain) (ok : AllocOracle)
      (fuel : Nat) (hdr item : Bytes) (win : Win) (out : Bytes) (w : WWorld) (size : Nat)
      (inp : Input), hdr.length = 128 → item.length = 40 → win.quiet →
      winExtract Z win ok fuel hdr item out size inp w ≠ .error .oobRead := by
  intro h
  have key : WinSample.view [] (winExtract copyI win (fun _ _ => true) 5 hdrMem itemMem [111] 0
      ⟨longNameArc, false⟩ drive) = .fault .oobRead := by decide +kernel
  refine h copyI id copyIOK (fun _ _ => true) 5 hdrMem itemMem win [111] drive 0 ⟨longNameArc, false⟩
    (by decide +kernel) (by decide +kernel) win_quiet ?_
  revert key
  cases winExtract copyI win (fun _ _ => true) 5 hdrMem itemMem [111] 0 ⟨longNameArc, false⟩ drive with
  | error e => intro key; simp only [WinSample.view, WinSample.View.fault.injEq] at key; rw [key]
  | ok r => intro key; simp [WinSample.view] at key

end Zwt
