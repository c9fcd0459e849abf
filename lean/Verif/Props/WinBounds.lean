import Verif.Proofs.WinGrow
import Verif.Proofs.HLBeyond
import Verif.Spec.WinSample

/-! C107: what an extraction on Windows reads and adds at most, for every archive (also damaged and
malicious ones) and every behaviour of the operating system. -/

namespace Zwt

variable {Z : Inflater} {plain : Bytes → Bytes}

/-- C107.  Extraction on Windows ends, for every input. -/
theorem C107_ends (C : InflateOK Z plain) (ok : AllocOracle) (hdr item : Bytes)
    (hh : hdr.length = 128) (hi : item.length = 40) (win : Win) (out : Bytes) (w : WWorld) (n : Nat)
    (inp : Input) :
    ∃ n0 X, (∀ fuel, n0 ≤ fuel → winExtract Z win ok fuel hdr item out n inp w = X) ∧
      X ≠ .error .outOfFuel := by
  obtain ⟨n0, X, h1, _, h3⟩ := winExtract_ends C ok hdr item hh hi win out w n inp
  refine ⟨n0, X, h1, ?_⟩
  intro hX
  cases h3 _ hX with
  | callback _ _ c =>
    rcases winEvents_fault win out _ _ _ c with h | h | h | h | h <;> cases h
  | version _ _ e => cases e

open HLSample in
/-- Example: the archive is cut in the middle of a record, and with no fuel it does not end. -/
example : WinSample.view [[[99], [111]]] (winExtract copyI WinSample.win (fun _ _ => true) 5 hdrMem
      itemMem [111] 0 ⟨(dirArc (.file [97] 0o640 [1, 2, 3] .nil)).take 150, false⟩ WinSample.drive) =
      .done CT_DIRECTORY false [some .dir] ∧
    winExtract copyI WinSample.win (fun _ _ => true) 0 hdrMem itemMem [111] 0
      ⟨dirArc (.file [97] 0o640 [1, 2, 3] .nil), false⟩ WinSample.drive = .error .outOfFuel := by
  exact ⟨by decide +kernel, rfl⟩

/-- C107.  With a positive archive size `n`, extraction reads `n` bytes of the input or all of it if
there are less; with 0 it reads all of it.  It stops before only after an error in a callback. -/
theorem C107_archive_size (C : InflateOK Z plain) (ok : AllocOracle) (hdr item : Bytes)
    (hh : hdr.length = 128) (hi : item.length = 40) (win : Win) (out : Bytes) (w : WWorld) (n : Nat)
    (inp : Input) :
    ∃ n0 X, (∀ fuel, n0 ≤ fuel → winExtract Z win ok fuel hdr item out n inp w = X) ∧
      ∀ r, X = .ok r →
        r.read ≤ (if n = 0 then inp.data.length else min n inp.data.length) ∧
        (r.hasError = false →
          r.read = if n = 0 then inp.data.length else min n inp.data.length) := by
  have hlim : (allowed n 0 inp.data).length =
      if n = 0 then inp.data.length else min n inp.data.length := by
    simp only [allowed]
    by_cases hn : n = 0
    · simp [hn]
    · rw [if_pos (by omega), if_neg hn, List.length_take]; simp
  obtain ⟨n0, X, hX, hrun⟩ := winExtract_end C ok hdr item hh hi win out w n inp
  refine ⟨n0, X, hrun, ?_⟩
  intro r hr
  subst hr
  rw [← hlim]
  cases hX with
  | stop _ _ hp hf _ =>
    refine ⟨by simpa using hp.length_le, fun he => ?_⟩
    rw [hf he]; rfl
  | readErr => exact ⟨by simp, fun _ => by simp⟩

open HLSample in
example := C107_archive_size copyIOK (fun _ _ => true) hdrMem itemMem (by decide +kernel)
    (by decide +kernel) WinSample.win [111] WinSample.drive 131
    ⟨fileArc [1, 2, 3] ++ [4, 5], false⟩

theorem winLoop_beyond {Z : Inflater} (win : Win) (ok : AllocOracle) (fuel : Nat) (out : Bytes)
    (n : Nat) (hn : 0 < n) (e e' : Bool) (rounds : Nat) : ∀ (i total : Nat) (a b : Bytes) (l : LL Z)
    (s : Sess) (h : HLW), n - total ≤ a.length → n - total ≤ b.length →
    a.take (n - total) = b.take (n - total) →
    winLoop win ok fuel out n rounds i total ⟨a, e⟩ l s h =
      winLoop win ok fuel out n rounds i total ⟨b, e'⟩ l s h := by
  induction rounds with
  | zero => intros; rfl
  | succ rounds ih =>
    intro i total a b l s h ha hb hab
    have hle := nextSize_sub (total := total) hn
    obtain ⟨t1, t2⟩ := take_sub hab hle
    have s1 : ¬ a.length < nextSize n total := by omega
    have s2 : ¬ b.length < nextSize n total := by omega
    have hl : (b.take (nextSize n total)).length = nextSize n total := by
      rw [List.length_take]; omega
    simp only [winLoop, s1, s2, decide_false, Bool.false_and, t1, hl]
    split
    · rfl
    · simp only [Bool.false_eq_true, if_false, Bool.not_false, Bool.true_and]
      split
      · rfl
      · split
        · rfl
        · split
          · have e1 : n - (total + nextSize n total) = n - total - nextSize n total := by omega
            exact ih _ _ _ _ _ _ _ (by rw [List.length_drop, e1]; omega)
              (by rw [List.length_drop, e1]; omega) (by rw [e1]; exact t2)
          · rfl

/-- C107.  Bytes beyond the archive size have no influence at all. -/
theorem C107_beyond_ignored (Z : Inflater) (win : Win) (ok : AllocOracle) (fuel : Nat)
    (hdr item out : Bytes) (n : Nat) (hn : 0 < n) (archive beyond beyond' : Bytes)
    (ha : archive.length = n) (err err' : Bool) (w : WWorld) :
    winExtract Z win ok fuel hdr item out n ⟨archive ++ beyond, err⟩ w =
      winExtract Z win ok fuel hdr item out n ⟨archive ++ beyond', err'⟩ w := by
  refine winLoop_beyond win ok fuel out n hn err err' fuel 0 0 _ _ _ _ _ ?_ ?_ ?_
  · simp; omega
  · simp; omega
  · simp [← ha]

open HLSample in
/-- Example: the file of a file archive, followed by a byte, with and without the size. -/
example :
    WinSample.view [[[99], [111]]] (winExtract copyI WinSample.win (fun _ _ => true) 5 hdrMem itemMem
      [111] 131 ⟨fileArc [1, 2, 3] ++ [4], false⟩ WinSample.drive) =
      .done CT_FILE false [some (.file false [1, 2, 3])] ∧
    WinSample.view [[[99], [111]]] (winExtract copyI WinSample.win (fun _ _ => true) 5 hdrMem itemMem
      [111] 0 ⟨fileArc [1, 2, 3] ++ [4], false⟩ WinSample.drive) =
      .done CT_FILE false [some (.file false [1, 2, 3, 4])] := by decide +kernel

/-- C107.  What extraction adds is bounded by the length of the decompressed archive: no file gets
longer than the payload part of the archive (or than it was), and at most 62 nodes per 40 bytes are
new.  Directories stay, files stay files with the same attribute, and only an archive of a single
file makes any of them shorter. -/
theorem C107_bounded_by_archive (C : InflateOK Z plain) (ok : AllocOracle) (hdr item : Bytes)
    (hh : hdr.length = 128) (hi : item.length = 40) (win : Win) (out : Bytes) (w : WWorld) (n : Nat)
    (inp : Input) :
    ∃ n0 X, (∀ fuel, n0 ≤ fuel → winExtract Z win ok fuel hdr item out n inp w = X) ∧
      ∀ r, X = .ok r →
        (∀ l ro c, r.w.fs l = some (.file ro c) →
          c.length ≤ (plain (allowed n 0 inp.data)).length - 128 ∨
          ∃ c', w.fs l = some (.file ro c') ∧ c.length ≤ c'.length) ∧
        (∃ new : List Loc, 40 * new.length ≤ 62 * (plain (allowed n 0 inp.data)).length ∧
          ∀ l, w.fs l = none → r.w.fs l ≠ none → l ∈ new) ∧
        (∀ l, w.fs l = some .dir → r.w.fs l = some .dir) ∧
        (∀ l ro c, w.fs l = some (.file ro c) → ∃ c', r.w.fs l = some (.file ro c') ∧
          (hdrKind ((plain (allowed n 0 inp.data)).take 128) = CT_DIRECTORY →
            c.length ≤ c'.length)) := by
  obtain ⟨n0, X, h1, h2, _⟩ := winExtract_ends C ok hdr item hh hi win out w n inp
  refine ⟨n0, X, h1, ?_⟩
  intro r hr
  obtain ⟨P, log, h, D⟩ := h2 r hr
  obtain ⟨t, k, ht, hk, hf⟩ := D.fsRun
  refine ⟨?_, ?_, fun l => hf.dirs, ?_⟩
  · intro l ro c hl
    cases hx : w.fs l with
    | none => exact .inl (hf.added hx hl)
    | some x =>
      cases x with
      | dir => rw [hf.dirs hx] at hl; simp at hl
      | file m' c' =>
        obtain ⟨c2, g1, _, g3⟩ := hf.files hx
        rw [g1] at hl
        cases hl
        rcases g3 with g | g
        · exact .inr ⟨_, rfl, g⟩
        · exact .inl g
  · obtain ⟨L, g1, g2⟩ := hf.count
    exact ⟨L, by rw [g1]; exact hk, g2⟩
  · intro l ro c hl
    obtain ⟨c', g1, g2, _⟩ := hf.files hl
    exact ⟨c', g1, fun hk => g2 (ht hk)⟩

open HLSample in
/-- Example: one directory record makes three directories; the file `x` of the archive, one byte,
is written over the existing one of two. -/
example : WinSample.view [[[99], [111]], [[99], [111], [97]], [[99], [111], [97], [98]],
      [[99], [111], [97], [98], [99]], [[99], [120]]]
    (winExtract copyI WinSample.win (fun _ _ => true) 5 hdrMem itemMem [111] 0
      ⟨dirArc (.file [46, 46, 47, 120] 0o640 [1] (.dir [97, 47, 98, 47, 99] 0o755 .nil .nil)), false⟩
      WinSample.drive) =
      .done CT_DIRECTORY false [some .dir, some .dir, some .dir, some .dir,
        some (.file false [1, 5])] := by
  decide +kernel

end Zwt
