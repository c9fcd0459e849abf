import Verif.Proofs.WinLater
import Verif.Proofs.WinFile
import Verif.Props.WinStop

/-! C122 on Windows. -/

namespace Zwt

section

variable {Z : Inflater} {plain : Bytes → Bytes}

/-- C122 on Windows: whatever was extracted before, if there is (still) nothing at the output path, which was
usable at first, then the archive of a tree arrives there completely, and nothing else is changed. -/
theorem C122_windows_later (C : InflateOK Z plain) (hnil : plain [] = [])
    (ok : AllocOracle) (hok : ∀ k n, ok k n = true)
    (hdr item : Bytes) (hh : hdr.length = 128) (hi : item.length = 40)
    (win : Win) (hq : win.quiet)
    -- at first
    (w : WWorld) (out : Bytes) (top : Loc) (ns : List Bytes) (hw : WFresh win w out top ns)
    -- now
    (w2 : WWorld) (hE : WEarlier w.fs w2.fs) (hcwd : w2.cwd = w.cwd) (hnew : ∀ q, w2.fs (top ++ q) = none)
    {f : Forest} (hf : f.proper) (hfw : f.winOk win) (hfn : f ≠ .nil) {junk t : Bytes}
    (hj : junk.length = 120) (he : Encodes f t) (size : Nat) (inp : Input) (hin : inp.err = false)
    (harc : plain (allowed size 0 inp.data) = headerBytes 0 1 junk ++ t) :
    ∃ n0 r, (∀ fuel, n0 ≤ fuel → winExtract Z win ok fuel hdr item out size inp w2 = .ok r) ∧
      r.hasError = false ∧
      (C.Final → Open plain (allowed size 0 inp.data) → ∀ c ∈ r.codes, c = Z_OK) ∧
      ((∀ c ∈ r.codes, c = Z_OK) → 0 < r.room ∨ C.Prompt (allowed size 0 inp.data) →
        r.ret = CT_DIRECTORY ∧ r.w.cwd = w.cwd ∧
        WLanded win w2.fs r.w.fs top (top ++ ns.map win.same) f) := by
  have hpar : w2.fs top.dropLast = some .dir := by
    obtain ⟨x, h1, h2⟩ := hE.keeps _ _ hw.parent
    cases x with
    | dir => exact h1
    | file => exact h2.elim
  obtain ⟨n0, r, g1, g2, g3, g4⟩ := winExtract_tree C hnil ok hok hdr item hh hi win hq w2 out top ns
    ⟨by rw [hcwd]; exact hw.front, hw.names, hw.few, hw.ne, hpar, hnew⟩ hf hfw hfn hj he size inp hin harc
  refine ⟨n0, r, g1, g2, g3, fun a b => ?_⟩
  obtain ⟨y1, y2, y3⟩ := g4 a b
  exact ⟨y1, y2.trans hcwd, y3⟩

/-- C122 on Windows, files: whatever was extracted before, if the directory of the output path existed at
first, and there is nothing at the output path now or a file that is not protected, then the archive of a
file that is not empty brings the file, and nothing else is changed. -/
theorem C122_windows_later_file (C : InflateOK Z plain) (hnil : plain [] = []) {content : Bytes}
    (hc : content ≠ []) {junk : Bytes} (hj : junk.length = 120) (ok : AllocOracle) (hdr item : Bytes)
    (hh : hdr.length = 128) (hi : item.length = 40) (win : Win) (hq : win.quiet) (out : Bytes)
    (hsep : out.getLast? ≠ some 47 ∧ out.getLast? ≠ some 92)
    -- at first
    (w : WWorld) (l : Loc) (hl : winLocate win w.cwd out = some l) (hp : w.fs l.dropLast = some .dir)
    -- now
    (w2 : WWorld) (hE : WEarlier w.fs w2.fs) (hcwd : w2.cwd = w.cwd)
    (hx : w2.fs l = none ∨ ∃ c, w2.fs l = some (.file false c))
    (size : Nat) (data : Bytes)
    (harc : plain (allowed size 0 data) = headerBytes 0 2 junk ++ content) :
    ∃ n0 r, (∀ fuel, n0 ≤ fuel → winExtract Z win ok fuel hdr item out size ⟨data, false⟩ w2 = .ok r) ∧
      (C.Final → Open plain (allowed size 0 data) → ∀ c ∈ r.codes, c = Z_OK) ∧
      ((∀ c ∈ r.codes, c = Z_OK) → 0 < r.room ∨ C.Prompt (allowed size 0 data) →
        r.ret = CT_FILE ∧ r.w.cwd = w.cwd ∧ r.w.fs = w2.fs.put l (.file false content)) := by
  have hpar : w2.fs l.dropLast = some .dir := by
    obtain ⟨x, h1, h2⟩ := hE.keeps _ _ hp
    cases x with
    | dir => exact h1
    | file => exact h2.elim
  have hs : ¬ out.getLast?.map winSep = some true := by
    cases h : out.getLast? with
    | none => simp
    | some c =>
      rw [h] at hsep
      simp only [ne_eq, Option.some.injEq] at hsep
      simp [winSep, hsep]
  have ho : (winOpen win w2 out false true).1 = some l := by
    simp only [winOpen, hq.1, Bool.false_eq_true, false_or, if_neg hs, hcwd, hl]
    rcases hx with h | ⟨c, h⟩
    · simp [h, winParent, hpar]
    · simp [h]
  obtain ⟨n0, r, g1, g2, g3⟩ := winExtract_file_content C hnil hc hj ok hdr item hh hi win hq out w2 l ho size
    data harc
  refine ⟨n0, r, g1, g2, fun a b => ?_⟩
  obtain ⟨y1, y2, _, y4, _⟩ := g3 a b
  exact ⟨y1, y2.trans hcwd, y4⟩

end

open WinSample HLSample in
/-- The theorem for the file `x`, after an extraction to `o` that was cut off. -/
example (K : Nat) (arc : Bytes) (r : WExtracted)
    (h : winExtract copyI (brokenWin K) (fun _ _ => true) 5 hdrMem itemMem [111] 0 ⟨arc, false⟩ drive = .ok r)
    (hx : ∃ c, r.w.fs [[99], [120]] = some (.file false c)) :=
  C122_windows_later_file copyIOK rfl (content := [1, 2, 3]) (by decide) (junk := List.replicate 120 0xEE)
  List.length_replicate (fun _ _ => true) hdrMem itemMem List.length_replicate List.length_replicate win win_quiet
  [120] (by decide) drive [[99], [120]] (by decide +kernel) (by decide +kernel)
  { drive with fs := r.w.fs } (.more copyI (brokenWin K) _ 5 hdrMem itemMem [111] 0 ⟨arc, false⟩ drive r .start rfl h)
  rfl (.inr hx) 0 (fileArc [1, 2, 3]) (by decide +kernel)

open WinSample HLSample in
/-- The theorem for the tree `d/e/R`, `b`, extracted to `q` after any other extraction that left nothing there. -/
example (K : Nat) (arc out : Bytes) (r : WExtracted)
    (h : winExtract copyI (brokenWin K) (fun _ _ => true) 5 hdrMem itemMem out 0 ⟨arc, false⟩ drive = .ok r)
    (hnew : ∀ q, r.w.fs ([[99], [113]] ++ q) = none) :=
  C122_windows_later copyIOK rfl (fun _ _ => true) (fun _ _ => rfl) hdrMem itemMem
  List.length_replicate List.length_replicate win win_quiet drive [113] [[99], [113]] []
  ⟨⟨[113], by decide, by decide, by simp +decide [winLocate, winWalk, winSplit, winBase, win, drive]⟩,
    by simp, by decide, by decide, by decide +kernel, fun q => by
    simp only [drive]
    rw [if_neg (by simp), if_neg (by simp)]⟩
  { drive with fs := r.w.fs } (.more copyI (brokenWin K) _ 5 hdrMem itemMem out 0 ⟨arc, false⟩ drive r .start rfl h)
  rfl hnew (f := lossTree)
  (by simp +decide [Forest.proper, PlainName, lossTree])
  (by simp +decide [lossTree, Forest.winOk, WinName, PlainName, win, Forest.winNames, Win.same])
  (by simp [lossTree])
  (junk := List.replicate 120 0xEE) List.length_replicate (encodes _ (by decide +kernel)) 0 ⟨dirArc lossTree, false⟩
  rfl rfl

open WinSample HLSample in
/-- An extraction to `o` that is cut off, and then one to `q`. -/
example :
    let seen := [[[99], [111]], [[99], [111], [98]], [[99], [113]], [[99], [113], [98]],
      [[99], [113], [100], [101], [114]]]
    (match winExtract copyI (brokenWin 8) (fun _ _ => true) 5 hdrMem itemMem [111] 0 ⟨dirArc lossTree, false⟩ drive with
      | .ok r => view seen (winExtract copyI win (fun _ _ => true) 5 hdrMem itemMem [113] 0
          ⟨dirArc lossTree, false⟩ { drive with fs := r.w.fs })
      | .error e => .fault e) =
      .done CT_DIRECTORY false [some .dir, none, some .dir, some (.file false [3]), some (.file true [7, 8, 9])] := by
  decide +kernel

end Zwt
