import Verif.Proofs.WinRetry
import Verif.Props.WinStop
import Verif.Props.WinFile
import Verif.Props.Win

/-! C121 on Windows. -/

namespace Zwt

section

variable {Z : Inflater} {plain : Bytes → Bytes}

/-- C121 on Windows, archives of files: an extraction is cut off after any number of calls; done again by
another process in the same directory, which can open the file, it leaves the drive as if there had been no
interruption.  (A first run that could not open the file may end in a fault, `C106_unopened_false`; nothing
is said of the drive then.)  Missing: directories (`C121_windows_false`). -/
theorem C121_windows_file_partial (C : InflateOK Z plain) (hnil : plain [] = []) {content : Bytes}
    (hc : content ≠ []) {junk : Bytes} (hj : junk.length = 120) (ok ok2 : AllocOracle)
    (hdr item hdr2 item2 : Bytes) (hh : hdr.length = 128) (hi : item.length = 40)
    (hh2 : hdr2.length = 128) (hi2 : item2.length = 40)
    (win : Win) (K : Nat) (hs : win.stopsAt K) (win2 : Win) (hq : win2.quiet) (hkey : win2.key = win.key)
    (out : Bytes) (w : WWorld) (l : Loc) (ho : (winOpen win2 w out false true).1 = some l)
    (size : Nat) (data : Bytes)
    (harc : plain (allowed size 0 data) = headerBytes 0 2 junk ++ content) :
    ∃ n0 X, (∀ fuel, n0 ≤ fuel → winExtract Z win ok fuel hdr item out size ⟨data, false⟩ w = X) ∧
      ∀ r, X = .ok r → ∀ w2 : WWorld, w2.fs = r.w.fs → w2.cwd = w.cwd →
        ∃ n1 r2, (∀ fuel, n1 ≤ fuel →
            winExtract Z win2 ok2 fuel hdr2 item2 out size ⟨data, false⟩ w2 = .ok r2) ∧
          (C.Final → Open plain (allowed size 0 data) → ∀ c ∈ r2.codes, c = Z_OK) ∧
          ((∀ c ∈ r2.codes, c = Z_OK) → 0 < r2.room ∨ C.Prompt (allowed size 0 data) →
            r2.ret = CT_FILE ∧ r2.w.cwd = w.cwd ∧ r2.w.fs = w.fs.put l (.file false content)) := by
  obtain ⟨e1, e2, e3⟩ := C02_header_roundtrip 0 2 junk hj (by decide) (by decide)
  have e1' : (headerBytes 0 2 junk).length = 128 := e1
  have hkind : hdrKind ((plain (allowed size 0 data)).take 128) ≠ CT_DIRECTORY := by
    rw [harc, List.take_left' e1', e3]; decide
  have hver : hdrVersion ((plain (allowed size 0 data)).take 128) = 0 := by
    rw [harc, List.take_left' e1', e2]
  have hsame : ∀ cs l, winWalk win2 l cs = winWalk win l cs := by
    intro cs
    induction cs with
    | nil => intro l; rfl
    | cons c cs ih => intro l; simp only [winWalk, ih, hkey]
  have hloc : winLocate win2 w.cwd out = winLocate win w.cwd out := by
    simp only [winLocate, hsame]
  have hl : winLocate win2 w.cwd out = some l := by
    cases hop : winOpen win2 w out false true with
    | mk ol w' =>
      rw [hop] at ho
      cases ho
      exact (winOpen_trunc hop).1
  -- the first run
  have first : ∃ n0 X, (∀ fuel, n0 ≤ fuel → winExtract Z win ok fuel hdr item out size ⟨data, false⟩ w = X) ∧
      ∀ r, X = .ok r → r.w.fs = w.fs ∨ ∃ e, r.w.fs = w.fs.put l (.file false e) := by
    cases hop : (winOpen win w out false true).1 with
    | none =>
      obtain ⟨n0, X, h1, h2⟩ := C106_unopened_partial C ok hdr item hh hi win out w size ⟨data, false⟩ hkind hop
      exact ⟨n0, X, h1, fun r hr => .inl (by rw [(h2 r hr).2])⟩
    | some l' =>
      obtain ⟨n0, r, h1, _, h3, h4⟩ := C117_cut_off_file C ok hdr item hh hi win K hs out w l' hop size
        ⟨data, false⟩ hkind (fun _ => hver)
      have : l' = l := by
        rw [← hloc, hl] at h3
        exact (Option.some.inj h3).symm
      subst this
      refine ⟨n0, .ok r, h1, fun r' hr => ?_⟩
      cases hr
      exact h4.imp id fun ⟨e, _, h⟩ => ⟨e, h⟩
  obtain ⟨n0, X, h1, h2⟩ := first
  refine ⟨n0, X, h1, fun r hr w2 hw2 hcwd => ?_⟩
  have hfs : w2.fs = w.fs ∨ ∃ e, w2.fs = w.fs.put l (.file false e) :=
    (h2 r hr).imp hw2.trans fun ⟨e, h⟩ => ⟨e, hw2.trans h⟩
  obtain ⟨n1, r2, g1, g2, g3⟩ := winExtract_file_content C hnil hc hj ok2 hdr2 item2 hh2 hi2 win2 hq out w2 l
    (winOpen_again hq ho hcwd hfs) size data harc
  refine ⟨n1, r2, g1, g2, fun a b => ?_⟩
  obtain ⟨y1, y2, _, y4, _⟩ := g3 a b
  refine ⟨y1, y2.trans hcwd, ?_⟩
  rw [y4]
  rcases hfs with h | ⟨e, h⟩
  · rw [h]
  · rw [h]
    funext x
    simp only [WFS.put]
    split <;> rfl

/-- C121 on Windows, directories, what holds: an extraction to a new place is cut off after any number of
calls; done again by another process in the same directory to a new place that is not inside the first, it
brings the whole tree, and what the first left is not touched.
Missing: repetition at the same place (`C121_windows_false`). -/
theorem C121_windows_elsewhere_partial (C : InflateOK Z plain) (hnil : plain [] = [])
    (ok ok2 : AllocOracle) (hok : ∀ k n, ok k n = true) (hok2 : ∀ k n, ok2 k n = true)
    (hdr item hdr2 item2 : Bytes) (hh : hdr.length = 128) (hi : item.length = 40)
    (hh2 : hdr2.length = 128) (hi2 : item2.length = 40)
    (win : Win) (K : Nat) (hs : win.stopsAt K) (win2 : Win) (hq : win2.quiet) (hkey : win2.key = win.key)
    (w : WWorld) (out : Bytes) (top : Loc) (ns : List Bytes) (hw : WFresh win w out top ns)
    (out' : Bytes) (top' : Loc) (ns' : List Bytes) (hw' : WFresh win2 w out' top' ns') (hne : ¬ top <+: top')
    {f : Forest} (hf : f.proper) (hfw : f.winOk win) (hfn : f ≠ .nil) {junk t : Bytes}
    (hj : junk.length = 120) (he : Encodes f t) (size : Nat) (inp : Input) (hin : inp.err = false)
    (harc : plain (allowed size 0 inp.data) = headerBytes 0 1 junk ++ t) :
    ∃ n0 r, (∀ fuel, n0 ≤ fuel → winExtract Z win ok fuel hdr item out size inp w = .ok r) ∧
      ∀ w2 : WWorld, w2.fs = r.w.fs → w2.cwd = w.cwd →
        ∃ n1 r2, (∀ fuel, n1 ≤ fuel → winExtract Z win2 ok2 fuel hdr2 item2 out' size inp w2 = .ok r2) ∧
          r2.hasError = false ∧
          (C.Final → Open plain (allowed size 0 inp.data) → ∀ c ∈ r2.codes, c = Z_OK) ∧
          ((∀ c ∈ r2.codes, c = Z_OK) → 0 < r2.room ∨ C.Prompt (allowed size 0 inp.data) →
            r2.ret = CT_DIRECTORY ∧ r2.w.cwd = w.cwd ∧
            WLanded win2 w2.fs r2.w.fs top' (top' ++ ns'.map win2.same) f) := by
  obtain ⟨n0, r, h1, _, h3, _⟩ := C117_cut_off C ok hok hdr item hh hi win K hs w out top ns hw hf hfw hj he size
    inp (by rw [harc]; exact List.prefix_refl _)
  refine ⟨n0, r, h1, fun w2 hw2 hcwd => ?_⟩
  obtain ⟨n1, r2, g1, g2, g3, g4⟩ := winExtract_tree C hnil ok2 hok2 hdr2 item2 hh2 hi2 win2 hq w2 out' top' ns'
    (hw.elsewhere hw' hne hcwd fun x hx => by rw [hw2]; exact h3.outside x hx) hf ((winOk_key hkey f).mpr hfw)
    hfn hj he size inp hin harc
  refine ⟨n1, r2, g1, g2, g3, fun a b => ?_⟩
  obtain ⟨y1, y2, y3⟩ := g4 a b
  exact ⟨y1, y2.trans hcwd, y3⟩

end

open WinSample HLSample in
/-- The theorem for the file `x`, which is written over. -/
example (K : Nat) := C121_windows_file_partial copyIOK rfl (content := [1, 2, 3]) (by decide)
  (junk := List.replicate 120 0xEE) List.length_replicate (fun _ _ => true) (fun _ _ => true) hdrMem itemMem
  hdrMem itemMem List.length_replicate List.length_replicate List.length_replicate List.length_replicate
  (brokenWin K) K (brokenWin_stops K) win win_quiet rfl [120] drive [[99], [120]] (by decide +kernel) 0
  (fileArc [1, 2, 3]) (by decide +kernel)

open WinSample HLSample in
/-- The theorem for the tree `d/e/R`, `b`, extracted to `o/p` and then to `q`. -/
example (K : Nat) := C121_windows_elsewhere_partial copyIOK rfl (fun _ _ => true) (fun _ _ => true)
  (fun _ _ => rfl) (fun _ _ => rfl) hdrMem itemMem hdrMem itemMem
  List.length_replicate List.length_replicate List.length_replicate List.length_replicate
  (brokenWin K) K (brokenWin_stops K) win win_quiet rfl drive [111, 47, 112] [[99], [111]] [[112]]
  ⟨⟨[111], by decide, by decide, by simp +decide [winLocate, winWalk, winSplit, winBase, brokenWin, win, drive]⟩,
    by simp +decide [WinName, PlainName, brokenWin, win], by decide, by decide, by decide +kernel, fun q => by
    simp only [drive]
    rw [if_neg (by simp), if_neg (by simp)]⟩
  [113] [[99], [113]] []
  ⟨⟨[113], by decide, by decide, by simp +decide [winLocate, winWalk, winSplit, winBase, win, drive]⟩,
    by simp, by decide, by decide, by decide +kernel, fun q => by
    simp only [drive]
    rw [if_neg (by simp), if_neg (by simp)]⟩ (by decide) (f := lossTree)
  (by simp +decide [Forest.proper, PlainName, lossTree])
  (by simp +decide [lossTree, Forest.winOk, WinName, PlainName, brokenWin, win, Forest.winNames, Win.same])
  (by simp [lossTree])
  (junk := List.replicate 120 0xEE) List.length_replicate (encodes _ (by decide +kernel)) 0 ⟨dirArc lossTree, false⟩
  rfl rfl

open WinSample HLSample in
/-- C121 is false on Windows for directories: the tree `d/e/R`, `b` is extracted to `o` and cut off after 8
calls; the same command again does not bring `o/b`, though it is there after an extraction that is not
cut off. -/
theorem C121_windows_false :
    ¬ ∀ (Z : Inflater) (plain : Bytes → Bytes) (_ : InflateOK Z plain) (ok : AllocOracle)
      (fuel : Nat) (hdr item : Bytes) (win1 win2 : Win) (K : Nat) (out : Bytes) (w : WWorld) (n : Nat)
      (inp : Input) (r1 r r2 : WExtracted), hdr.length = 128 → item.length = 40 → win1.stopsAt K →
      win2.quiet → win2.key = win1.key →
      winExtract Z win1 ok fuel hdr item out n inp w = .ok r1 →
      winExtract Z win2 ok fuel hdr item out n inp w = .ok r → r.ret = CT_DIRECTORY → r.hasError = false →
      winExtract Z win2 ok fuel hdr item out n inp { w with fs := r1.w.fs } = .ok r2 →
      ∀ l, r.w.fs l ≠ none → r2.w.fs l ≠ none := by
  intro h
  let go := fun v w => winExtract copyI v (fun _ _ => true) 5 hdrMem itemMem [111] 0 ⟨dirArc lossTree, false⟩ w
  have key : ∀ (a b : Run WExtracted) (g : WWorld → Run WExtracted), a = go (brokenWin 8) drive →
      b = go win drive → (∀ w, g w = go win w) →
      (match a, b with
        | .ok r1, .ok r => decide (r.ret = CT_DIRECTORY ∧ r.hasError = false ∧
            r.w.fs [[99], [111], [98]] ≠ none) &&
          (match g { drive with fs := r1.w.fs } with
            | .ok r2 => decide (r2.w.fs [[99], [111], [98]] = none)
            | _ => false)
        | _, _ => false) = true → False := by
    intro a b g ha hb hg hm
    cases a with
    | error e => simp at hm
    | ok r1 =>
      cases b with
      | error e => simp at hm
      | ok r =>
        simp only [Bool.and_eq_true, decide_eq_true_eq] at hm
        obtain ⟨⟨m1, m2, m3⟩, m4⟩ := hm
        cases hr2 : g { drive with fs := r1.w.fs } with
        | error e => rw [hr2] at m4; simp at m4
        | ok r2 =>
          rw [hr2] at m4
          exact h copyI id copyIOK (fun _ _ => true) 5 hdrMem itemMem (brokenWin 8) win 8 [111] drive 0
            ⟨dirArc lossTree, false⟩ r1 r r2 List.length_replicate List.length_replicate (brokenWin_stops 8)
            win_quiet rfl ha.symm hb.symm m1 m2 ((hg _).symm.trans hr2) _ m3 (of_decide_eq_true m4)
  refine key _ _ _ rfl rfl (fun _ => rfl) ?_
  decide +kernel

end Zwt
