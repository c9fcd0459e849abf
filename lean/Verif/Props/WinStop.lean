import Verif.Proofs.WinStop
import Verif.Props.WinLossy

/-! C117: an extraction on Windows that is cut off. -/

namespace Zwt

section

variable {Z : Inflater} {plain : Bytes → Bytes}

theorem leftOver_stop {win : Win} {K : Nat} (hs : win.stopsAt K) {w : WWorld} {out : Bytes} {top : Loc}
    {ns : List Bytes} (hw : WFresh win w out top ns) {f : Forest} (hf : f.winOk win) {evs rest : List Ev}
    (he : EvsOf f (evs ++ rest)) :
    ∃ h', winEvents win out (HLW.init w) (.drStart :: evs) = .ok h' ∧
      h'.w.cwd = w.cwd ∧ WLeftOver win (· <+: ·) w.fs h'.w.fs top (top ++ ns.map win.same) f ∧
      (rest = [] → h'.hasError = false → ∀ x ∈ f.winSpots win (top ++ ns.map win.same), h'.w.fs x.1 ≠ none) ∧
      AtMostOne (f.winSpots win (top ++ ns.map win.same)) h'.w.fs := by
  by_cases hmk : (winMkdir win out w).1 = 0
  · obtain ⟨h', a1, _, a2, a3, a4, a5⟩ := leftOver_win (wreads_stop hs) (fun _ _ _ h h' => h.trans h') hs.mem hw
      hmk hf he
    exact ⟨h', a1, a2, a3, a4, a5 K hs⟩
  · -- cut off in the creation of the output directory
    obtain ⟨p, hp, h0, hloc⟩ := hw.front
    have hp' : out = p ++ slashed ns := hp
    have hgone : K ≤ (winMkdir win out w).2.calls := by
      rcases winMkdir_free hs out w with h | h
      · exact h
      · exfalso
        have htop : top.dropLast ++ [top.getLast hw.ne] = top := List.dropLast_concat_getLast hw.ne
        obtain ⟨w', e, _⟩ := winMkdir_chain win.freed hs.freed w p h0 top.dropLast (top.getLast hw.ne) ns
          (by rw [winLocate_freed, htop]; exact hloc) hw.parent hw.names
          (by rw [htop]; exact hw.absent) hw.few
        rw [extendPath_eq, ← hp] at e
        rw [h, e] at hmk
        exact hmk rfl
    obtain ⟨d1, d2⟩ := winMkdir_added w h0 hloc (.inr hw.parent) ns hw.names
    rw [← hp'] at d1 d2
    cases hm : winMkdir win out w with
    | mk r w1 =>
    rw [hm] at hmk d1 d2 hgone
    dsimp only at hmk d1 d2 hgone
    have hst : winEvent win out (HLW.init w) .drStart = .ok { HLW.init w with w := w1, hasError := true } := by
      simp [winEvent, winDirStart, HLW.init, hm, hmk]
    obtain ⟨h', g1, g2, _⟩ := tree_gone hs (w0 := w1) out he { HLW.init w with w := w1, hasError := true } [] evs
      (List.prefix_append _ _) hf (by simp) rfl ⟨rfl, rfl, rfl, hgone⟩
    refine ⟨h', by rw [winEvents, hst]; exact g1, g2.cwd.trans d1, ⟨?_, ?_⟩,
      (fun _ h => by rw [g2.err] at h; cases h), Whole.one (Whole.new fun k _ q => ?_)⟩
    · intro y hy
      rw [g2.fs]
      rcases d2 y with e | e
      · exact e
      · exact absurd e.2.2.1 hy
    · rintro y ⟨t, rfl⟩
      rw [g2.fs]
      rcases d2 (top ++ t) with e | e
      · left; rw [e]; exact hw.absent t
      · exact .inr (.inl ⟨e.2.2.2, e.2.1⟩)
    · rw [g2.fs]
      rcases d2 (top ++ ns.map win.same ++ k :: q) with e | e
      · rw [e, List.append_assoc]; exact hw.absent _
      · have := e.2.2.2.length_le
        rw [List.length_append] at this
        simp at this
        omega

/-- C117: an extraction of a directory on Windows that is cut off after any number of calls, from which on
nothing can be changed any more, changes nothing outside the output directory; inside there is at every
place what the archive has there, or nothing: a directory, or a file, protected as the archive says, with a
beginning of its content; at most one file is not complete.  If the archive arrived completely and no error
was recorded, every file and directory is there. -/
theorem C117_cut_off (C : InflateOK Z plain) (ok : AllocOracle)
    (hok : ∀ k n, ok k n = true) (hdr item : Bytes) (hh : hdr.length = 128) (hi : item.length = 40)
    (win : Win) (K : Nat) (hs : win.stopsAt K) (w : WWorld) (out : Bytes) (top : Loc)
    (ns : List Bytes) (hw : WFresh win w out top ns)
    {f : Forest} (hf : f.proper) (hfw : f.winOk win) {junk t : Bytes} (hj : junk.length = 120)
    (he : Encodes f t) (size : Nat) (inp : Input)
    (harc : plain (allowed size 0 inp.data) <+: headerBytes 0 1 junk ++ t) :
    ∃ n0 r, (∀ fuel, n0 ≤ fuel → winExtract Z win ok fuel hdr item out size inp w = .ok r) ∧
      r.w.cwd = w.cwd ∧ WLeftOver win (· <+: ·) w.fs r.w.fs top (top ++ ns.map win.same) f ∧
      (plain (allowed size 0 inp.data) = headerBytes 0 1 junk ++ t → allowed size 0 inp.data ≠ [] →
        inp.err = false → r.hasError = false →
        (∀ c ∈ r.codes, c = Z_OK) → 0 < r.room ∨ C.Prompt (allowed size 0 inp.data) →
        ∀ x ∈ f.winSpots win (top ++ ns.map win.same), r.w.fs x.1 ≠ none) ∧
      AtMostOne (f.winSpots win (top ++ ns.map win.same)) r.w.fs :=
  leftOver_extract C ok hok hdr item hh hi win (· <+: ·) AtMostOne w out top ns hw
    (fun _ hg _ _ hev => leftOver_stop hs hw hg hev) (fun _ h => Whole.one fun s hs => .inl (h s hs)) hf hfw hj he
    size inp harc

/-- C117, archives of single files: a run that is cut off after the output file was opened leaves there a
file with a beginning of the content; nothing else changes. -/
theorem C117_cut_off_file (C : InflateOK Z plain) (ok : AllocOracle) (hdr item : Bytes)
    (hh : hdr.length = 128) (hi : item.length = 40) (win : Win) (K : Nat) (hs : win.stopsAt K) (out : Bytes)
    (w : WWorld) (l : Loc) (ho : (winOpen win w out false true).1 = some l) (size : Nat) (inp : Input)
    (hk : hdrKind ((plain (allowed size 0 inp.data)).take 128) ≠ CT_DIRECTORY)
    (hv : 128 ≤ (plain (allowed size 0 inp.data)).length → hdrVersion ((plain (allowed size 0 inp.data)).take 128) = 0) :
    ∃ n0 r, (∀ fuel, n0 ≤ fuel → winExtract Z win ok fuel hdr item out size inp w = .ok r) ∧
      r.w.cwd = w.cwd ∧ winLocate win w.cwd out = some l ∧
      (r.w.fs = w.fs ∨ ∃ e, e <+: (plain (allowed size 0 inp.data)).drop 128 ∧
        r.w.fs = w.fs.put l (.file false e)) := by
  obtain ⟨n0, X, h1, h2, h3⟩ := winExtract_ends C ok hdr item hh hi win out w size inp
  have hloc : winLocate win w.cwd out = some l := by
    cases hop : winOpen win w out false true with
    | mk ol w' =>
      rw [hop] at ho
      cases ho
      exact (winOpen_trunc hop).1
  cases hX : X with
  | error e =>
    exfalso
    cases h3 e hX with
    | callback a b c =>
      cases b.kind with
      | none => cases c
      | dir a1 _ a3 => rw [(take_header a a1).1] at a3; exact hk a3
      | file =>
        obtain ⟨h', _, g, _⟩ := win_file_stop hs out w l _ ho
        rw [g] at c; cases c
    | version a b => exact b (hv a)
  | ok r =>
    obtain ⟨P, log, h, Dn⟩ := h2 r hX
    refine ⟨n0, r, fun fuel hf => by rw [h1 fuel hf, hX], ?_⟩
    have hrun := Dn.run
    rw [Dn.world]
    cases Dn.arch.kind with
    | none => cases hrun; exact ⟨rfl, hloc, .inl rfl⟩
    | dir a1 _ a3 => rw [(take_header Dn.pre a1).1] at a3; exact absurd a3 hk
    | file a1 _ _ _ a5 =>
      obtain ⟨h', e, g1, g2, g3, g4⟩ := win_file_stop hs out w l _ ho
      rw [hrun] at g1
      cases g1
      refine ⟨g3, hloc, .inr ⟨e, g2.trans ?_, g4⟩⟩
      rw [← a5]
      obtain ⟨t, ht⟩ := Dn.pre
      rw [← ht, List.drop_append_of_le_length a1]
      exact List.prefix_append _ _

end

namespace WinSample
open HLSample

/-- Calls up to the one numbered `K`. -/
def brokenWin (K : Nat) : Win := { win with refuses := fun k => decide (K ≤ k), accepts := fun _ n => n }

theorem brokenWin_stops (K : Nat) : (brokenWin K).stopsAt K :=
  ⟨fun _ => rfl, fun _ _ => Nat.le_refl _, fun _ => rfl⟩

end WinSample

open WinSample HLSample in
/-- The theorem for the tree `d/e/R`, `b`, extracted to `o/p`. -/
example (K : Nat) := C117_cut_off copyIOK (fun _ _ => true) (fun _ _ => rfl) hdrMem itemMem
  List.length_replicate List.length_replicate (brokenWin K) K (brokenWin_stops K) drive [111, 47, 112] [[99], [111]]
  [[112]]
  ⟨⟨[111], by decide, by decide, by simp +decide [winLocate, winWalk, winSplit, winBase, brokenWin, win, drive]⟩,
    by simp +decide [WinName, PlainName, brokenWin, win], by decide, by decide, by decide +kernel, fun q => by
    simp only [drive]
    rw [if_neg (by simp), if_neg (by simp)]⟩ (f := lossTree)
  (by simp +decide [Forest.proper, PlainName, lossTree])
  (by simp +decide [lossTree, Forest.winOk, WinName, PlainName, brokenWin, win, Forest.winNames, Win.same])
  (junk := List.replicate 120 0xEE) List.length_replicate (encodes _ (by decide +kernel)) 0 ⟨dirArc lossTree, false⟩
  (List.prefix_refl _)

open WinSample HLSample in
/-- Runs cut off at three points: while `o/p` is made; before the file `R` is written; before `b` is. -/
example :
    let at' := [[[99], [111]], [[99], [111], [112]], [[99], [111], [112], [100], [101]],
      [[99], [111], [112], [100], [101], [114]], [[99], [111], [112], [98]]]
    let go := fun K => view at' (winExtract copyI (brokenWin K) (fun _ _ => true) 5 hdrMem itemMem [111, 47, 112] 0
      ⟨dirArc lossTree, false⟩ drive)
    go 3 = .done CT_NONE true [some .dir, none, none, none, none] ∧
    go 12 = .done CT_DIRECTORY true [some .dir, some .dir, some .dir, some (.file true []), none] ∧
    go 15 = .done CT_DIRECTORY false [some .dir, some .dir, some .dir, some (.file true [7, 8, 9]),
      some (.file false [])] := by
  decide +kernel

open WinSample HLSample in
/-- The file `x` is written over; the theorem for it, and a run cut off before the first byte of the content
is written. -/
example := C117_cut_off_file copyIOK (fun _ _ => true) hdrMem itemMem List.length_replicate List.length_replicate
  (brokenWin 1) 1 (brokenWin_stops 1) [120] drive [[99], [120]] (by decide +kernel) 0 ⟨fileArc [1, 2, 3], false⟩
  (by decide +kernel) (fun _ => by decide +kernel)

open WinSample HLSample in
example : view [[[99], [120]]] (winExtract copyI (brokenWin 1) (fun _ _ => true) 5 hdrMem itemMem [120] 0
    ⟨fileArc [1, 2, 3], false⟩ drive) = .done CT_FILE false [some (.file false [])] := by
  decide +kernel

end Zwt
