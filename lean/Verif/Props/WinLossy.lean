import Verif.Proofs.WinLossy
import Verif.Props.Win
import Verif.Proofs.Sample

/-! C114: failing calls during extraction on Windows. -/

namespace Zwt

section

variable {Z : Inflater} {plain : Bytes → Bytes}

/-- The callbacks of (part of) a tree, whatever fails. -/
theorem leftOver_win {win : Win} {part : Bytes → Bytes → Prop} (hreads : WReads win part)
    (hmore : ∀ e a c, part e a → a <+: c → part e c) (hmem : ∀ k, win.noMem k = false) {w : WWorld} {out : Bytes} {top : Loc}
    {ns : List Bytes} (hw : WFresh win w out top ns) (hmk : (winMkdir win out w).1 = 0) {f : Forest}
    (hf : f.winOk win) {evs rest : List Ev} (he : EvsOf f (evs ++ rest)) :
    ∃ h', winEvents win out (HLW.init w) (.drStart :: evs) = .ok h' ∧ h'.ret = CT_DIRECTORY ∧
      h'.w.cwd = w.cwd ∧ WLeftOver win part w.fs h'.w.fs top (top ++ ns.map win.same) f ∧
      (rest = [] → h'.hasError = false → ∀ x ∈ f.winSpots win (top ++ ns.map win.same), h'.w.fs x.1 ≠ none) ∧
      ∀ K, win.stopsAt K → AtMostOne (f.winSpots win (top ++ ns.map win.same)) h'.w.fs := by
  obtain ⟨p, hp, h0, hloc⟩ := hw.front
  have hp' : out = p ++ slashed ns := hp
  have hout : winLocate win w.cwd out = some (top ++ ns.map win.same) := by
    have := winLocate_extend win w.cwd ns p top hw.names hloc
    rw [extendPath_eq] at this
    rw [hp]; exact this
  have hnul : 0 ∉ out := by
    rw [hp', List.mem_append, not_or]
    exact ⟨h0, slashed_nul _ (fun x hx => ⟨(hw.names x hx).1, (hw.names x hx).2.1⟩)⟩
  obtain ⟨d1, d2⟩ := winMkdir_added w h0 hloc (.inr hw.parent) ns hw.names
  rw [← hp'] at d1 d2
  cases hm : winMkdir win out w with
  | mk r w1 =>
  rw [hm] at hmk d1 d2
  dsimp only at hmk d1 d2
  subst hmk
  obtain ⟨x, e1, _, e3⟩ := winMkdir_success hnul hm
  have hx : x = top ++ ns.map win.same := Option.some.inj (e1.symm.trans hout)
  subst hx
  have hst : winEvent win out (HLW.init w) .drStart = .ok
      { HLW.init w with w := w1.tick, dirPath := some out, ret := CT_DIRECTORY } := by
    simp [winEvent, winDirStart, HLW.init, hm, hmem]
  have hin : ∀ y, top <+: y → w1.fs y = none ∨ (y <+: top ++ ns.map win.same ∧ w1.fs y = some .dir) := by
    rintro y ⟨t, rfl⟩
    rcases d2 (top ++ t) with e | e
    · left; rw [e]; exact hw.absent t
    · exact .inr ⟨e.2.2.2, e.2.1⟩
  obtain ⟨h', g1, g2, g3, g4, g5, g6⟩ := tree_any_win hreads hmore hmem hnul hout out he
    { HLW.init w with w := w1.tick, dirPath := some out, ret := CT_DIRECTORY } [] evs
    (List.prefix_append _ _) hf ⟨by simp [slashed], by simp, d1, by show w1.fs _ ≠ _; rw [e3]; simp⟩ (by
      intro k _ q
      show w1.fs _ = _
      rcases hin (top ++ ns.map win.same ++ ([] : List Bytes).map win.same ++ k :: q) ⟨ns.map win.same ++ k :: q, by simp⟩ with e | e
      · exact e
      · have := e.1.length_le
        simp at this
        omega)
  simp only [List.map_nil, List.append_nil] at g4 g5 g6
  refine ⟨h', by rw [winEvents, hst]; exact g1, g2, g3, ⟨?_, ?_⟩, ?_, fun K hs => (g6 K hs).1⟩
  · intro y hy
    have hd : w1.fs y = w.fs y := by
      rcases d2 y with e | e
      · exact e
      · exact absurd e.2.2.1 hy
    rcases g4.other y (by
      intro k _ q e
      exact hy ⟨ns.map win.same ++ k :: q, by rw [e]; simp⟩) with e | e
    · rw [e]; exact hd
    · exact absurd ((List.prefix_append _ _).trans e.2.2.1) hy
  · intro y hy
    by_cases hk : ∃ k ∈ f.winNames win, ∃ q, y = top ++ ns.map win.same ++ k :: q
    · obtain ⟨k, hk, q, rfl⟩ := hk
      exact .inr (.inr (g4.kept k hk q))
    · rcases g4.other y (fun k hk' q e => hk ⟨k, hk', q, e⟩) with e | e
      · rcases hin y hy with c | c
        · left; rw [e]; exact c
        · right; left; exact ⟨c.1, by rw [e]; exact c.2⟩
      · exact .inr (.inl ⟨e.2.2.2, e.2.1⟩)
  · intro hr hne
    exact (g5 (by rw [hr, List.append_nil])).2 hne

/-- An extraction of (part of) a tree leaves what its callbacks leave. -/
theorem leftOver_extract (C : InflateOK Z plain) (ok : AllocOracle)
    (hok : ∀ k n, ok k n = true) (hdr item : Bytes) (hh : hdr.length = 128) (hi : item.length = 40)
    (win : Win) (part : Bytes → Bytes → Prop) (more : List (Loc × WNode) → WFS → Prop) (w : WWorld) (out : Bytes) (top : Loc)
    (ns : List Bytes) (hw : WFresh win w out top ns)
    (hcb : ∀ g : Forest, g.winOk win → ∀ evs rest, EvsOf g (evs ++ rest) →
      ∃ h', winEvents win out (HLW.init w) (.drStart :: evs) = .ok h' ∧
        h'.w.cwd = w.cwd ∧ WLeftOver win part w.fs h'.w.fs top (top ++ ns.map win.same) g ∧
        (rest = [] → h'.hasError = false →
          ∀ x ∈ g.winSpots win (top ++ ns.map win.same), h'.w.fs x.1 ≠ none) ∧
        more (g.winSpots win (top ++ ns.map win.same)) h'.w.fs)
    (hmore : ∀ A, (∀ s ∈ A, w.fs s.1 = none) → more A w.fs)
    {f : Forest} (hf : f.proper) (hfw : f.winOk win) {junk t : Bytes} (hj : junk.length = 120)
    (he : Encodes f t) (size : Nat) (inp : Input)
    (harc : plain (allowed size 0 inp.data) <+: headerBytes 0 1 junk ++ t) :
    ∃ n0 r, (∀ fuel, n0 ≤ fuel → winExtract Z win ok fuel hdr item out size inp w = .ok r) ∧
      r.w.cwd = w.cwd ∧ WLeftOver win part w.fs r.w.fs top (top ++ ns.map win.same) f ∧
      (plain (allowed size 0 inp.data) = headerBytes 0 1 junk ++ t → allowed size 0 inp.data ≠ [] →
        inp.err = false → r.hasError = false →
        (∀ c ∈ r.codes, c = Z_OK) → 0 < r.room ∨ C.Prompt (allowed size 0 inp.data) →
        ∀ x ∈ f.winSpots win (top ++ ns.map win.same), r.w.fs x.1 ≠ none) ∧
      more (f.winSpots win (top ++ ns.map win.same)) r.w.fs := by
  obtain ⟨n0, X, h1, h2, h3⟩ := winExtract_ends C ok hdr item hh hi win out w size inp
  have e2 := C02_header_roundtrip 0 1 junk hj (by decide) (by decide)
  have hl128 : (headerBytes 0 1 junk).length = 128 := e2.1
  have hver : hdrVersion ((headerBytes 0 1 junk ++ t).take 128) = 0 := by
    rw [List.take_left' hl128]; exact e2.2.1
  have hold : WLeftOver win part w.fs w.fs top (top ++ ns.map win.same) f :=
    ⟨fun _ _ => rfl, fun x ⟨q, hq⟩ => .inl (hq ▸ hw.absent q)⟩
  have fresh : ∀ g, Relinked f g → ∀ evs rest, EvsOf g (evs.map Ev.closed ++ rest) →
      ∃ h', winEvents win out (HLW.init w) (.drStart :: evs) = .ok h' ∧ h'.w.cwd = w.cwd ∧
        WLeftOver win part w.fs h'.w.fs top (top ++ ns.map win.same) f ∧
        (rest = [] → h'.hasError = false →
          ∀ x ∈ f.winSpots win (top ++ ns.map win.same), h'.w.fs x.1 ≠ none) ∧
        more (f.winSpots win (top ++ ns.map win.same)) h'.w.fs := by
    intro g hg evs rest hev
    obtain ⟨_, gok, gsp⟩ := hg.winOk win
    obtain ⟨h', a1, a2, a3, a4, a5⟩ := hcb g (gok hfw) _ rest hev
    refine ⟨h', ?_, a2, ⟨a3.outside, fun x hx => ?_⟩, ?_, by rw [← gsp]; exact a5⟩
    · rw [← winEvents_closed]; exact a1
    · rcases a3.inside x hx with c | c | c
      · exact .inl c
      · exact .inr (.inl c)
      · refine .inr (.inr ?_)
        revert c
        cases h'.w.fs x with
        | none => exact id
        | some n => cases n <;> simp only [Forest.winRemains, gsp] <;> exact id
    · rw [← gsp]; exact a4
  cases hX : X with
  | error e =>
    exfalso
    cases h3 e hX with
    | callback a b c =>
      rcases log_relinked hj he ok hok hf (a.trans harc) b with ⟨rfl, _⟩ | ⟨g, evs, rest, k1, _, rfl, hev, _⟩
      · cases c
      · obtain ⟨h', g1, _⟩ := fresh g k1 evs rest hev
        rw [g1] at c; cases c
    | version a b => rw [(take_header harc a).1] at b; exact absurd hver b
  | ok r =>
    subst hX
    obtain ⟨P, log, h, Dn⟩ := h2 r rfl
    have hrun := Dn.run
    have hfull : plain (allowed size 0 inp.data) = headerBytes 0 1 junk ++ t →
        allowed size 0 inp.data ≠ [] → inp.err = false → r.hasError = false → (∀ c ∈ r.codes, c = Z_OK) →
        0 < r.room ∨ C.Prompt (allowed size 0 inp.data) → P = headerBytes 0 1 junk ++ t := by
      intro hall hne hin h1 h2 h3
      rcases Dn.full hin h1 h2 h3 (.inl hne) with h | ⟨h, h'⟩
      · rw [h, hall]
      · rw [(take_header (Dn.pre.trans harc) h).1] at h'
        exact absurd hver h'
    refine ⟨n0, r, h1, ?_⟩
    rw [Dn.world]
    rcases log_relinked hj he ok hok hf (Dn.pre.trans harc) Dn.arch with ⟨rfl, hemp⟩ |
      ⟨g, evs, rest, k1, _, rfl, hev, hrest⟩
    · cases hrun
      refine ⟨rfl, hold, fun a a' b c d e x hx => ?_, hmore _ fun s hs => ?_⟩
      rotate_left
      · obtain ⟨k, _, q, e⟩ := f.winSpots_under win _ s hs
        rw [e, List.append_assoc]
        exact hw.absent _
      have ht := hemp (hfull a a' b c d e)
      exfalso
      cases he with
      | nil => cases hx
      | file h1 => have := congrArg List.length ht; simp [h1] at this
      | link h1 => have := congrArg List.length ht; simp [h1] at this
      | dir h1 => have := congrArg List.length ht; simp [h1] at this
    · obtain ⟨h', g1, g2, g3, g4, g5⟩ := fresh g k1 evs rest hev
      rw [g1] at hrun
      cases hrun
      exact ⟨g2, g3, fun a a' b c d e => g4 (hrest (hfull a a' b c d e)) (Dn.error.symm.trans c), g5⟩

/-- C114: whatever calls fail, and however little of the bytes given to them the writing calls store, an
extraction on Windows into a directory that could be created changes nothing outside it, and inside it
there is at every place what the archive has there, or nothing: a directory, or a file, protected as the
archive says, with parts of its content in order.  If no error is reported and the archive arrived
completely, every file and directory of the archive is there.
Missing: an output directory that cannot be created (`C114_outdir_false`), memory running out for the path
of a directory (`C114_memory_false`); that the content of the files is complete, even if no error is
reported (`C114_silent_false`). -/
theorem C114_failing_calls_partial (C : InflateOK Z plain) (ok : AllocOracle)
    (hok : ∀ k n, ok k n = true) (hdr item : Bytes) (hh : hdr.length = 128) (hi : item.length = 40)
    (win : Win) (hmem : ∀ k, win.noMem k = false) (w : WWorld) (out : Bytes) (top : Loc)
    (ns : List Bytes) (hw : WFresh win w out top ns) (hmk : (winMkdir win out w).1 = 0)
    {f : Forest} (hf : f.proper) (hfw : f.winOk win) {junk t : Bytes} (hj : junk.length = 120)
    (he : Encodes f t) (size : Nat) (inp : Input)
    (harc : plain (allowed size 0 inp.data) <+: headerBytes 0 1 junk ++ t) :
    ∃ n0 r, (∀ fuel, n0 ≤ fuel → winExtract Z win ok fuel hdr item out size inp w = .ok r) ∧
      r.w.cwd = w.cwd ∧ WLeftOver win List.Sublist w.fs r.w.fs top (top ++ ns.map win.same) f ∧
      (plain (allowed size 0 inp.data) = headerBytes 0 1 junk ++ t → allowed size 0 inp.data ≠ [] →
        inp.err = false → r.hasError = false →
        (∀ c ∈ r.codes, c = Z_OK) → 0 < r.room ∨ C.Prompt (allowed size 0 inp.data) →
        ∀ x ∈ f.winSpots win (top ++ ns.map win.same), r.w.fs x.1 ≠ none) := by
  obtain ⟨n0, r, h1, h2, h3, h4, _⟩ := leftOver_extract C ok hok hdr item hh hi win List.Sublist (fun _ _ => True) w
    out top ns hw (by
      intro g hg evs rest hev
      obtain ⟨h', a1, _, a2, a3, a4, _⟩ := leftOver_win (wreads_any win) (fun _ _ _ h h' => h.trans h'.sublist)
        hmem hw hmk hg hev
      exact ⟨h', a1, a2, a3, a4, trivial⟩) (fun _ _ => trivial) hf hfw hj he size inp harc
  exact ⟨n0, r, h1, h2, h3, h4⟩

end

namespace WinSample
open HLSample

/-- The tree `d/e/R` (protected), `b`, with a link. -/
def lossTree : Forest :=
  .dir [100] 0o750 (.dir [101] 0o700 (.file [82] 0o440 [7, 8, 9] .nil) .nil) (.link [108] 0o777 [116]
    (.file [98] 0o600 [3] .nil))

/-- One call is refused, that for `d`, and writes store all but the last byte. -/
def shakyWin : Win := { win with refuses := fun k => k == 5, accepts := fun _ n => n - 1 }

end WinSample

open WinSample HLSample in
/-- The theorem for this tree, extracted to `o`. -/
example := C114_failing_calls_partial copyIOK (fun _ _ => true) (fun _ _ => rfl) hdrMem itemMem
  List.length_replicate List.length_replicate shakyWin (fun _ => rfl) drive [111] [[99], [111]] []
  ⟨⟨[111], by decide, by decide, by decide +kernel⟩, by simp, by decide, by decide, by decide +kernel, fun q => by
    simp only [drive]
    rw [if_neg (by simp), if_neg (by simp)]⟩ (by decide +kernel) (f := lossTree)
  (by simp +decide [Forest.proper, PlainName, lossTree])
  (by simp +decide [lossTree, Forest.winOk, WinName, PlainName, shakyWin, win, Forest.winNames, Win.same])
  (junk := List.replicate 120 0xEE) List.length_replicate (encodes _ (by decide +kernel)) 0 ⟨dirArc lossTree, false⟩
  (List.prefix_refl _)

open WinSample HLSample in
/-- That run: `d` is there all the same, made with `e` in it; the files lack their last byte; the error is
recorded. -/
example : view [[[99], [111]], [[99], [111], [100]], [[99], [111], [100], [101]],
      [[99], [111], [100], [101], [114]], [[99], [111], [98]]]
    (winExtract copyI shakyWin (fun _ _ => true) 5 hdrMem itemMem [111] 0 ⟨dirArc lossTree, false⟩ drive) =
    .done CT_DIRECTORY true [some .dir, some .dir, some .dir, some (.file true [7, 8]), some (.file false [])] := by
  decide +kernel

open WinSample HLSample in
/-- C114 is false when the output directory cannot be created: the file `a` of the archive, to be extracted
to `o`, is put at the top of the drive. -/
theorem C114_outdir_false :
    view [[[97]], [[99], [111]]] (winExtract copyI { win with refuses := fun k => k == 1 } (fun _ _ => true) 5
      hdrMem itemMem [111] 0 ⟨dirArc (.file [97] 0o600 [3] .nil), false⟩ drive) =
      .done CT_NONE true [some (.file false [3]), none] ∧ drive.fs [[97]] = none := by
  decide +kernel

open WinSample HLSample in
/-- C114 is false when memory runs out: the file `a` of the directory `d` of the archive is put beside
`d`. -/
theorem C114_memory_false :
    view [[[99], [111], [100]], [[99], [111], [97]]]
      (winExtract copyI { win with noMem := fun k => k == 3 } (fun _ _ => true) 5
      hdrMem itemMem [46, 47, 111] 0 ⟨dirArc (.dir [100] 0o700 (.file [97] 0o600 [3] .nil) .nil), false⟩ drive) =
      .done CT_DIRECTORY true [none, some (.file false [3])] := by
  decide +kernel

open WinSample HLSample in
/-- Success is reported although a refused write has left the file `a` empty. -/
theorem C114_silent_false :
    view [[[99], [111], [97]]]
      (winExtract copyI { win with refuses := fun k => k == 4 } (fun _ _ => true) 5
      hdrMem itemMem [111] 0 ⟨dirArc (.file [97] 0o600 [3] .nil), false⟩ drive) =
      .done CT_DIRECTORY false [some (.file false [])] := by
  decide +kernel

end Zwt
