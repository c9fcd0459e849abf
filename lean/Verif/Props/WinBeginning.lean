import Verif.Spec.WinPart
import Verif.Props.WinCopy
import Verif.Props.WinStop
import Verif.Props.Walk

/-! C119 on Windows. -/

namespace Zwt

section
variable {plain : Bytes → Bytes} {D : Deflater} {Z : Inflater}

theorem WLeftOver.part {win : Win} {src : WFS} {l : Loc} {fs now : WFS} {top b : Loc} {f : Forest}
    (hb : top <+: b) (h : WLeftOver win (· <+: ·) fs now top b f) (h1 : AtMostOne (f.winSpots win b) now)
    (hs : ∀ s ∈ f.winSpots win b, ∃ q, q ≠ [] ∧ s.1 = b ++ q)
    (hx : ∀ q node, q ≠ [] → ((b ++ q, node) ∈ f.winSpots win b ↔ src (l ++ q) = some node)) :
    WPartCopy src l fs now top b := by
  have hin : ∀ q, top <+: b ++ q := fun q => hb.trans (List.prefix_append _ _)
  have hnot : ∀ q, q ≠ [] → ¬ b ++ q <+: b := by
    intro q hq hp
    have := hp.length_le
    have : q.length ≠ 0 := fun h => hq (List.length_eq_zero_iff.mp h)
    simp only [List.length_append] at *
    omega
  refine ⟨h.outside, fun x hx' hq => ?_, fun q hq hd => ?_, fun q ro c hc => ?_, ?_⟩
  · rcases h.inside x hx' with e | e | e
    · exact .inl e
    · exact .inr e
    · cases hn : now x with
      | none => exact .inl rfl
      | some nd =>
        rw [hn] at e
        exfalso
        cases nd with
        | dir => obtain ⟨q, a, c⟩ := hs _ e; exact hq q a c
        | file ro c =>
          obtain ⟨c', e, _⟩ := e
          obtain ⟨q, a, c⟩ := hs _ e; exact hq q a c
  · rcases h.inside _ (hin q) with e | e | e
    · rw [hd] at e; cases e
    · exact absurd e.1 (hnot q hq)
    · rw [hd] at e; exact (hx q _ hq).mp e
  · rcases h.inside _ (hin q) with e | e | e
    · rw [hc] at e; cases e
    · rw [hc] at e; cases e.2
    · rw [hc] at e
      obtain ⟨c', e, hp⟩ := e
      have hq : q ≠ [] := by
        rintro rfl
        obtain ⟨q, a, c⟩ := hs _ e
        exact a (by simpa using c)
      exact ⟨c', (hx q _ hq).mp e, hp⟩
  · obtain ⟨y, hy⟩ := h1
    refine ⟨y.drop b.length, fun q hq hne => ?_⟩
    cases hn : now (b ++ q) with
    | none => exact .inl rfl
    | some nd =>
      have hmem : ∃ nd', (b ++ q, nd') ∈ f.winSpots win b := by
        rcases h.inside _ (hin q) with e | e | e
        · rw [hn] at e; cases e
        · exact absurd e.1 (hnot q hq)
        · rw [hn] at e
          cases nd with
          | dir => exact ⟨_, e⟩
          | file ro c => obtain ⟨c', e, _⟩ := e; exact ⟨_, e⟩
      obtain ⟨nd', hm⟩ := hmem
      rcases hy _ hm (fun e => hne (by rw [← e]; simp)) with e | e
      · rw [hn] at e; cases e
      · rw [hn] at e
        exact .inr (by rw [(hx q nd' hq).mp hm]; exact e)

/-- C119 on Windows: a directory of a Windows drive is archived.  However much of the archive there is, and
after whatever call its extraction to a new place of a Windows drive is cut off, there is part of a copy, with
at most one incomplete file, and nothing else changes. -/
theorem C119_windows (CD : DeflateOK D plain) (C : InflateOK Z plain) (win : Win) (K : Nat) (hs : win.stopsAt K)
    -- compression
    (w : WWorld) (ht : w.fs.tree) (env : Env) (henv : env.ok) (H : WShows win w env) (p : Bytes) (l : Loc)
    (A : WArchivable win w env p l) (level : Int) (z : D.τ)
    (hz : D.init level = some z) (junk : Bytes) (hj : junk.length = 120)
    -- extraction
    (ok : AllocOracle) (hok : ∀ k n, ok k n = true) (hdr item : Bytes) (hh : hdr.length = 128)
    (hi : item.length = 40) (w' : WWorld) (out : Bytes) (top : Loc) (ns : List Bytes)
    (hw : WFresh win w' out top ns) :
    ∃ n1 log, (∀ fuel, n1 ≤ fuel →
        winCompressDir D env acceptAll fuel .plain p () level junk = .ok (0, log)) ∧
      ∀ size inp, allowed size 0 inp.data <+: log.flatten →
        ∃ n0 r, (∀ fuel, n0 ≤ fuel → winExtract Z win ok fuel hdr item out size inp w' = .ok r) ∧
          r.w.cwd = w'.cwd ∧ WPartCopy w.fs l w'.fs r.w.fs top (top ++ ns.map win.same) := by
  have he : env.sameFiles env.anyLinks := ⟨rfl, rfl, rfl, rfl⟩
  have H' : WShows win w env.anyLinks := ⟨H.list, H.stat, H.open'⟩
  have A' : WArchivable win w env.anyLinks p l := ⟨A.leads, A.isDir, A.files, A.top, A.short⟩
  obtain ⟨es, f, h1, h2, h3, h4, h5, h6, h7⟩ := A'.mirror ht H' fun _ => ⟨rfl, rfl⟩
  have hfl : Filter.noLinks acceptAll = keepFilter noLink := noLinks_all
  have hrd := f.pure_readable noLink h4 p
  have hpr : (f.prune noLink p).proper := by
    rw [← (select_prune noLink f p hrd).2]; exact (select_proper (keepFilter noLink) f p ()).2 h3
  obtain ⟨p1, _, p3, p4⟩ := f.prune_noLink win p
  obtain ⟨n1, log, d1, t, d2, d3, _⟩ := C28_refused_pruned CD env.anyLinks henv noLink h1 h2 hrd level z hz junk hj
  refine ⟨n1, log, fun fuel hfu => ?_, fun size inp hal => ?_⟩
  · rw [C110_no_links D he acceptAll fuel (fn := .plain) (by intro xs h; cases h), hfl]
    exact d1 fuel hfu
  · obtain ⟨n0, r, x1, x2, x3, _, x4⟩ := C117_cut_off C ok hok hdr item hh hi win K hs w' out top ns hw hpr
      (p3 h5) hj d2 size inp (by
        obtain ⟨b, hb⟩ := hal
        refine List.IsPrefix.trans ?_ d3
        rw [← hb]
        exact C.mono _ b)
    refine ⟨n0, r, x1, x2, x3.part (List.prefix_append _ _) x4 (fun s hs => ?_) fun q node hq => ?_⟩
    · rw [p1] at hs; exact h6 _ s hs
    · rw [p1]; exact h7 _ q node hq

end

namespace WinSample

/-- What is at these places after a run. -/
def nodesAt (ls : List Loc) (x : Run WExtracted) : List (Option WNode) :=
  match x with
  | .ok r => ls.map r.w.fs
  | .error _ => []

theorem broken_walk (K : Nat) (cs : List Bytes) : ∀ l, winWalk (brokenWin K) l cs = winWalk win l cs := by
  induction cs with
  | nil => intro l; rfl
  | cons c cs ih => intro l; simp only [winWalk, ih, show (brokenWin K).key = win.key from rfl]

theorem broken_locate (K : Nat) (cwd : Loc) (p : Bytes) : winLocate (brokenWin K) cwd p = winLocate win cwd p := by
  simp only [winLocate, broken_walk]

theorem broken_shows (K : Nat) : WShows (brokenWin K) source sourceEnv where
  list p l h1 h2 h3 := by
    obtain ⟨es, a, b⟩ := source_shows.list p l h1 (broken_locate K _ p ▸ h2) h3
    exact ⟨es, a, ⟨b.1, b.2, b.3, b.4⟩⟩
  stat p l h1 h2 := source_shows.stat p l h1 (broken_locate K _ p ▸ h2)
  open' p l ro c h1 h2 := source_shows.open' p l ro c h1 (broken_locate K _ p ▸ h2)

end WinSample

open WinSample HLSample in
/-- Example: the directory `s` with the file `R` and the directory `d` with the file `f`, extracted to `o/p`,
cut off after any number of calls. -/
example (K : Nat) := C119_windows queueDOK copyIOK (brokenWin K) K (brokenWin_stops K) source source_tree sourceEnv
  (fun _ => by simp [sourceEnv]) (broken_shows K) [115] [[99], [115]]
  ⟨(broken_locate K _ _).trans source_archivable.leads, source_archivable.isDir, source_archivable.files, source_archivable.top,
    source_archivable.short⟩ 6 [] rfl (List.replicate 120 0) List.length_replicate
  (fun _ _ => true) (fun _ _ => rfl) hdrMem itemMem List.length_replicate List.length_replicate drive
  [111, 47, 112] [[99], [111]] [[112]]
  ⟨⟨[111], by decide, by decide, by simp +decide [winLocate, winWalk, winSplit, winBase, brokenWin, win, drive]⟩,
    by simp +decide [WinName, PlainName, brokenWin, win], by decide, by decide, by decide +kernel, fun q => by
    simp only [drive]
    rw [if_neg (by simp), if_neg (by simp)]⟩

open WinSample HLSample in
/-- Of the archive of `s` all but the last 50 bytes, and all but the last 151; and the whole archive,
extraction cut off before its seventh call. -/
example :
    let at' : List Loc := [[[99], [111]], [[99], [111], [112]], [[99], [111], [112], [114]], [[99], [111], [112], [100]],
      [[99], [111], [112], [100], [102]]]
    let go : Nat → Nat → List (Option WNode) := fun m K => match winCompressDir queueD sourceEnv acceptAll 9 .plain [115] () 6 (List.replicate 120 0) with
      | .ok (_, log) => nodesAt at' (winExtract copyI (brokenWin K) (fun _ _ => true) 9 hdrMem itemMem [111, 47, 112] 0
          ⟨log.flatten.take (log.flatten.length - m), false⟩ drive)
      | .error _ => []
    go 50 99 = [some .dir, some .dir, some (.file true [1, 2]), some .dir, none] ∧
    go 151 99 = [some .dir, some .dir, some (.file true [1]), none, none] ∧
    go 0 6 = [some .dir, some .dir, some (.file true []), none, none] := by
  decide +kernel

end Zwt
