import Verif.Props.Copy
import Verif.Props.HLRelink

/-! C79, sources of any size with links. -/

namespace Zwt

variable {Z : Inflater} {D : Deflater} {plain : Bytes → Bytes}

/-- As `CopyOf`, but of the target of a link there may be only the end (at least one byte). -/
def LooseCopy (os : Os) (src : FS) (p : Bytes) (l : Loc) (keep : Bytes → Entry → Bool) (fs fs' : FS)
    (d : Loc) (n : Bytes) (ns : List Bytes) : Prop :=
  (∀ j, j ≤ ns.length → fs' (d ++ n :: ns.take j) = some (.dir (dirMode os 0o775))) ∧
  (∀ x q, KeptAt keep src p l (x :: q) →
    fs' (d ++ n :: ns ++ x :: q) = (src (l ++ x :: q)).map (Node.copied os) ∨
    ∃ t s, src (l ++ x :: q) = some (.link t) ∧ fs' (d ++ n :: ns ++ x :: q) = some (.link s) ∧
      s <:+ t ∧ s ≠ []) ∧
  (∀ x q, ¬ KeptAt keep src p l (x :: q) → fs' (d ++ n :: ns ++ x :: q) = none) ∧
  ∀ l', (∀ j, j ≤ ns.length → l' ≠ d ++ n :: ns.take j) →
    (∀ x q, l' ≠ d ++ n :: ns ++ x :: q) → fs' l' = fs l'

theorem loose_of_landed {os : Os} {src : FS} {p : Bytes} {l : Loc} {f : Forest} (hp : f.proper)
    (hu : f.pure) (hl : ∀ x q, f.lookup os (x :: q) = (src (l ++ x :: q)).map (Node.copied os))
    {keep : Bytes → Entry → Bool} {fs fs' : FS} {d : Loc} {n : Bytes} {ns : List Bytes} {g : Forest}
    (hg : Relinked (f.prune keep p) g) (h : Landed os fs fs' d n ns g) :
    LooseCopy os src p l keep fs fs' d n ns := by
  refine ⟨h.1, fun x q hk => ?_, fun x q hk => ?_, h.2.2⟩
  · rw [h.2.1]
    have h1 := (prune_disk hp hu hl keep p x q).1 hk
    rcases hg.lookup os (x :: q) with e | ⟨t, s, e1, e2, e3, e4⟩
    · left; rw [← e]; exact h1
    · right
      rw [h1] at e1
      exact ⟨t, s, Node.copied_link e1.symm, e2, e3, e4⟩
  · rw [h.2.1]
    have h1 := (prune_disk hp hu hl keep p x q).2 hk
    rcases hg.lookup os (x :: q) with e | ⟨t, s, e1, e2, e3, e4⟩
    · rw [← e]; exact h1
    · rw [h1] at e1; cases e1

/-- C79, sources of any size with links: as `C79_copy_partial`, but for every source.  Either the
extraction reads beyond its output buffer (`C39_link_end_false`), or the copy is made, all files and
directories as they were, and every link with its target or with a non-empty end of its target
(`C39_large_links_false`); with the whole targets if no output buffer ends inside one.
Missing, besides what is missing there: the beginnings of such targets. -/
theorem C79_copy_any_partial (CD : DeflateOK D plain) (C : InflateOK Z plain)
    -- the source
    {os : Os} {w : World} (ht : w.fs.tree) {env : Env} (henv : env.ok) (H : Shows os w env) {p : Bytes}
    {l : Loc} (A : Archivable os w p l) (keep : Bytes → Entry → Bool)
    (hne : ∃ x, KeptAt keep w.fs p l [x]) (level : Int) (z : D.τ)
    (hz : D.init level = some z) (junk : Bytes) (hj : junk.length = 120)
    -- the target
    (ok : AllocOracle) (hok : ∀ k n, ok k n = true) (hdr item : Bytes) (hh : hdr.length = 128)
    (hi : item.length = 40) (os' : Os) (hq : os'.quiet) (w' : World) (ht' : w'.fs.tree) (pre : Bytes)
    (h0 : 0 ∉ pre) (d : Loc) (hd : InDir os' w' pre d) (ho : OpenDir os' w'.fs d) (n : Bytes)
    (ns : List Bytes) (hn : ∀ x ∈ n :: ns, PlainName x) (hnew : w'.fs (d ++ [n]) = none)
    (hen : Enterable os' (dirMode os' 0o775)) (hlen : ns.length ≤ 61)
    (hfe : ∀ q m, KeptAt keep w.fs p l q → q ≠ [] → w.fs (l ++ q) = some (.dir m) →
      Enterable os' (dirMode os' m))
    (hcwd : CwdOk os' w'.fs w'.cwd) :
    ∃ n1 log b, (∀ fuel, n1 ≤ fuel →
        compressDir D env (keepFilter keep) fuel .plain p () level junk = .ok (0, log)) ∧
      log.getLast? = some b ∧
      ∀ size data, allowed size 0 data = log.flatten → b.length < 524288 →
        ∃ n0 X, (∀ fuel, n0 ≤ fuel → extract Z os' ok fuel hdr item (pre ++ joinNames (n :: ns)) size
            ⟨data, false⟩ w' = X) ∧
          (X = .error .oobRead ∨ ∃ r, X = .ok r) ∧
          ∀ r, X = .ok r →
            (C.Final → CD.Fits → ∀ c ∈ r.codes, c = Z_OK) ∧
            ((∀ c ∈ r.codes, c = Z_OK) → 0 < r.room ∨ C.Prompt log.flatten →
              r.ret = CT_DIRECTORY ∧ r.w.cwd = w'.cwd ∧
              LooseCopy os' w.fs p l keep w'.fs r.w.fs d n ns ∧
              (NoLinkCut ok r.pieces → CopyOf os' w.fs p l keep w'.fs r.w.fs d n ns)) := by
  obtain ⟨es, f, m1, m2, m3, m4, m5⟩ := A.mirror (os' := os') ht H
  obtain ⟨s1, s2⟩ := select_prune keep f p (Forest.pure_readable keep f m4 p)
  have hst : (select (keepFilter keep) p f ()).status ≠ .failed := by rw [s1]; decide
  have hpr : (f.prune keep p).proper := by
    rw [← s2]; exact (select_proper (keepFilter keep) f p ()).2 m3
  have hkept : ∀ {q node}, (f.prune keep p).lookup os' q = some node →
      q ≠ [] ∧ KeptAt keep w.fs p l q ∧ some node = (w.fs (l ++ q)).map (Node.copied os') := by
    intro q node h
    obtain ⟨x, q, rfl, _⟩ := Forest.lookup_head h
    by_cases hk : KeptAt keep w.fs p l (x :: q)
    · have := (prune_disk m3 m4 m5 keep p x q).1 hk
      exact ⟨by simp, hk, by rw [← this, h]⟩
    · have := (prune_disk m3 m4 m5 keep p x q).2 hk
      rw [h] at this; cases this
  have hne' : (select (keepFilter keep) p f ()).forest ≠ .nil := by
    rw [s2]
    intro he
    obtain ⟨x, hx⟩ := hne
    have := (prune_disk m3 m4 m5 keep p x []).1 hx
    rw [he] at this
    have h2 := hx.exists
    cases hf : w.fs (l ++ [x]) with
    | none => exact h2 hf
    | some n => rw [hf] at this; cases this
  have hfe' : (select (keepFilter keep) p f ()).forest.enterable os' := by
    rw [s2]
    refine Forest.enterable_of _ hpr (fun q m h => ?_)
    obtain ⟨h1, h2, h3⟩ := hkept h
    obtain ⟨m', h4, h5⟩ := Node.copied_dir h3
    rw [h5]
    exact hfe q m' h2 h1 h4
  obtain ⟨n1, log, b, c1, c2, c3⟩ := C39_round_trip_any_partial CD C env henv (keepFilter keep) m1
    m2 () level z hz junk hj hst hne' ok hok hdr item hh hi os' hq w' ht' pre h0 d hd ho n ns hn hnew
    hen hlen m3 hfe' hcwd
  refine ⟨n1, log, b, c1, c2, fun size data hal hb => ?_⟩
  obtain ⟨n0, X, x1, x2, x3⟩ := c3 size data hal hb
  refine ⟨n0, X, x1, x2, fun r hr => ⟨(x3 r hr).1, fun a b => ?_⟩⟩
  obtain ⟨y1, y2, g, g1, g2, g3⟩ := (x3 r hr).2 a b
  rw [s2] at g1 g2
  exact ⟨y1, y2, loose_of_landed m3 m4 m5 g1 g3, fun h => copy_of_landed m3 m4 m5 (g2 h ▸ g3)⟩

open HLSample CopySample in
/-- Example: the hypotheses are met by the directory of the example for `C79_copy_partial`, with its
link kept. -/
example := C79_copy_any_partial queueDOK copyIOK tree (env := envOf os (world nodes) (places nodes))
  (fun _ => by simp [envOf]) shows archivable (fun _ _ => true) ⟨[97], ⟨_, at_a, rfl⟩, trivial⟩ 6 [] rfl
  (List.replicate 120 0) List.length_replicate (fun _ _ => true) (fun _ _ => rfl) hdrMem itemMem
  List.length_replicate List.length_replicate os os_quiet (world nodes) tree [] (by decide)
  [[104], [119]] .rel ⟨0o755, by decide +kernel, .inr (by decide)⟩ [111] [[112]] (by decide +kernel)
  (by decide +kernel) (.inr (by decide)) (by decide) (fun q m _ => enters q m) cwd_ok

end Zwt
