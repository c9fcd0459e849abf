import Verif.Props.CopyLoose
import Verif.Props.InterruptLink

/-! C119: what the beginning of an archive is good for. -/

namespace Zwt

variable {Z : Inflater} {D : Deflater} {plain : Bytes → Bytes}

/-- C119: a directory without links on a disk is archived through a filter without memory.  However much of
the archive there is, and wherever its extraction to a new directory is cut off: every entry of the source
that is there has its permissions as far as the umask allows, files hold a beginning of their content, and
all but one of them all of it; nothing else is there, and nothing that was there before has changed. -/
theorem C119_beginning (CD : DeflateOK D plain) (C : InflateOK Z plain)
    -- the source
    {os : Os} {w : World} (ht : w.fs.tree) {env : Env} (henv : env.ok) (H : Shows os w env) {p : Bytes}
    {l : Loc} (A : Archivable os w p l) (keep : Bytes → Entry → Bool) (level : Int) (z : D.τ)
    (hz : D.init level = some z) (junk : Bytes) (hj : junk.length = 120)
    -- the target
    (ok : AllocOracle) (hdr item : Bytes) (hh : hdr.length = 128)
    (hi : item.length = 40) (os' : Os) (hq : os'.quiet) (w' : World) (ht' : w'.fs.tree) (pre : Bytes)
    (h0 : 0 ∉ pre) (d : Loc) (hd : InDir os' w' pre d) (ho : OpenDir os' w'.fs d) (n : Bytes)
    (ns : List Bytes) (hn : ∀ x ∈ n :: ns, PlainName x) (hnew : w'.fs (d ++ [n]) = none)
    (hen : Enterable os' (dirMode os' 0o775)) (hlen : ns.length ≤ 61)
    (hfe : ∀ q m, KeptAt keep w.fs p l q → q ≠ [] → w.fs (l ++ q) = some (.dir m) →
      Enterable os' (dirMode os' m))
    (hnl : ∀ q t, KeptAt keep w.fs p l q → w.fs (l ++ q) ≠ some (.link t)) :
    ∃ n1 log final, (∀ fuel, n1 ≤ fuel →
        compressDir D env (keepFilter keep) fuel .plain p () level junk = .ok (0, log)) ∧
      CopyOf os' w.fs p l keep w'.fs final d n ns ∧
      ∀ size inp, allowed size 0 inp.data <+: log.flatten →
        ∃ n0, ∀ fuel, n0 ≤ fuel → ∀ k,
          let now := ((extractP Z ok fuel hdr item (pre ++ joinNames (n :: ns)) size inp).after os' k w').2.fs
          w'.fs.partOf now ∧ now.partOf final ∧ (∀ x, final x = w'.fs x → now x = w'.fs x) ∧
            now.nearly final := by
  obtain ⟨es, f, m1, m2, m3, m4, m5⟩ := A.mirror (os' := os') ht H
  have hkept : ∀ {q node}, (f.prune keep p).lookup os' q = some node →
      q ≠ [] ∧ KeptAt keep w.fs p l q ∧ some node = (w.fs (l ++ q)).map (Node.copied os') := by
    intro q node h
    obtain ⟨x, q, rfl, _⟩ := Forest.lookup_head h
    by_cases hk : KeptAt keep w.fs p l (x :: q)
    · have := (prune_disk m3 m4 m5 keep p x q).1 hk
      exact ⟨by simp, hk, by rw [← this, h]⟩
    · have := (prune_disk m3 m4 m5 keep p x q).2 hk
      rw [h] at this; cases this
  have hrd := Forest.pure_readable keep f m4 p
  have hpr : (f.prune keep p).proper := by
    rw [← (select_prune keep f p hrd).2]; exact (select_proper (keepFilter keep) f p ()).2 m3
  have hfe' : (f.prune keep p).enterable os' := by
    refine Forest.enterable_of _ hpr (fun q m h => ?_)
    obtain ⟨h1, h2, h3⟩ := hkept h
    obtain ⟨m', h4, h5⟩ := Node.copied_dir h3
    rw [h5]
    exact hfe q m' h2 h1 h4
  have hno' : (f.prune keep p).noLinks := by
    refine Forest.noLinks_of (os := os') _ hpr (fun q t h => ?_)
    obtain ⟨_, h2, h3⟩ := hkept h
    exact hnl q t h2 (Node.copied_link h3)
  obtain ⟨n1, log, d1, t, d2, d3, _⟩ := C28_refused_pruned CD env henv keep m1 m2 hrd level z hz junk hj
  have key := fun size inp harc => C76_interrupted_tree C ok hdr item hh hi os' hq w' ht' pre h0 d hd ho n ns
    hn hnew hen hlen hpr hfe' hno' hj d2 size inp harc
  have hmono : ∀ a, a <+: log.flatten → plain a <+: headerBytes 0 1 junk ++ t := by
    rintro a ⟨b, hb⟩
    refine List.IsPrefix.trans ?_ d3
    rw [← hb]
    exact C.mono a b
  obtain ⟨final, f1, _⟩ := key 0 ⟨[], false⟩ (hmono _ (by simp [allowed]))
  refine ⟨n1, log, final, d1, copy_of_landed m3 m4 m5 f1, fun size inp hal => ?_⟩
  obtain ⟨final', g1, n0, g2⟩ := key size inp (hmono _ hal)
  rw [g1.unique f1] at g2
  exact ⟨n0, g2⟩

/-- C119 with links: as `C119_beginning`, but the copy of which there is a part may have link targets that
lack their beginnings (C19). -/
theorem C119_beginning_links (CD : DeflateOK D plain) (C : InflateOK Z plain)
    -- the source
    {os : Os} {w : World} (ht : w.fs.tree) {env : Env} (henv : env.ok) (H : Shows os w env) {p : Bytes}
    {l : Loc} (A : Archivable os w p l) (keep : Bytes → Entry → Bool) (level : Int) (z : D.τ)
    (hz : D.init level = some z) (junk : Bytes) (hj : junk.length = 120)
    -- the target
    (ok : AllocOracle) (hok : ∀ k n, ok k n = true) (hdr item : Bytes) (hh : hdr.length = 128)
    (hi : item.length = 40) (os' : Os) (hq : os'.quiet) (w' : World) (ht' : w'.fs.tree) (pre : Bytes)
    (h0 : 0 ∉ pre) (d : Loc) (hd : InDir os' w' pre d) (ho : OpenDir os' w'.fs d) (n : Bytes)
    (ns : List Bytes) (hn : ∀ x ∈ n :: ns, PlainName x) (hnew : w'.fs (d ++ [n]) = none)
    (hen : Enterable os' (dirMode os' 0o775)) (hlen : ns.length ≤ 61)
    (hfe : ∀ q m, KeptAt keep w.fs p l q → q ≠ [] → w.fs (l ++ q) = some (.dir m) →
      Enterable os' (dirMode os' m))
    (hcwd : CwdOk os' w'.fs w'.cwd) :
    ∃ n1 log, (∀ fuel, n1 ≤ fuel →
        compressDir D env (keepFilter keep) fuel .plain p () level junk = .ok (0, log)) ∧
      ∀ size inp, allowed size 0 inp.data <+: log.flatten →
        ∃ n0, ∀ fuel, n0 ≤ fuel → ∀ k,
          let now := ((extractP Z ok fuel hdr item (pre ++ joinNames (n :: ns)) size inp).after os' k w').2.fs
          ∃ final, LooseCopy os' w.fs p l keep w'.fs final d n ns ∧
            w'.fs.partOf now ∧ now.partOf final ∧ (∀ x, final x = w'.fs x → now x = w'.fs x) ∧
            now.nearly final := by
  obtain ⟨es, f, m1, m2, m3, m4, m5⟩ := A.mirror (os' := os') ht H
  have hkept : ∀ {q node}, (f.prune keep p).lookup os' q = some node →
      q ≠ [] ∧ KeptAt keep w.fs p l q ∧ some node = (w.fs (l ++ q)).map (Node.copied os') := by
    intro q node h
    obtain ⟨x, q, rfl, _⟩ := Forest.lookup_head h
    by_cases hk : KeptAt keep w.fs p l (x :: q)
    · have := (prune_disk m3 m4 m5 keep p x q).1 hk
      exact ⟨by simp, hk, by rw [← this, h]⟩
    · have := (prune_disk m3 m4 m5 keep p x q).2 hk
      rw [h] at this; cases this
  have hrd := Forest.pure_readable keep f m4 p
  have hpr : (f.prune keep p).proper := by
    rw [← (select_prune keep f p hrd).2]; exact (select_proper (keepFilter keep) f p ()).2 m3
  have hfe' : (f.prune keep p).enterable os' := by
    refine Forest.enterable_of _ hpr (fun q m h => ?_)
    obtain ⟨h1, h2, h3⟩ := hkept h
    obtain ⟨m', h4, h5⟩ := Node.copied_dir h3
    rw [h5]
    exact hfe q m' h2 h1 h4
  obtain ⟨n1, log, d1, t, d2, d3, _⟩ := C28_refused_pruned CD env henv keep m1 m2 hrd level z hz junk hj
  refine ⟨n1, log, d1, fun size inp hal => ?_⟩
  obtain ⟨n0, g⟩ := C76_interrupted_links C ok hok hdr item hh hi os' hq w' ht' pre h0 d hd ho n ns hn hnew hen
    hlen hpr hfe' hcwd hj d2 size inp (by
      obtain ⟨b, hb⟩ := hal
      refine List.IsPrefix.trans ?_ d3
      rw [← hb]
      exact C.mono _ b)
  refine ⟨n0, fun fuel hf k => ?_⟩
  obtain ⟨g', final, h1, h2, h3⟩ := g fuel hf k
  exact ⟨final, loose_of_landed m3 m4 m5 h1 h2, h3⟩

namespace CopySample
open HLSample

theorem kept_no_link (q : List Bytes) (t : Bytes)
    (h : KeptAt (fun _ e => e.ty != .symlink) (world nodes).fs [114] [[104], [119], [114]] q) :
    (world nodes).fs ([[104], [119], [114]] ++ q) ≠ some (.link t) := by
  intro hl
  rcases below q (by rw [hl]; simp) with rfl | rfl | rfl | rfl | rfl
  · rw [at_nil] at hl; cases hl
  · rw [at_a] at hl; cases hl
  · rw [at_d] at hl; cases hl
  · rw [at_b] at hl; cases hl
  · obtain ⟨_, ⟨n, h1, h2⟩, _⟩ := h
    have h1' : (world nodes).fs ([[104], [119], [114]] ++ [[100], [107]]) = some n := h1
    rw [at_k] at h1'
    cases h1'
    simp [Node.type] at h2

end CopySample

open HLSample CopySample in
/-- Example: the directory of the example for `C79_copy_partial`, without its link. -/
example := C119_beginning queueDOK copyIOK tree (env := envOf os (world nodes) (places nodes))
  (fun _ => by simp [envOf]) shows archivable (fun _ e => e.ty != .symlink) 6 [] rfl
  (List.replicate 120 0) List.length_replicate (fun _ _ => true) hdrMem itemMem
  List.length_replicate List.length_replicate os os_quiet (world nodes) tree [] (by decide)
  [[104], [119]] .rel ⟨0o755, by decide +kernel, .inr (by decide)⟩ [111] [[112]] (by decide +kernel)
  (by decide +kernel) (.inr (by decide)) (by decide) (fun q m _ => enters q m) kept_no_link

open HLSample CopySample in
/-- Of its archive the first `m` bytes, extracted to `o` (without its link), up to the call numbered `k`: the
directory `o`, the file `a`, the directory `d`, the file `d/b`. -/
example :
    let go : Nat → Nat → List (Option Node) := fun m k =>
      match compressDir queueD (envOf os (world nodes) (places nodes)) (keepFilter fun _ e => e.ty != .symlink) 9
          .plain [114] () 6 (List.replicate 120 0) with
      | .ok (_, log) => [[[111]], [[111], [97]], [[111], [100]], [[111], [100], [98]]].map fun l =>
          ((extractP copyI (fun _ _ => true) 9 hdrMem itemMem [111] 0 ⟨log.flatten.take m, false⟩).after os k
            (world nodes)).2.fs ([[104], [119]] ++ l)
      | .error _ => []
    go 128 99 = [none, none, none, none] ∧
    go 177 99 = [some (.dir 0o755), some (.file 0o640 [1]), none, none] ∧
    go 999 99 = [some (.dir 0o755), some (.file 0o640 [1, 2]), some (.dir 0o750), some (.file 0o600 [])] ∧
    go 999 4 = [some (.dir 0o755), some (.file 0o640 []), none, none] := by
  decide +kernel

open HLSample CopySample in
/-- Example: the hypotheses are met by the directory of the example for `C79_copy_partial`. -/
example := C119_beginning_links queueDOK copyIOK tree (env := envOf os (world nodes) (places nodes))
  (fun _ => by simp [envOf]) shows archivable (fun _ _ => true) 6 [] rfl
  (List.replicate 120 0) List.length_replicate (fun _ _ => true) (fun _ _ => rfl) hdrMem itemMem
  List.length_replicate List.length_replicate os os_quiet (world nodes) tree [] (by decide)
  [[104], [119]] .rel ⟨0o755, by decide +kernel, .inr (by decide)⟩ [111] [[112]] (by decide +kernel)
  (by decide +kernel) (.inr (by decide)) (by decide) (fun q m _ => enters q m) cwd_ok

end Zwt
