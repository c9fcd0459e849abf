import Verif.Props.CopyLoose
import Verif.Proofs.SelfDisk

/-! The self extractor and directories of any size with links. -/

namespace Zwt

theorem LooseCopy.source_out {os : Os} {src src' : FS} {p : Bytes} {l : Loc} {exe out : Bytes}
    {fs fs' : FS} {d : Loc} {n : Bytes} {ns : List Bytes} {z : Loc} (hz : z.getLast? = some out)
    (hs : ∀ x, x ≠ z → src' x = src x) (h1 : ∀ n, src z = some n → n.type ≠ .dir)
    (h2 : ∀ n, src' z = some n → n.type ≠ .dir)
    (h : LooseCopy os src' p l (packable exe out) fs fs' d n ns) :
    LooseCopy os src p l (packable exe out) fs fs' d n ns := by
  obtain ⟨k1, k2, k3, k4⟩ := h
  refine ⟨k1, fun x q hk => ?_, fun x q hk => ?_, k4⟩
  · obtain ⟨a, b⟩ := keptAt_out (exe := exe) hz hs h1 h2 (x :: q) p l
    rw [← hs _ (b (by simp) hk)]
    exact k2 x q (a.2 hk)
  · exact k3 x q (fun hk' => hk ((keptAt_out (exe := exe) hz hs h1 h2 (x :: q) p l).1.1 hk'))

variable {Z : Inflater} {D : Deflater} {plain : Bytes → Bytes}

/-- Compression with the filter of the self extractor, and extraction, for trees of any size with links. -/
theorem self_tree_any (CD : DeflateOK D plain) (C : InflateOK Z plain) {os : Os} {w : World} (ht : w.fs.tree)
    {env : Env} (henv : env.ok) (H : Shows os w env) {p : Bytes} {l : Loc} (A : Archivable os w p l)
    {exe out : Bytes} (hx : exe ≠ out) {d1 d2 : Loc} (h1 : OnlyIn w.fs l exe d1)
    (h2 : OnlyIn w.fs l out d2) (hne : ∃ x, KeptAt (packable exe out) w.fs p l [x]) (z : D.τ)
    (hz : D.init 9 = some z) (junk : Bytes) (hj : junk.length = 120) :
    ∃ n1 log b, (∀ fuel, n1 ≤ fuel →
        compressDir D env (selfFilter exe out) fuel .plain p ⟨true, true⟩ 9 junk = .ok (0, log)) ∧
      log.getLast? = some b ∧ log.flatten ≠ [] ∧
      ∀ (ok : AllocOracle) (_ : ∀ k n, ok k n = true) (hdr item : Bytes) (_ : hdr.length = 128)
        (_ : item.length = 40) (os' : Os) (_ : os'.quiet) (w' : World) (_ : w'.fs.tree) (pre : Bytes)
        (_ : 0 ∉ pre) (d : Loc) (_ : InDir os' w' pre d) (_ : OpenDir os' w'.fs d) (n : Bytes)
        (ns : List Bytes) (_ : ∀ x ∈ n :: ns, PlainName x) (_ : w'.fs (d ++ [n]) = none)
        (_ : Enterable os' (dirMode os' 0o775)) (_ : ns.length ≤ 61)
        (_ : ∀ q m, KeptAt (packable exe out) w.fs p l q → q ≠ [] → w.fs (l ++ q) = some (.dir m) →
          Enterable os' (dirMode os' m))
        (_ : CwdOk os' w'.fs w'.cwd), b.length < 524288 →
        ∃ n0 X, (∀ fuel, n0 ≤ fuel → extract Z os' ok fuel hdr item (pre ++ joinNames (n :: ns)) 0
            ⟨log.flatten, false⟩ w' = X) ∧ (X = .error .oobRead ∨ ∃ r, X = .ok r) ∧
          ∀ r, X = .ok r →
            (C.Final → CD.Fits → ∀ c ∈ r.codes, c = Z_OK) ∧
            ((∀ c ∈ r.codes, c = Z_OK) → 0 < r.room ∨ C.Prompt log.flatten →
              r.ret = CT_DIRECTORY ∧ r.w.cwd = w'.cwd ∧
              LooseCopy os' w.fs p l (packable exe out) w'.fs r.w.fs d n ns) := by
  obtain ⟨es, f, m1, m2, m3, m4, m5⟩ := A.mirror_all ht H
  obtain ⟨s1, s2, _, _⟩ := select_self hx f p ⟨true, true⟩ m4 (h1.named m3 m4 (m5 os))
    (h2.named m3 m4 (m5 os))
  have hst : (select (selfFilter exe out) p f ⟨true, true⟩).status ≠ .failed := by rw [s1]; decide
  have hpr : (f.prune (packable exe out) p).proper := by
    rw [← s2]; exact (select_proper (selfFilter exe out) f p ⟨true, true⟩).2 m3
  have hne' : (select (selfFilter exe out) p f ⟨true, true⟩).forest ≠ .nil := by
    rw [s2]
    intro he
    obtain ⟨x, hx⟩ := hne
    have := (prune_disk m3 m4 (m5 os) (packable exe out) p x []).1 hx
    rw [he] at this
    have h2 := hx.exists
    cases hf : w.fs (l ++ [x]) with
    | none => exact h2 hf
    | some n => rw [hf] at this; cases this
  obtain ⟨n1, log, d1, t, d2, d3, b, c2, d5⟩ := C27_directory_archive CD env henv
    (selfFilter exe out) m1 m2 ⟨true, true⟩ 9 z hz junk hj hst
  have hlog : log.flatten ≠ [] := by
    intro h
    by_cases hb : b.length < 524288
    · have := d5 hb
      rw [h, CD.plain_nil hz] at this
      have := congrArg List.length this
      rw [List.length_append, (C02_header_roundtrip 0 1 junk hj (by decide) (by decide)).1] at this
      simp [MAIN_HEADER_SIZE] at this
      omega
    · have := (List.sublist_flatten_of_mem (List.mem_of_getLast? c2)).length_le
      rw [h, List.length_nil] at this
      omega
  refine ⟨n1, log, b, d1, c2, hlog, ?_⟩
  intro ok hok hdr item hh hi os' hq w' ht' pre h0 d hd ho n ns hn hnew hen hlen hfe hcw hb
  have hkept : ∀ {q node}, (f.prune (packable exe out) p).lookup os' q = some node →
      q ≠ [] ∧ KeptAt (packable exe out) w.fs p l q ∧
        some node = (w.fs (l ++ q)).map (Node.copied os') := by
    intro q node h
    obtain ⟨x, q, rfl, _⟩ := Forest.lookup_head h
    by_cases hk : KeptAt (packable exe out) w.fs p l (x :: q)
    · have := (prune_disk m3 m4 (m5 os') (packable exe out) p x q).1 hk
      exact ⟨by simp, hk, by rw [← this, h]⟩
    · have := (prune_disk m3 m4 (m5 os') (packable exe out) p x q).2 hk
      rw [h] at this; cases this
  have hfe' : (select (selfFilter exe out) p f ⟨true, true⟩).forest.enterable os' := by
    rw [s2]
    refine Forest.enterable_of _ hpr (fun q m h => ?_)
    obtain ⟨h1, h2, h3⟩ := hkept h
    obtain ⟨m', h4, h5⟩ := Node.copied_dir h3
    rw [h5]
    exact hfe q m' h2 h1 h4
  have hal : allowed 0 0 log.flatten = log.flatten := rfl
  obtain ⟨n2, log', b', c1, c2', c3⟩ := C39_round_trip_any_partial CD C env henv (selfFilter exe out) m1
    m2 ⟨true, true⟩ 9 z hz junk hj hst hne' ok hok hdr item hh hi os' hq w' ht' pre h0 d hd ho n ns hn
    hnew hen hlen m3 hfe' hcw
  have e1 := c1 (max n1 n2) (by omega)
  rw [d1 (max n1 n2) (by omega)] at e1
  cases e1
  rw [c2] at c2'
  cases c2'
  obtain ⟨n0, X, x1, x2, x3⟩ := c3 0 log.flatten hal hb
  refine ⟨n0, X, x1, x2, fun r hr => ⟨(x3 r hr).1, fun a b => ?_⟩⟩
  obtain ⟨y1, y2, g, g1, _, g3⟩ := (x3 r hr).2 a b
  rw [s2] at g1
  exact ⟨y1, y2, loose_of_landed m3 m4 (m5 os') g1 g3⟩

end Zwt
