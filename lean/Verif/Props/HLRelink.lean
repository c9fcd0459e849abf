import Verif.Proofs.Relink
import Verif.Proofs.BigSample
import Verif.Props.HLRound

/-! C39: trees with links, of any size. -/

namespace Zwt

variable {Z : Inflater} {D : Deflater} {plain : Bytes → Bytes} {σ : Type}

/-- Extraction of (the archive of) any tree. -/
theorem extract_relinked (C : InflateOK Z plain) (hnil : plain [] = []) (ok : AllocOracle)
    (hok : ∀ k n, ok k n = true) (hdr item : Bytes) (hh : hdr.length = 128) (hi : item.length = 40)
    (os : Os) (hq : os.quiet) (w : World) (ht : w.fs.tree) (pre : Bytes)
    (h0 : 0 ∉ pre) (d : Loc) (hd : InDir os w pre d) (ho : OpenDir os w.fs d) (n : Bytes)
    (ns : List Bytes) (hn : ∀ x ∈ n :: ns, PlainName x) (hnew : w.fs (d ++ [n]) = none)
    (hen : Enterable os (dirMode os 0o775)) (hlen : ns.length ≤ 61) {f : Forest} (hf : f.proper)
    (hfe : f.enterable os) (hfn : f ≠ .nil) {junk t : Bytes} (hj : junk.length = 120)
    (he : Encodes f t) (size : Nat) (inp : Input) (hin : inp.err = false)
    (hcwd : CwdOk os w.fs w.cwd)
    (harc : plain (allowed size 0 inp.data) = headerBytes 0 1 junk ++ t) :
    ∃ n0 X, (∀ fuel, n0 ≤ fuel →
        extract Z os ok fuel hdr item (pre ++ joinNames (n :: ns)) size inp w = X) ∧
      (X = .error .oobRead ∨ ∃ r, X = .ok r) ∧
      ∀ r, X = .ok r → r.hasError = false ∧
        (C.Final → Open plain (allowed size 0 inp.data) → ∀ c ∈ r.codes, c = Z_OK) ∧
        ((∀ c ∈ r.codes, c = Z_OK) → 0 < r.room ∨ C.Prompt (allowed size 0 inp.data) →
          r.ret = CT_DIRECTORY ∧ r.w.cwd = w.cwd ∧ ∃ g, Relinked f g ∧
            (NoLinkCut ok r.pieces → g = f) ∧ Landed os w.fs r.w.fs d n ns g) := by
  obtain ⟨n0, X, h1, h2, h3⟩ :=
    extract_ends C ok hdr item hh hi os (pre ++ joinNames (n :: ns)) w size inp
  have e2 := C02_header_roundtrip 0 1 junk hj (by decide) (by decide)
  have hl128 : (headerBytes 0 1 junk).length = 128 := e2.1
  have hver : hdrVersion ((headerBytes 0 1 junk ++ t).take 128) = 0 := by
    rw [List.take_left' hl128]; exact e2.2.1
  have htne : t ≠ [] := by
    intro h
    cases he with
    | nil => exact hfn rfl
    | file h1 => have := congrArg List.length h; simp [h1] at this
    | link h1 => have := congrArg List.length h; simp [h1] at this
    | dir h1 => have := congrArg List.length h; simp [h1] at this
  have fresh := fun (g : Forest) (hg : Relinked f g) evs rest he =>
    tree_fresh os hq w ht pre h0 d hd ho n ns hn hnew hen hlen (hg.proper hf) (hg.enterable os hfe)
      (evs := evs) (rest := rest) (.inr hcwd) he
  have hcodes : ∀ r, X = .ok r → C.Final → Open plain (allowed size 0 inp.data) →
      ∀ c ∈ r.codes, c = Z_OK := by
    intro r hr hF hO
    obtain ⟨m0, hm⟩ := extract_codes C hF ok hdr item hh hi os (pre ++ joinNames (n :: ns)) w size inp
      hO (by rw [harc]; exact hver)
    exact hm (max n0 m0) r (by omega) (by rw [h1 _ (by omega), hr])
  refine ⟨n0, X, h1, ?_, ?_⟩
  · cases hX : X with
    | ok r => exact .inr ⟨r, rfl⟩
    | error e =>
      left
      cases h3 e hX with
      | callback a b c =>
        rw [harc] at a
        rcases log_relinked hj he ok hok hf a b with ⟨rfl, _⟩ | ⟨g, evs, rest, k1, _, rfl, hev, _⟩
        · cases c
        · obtain ⟨h', g1, _⟩ := fresh g k1 _ rest hev
          rcases hlEvents_closed os (pre ++ joinNames (n :: ns)) (.drStart :: evs) (HL.init w) with q | q
          · rw [q, List.map_cons] at c
            have g1' : hlEvents os (pre ++ joinNames (n :: ns)) (HL.init w)
              (Ev.closed .drStart :: evs.map Ev.closed) = .ok h' := g1
            rw [g1'] at c; cases c
          · rw [q] at c; cases c; rfl
      | version a b => rw [harc] at b; exact absurd hver b
  · intro r hr
    obtain ⟨P, log, h, Dn⟩ := h2 r hr
    have hpre := Dn.pre
    rw [harc] at hpre
    have hrun := Dn.run
    have hret : r.ret = h.ret := by
      rcases Dn.ret with h | h
      · exact h
      · rw [hin] at h; simp at h
    have hfull : r.hasError = false → (∀ c ∈ r.codes, c = Z_OK) →
        0 < r.room ∨ C.Prompt (allowed size 0 inp.data) → P = headerBytes 0 1 junk ++ t := by
      intro h1 h2 h3
      have hne : allowed size 0 inp.data ≠ [] := by
        intro h
        rw [h, hnil] at harc
        have := congrArg List.length harc
        simp only [List.length_append, List.length_nil] at this
        omega
      rcases Dn.full hin h1 h2 h3 (.inl hne) with h | ⟨h, h'⟩
      · rw [h, harc]
      · rw [(take_header hpre h).1] at h'
        exact absurd hver h'
    rcases log_relinked hj he ok hok hf hpre Dn.arch with ⟨rfl, hemp⟩ |
      ⟨g, evs, rest, k1, k2, rfl, hev, hrest⟩
    · cases hrun
      have herr : r.hasError = false := Dn.error
      exact ⟨herr, hcodes r hr, fun a b => absurd (hemp (hfull herr a b)) htne⟩
    · obtain ⟨h', g1, g2, g3⟩ := fresh g k1 _ rest hev
      rcases hlEvents_closed os (pre ++ joinNames (n :: ns)) (.drStart :: evs) (HL.init w) with q | q
      · have g1' : hlEvents os (pre ++ joinNames (n :: ns)) (HL.init w)
          ((.drStart :: evs).map Ev.closed) = .ok h' := g1
        rw [hrun, g1'] at q
        cases q
        have herr : r.hasError = false := Dn.error.trans g2
        refine ⟨herr, hcodes r hr, fun a b => ?_⟩
        obtain ⟨j1, j2, j3⟩ := g3 (hrest (hfull herr a b))
        rw [hret, Dn.world]
        exact ⟨j1, j2, g, k1, k2, j3⟩
      · rw [hrun] at q; cases q

/-- C39, trees of any size, with links: as `C39_round_trip_partial`, but for every tree.  Either the
extraction reads beyond its output buffer (`C39_link_end_false`), or the tree arrives, all files and
directories as they were, and every link with its target or with a non-empty end of its target
(`C39_large_links_false`); with the whole targets if no output buffer ends inside one.
Missing, besides what is missing there: the beginnings of such targets. -/
theorem C39_round_trip_any_partial (CD : DeflateOK D plain) (C : InflateOK Z plain)
    -- compression
    (env : Env) (henv : env.ok) (flt : Filter σ) {dir : Bytes} {es : List Entry} {f : Forest}
    (hl : env.list dir = some es) (hm : Mirror env dir es f) (fs : σ) (level : Int) (z : D.τ)
    (hz : D.init level = some z) (junk : Bytes) (hj : junk.length = 120)
    (hst : (select flt dir f fs).status ≠ .failed) (hne : (select flt dir f fs).forest ≠ .nil)
    -- extraction
    (ok : AllocOracle) (hok : ∀ k n, ok k n = true) (hdr item : Bytes) (hh : hdr.length = 128)
    (hi : item.length = 40) (os : Os) (hq : os.quiet) (w : World) (ht : w.fs.tree) (pre : Bytes)
    (h0 : 0 ∉ pre) (d : Loc) (hd : InDir os w pre d) (ho : OpenDir os w.fs d) (n : Bytes)
    (ns : List Bytes) (hn : ∀ x ∈ n :: ns, PlainName x) (hnew : w.fs (d ++ [n]) = none)
    (hen : Enterable os (dirMode os 0o775)) (hlen : ns.length ≤ 61) (hf : f.proper)
    (hfe : (select flt dir f fs).forest.enterable os) (hcwd : CwdOk os w.fs w.cwd) :
    ∃ n1 log b, (∀ fuel, n1 ≤ fuel →
        compressDir D env flt fuel .plain dir fs level junk = .ok (0, log)) ∧
      log.getLast? = some b ∧
      ∀ size data, allowed size 0 data = log.flatten → b.length < 524288 →
        ∃ n0 X, (∀ fuel, n0 ≤ fuel → extract Z os ok fuel hdr item (pre ++ joinNames (n :: ns)) size
            ⟨data, false⟩ w = X) ∧
          (X = .error .oobRead ∨ ∃ r, X = .ok r) ∧
          ∀ r, X = .ok r →
            (C.Final → CD.Fits → ∀ c ∈ r.codes, c = Z_OK) ∧
            ((∀ c ∈ r.codes, c = Z_OK) → 0 < r.room ∨ C.Prompt log.flatten →
              r.ret = CT_DIRECTORY ∧ r.w.cwd = w.cwd ∧
              ∃ g, Relinked (select flt dir f fs).forest g ∧
                (NoLinkCut ok r.pieces → g = (select flt dir f fs).forest) ∧
                Landed os w.fs r.w.fs d n ns g) := by
  obtain ⟨n1, log, g, rfl, c1, copen, t, c2, _, b, c3, c4⟩ :=
    compressDir_good CD env henv flt .plain trivial hl hm fs level z hz junk hj hst
  refine ⟨n1, log, b, c1, c3, ?_⟩
  intro size data hal hb
  have c2' : Encodes (select flt dir f fs).forest t := c2
  obtain ⟨_, s2⟩ := select_proper flt f dir fs
  obtain ⟨n0, X, x1, x2, x3⟩ := extract_relinked C (CD.plain_nil hz) ok hok hdr item hh hi os hq w ht
    pre h0 d hd ho n ns hn hnew hen hlen (s2 hf) hfe hne hj c2' size ⟨data, false⟩ rfl hcwd (by
      show plain (allowed size 0 data) = _
      rw [hal]; exact c4 hb)
  refine ⟨n0, X, x1, x2, fun r hr => ?_⟩
  obtain ⟨_, y1, y2⟩ := x3 r hr
  exact ⟨fun hF hT => y1 hF (by show Open plain (allowed size 0 data); rw [hal]; exact copen hT),
    fun a b => y2 a (by show _ ∨ C.Prompt (allowed size 0 data); rw [hal]; exact b)⟩

open HLSample BigSample in
/-- Example: the hypotheses about the trees, for a directory with a link and a filter that keeps it
(the other hypotheses: see the example after `C39_round_trip_partial`); and a tree whose archive does
not fit into one buffer, with the hypotheses of `extract_relinked`. -/
example : let t : Bytes := [120, 46, 46, 47, 46, 46, 47, 46, 46, 47, 98, 99]
    (select (keepFilter fun _ e => e.name ≠ [117]) [114] sampleForest ()).status = .done ∧
    (select (keepFilter fun _ e => e.name ≠ [117]) [114] sampleForest ()).forest =
      .file [97] 0o640 [1, 2] (.dir [100] 0o755 (.file [98] 0o600 [] .nil) (.link [108] 0o777 [116] .nil)) ∧
    (Forest.file [97] 0o640 [1, 2] (.dir [100] 0o755 (.file [98] 0o600 [] .nil)
      (.link [108] 0o777 [116] .nil))).enterable os ∧
    (∃ u, Encodes (tree t) u ∧ 524288 < (headerBytes 0 1 (List.replicate 120 0xEE) ++ u).length) ∧
    (tree t).proper ∧ (tree t).enterable os ∧ CwdOk os (world []).fs (world []).cwd := by
  refine ⟨by decide, by decide, ⟨.inr (by decide), trivial, trivial⟩,
    ⟨encode (tree _), encodes _ (fits_tree _ (by decide)), ?_⟩,
    tree_proper _ (by decide) (by decide), trivial, cwdOk⟩
  rw [encode_tree, List.length_append, List.length_append, List.length_append,
    front_length _ (by decide), pad, List.length_replicate]
  have := (C02_header_roundtrip 0 1 (List.replicate 120 0xEE) List.length_replicate (by decide)
    (by decide)).1
  rw [this]; decide

open HLSample BigSample in
/-- C39 is false for links in trees whose records do not come in one buffer: the link `l` to
`x../../../bc` behind a file of 524048 bytes, where the first buffer ends eight bytes into the target,
does not arrive as it was. -/
theorem C39_large_links_false :
    ¬ ∀ (Z : Inflater) (plain : Bytes → Bytes) (C : InflateOK Z plain), C.Final →
      (∀ c, C.Prompt c) → ∀ (junk t : Bytes) (f : Forest) (w : World) (n : Bytes), junk.length = 120 →
      Encodes f t → f.proper → f.enterable os → f ≠ .nil → w.fs.tree → OpenDir os w.fs w.cwd →
      CwdOk os w.fs w.cwd → PlainName n → w.fs (w.cwd ++ [n]) = none →
      ∀ arc, Open plain arc → plain arc = headerBytes 0 1 junk ++ t →
      ∃ n0 r, (∀ fuel, n0 ≤ fuel →
          extract Z os (fun _ _ => true) fuel hdrMem itemMem n 0 ⟨arc, false⟩ w = .ok r) ∧
        Landed os w.fs r.w.fs w.cwd n [] f := by
  intro H
  let T : Bytes := [120, 46, 46, 47, 46, 46, 47, 46, 46, 47, 98, 99]
  have hTl : T.length = 12 := rfl
  have h0 : 0 ∉ T := by decide
  have hTne : T ≠ [] := by decide
  obtain ⟨n0, r, h1, h2⟩ := H copyI id copyIOK copyIOK_final copyIOK_prompt (List.replicate 120 0xEE)
    (encode (tree T)) (tree T) (world []) [111] List.length_replicate
    (encodes _ (fits_tree T (by decide))) (tree_proper T hTne h0) trivial (by simp [tree]) world_tree
    ⟨0o755, by decide +kernel, .inr (by decide)⟩ cwdOk (by decide) (by decide +kernel) (arc T)
    ⟨[0], by simp⟩ rfl
  obtain ⟨n1, g⟩ := run_ends T h0 (by decide) (by decide)
  obtain ⟨s, a, evs, h, E⟩ := g (max n0 n1) r (by omega) (h1 _ (by omega))
  have hs : s = T := by
    have g1 := E.landed.2.1 [108] []
    have g2 := h2.2.1 [108] []
    have g1' : r.w.fs ([[104], [119]] ++ [[111]] ++ [[108]]) = some (.link s) := by
      simpa [tree, Forest.lookup] using g1
    have g2' : r.w.fs ([[104], [119]] ++ [[111]] ++ [[108]]) = some (.link T) := by
      simpa [tree, Forest.lookup, world, fsOf] using g2
    rw [g1'] at g2'
    simpa using g2'
  obtain ⟨n, u, hn⟩ := E.place
  obtain ⟨k, hk⟩ := E.cut
  -- where the target is
  have hw := E.whole
  have hsplit : r.pieces.flatten = (r.pieces.take n).flatten ++ (u ++ s ++ a) ++
      (r.pieces.drop (n + 1)).flatten := by
    have hlt := (List.getElem?_eq_some_iff.mp hn).1
    have : r.pieces = r.pieces.take n ++ (u ++ s ++ a) :: r.pieces.drop (n + 1) := by
      conv => lhs; rw [← List.take_append_drop n r.pieces, List.drop_eq_getElem_cons hlt]
      rw [(List.getElem?_eq_some_iff.mp hn).2]
    conv => lhs; rw [this]
    simp
  rw [hw, encode_tree, hs] at hsplit
  have hT : T = 120 :: [46, 46, 47, 46, 46, 47, 46, 46, 47, 98, 99] := rfl
  have hfr : (front T.length).length = 524152 := front_length _ (by decide)
  have h120 : (120 : UInt8) ∉ front T.length := by
    intro hx
    have i1 : (120 : UInt8) ∉ item 0 524048 1 0o644 := by decide +kernel
    have i2 : (120 : UInt8) ∉ item 4 T.length 1 0o777 := by decide +kernel
    have i3 : ∀ j, (120 : UInt8) ∉ pad j := fun j hj => by
      have := List.eq_of_mem_replicate hj; revert this; decide
    simp only [front, List.mem_append, List.mem_singleton] at hx
    rcases hx with ((((hx | hx) | hx) | hx) | hx) | ((hx | hx) | hx)
    · exact i1 hx
    · exact absurd hx (by decide)
    · exact i3 _ hx
    · exact absurd (zeros_mem hx) (by decide)
    · exact i3 _ hx
    · exact i2 hx
    · exact absurd hx (by decide)
    · exact i3 _ hx
  have hu : front T.length = (r.pieces.take n).flatten ++ u := by
    refine once (x := 120) (b := [46, 46, 47, 46, 46, 47, 46, 46, 47, 98, 99] ++ pad T.length)
      (d := [46, 46, 47, 46, 46, 47, 46, 46, 47, 98, 99] ++ a ++ (r.pieces.drop (n + 1)).flatten)
      h120 (by decide +kernel) ?_
    rw [hTl] at hsplit ⊢
    simpa [T] using hsplit
  have hul := congrArg List.length hu
  rw [hfr, List.length_append] at hul
  have hb := boundary (k := k) hn
  rw [hk, hs] at hb
  simp only [List.length_append, hTl] at hb
  omega

open HLSample BigSample in
/-- C39 is false for a link whose target ends with its buffer: behind a file of 524048 bytes, the
target `x../../y` of eight bytes is read beyond the bytes delivered. -/
theorem C39_link_end_false :
    ∃ n0, ∀ fuel, n0 ≤ fuel → extract copyI os (fun _ _ => true) fuel hdrMem itemMem [111] 0
      ⟨arc [120, 46, 46, 47, 46, 46, 47, 121], false⟩ (world []) = .error .oobRead := by
  let T : Bytes := [120, 46, 46, 47, 46, 46, 47, 121]
  have hTl : T.length = 8 := rfl
  have h0 : 0 ∉ T := by decide
  have hTne : T ≠ [] := by decide
  obtain ⟨n1, g⟩ := run_ends T h0 (by decide) (by decide)
  obtain ⟨n2, X, x1, x2, _⟩ := extract_relinked copyIOK rfl (fun _ _ => true) (fun _ _ => rfl) hdrMem
    itemMem List.length_replicate List.length_replicate os os_quiet (world []) world_tree [] (by simp)
    [[104], [119]] .rel ⟨0o755, by decide +kernel, .inr (by decide)⟩ [111] [] (by decide +kernel)
    (by decide +kernel) (.inr (by decide)) (by decide) (f := tree T) (tree_proper T hTne h0) trivial
    (by simp [tree]) (junk := List.replicate 120 0xEE) List.length_replicate
    (encodes _ (fits_tree T (by decide))) 0 ⟨arc T, false⟩ rfl cwdOk (by simp [allowed]; rfl)
  refine ⟨max n1 n2, fun fuel hf => ?_⟩
  rcases x2 with rfl | ⟨r, rfl⟩
  · exact x1 fuel (by omega)
  · exfalso
    obtain ⟨s, a, evs, h, E⟩ := g fuel r (by omega) (x1 fuel (by omega))
    obtain ⟨n, u, hn⟩ := E.place
    obtain ⟨k, hk⟩ := E.cut
    have hsplit : r.pieces.flatten = (r.pieces.take n).flatten ++ (u ++ s ++ a) ++
        (r.pieces.drop (n + 1)).flatten := by
      have hlt := (List.getElem?_eq_some_iff.mp hn).1
      have : r.pieces = r.pieces.take n ++ (u ++ s ++ a) :: r.pieces.drop (n + 1) := by
        conv => lhs; rw [← List.take_append_drop n r.pieces, List.drop_eq_getElem_cons hlt]
        rw [(List.getElem?_eq_some_iff.mp hn).2]
      conv => lhs; rw [this]
      simp
    rw [E.whole, encode_tree] at hsplit
    have h121 : (121 : UInt8) ∉ front T.length ++ [120, 46, 46, 47, 46, 46, 47] := by
      intro hx
      have i1 : (121 : UInt8) ∉ item 0 524048 1 0o644 := by decide +kernel
      have i2 : (121 : UInt8) ∉ item 4 T.length 1 0o777 := by decide +kernel
      have i3 : ∀ j, (121 : UInt8) ∉ pad j := fun j hj => by
        have := List.eq_of_mem_replicate hj; revert this; decide
      simp only [front, List.mem_append, List.mem_singleton] at hx
      rcases hx with (((((hx | hx) | hx) | hx) | hx) | ((hx | hx) | hx)) | hx
      · exact i1 hx
      · exact absurd hx (by decide)
      · exact i3 _ hx
      · exact absurd (zeros_mem hx) (by decide)
      · exact i3 _ hx
      · exact i2 hx
      · exact absurd hx (by decide)
      · exact i3 _ hx
      · exact absurd hx (by decide)
    obtain ⟨s', hs'⟩ : ∃ s', s = s' ++ [121] := by
      obtain ⟨v, hv⟩ := E.sfx
      have hd := List.dropLast_concat_getLast E.ne
      rw [← hd, ← List.append_assoc] at hv
      have hx : (v ++ s.dropLast) ++ [s.getLast E.ne] = [120, 46, 46, 47, 46, 46, 47] ++ [121] := hv
      exact ⟨s.dropLast, by rw [← List.append_inj_right' hx rfl]; exact hd.symm⟩
    have hu : front T.length ++ [120, 46, 46, 47, 46, 46, 47] = (r.pieces.take n).flatten ++ u ++ s' := by
      refine once (x := 121) (b := pad T.length) (d := a ++ (r.pieces.drop (n + 1)).flatten)
        h121 (by decide +kernel) ?_
      rw [hTl, hs'] at hsplit
      rw [hTl]
      simpa [T] using hsplit
    have hul := congrArg List.length hu
    have hfr : (front T.length).length = 524152 := front_length _ (by decide)
    rw [List.length_append, hfr, List.length_append, List.length_append] at hul
    have hb := boundary (k := k) hn
    rw [hk, hs'] at hb
    simp only [List.length_append, List.length_cons, List.length_nil] at hb hul
    have ha : a = [] := List.length_eq_zero_iff.mp (by omega)
    subst ha
    exact no_link h0 E

end Zwt
