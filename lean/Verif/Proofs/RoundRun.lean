import Verif.Proofs.Round
import Verif.Proofs.HLEnd
import Verif.Props.Format
import Verif.Props.HLConfine

/-! The callbacks of the archive of a tree, and what they do to an empty place on the disk. -/

namespace Zwt

/-- Link targets that lie whole in a buffer, with a byte after them, are followed by 0. -/
theorem link_after {f : Forest} {t : Bytes} (he : Encodes f t) (ok : AllocOracle)
    (hok : ∀ k n, ok k n = true) {chunks : List Bytes} (hc : chunks.flatten <+: t)
    (hw : LinksWhole ok chunks) {tg a : Bytes} (ht : tg ≠ [])
    (hx : ∃ n u g, chunks[n]? = some (u ++ tg ++ a) ∧
      (specParse ok 0 ((chunks.take n).flatten ++ u)).ending = .inLink g tg.length) :
    a.head? = some 0 := by
  obtain ⟨n, u, g, h1, h2⟩ := hx
  have hn : n < chunks.length := (List.getElem?_eq_some_iff.mp h1).1
  have hs : (chunks.take (n+1)).flatten = (chunks.take n).flatten ++ u ++ tg ++ a := by
    rw [List.take_add_one, h1]; simp
  have hp : (chunks.take (n+1)).flatten <+: chunks.flatten := by
    refine ⟨(chunks.drop (n+1)).flatten, ?_⟩
    rw [← List.flatten_append, List.take_append_drop]
  have hpt := hp.trans hc
  rw [hs] at hpt
  have hu : (chunks.take n).flatten ++ u <+: t := by
    refine List.IsPrefix.trans ⟨tg ++ a, ?_⟩ hpt
    simp
  have hz := he.link_end ok hok 0 _ hu g _ h2
  cases a with
  | nil =>
    exfalso
    have hlen : 0 < tg.length := List.length_pos_iff.mpr ht
    have := specParse_inLink ok 0 _ tg.dropLast g tg.length h2 (by simp; omega)
    refine hw.2 (n+1) (by omega) (g + tg.dropLast.length) ?_
    rw [hs, List.append_nil, List.dropLast_append_of_ne_nil ht, this]
    simp only [List.length_dropLast, Ending.inLink.injEq, true_and]
    omega
  | cons b a =>
    obtain ⟨v, rfl⟩ := hpt
    rw [List.append_assoc, ← List.length_append,
      List.getElem?_append_right (by simp), Nat.sub_self] at hz
    simpa using hz

/-- The callbacks made for a prefix of the archive of a tree are the first ones of a history that
conveys the tree; for the whole archive they are all of them. -/
theorem log_tree {junk t : Bytes} {f : Forest} (hj : junk.length = 120) (he : Encodes f t)
    (ok : AllocOracle) (hok : ∀ k n, ok k n = true) (hf : f.wellNamed) {P : Bytes} {pieces : List Bytes}
    {log : List Ev} {B : Nat} (hP : P <+: headerBytes 0 1 junk ++ t) (h : ArchiveLog ok B P pieces log)
    (hl : f.noLinks ∨ LinksWhole ok pieces) :
    (log = [] ∧ (P = headerBytes 0 1 junk ++ t → t = [])) ∨
      ∃ evs rest, log = .drStart :: evs ∧ EvsOf f (evs ++ rest) ∧
        (P = headerBytes 0 1 junk ++ t → rest = []) := by
  obtain ⟨e1, e2, e3⟩ := C02_header_roundtrip 0 1 junk hj (by decide) (by decide)
  have e1' : (headerBytes 0 1 junk).length = 128 := e1
  have hdr : 128 ≤ P.length → P.take 128 = headerBytes 0 1 junk := by
    intro h
    rw [(take_header hP h).1, List.take_left' e1']
  cases h with
  | short h => exact .inl ⟨rfl, fun hh => by rw [hh] at h; simp at h; omega⟩
  | version h1 h2 => rw [hdr h1] at h2; exact absurd e2 h2
  | empty h1 h2 =>
    refine .inl ⟨rfl, fun hh => ?_⟩
    rw [hh, List.length_append, e1'] at h1
    exact List.length_eq_zero_iff.mp (by omega)
  | unknown h1 h2 h3 => rw [hdr h1] at h3; exact absurd e3 h3
  | @file hd _ h1 h2 h3 =>
    have := hdr (by rw [List.length_append]; omega)
    rw [List.take_left' h1] at this
    rw [this, e3] at h3
    exact absurd h3 (by decide)
  | @dir hd _ evs owed h1 h2 h3 h4 h5 h6 h7 h8 h9 h10 h11 h12 =>
    right
    have hhd : hd = headerBytes 0 1 junk := by
      have := hdr (by rw [List.length_append]; omega)
      rwa [List.take_left' h1] at this
    subst hhd
    have hc : pieces.flatten <+: t := (List.prefix_append_right_inj _).mp hP
    obtain ⟨k', as, p1, p2⟩ := he.atomsOf ok hok 0
    have pt := p1 []
    rw [List.append_nil, specParse_short _ _ [] (by simp)] at pt
    simp only [Parsed.after, List.append_nil] at pt
    have hpre : (specParse ok 0 pieces.flatten).atoms <+: as := by
      obtain ⟨v, rfl⟩ := hc
      have := specParse_prefix ok 0 pieces.flatten v
      rwa [pt] at this
    have heq : atoms evs ++ owed = (specParse ok 0 pieces.flatten).atoms := by
      rcases hl with hl | hl
      · exact h8.eq_of_noLink (fun t ht => p2.noLinks hl t (hpre.subset ht))
      · exact h9 hl.1
    rw [← heq] at hpre
    obtain ⟨v, hv⟩ := hpre
    have hev : EvsOf f (evs ++ canon (owed ++ v)) := by
      refine p2.complete evs (owed ++ v) (by rw [← hv]; simp) h10 hf ?_
      intro tg a hm ht
      rcases hl with hl | hl
      · refine absurd ?_ (p2.noLinks hl tg)
        rw [← hv, List.mem_append, List.mem_append]
        exact .inl (.inl (List.mem_flatMap.mpr ⟨_, hm, by simp [Ev.atoms]⟩))
      · exact link_after he ok hok hc hl ht (h11 tg a hm ht)
    refine ⟨evs, canon (owed ++ v), rfl, hev, ?_⟩
    intro hfull
    have hct : pieces.flatten = t := List.append_cancel_left hfull
    rw [hct, pt] at heq
    replace heq : atoms evs ++ owed = as := heq
    have hv0 : v = [] := by
      have hlen := congrArg List.length hv
      rw [heq, List.length_append] at hlen
      exact List.length_eq_zero_iff.mp (by omega)
    have ho : owed = [] := by
      by_cases ho : owed = []
      · exact ho
      · obtain ⟨ft, nm, it, a1, a2⟩ := h12 ho (by rw [hct, pt])
        rw [heq] at a1
        obtain ⟨b1, b2⟩ := p2.padded ft nm it a1
        rcases a2 with a2 | a2
        · exact absurd a2 b1
        · exact absurd a2.2 (b2 a2.1)
    rw [hv0, ho]; rfl

/-- Down a chain of directories. -/
theorem Front.chain {os : Os} {fs : FS} {cwd : Loc} (ns : List Bytes) : ∀ {pre : Bytes} {d : Loc}
    (n : Bytes), Front os fs cwd pre d → searchable os fs d = true → (∀ x ∈ n :: ns, PlainName x) →
    (∀ j, j ≤ ns.length → OpenDir os fs (d ++ n :: ns.take j)) →
    Front os fs cwd (pre ++ joinNames (n :: ns) ++ [47]) (d ++ n :: ns) := by
  induction ns with
  | nil =>
    intro pre d n hf hs hn ho
    obtain ⟨m, h1, h2⟩ := ho 0 (by simp)
    exact hf.extend hs (hn n List.mem_cons_self) (m := m) (show fs (d ++ [n]) = _ by simpa using h1)
  | cons x xs ih =>
    intro pre d n hf hs hn ho
    obtain ⟨m, h1, h2⟩ := ho 0 (by simp)
    have h1' : fs (d ++ [n]) = some (.dir m) := by simpa using h1
    have := ih x (hf.extend hs (hn n List.mem_cons_self) h1') (OpenDir.searchable ⟨m, h1', h2⟩)
      (fun y hy => hn y (List.mem_cons_of_mem _ hy)) (by
        intro j hj
        have := ho (j+1) (by simpa using hj)
        simpa using this)
    rw [joinNames]
    · simpa using this
    · simp

theorem tree_put {fs : FS} (ht : fs.tree) {d : Loc} {n : Bytes} {md : Nat}
    (hd : fs d = some (.dir md)) {x : Node} (h : fs (d ++ [n]) = none) :
    (fs.put (d ++ [n]) x).tree := by
  have hk : Keeps fs (fs.put (d ++ [n]) x) := Keeps.put h _
  obtain ⟨⟨mr, hr⟩, ht2⟩ := ht
  refine ⟨⟨mr, hk.1 _ _ hr⟩, fun l y node hx => ?_⟩
  by_cases e : l ++ [y] = d ++ [n]
  · have : l = d := by
      have := congrArg List.dropLast e
      simpa using this
    rw [this]
    exact ⟨md, hk.1 _ _ hd⟩
  · simp only [FS.put, if_neg e] at hx
    obtain ⟨m', hm'⟩ := ht2 l y node hx
    exact ⟨m', hk.1 _ _ hm'⟩

theorem mkChain_tree (mode : Nat) (ns : List Bytes) : ∀ (fs : FS) (l : Loc), fs.tree →
    (∃ m, fs l = some (.dir m)) → (∀ x ∈ ns.head?, Absent fs (l ++ [x])) →
    (mkChain fs l mode ns).tree := by
  induction ns with
  | nil => intro fs l ht _ _; exact ht
  | cons n ns ih =>
    intro fs l ht hd ha
    obtain ⟨m, hm⟩ := hd
    have hn : fs (l ++ [n]) = none := by simpa using ha n rfl []
    refine ih _ _ (tree_put ht hm hn) ⟨mode, by rw [FS.put_same]⟩ ?_
    intro x _ q
    rw [FS.put, if_neg (by simp)]
    have := ha n rfl (x :: q)
    simpa using this

/-- After the start callback of a directory archive, when nothing is in the way. -/
theorem tree_start (os : Os) (hq : os.quiet) (w : World) (ht : w.fs.tree) (pre : Bytes)
    (h0 : 0 ∉ pre) (d : Loc) (hd : InDir os w pre d) (ho : OpenDir os w.fs d) (n : Bytes)
    (ns : List Bytes) (hn : ∀ x ∈ n :: ns, PlainName x) (hnew : w.fs (d ++ [n]) = none)
    (hen : Enterable os (dirMode os 0o775)) (hlen : ns.length ≤ 61) :
    ∃ h1, hlEvent os (pre ++ joinNames (n :: ns)) (HL.init w) .drStart = .ok h1 ∧
      AtDir os h1 (pre ++ joinNames (n :: ns)) (d ++ n :: ns) ∧ Keeps w.fs h1.w.fs ∧
      h1.w.cwd = w.cwd ∧ (∀ x q, h1.w.fs (d ++ n :: ns ++ x :: q) = none) ∧ h1.w.fs.tree ∧
      h1.ret = CT_DIRECTORY ∧ h1.hasError = false ∧
      (∀ j, j ≤ ns.length → h1.w.fs (d ++ n :: ns.take j) = some (.dir (dirMode os 0o775))) ∧
      ∀ x, (∀ j, j ≤ ns.length → x ≠ d ++ n :: ns.take j) → h1.w.fs x = w.fs x := by
  have hfr := hd.front ho.searchable h0
  obtain ⟨w1, m1, m2, m3⟩ := mkdirRecurse_new os hq BASE_DIR_MODE w pre d n ns hfr ho hn
    (ht.absent hnew) (.inr hen) hlen
  obtain ⟨c1, c2⟩ := mkChain_at w.fs (dirMode os BASE_DIR_MODE) (n :: ns) d
  rw [← m2] at c1 c2
  have c1' : ∀ j, j ≤ ns.length → w1.fs (d ++ n :: ns.take j) = some (.dir (dirMode os 0o775)) := by
    intro j hj
    have := c1 (j + 1) (by omega) (by simp; omega)
    simpa [BASE_DIR_MODE] using this
  have c2' : ∀ x, (∀ j, j ≤ ns.length → x ≠ d ++ n :: ns.take j) → w1.fs x = w.fs x := by
    intro x hx
    refine c2 x ?_
    intro j h1 h2
    obtain ⟨k, rfl⟩ : ∃ k, j = k + 1 := ⟨j - 1, by omega⟩
    have := hx k (by simpa using h2)
    simpa using this
  have hlast : w1.fs (d ++ n :: ns) = some (.dir (dirMode os 0o775)) := by
    have := c1' ns.length (Nat.le_refl _)
    rwa [List.take_length] at this
  have hbelow : ∀ x q, w1.fs (d ++ n :: ns ++ x :: q) = none := by
    intro x q
    rw [c2']
    · have := ht.absent hnew (ns ++ x :: q)
      simpa using this
    · intro j hj h
      have := congrArg List.length h
      simp only [List.length_append, List.length_cons, List.length_take] at this
      omega
  let h1 : HL := { HL.init w with w := w1.tick, dirPath := some (pre ++ joinNames (n :: ns)),
                                  ret := CT_DIRECTORY }
  have hst : hlEvent os (pre ++ joinNames (n :: ns)) (HL.init w) .drStart = .ok h1 := by
    simp only [hlEvent, hlDirStart, HL.init, m1, hq.2.2]
    simp [h1, HL.init]
  have hk : Keeps w.fs w1.fs := by
    have := (hlEvents_keeps os (pre ++ joinNames (n :: ns)) [.drStart] (HL.init w) h1
      (by simp only [hlEvents, hst])).1
    exact this
  have h0' : 0 ∉ pre ++ joinNames (n :: ns) := by
    rw [joinNames_cons]
    refine extendPath_zero _ _ ?_ (fun x hx => hn x (List.mem_cons_of_mem _ hx))
    simp only [List.mem_append, not_or]
    exact ⟨h0, (hn n List.mem_cons_self).2.2.2.2⟩
  have A : AtDir os h1 (pre ++ joinNames (n :: ns)) (d ++ n :: ns) := by
    refine ⟨rfl, ?_, h0', ?_, _, hlast, hen⟩
    · have := (hn n List.mem_cons_self).1
      rw [joinNames_slashed]
      simp [this]
    · show Front os w1.fs w1.cwd _ _
      rw [m3]
      exact Front.chain ns n (hfr.mono hk) (ho.mono hk).searchable hn
        (fun j hj => ⟨_, c1' j hj, hen⟩)
  have ht1 : w1.fs.tree := by
    rw [m2]
    exact mkChain_tree _ _ _ _ ht (by obtain ⟨m, h, _⟩ := ho; exact ⟨m, h⟩) fun x hx q => by
      simp only [List.head?_cons, Option.mem_def, Option.some.injEq] at hx
      subst hx; exact ht.absent hnew q
  exact ⟨h1, hst, A, hk, m3, hbelow, ht1, rfl, rfl, c1', c2'⟩

/-- The callbacks that convey a tree, after the start callback, in a fresh place; also the first
ones of such callbacks. -/
theorem tree_fresh (os : Os) (hq : os.quiet) (w : World) (ht : w.fs.tree) (pre : Bytes)
    (h0 : 0 ∉ pre) (d : Loc) (hd : InDir os w pre d) (ho : OpenDir os w.fs d) (n : Bytes)
    (ns : List Bytes) (hn : ∀ x ∈ n :: ns, PlainName x) (hnew : w.fs (d ++ [n]) = none)
    (hen : Enterable os (dirMode os 0o775)) (hlen : ns.length ≤ 61) {f : Forest} (hf : f.proper)
    (hfe : f.enterable os) (hcw : f.noLinks ∨ CwdOk os w.fs w.cwd) {evs rest : List Ev}
    (he : EvsOf f (evs ++ rest)) :
    ∃ h', hlEvents os (pre ++ joinNames (n :: ns)) (HL.init w) (.drStart :: evs) = .ok h' ∧
      h'.hasError = false ∧
      (rest = [] → h'.ret = CT_DIRECTORY ∧ h'.w.cwd = w.cwd ∧ Landed os w.fs h'.w.fs d n ns f) := by
  obtain ⟨h1, hst, A, hk, m3, hbelow, _, hret, herr, c1', c2'⟩ :=
    tree_start os hq w ht pre h0 d hd ho n ns hn hnew hen hlen
  obtain ⟨h2, g1, g2, g3⟩ := tree_good os hq (pre ++ joinNames (n :: ns)) he h1 _ _ hf hfe
    (by
      rcases hcw with h | h
      · exact .inl h
      · refine .inr ?_
        rw [m3]; exact h.mono hk) A (by
      intro x _ q
      have := hbelow x q
      simpa using this)
  rw [hlEvents_append] at g1
  cases hr : hlEvents os (pre ++ joinNames (n :: ns)) h1 evs with
  | error e => rw [hr] at g1; simp at g1
  | ok h' =>
    rw [hr] at g1
    have g1' : hlEvents os (pre ++ joinNames (n :: ns)) h' rest = .ok h2 := g1
    refine ⟨h', ?_, ?_, ?_⟩
    · rw [hlEvents, hst]; exact hr
    · have := (hlEvents_keeps os _ rest h' h2 g1').2.2.1
      have e2 : h2.hasError = false := g2.err.trans herr
      cases hh : h'.hasError with
      | false => rfl
      | true => rw [this hh] at e2; simp at e2
    · intro hrest
      subst hrest
      simp only [hlEvents, Except.ok.injEq] at g1'
      subst g1'
      refine ⟨g2.ret.trans hret, g2.cwd.trans m3, ?_, ?_, ?_⟩
      · intro j hj
        rw [g3, Forest.place_other]
        · exact c1' j hj
        · intro x _ q h
          have := congrArg List.length h
          simp only [List.length_append, List.length_cons, List.length_take] at this
          omega
      · intro x q
        have : h1.w.fs (d ++ n :: ns ++ x :: q) = none := hbelow x q
        rw [g3, Forest.place_lookup os f _ _ _ _ hf, this, Option.or_none]
      · intro l hl1 hl2
        rw [g3, Forest.place_other os f _ _ _ (fun x _ q => hl2 x q)]
        exact c2' l hl1

end Zwt
