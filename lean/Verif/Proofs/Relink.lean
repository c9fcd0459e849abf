import Verif.Spec.Relink
import Verif.Proofs.RoundRun

/-! Extraction of trees with links, of any size. -/

namespace Zwt

variable {Z : Inflater} {plain : Bytes → Bytes}

theorem LinkSfx.split {x : List Atom} {b y : List Atom} (h : LinkSfx b (x ++ y)) :
    ∃ x' y', b = x' ++ y' ∧ LinkSfx x' x ∧ LinkSfx y' y := by
  induction x generalizing b with
  | nil => exact ⟨[], b, rfl, .nil, h⟩
  | cons a x ih =>
    cases h with
    | same _ h =>
      obtain ⟨x', y', rfl, h1, h2⟩ := ih h
      exact ⟨a :: x', y', rfl, .same _ h1, h2⟩
    | @link t t' _ _ ht h =>
      obtain ⟨x', y', rfl, h1, h2⟩ := ih h
      exact ⟨.link t :: x', y', rfl, .link ht h1, h2⟩

theorem LinkSfx.bytes {x : List Atom} {c : Bytes} (h : LinkSfx x (c.map .byte)) : x = c.map .byte := by
  induction c generalizing x with
  | nil => cases h; rfl
  | cons b c ih =>
    cases h with
    | same _ h => rw [ih h]; rfl

theorem Relinked.names {f g : Forest} (h : Relinked f g) : g.names = f.names := by
  induction h with
  | nil => rfl
  | file _ ih => simp [Forest.names, ih]
  | link _ _ _ ih => simp [Forest.names, ih]
  | dir _ _ _ ih => simp [Forest.names, ih]

theorem Relinked.proper {f g : Forest} (h : Relinked f g) (hf : f.proper) : g.proper := by
  induction h with
  | nil => trivial
  | file h ih => exact ⟨hf.1, by rw [h.names]; exact hf.2.1, ih hf.2.2⟩
  | link h1 h2 h ih =>
    exact ⟨hf.1, by rw [h.names]; exact hf.2.1, h2, fun h0 => hf.2.2.2.1 (h1.subset h0), ih hf.2.2.2.2⟩
  | dir h1 h2 ih1 ih2 => exact ⟨hf.1, by rw [h2.names]; exact hf.2.1, ih1 hf.2.2.1, ih2 hf.2.2.2⟩

theorem Relinked.enterable {f g : Forest} (h : Relinked f g) (os : Os) (hf : f.enterable os) :
    g.enterable os := by
  induction h with
  | nil => trivial
  | file h ih => exact ih hf
  | link h1 h2 h ih => exact ih hf
  | dir h1 h2 ih1 ih2 => exact ⟨hf.1, ih1 hf.2.1, ih2 hf.2.2⟩

theorem Relinked.noLinks {f g : Forest} (h : Relinked f g) (hf : f.noLinks) : g.noLinks := by
  induction h with
  | nil => trivial
  | file h ih => exact ih hf
  | link h1 h2 h ih => exact hf
  | dir h1 h2 ih1 ih2 => exact ⟨ih1 hf.1, ih2 hf.2⟩

theorem AtomsOf.relinked_refl {f : Forest} {as : List Atom} (h : AtomsOf f as) (hf : f.proper) :
    Relinked f f := by
  induction h with
  | nil => exact .nil
  | file _ _ _ _ _ _ ih => exact .file (ih hf.2.2)
  | link _ _ _ _ ih => exact .link (List.suffix_refl _) hf.2.2.1 (ih hf.2.2.2.2)
  | dir _ _ _ _ _ _ ih1 ih2 => exact .dir (ih1 hf.2.2.1) (ih2 hf.2.2.2)

/-- Atoms with shortened link targets are those of a tree with shortened link targets. -/
theorem AtomsOf.relink {f : Forest} {as : List Atom} (h : AtomsOf f as) :
    ∀ {bs : List Atom}, LinkSfx bs as → f.proper → ∃ g, Relinked f g ∧ AtomsOf g bs := by
  induction h with
  | nil => intro bs hs _; cases hs; exact ⟨_, .nil, .nil⟩
  | file h1 h2 h3 h4 h5 _ ih =>
    intro bs hs hf
    cases hs with
    | same _ hs =>
      obtain ⟨x, y, rfl, s1, s2⟩ := hs.split
      cases s2 with
      | same _ s2 =>
        obtain ⟨g, g1, g2⟩ := ih s2 hf.2.2
        rw [s1.bytes]
        exact ⟨_, .file g1, .file h1 h2 h3 h4 h5 g2⟩
  | link h1 h2 h3 _ ih =>
    intro bs hs hf
    cases hs with
    | same _ hs =>
      cases hs with
      | same _ hs =>
        obtain ⟨g, g1, g2⟩ := ih hs hf.2.2.2.2
        exact ⟨_, .link (List.suffix_refl _) hf.2.2.1 g1, .link h1 h2 h3 g2⟩
      | link ht hs =>
        obtain ⟨g, g1, g2⟩ := ih hs hf.2.2.2.2
        exact ⟨_, .link ht.1 (fun h => hf.2.2.1 (ht.2 h)) g1, .link h1 h2 h3 g2⟩
  | dir h1 h2 h3 h4 _ _ ih1 ih2 =>
    intro bs hs hf
    cases hs with
    | same _ hs =>
      obtain ⟨x, y, rfl, s1, s2⟩ := hs.split
      cases s2 with
      | same _ s2 =>
        obtain ⟨g, g1, g2⟩ := ih1 s1 hf.2.2.1
        obtain ⟨g', g1', g2'⟩ := ih2 s2 hf.2.2.2
        exact ⟨_, .dir g1 g1', .dir h1 h2 h3 h4 g2 g2'⟩

/-- The callback with a NUL after a link target that ends its buffer. -/
def Ev.closed : Ev → Ev
  | .symLink t [] => .symLink t [0]
  | e => e

theorem Ev.closed_atoms (e : Ev) : e.closed.atoms = e.atoms := by
  unfold Ev.closed; split <;> rfl

theorem atoms_closed (evs : List Ev) : Zwt.atoms (evs.map Ev.closed) = Zwt.atoms evs := by
  induction evs with
  | nil => rfl
  | cons e evs ih =>
    simp only [Zwt.atoms, List.map_cons, List.flatMap_cons, Ev.closed_atoms] at ih ⊢
    rw [ih]

theorem run_closed (evs : List Ev) : ∀ p : Proto, p.run (evs.map Ev.closed) = p.run evs := by
  induction evs with
  | nil => intro p; rfl
  | cons e evs ih =>
    intro p
    have : p.step e.closed = p.step e := by
      unfold Ev.closed; split
      · cases p <;> rfl
      · rfl
    simp only [List.map_cons, Proto.run, this, ih]

theorem takeWhile_snoc (t : Bytes) :
    (t ++ [0]).takeWhile (· != 0) = t.takeWhile (· != 0) := by
  induction t with
  | nil => rfl
  | cons b t ih => simp only [List.cons_append, List.takeWhile_cons, ih]

theorem cstr_snoc {t : Bytes} {x : Bytes} (h : cstr? (t ++ []) = some x) :
    cstr? (t ++ [0]) = some x := by
  rw [List.append_nil] at h
  unfold cstr? at h ⊢
  split at h
  · rw [if_pos (by simp), takeWhile_snoc]; exact h
  · cases h

/-- What a callback does with a NUL after the target, it does without (unless it reads on). -/
theorem hlEvent_closed (os : Os) (out : Bytes) (h : HL) (e : Ev) :
    hlEvent os out h e = hlEvent os out h e.closed ∨ hlEvent os out h e = .error .oobRead := by
  unfold Ev.closed
  split
  · rename_i t
    simp only [hlEvent, hlSymLink]
    split
    · exact .inl rfl
    · split
      · exact .inl rfl
      · split
        · exact .inl rfl
        · split
          · exact .inl rfl
          · cases hc : cstr? (t ++ []) with
            | none => exact .inr rfl
            | some x => rw [cstr_snoc hc]; exact .inl rfl
  · exact .inl rfl

theorem hlEvents_closed (os : Os) (out : Bytes) (evs : List Ev) : ∀ h : HL,
    hlEvents os out h evs = hlEvents os out h (evs.map Ev.closed) ∨
      hlEvents os out h evs = .error .oobRead := by
  induction evs with
  | nil => intro h; exact .inl rfl
  | cons e evs ih =>
    intro h
    simp only [hlEvents, List.map_cons]
    rcases hlEvent_closed os out h e with he | he
    · rw [he]
      cases hlEvent os out h e.closed with
      | error x => exact .inl rfl
      | ok h' => exact ih h'
    · rw [he]; exact .inr rfl

/-- The byte after the end of a link target is 0. -/
theorem link_next {f : Forest} {t : Bytes} (he : Encodes f t) (ok : AllocOracle)
    (hok : ∀ k n, ok k n = true) {chunks : List Bytes} (hc : chunks.flatten <+: t)
    {tg a : Bytes} (ha : a ≠ [])
    (hx : ∃ n u g, chunks[n]? = some (u ++ tg ++ a) ∧
      (specParse ok 0 ((chunks.take n).flatten ++ u)).ending = .inLink g tg.length) :
    a.head? = some 0 := by
  obtain ⟨n, u, g, h1, h2⟩ := hx
  have hn : n < chunks.length := (List.getElem?_eq_some_iff.mp h1).1
  have hs : (chunks.take (n+1)).flatten = (chunks.take n).flatten ++ u ++ tg ++ a := by
    rw [List.take_add_one, h1]; simp
  have hp : (chunks.take (n+1)).flatten <+: chunks.flatten := by
    refine ⟨(chunks.drop (n+1)).flatten, ?_⟩
    rw [← List.flatten_append, List.take_append_drop]
  have hpt := hp.trans hc
  rw [hs] at hpt
  have hu : (chunks.take n).flatten ++ u <+: t := by
    refine List.IsPrefix.trans ⟨tg ++ a, ?_⟩ hpt
    simp
  have hz := he.link_end ok hok 0 _ hu g _ h2
  cases a with
  | nil => exact absurd rfl ha
  | cons b a =>
    obtain ⟨v, rfl⟩ := hpt
    rw [List.append_assoc, ← List.length_append,
      List.getElem?_append_right (by simp), Nat.sub_self] at hz
    simpa using hz

/-- The callbacks made for a prefix of the archive of a tree are the first ones of a history that
conveys the tree, apart from link targets that have lost their beginning and from NULs after them. -/
theorem log_relinked {junk t : Bytes} {f : Forest} (hj : junk.length = 120) (he : Encodes f t)
    (ok : AllocOracle) (hok : ∀ k n, ok k n = true) (hf : f.proper) {P : Bytes} {pieces : List Bytes}
    {log : List Ev} {B : Nat} (hP : P <+: headerBytes 0 1 junk ++ t)
    (h : ArchiveLog ok B P pieces log) :
    (log = [] ∧ (P = headerBytes 0 1 junk ++ t → t = [])) ∨
      ∃ g evs rest, Relinked f g ∧ (NoLinkCut ok pieces → g = f) ∧ log = .drStart :: evs ∧
        EvsOf g (evs.map Ev.closed ++ rest) ∧ (P = headerBytes 0 1 junk ++ t → rest = []) := by
  obtain ⟨e1, e2, e3⟩ := C02_header_roundtrip 0 1 junk hj (by decide) (by decide)
  have e1' : (headerBytes 0 1 junk).length = 128 := e1
  have hdr : 128 ≤ P.length → P.take 128 = headerBytes 0 1 junk := by
    intro h
    rw [(take_header hP h).1, List.take_left' e1']
  cases h with
  | short h => exact .inl ⟨rfl, fun hh => by rw [hh] at h; simp at h; omega⟩
  | version h1 h2 => rw [hdr h1] at h2; exact absurd e2 h2
  | empty h1 h2 =>
    refine .inl ⟨rfl, fun hh => ?_⟩
    rw [hh, List.length_append, e1'] at h1
    exact List.length_eq_zero_iff.mp (by omega)
  | unknown h1 h2 h3 => rw [hdr h1] at h3; exact absurd e3 h3
  | @file hd _ h1 h2 h3 =>
    have := hdr (by rw [List.length_append]; omega)
    rw [List.take_left' h1] at this
    rw [this, e3] at h3
    exact absurd h3 (by decide)
  | @dir hd _ evs owed h1 h2 h3 h4 h5 h6 h7 h8 h9 h10 h11 h12 =>
    right
    have hhd : hd = headerBytes 0 1 junk := by
      have := hdr (by rw [List.length_append]; omega)
      rwa [List.take_left' h1] at this
    subst hhd
    have hc : pieces.flatten <+: t := (List.prefix_append_right_inj _).mp hP
    obtain ⟨k', as, p1, p2⟩ := he.atomsOf ok hok 0
    have pt := p1 []
    rw [List.append_nil, specParse_short _ _ [] (by simp)] at pt
    simp only [Parsed.after, List.append_nil] at pt
    have hpre : (specParse ok 0 pieces.flatten).atoms <+: as := by
      obtain ⟨v, rfl⟩ := hc
      have := specParse_prefix ok 0 pieces.flatten v
      rwa [pt] at this
    obtain ⟨v, hv⟩ := hpre
    have hsfx : LinkSfx (atoms evs ++ owed ++ v) as := by rw [← hv]; exact h8.append_right v
    have hg : ∃ g, Relinked f g ∧ AtomsOf g (atoms evs ++ owed ++ v) ∧
        (NoLinkCut ok pieces → g = f) := by
      by_cases hw : NoLinkCut ok pieces
      · exact ⟨f, p2.relinked_refl hf, by rw [h9 hw, hv]; exact p2, fun _ => rfl⟩
      · obtain ⟨g, g1, g2⟩ := p2.relink hsfx hf
        exact ⟨g, g1, g2, fun h => absurd h hw⟩
    obtain ⟨g, g1, g2, g3⟩ := hg
    have hev : EvsOf g (evs.map Ev.closed ++ canon (owed ++ v)) := by
      refine g2.complete (evs.map Ev.closed) (owed ++ v) (by rw [atoms_closed]; simp)
        (by rw [run_closed]; exact h10) (g1.proper hf).wellNamed ?_
      intro tg a hm ht
      obtain ⟨e, he1, he2⟩ := List.mem_map.mp hm
      unfold Ev.closed at he2
      split at he2
      · cases he2; rfl
      · rename_i hne
        subst he2
        exact link_next he ok hok hc (fun ha => hne tg (by rw [ha])) (h11 tg a he1 ht)
    refine ⟨g, evs, canon (owed ++ v), g1, g3, rfl, hev, ?_⟩
    intro hfull
    have hct : pieces.flatten = t := List.append_cancel_left hfull
    have hv0 : v = [] := by
      have hlen := congrArg List.length hv
      rw [hct, pt, List.length_append] at hlen
      exact List.length_eq_zero_iff.mp (by simpa using hlen)
    have ho : owed = [] := by
      by_cases ho : owed = []
      · exact ho
      · obtain ⟨ft, nm, it, a1, a2⟩ := h12 ho (by rw [hct, pt])
        obtain ⟨b1, b2⟩ := g2.padded ft nm it (List.mem_append_left _ a1)
        rcases a2 with a2 | a2
        · exact absurd a2 b1
        · exact absurd a2.2 (b2 a2.1)
    rw [hv0, ho]; rfl

end Zwt
