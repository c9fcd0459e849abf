import Verif.Spec.Begun
import Verif.Proofs.RoundAny
import Verif.Proofs.ConcTree
import Verif.Proofs.HLGrow

/-! What the callbacks for the beginning of a tree achieve. -/

namespace Zwt

theorem Begun.encodes {f g : Forest} {t u : Bytes} (h : Begun f g t u) : Encodes f (t ++ u) := by
  induction h with
  | here h => exact h
  | file h1 h2 h3 h4 h5 h6 h7 h8 h9 _ ih =>
    have := Encodes.file h1 h2 h3 h4 h5 h6 h7 h8 h9 ih
    simpa using this
  | dir h1 h2 h3 h4 h5 h6 hs h7 h8 _ ih =>
    have := Encodes.dir h1 h2 h3 h4 h5 h6 hs h7 h8 ih
    simpa using this
  | inside h1 h2 h3 h4 h5 h6 _ h7 h8 hr ih =>
    have := Encodes.dir h1 h2 h3 h4 h5 h6 ih h7 h8 hr
    simpa using this

theorem Begun.noLinks {f g : Forest} {t u : Bytes} (h : Begun f g t u) : f.noLinks → g.noLinks := by
  induction h with
  | here h => intro _; trivial
  | file _ _ _ _ _ _ _ _ _ _ ih => intro h; exact ih h
  | dir _ _ _ _ _ _ _ _ _ _ ih => intro h; exact ⟨h.1, ih h.2⟩
  | inside _ _ _ _ _ _ _ _ _ _ ih => intro h; exact ⟨ih h.1, trivial⟩

theorem Begun.names {f g : Forest} {t u : Bytes} (h : Begun f g t u) : ∀ n ∈ g.names, n ∈ f.names := by
  induction h with
  | here h => intro n hn; cases hn
  | file _ _ _ _ _ _ _ _ _ _ ih =>
    intro n hn
    simp only [Forest.names, List.mem_cons] at hn ⊢
    exact hn.imp id (ih n)
  | dir _ _ _ _ _ _ _ _ _ _ ih =>
    intro n hn
    simp only [Forest.names, List.mem_cons] at hn ⊢
    exact hn.imp id (ih n)
  | inside _ _ _ _ _ _ _ _ _ _ ih =>
    intro n hn
    simp only [Forest.names, List.mem_cons, List.not_mem_nil, or_false] at hn ⊢
    exact .inl hn

theorem Begun.proper {f g : Forest} {t u : Bytes} (h : Begun f g t u) : f.proper → g.proper := by
  induction h with
  | here h => intro _; trivial
  | file _ _ _ _ _ _ _ _ _ hb ih => intro h; exact ⟨h.1, fun hn => h.2.1 (hb.names _ hn), ih h.2.2⟩
  | dir _ _ _ _ _ _ _ _ _ hb ih =>
    intro h; exact ⟨h.1, fun hn => h.2.1 (hb.names _ hn), h.2.2.1, ih h.2.2.2⟩
  | inside _ _ _ _ _ _ _ _ _ _ ih => intro h; exact ⟨h.1, by simp [Forest.names], ih h.2.2.1, trivial⟩

theorem Begun.enterable {os : Os} {f g : Forest} {t u : Bytes} (h : Begun f g t u) :
    f.enterable os → g.enterable os := by
  induction h with
  | here h => intro _; trivial
  | file _ _ _ _ _ _ _ _ _ _ ih => intro h; exact ih h
  | dir _ _ _ _ _ _ _ _ _ _ ih => intro h; exact ⟨h.1, h.2.1, ih h.2.2⟩
  | inside _ _ _ _ _ _ _ _ _ _ ih => intro h; exact ⟨h.1, ih h.2.1, trivial⟩

/-- What is in the beginning is in the whole. -/
theorem Begun.lookup {os : Os} {f g : Forest} {t u : Bytes} (h : Begun f g t u) : ∀ q a,
    g.lookup os q = some a → f.lookup os q = some a := by
  induction h with
  | here h => intro q a h; cases h
  | file _ _ _ _ _ _ _ _ _ _ ih =>
    intro q a h
    simp only [Forest.lookup] at h ⊢
    split at h
    · next e => rw [if_pos e]; exact h
    · next e => rw [if_neg e]; exact ih q a h
  | dir _ _ _ _ _ _ _ _ _ _ ih =>
    intro q a h
    cases q with
    | nil => cases h
    | cons x q =>
      simp only [Forest.lookup] at h ⊢
      split at h
      · next e => rw [if_pos e]; exact h
      · next e => rw [if_neg e]; exact ih _ a h
  | inside _ _ _ _ _ _ _ _ _ _ ih =>
    intro q a h
    cases q with
    | nil => cases h
    | cons x q =>
      simp only [Forest.lookup] at h ⊢
      split at h
      · next e =>
        rw [if_pos e]
        split at h
        · next e' => rw [if_pos e']; exact h
        · next e' => rw [if_neg e']; exact ih _ a h
      · cases h

/-- Reading the beginning. -/
theorem Begun.atoms {f g : Forest} {t u : Bytes} (h : Begun f g t u) (ok : AllocOracle)
    (hok : ∀ k n, ok k n = true) (k : Nat) :
    ∃ k' as j, (∀ tl, specParse ok k (t ++ tl) = (specParse ok k' tl).after as) ∧
      AtomsOf g (as ++ List.replicate j .dirEnd) ∧ ∀ b, as.getLast? ≠ some (.byte b) := by
  induction h generalizing k with
  | here h => exact ⟨k, [], 0, fun tl => rfl, .nil, by simp⟩
  | @file name content item p q t u mode rest g h1 h2 h3 h4 h5 h6 h7 h8 h9 _ ih =>
    obtain ⟨k', as, j, i1, i2, i3⟩ := ih (k+1)
    refine ⟨k', .start .file (name ++ p) item :: (content.map .byte ++ .fileEnd :: as), j, ?_, ?_, ?_⟩
    · intro tl
      have e : item ++ name ++ p ++ content ++ q ++ t ++ tl =
        item ++ name ++ p ++ (content ++ (q ++ (t ++ tl))) := by simp
      obtain ⟨s1, s2, s3⟩ := split_at content (q ++ (t ++ tl)) (itFileSize item) h6.symm
      rw [e, specParse_name ok hok k h1 (by omega) h5, specBody, if_neg (by omega), if_pos h2, specFile,
        if_neg s1, s2, s3, gapOf_eq h6 h7, specSkip_at _ _ _ _ _ rfl, i1, ftOf, if_neg (by omega),
        if_pos h2]
      simp [Parsed.after]
    · have := AtomsOf.file h8 h4 h3 h6 (by rw [gapOf_eq h6 h7]; exact Nat.ne_of_gt h9.pos) i2
      simpa using this
    · intro b
      cases hl : as.getLast? with
      | none => simp [List.getLast?_cons, List.getLast?_append, hl]
      | some x =>
        have := i3 b
        rw [hl] at this
        simpa [List.getLast?_cons, List.getLast?_append, hl] using this
  | @dir name item p e bs t u mode sub rest g h1 h2 h3 h4 h5 h6 hs h7 h8 _ ih2 =>
    obtain ⟨k', as, i1, i2⟩ := hs.atomsOf ok hok (k+1)
    obtain ⟨k'', as', j, j1, j2, j3⟩ := ih2 k'
    refine ⟨k'', .start .dir (name ++ p) item :: (as ++ .dirEnd :: as'), j, ?_, ?_, ?_⟩
    · intro tl
      have e1 : item ++ name ++ p ++ bs ++ e ++ t ++ tl =
        item ++ name ++ p ++ (bs ++ (e ++ (t ++ tl))) := by simp
      rw [e1, specParse_name ok hok k h1 (by omega) h5, specBody, if_pos h2, i1,
        specParse_item _ _ _ _ h7, specItem, if_pos h8, j1, ftOf, if_pos h2]
      simp [Parsed.after]
    · have := AtomsOf.dir h6 h4 h3 h2 i2 j2
      simpa using this
    · intro b
      cases hl : as'.getLast? with
      | none => simp [List.getLast?_cons, List.getLast?_append, hl]
      | some x =>
        have := j3 b
        rw [hl] at this
        simpa [List.getLast?_cons, List.getLast?_append, hl] using this
  | @inside name item p e t u cs mode sub rest g h1 h2 h3 h4 h5 h6 _ h7 h8 _ ih =>
    obtain ⟨k', as, j, i1, i2, i3⟩ := ih (k+1)
    refine ⟨k', .start .dir (name ++ p) item :: as, j + 1, ?_, ?_, ?_⟩
    · intro tl
      have e1 : item ++ name ++ p ++ t ++ tl = item ++ name ++ p ++ (t ++ tl) := by simp
      rw [e1, specParse_name ok hok k h1 (by omega) h5, specBody, if_pos h2, i1, ftOf, if_pos h2]
      simp [Parsed.after]
    · have := AtomsOf.dir h6 h4 h3 h2 i2 .nil
      simpa [List.replicate_succ'] using this
    · intro b
      cases hl : as.getLast? with
      | none => simp [List.getLast?_cons, hl]
      | some x =>
        have := i3 b
        rw [hl] at this
        simpa [List.getLast?_cons, hl] using this

/-- A callback history, split where its atoms are. -/
theorem atoms_split : ∀ (evs : List Ev) (a b : List Atom), atoms evs = a ++ b →
    (∀ x, a.getLast? ≠ some (.byte x)) → ∃ e1 e2, evs = e1 ++ e2 ∧ atoms e1 = a := by
  intro evs
  induction evs with
  | nil =>
    intro a b h _
    simp only [Zwt.atoms, List.flatMap_nil] at h
    exact ⟨[], [], rfl, by rw [(List.append_eq_nil_iff.mp h.symm).1]; rfl⟩
  | cons e evs ih =>
    intro a b h hl
    rw [atoms_cons] at h
    rcases List.append_eq_append_iff.mp h with ⟨c, h1, h2⟩ | ⟨c, h1, h2⟩
    · -- `a = e.atoms ++ c`
      obtain ⟨e1, e2, h3, h4⟩ := ih c b h2 (fun x hx => hl x (by
        rw [h1, List.getLast?_append, hx]; rfl))
      exact ⟨e :: e1, e2, by rw [h3]; rfl, by rw [atoms_cons, h4, h1]⟩
    · -- `e.atoms = a ++ c`
      by_cases ha : a = []
      · exact ⟨[], e :: evs, rfl, ha.symm⟩
      by_cases hc : c = []
      · subst hc
        exact ⟨[e], evs, rfl, by rw [atoms_cons, h1]; simp [Zwt.atoms]⟩
      exfalso
      have hb : ∀ d : Bytes, d.map Atom.byte = a ++ c → False := by
        intro d hd
        obtain ⟨y, hy⟩ := Option.isSome_iff_exists.mp (List.getLast?_isSome.mpr ha)
        have : y ∈ d.map Atom.byte := by
          rw [hd]; exact List.mem_append_left _ (List.mem_of_getLast? hy)
        obtain ⟨x, _, rfl⟩ := List.mem_map.mp this
        exact hl x hy
      have hone : ∀ x : Atom, [x] = a ++ c → False := by
        intro x hx
        have := congrArg List.length hx
        have h1 := List.length_pos_iff.mpr ha
        have h2 := List.length_pos_iff.mpr hc
        simp at this
        omega
      cases e with
      | flRead d => exact hb d h1
      | fileRead d => exact hb d h1
      | _ => exact hone _ h1

/-- The kinds of atoms of a tree. -/
theorem AtomsOf.kinds {f : Forest} {as : List Atom} (h : AtomsOf f as) : ∀ a ∈ as,
    (∃ ft nm it, a = .start ft nm it) ∨ (∃ b, a = .byte b) ∨ (∃ t, a = .link t) ∨ a = .fileEnd ∨ a = .dirEnd := by
  induction h with
  | nil => simp
  | file _ _ _ _ _ _ ih =>
    intro a ha
    simp only [List.mem_cons, List.mem_append, List.mem_map] at ha
    rcases ha with rfl | ⟨b, _, rfl⟩ | rfl | ha
    · exact .inl ⟨_, _, _, rfl⟩
    · exact .inr (.inl ⟨b, rfl⟩)
    · simp
    · exact ih a ha
  | link _ _ _ _ ih =>
    intro a ha
    simp only [List.mem_cons] at ha
    rcases ha with rfl | rfl | ha
    · exact .inl ⟨_, _, _, rfl⟩
    · exact .inr (.inr (.inl ⟨_, rfl⟩))
    · exact ih a ha
  | dir _ _ _ _ _ _ ih1 ih2 =>
    intro a ha
    simp only [List.mem_cons, List.mem_append] at ha
    rcases ha with rfl | ha | rfl | ha
    · exact .inl ⟨_, _, _, rfl⟩
    · exact ih1 a ha
    · simp
    · exact ih2 a ha

/-- Nothing was written. -/
theorem FsRun.empty {os : Os} {fs fs' : FS} {n : Nat} (h : FsRun os false 0 fs n fs') :
    ∀ l m c, fs' l = some (.file m c) → c ≠ [] → fs l = some (.file m c) := by
  induction h with
  | refl => intro l m c h _; exact h
  | @new n fs' l x _ h1 _ h3 ih =>
    intro l' m c h hc
    rw [FS.put] at h
    split at h
    · cases h; exact absurd h3.1 hc
    · exact ih _ _ _ h hc
  | @write n fs' l m off c d _ h1 h2 ih =>
    intro l' m' c' h hc
    have hd : d = [] := List.length_eq_zero_iff.mp (by omega)
    subst hd
    rw [FS.put] at h
    split at h
    · next e =>
      rw [e]
      refine ih _ _ _ ?_ hc
      rw [h1]; simpa [pwrite] using h
    · exact ih _ _ _ h hc
  | trunc _ h _ => cases h

/-- Callbacks that announce or close entries write nothing. -/
theorem event_empty {os : Os} {out : Bytes} {h h' : HL} {e : Ev}
    (he : (∃ ft nm it, e = .itemStart ft nm it) ∨ e = .fileEnd ∨ e = .dirEnd)
    (hr : hlEvent os out h e = .ok h') :
    ∀ l m c, h'.w.fs l = some (.file m c) → c ≠ [] → h.w.fs l = some (.file m c) := by
  rcases he with ⟨ft, nm, it, rfl⟩ | rfl | rfl
  · simp only [hlEvent, hlItemStart] at hr
    split at hr
    · simp only [hlDirItem] at hr
      split at hr
      · cases hr; exact fun l m c h _ => h
      · split at hr
        · simp at hr
        · rename_i path hpath
          obtain ⟨k, k1, k2⟩ := mkdirRecurse_run os false 0 (itMode it) (cString path) h.w.tick
          generalize mkdirRecurse os (itMode it) (cString path) h.w.tick = x at hr k2
          obtain ⟨r, w'⟩ := x
          cases hr
          exact k2.empty
    · simp only [hlFileItem] at hr
      split at hr
      · simp at hr
      · rename_i path hpath
        obtain ⟨k, k1, k2⟩ := sysOpen_run os false 0 h.w (cString path) (modeFo (itMode it)) false (by simp)
          (by simp only [modeFo]; rw [← Nat.and_assoc, Nat.and_self])
        generalize sysOpen os h.w (cString path) (modeFo (itMode it)) false = x at hr k2
        obtain ⟨r, w'⟩ := x
        cases r with
        | none => cases hr; exact k2.empty
        | some l => cases hr; exact k2.empty
    · cases hr; exact fun l m c h _ => h
  · simp only [hlEvent, hlFileEnd] at hr
    split at hr
    · cases hr; exact fun l m c h _ => h
    · simp at hr
    · cases hr; exact fun l m c h _ => h
  · simp only [hlEvent, hlDirEnd] at hr
    split at hr
    · simp at hr
    · split at hr
      · simp at hr
      · cases hr; exact fun l m c h _ => h

theorem canon_empty {os : Os} {out : Bytes} : ∀ (as : List Atom) (h h' : HL),
    (∀ a ∈ as, (∃ ft nm it, a = .start ft nm it) ∨ a = .fileEnd ∨ a = .dirEnd) →
    hlEvents os out h (canon as) = .ok h' →
    ∀ l m c, h'.w.fs l = some (.file m c) → c ≠ [] → h.w.fs l = some (.file m c) := by
  intro as
  induction as with
  | nil => intro h h' _ hr; cases hr; exact fun l m c h _ => h
  | cons a as ih =>
    intro h h' ha hr l m c hl hc
    have key : ∀ e : Ev, ((∃ ft nm it, e = .itemStart ft nm it) ∨ e = .fileEnd ∨ e = .dirEnd) →
        hlEvents os out h (e :: canon as) = .ok h' → h.w.fs l = some (.file m c) := by
      intro e he hr
      rw [hlEvents] at hr
      cases h1 : hlEvent os out h e with
      | error x => rw [h1] at hr; cases hr
      | ok hm =>
        rw [h1] at hr
        exact event_empty he h1 l m c
          (ih hm h' (fun a h => ha a (List.mem_cons_of_mem _ h)) hr l m c hl hc) hc
    rcases ha a List.mem_cons_self with ⟨ft, nm, it, rfl⟩ | rfl | rfl
    · exact key _ (.inl ⟨_, _, _, rfl⟩) hr
    · exact key _ (.inr (.inl rfl)) hr
    · exact key _ (.inr (.inr rfl)) hr

theorem canon_ends {os : Os} {out : Bytes} : ∀ (as : List Atom) (h h' : HL), (∀ a ∈ as, a = .dirEnd) →
    hlEvents os out h (canon as) = .ok h' → h'.w.fs = h.w.fs := by
  intro as
  induction as with
  | nil => intro h h' _ hr; cases hr; rfl
  | cons a as ih =>
    intro h h' ha hr
    have := ha a List.mem_cons_self
    subst this
    simp only [canon] at hr
    rw [hlEvents] at hr
    cases h1 : hlEvent os out h .dirEnd with
    | error x => rw [h1] at hr; cases hr
    | ok hm =>
      rw [h1] at hr
      rw [ih hm h' (fun a h => ha a (List.mem_cons_of_mem _ h)) hr]
      simp only [hlEvent, hlDirEnd] at h1
      split at h1
      · simp at h1
      · split at h1
        · simp at h1
        · cases h1; rfl

end Zwt
