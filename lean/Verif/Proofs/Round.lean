import Verif.Proofs.Forest
import Verif.Proofs.HLTree
import Verif.Proofs.DirSeen

/-! From an encoded tree to the callbacks that convey it. -/

namespace Zwt

/-- The atoms that reading an encoded tree yields. -/
inductive AtomsOf : Forest → List Atom → Prop
  | nil : AtomsOf .nil []
  | file {name p item content : Bytes} {mode : Nat} {rest : Forest} {as : List Atom} : Pad p →
      itNameLen item = name.length → itMode item = mode → itFileSize item = content.length →
      gapOf item ≠ 0 → AtomsOf rest as →
      AtomsOf (.file name mode content rest)
        (.start .file (name ++ p) item :: (content.map .byte ++ .fileEnd :: as))
  | link {name p item target : Bytes} {mode : Nat} {rest : Forest} {as : List Atom} : Pad p →
      gapOf item ≠ 0 → itMode item = mode → AtomsOf rest as →
      AtomsOf (.link name mode target rest) (.start .symlink (name ++ p) item :: .link target :: as)
  | dir {name p item : Bytes} {mode : Nat} {sub rest : Forest} {as bs : List Atom} : Pad p →
      itNameLen item = name.length → itMode item = mode → itKind item = 1 →
      AtomsOf sub as → AtomsOf rest bs →
      AtomsOf (.dir name mode sub rest) (.start .dir (name ++ p) item :: (as ++ .dirEnd :: bs))

theorem Pad.pos {p : Bytes} (h : Pad p) : 0 < p.length := by
  obtain ⟨k, h1, _, rfl⟩ := h; simpa using h1

theorem Pad.head {p : Bytes} (h : Pad p) (x : Bytes) : (p ++ x)[0]? = some 0 := by
  obtain ⟨k, h1, _, rfl⟩ := h
  cases k with
  | zero => omega
  | succ k => simp [List.replicate_succ]

theorem Encodes.atomsOf {f : Forest} {bs : Bytes} (h : Encodes f bs) (ok : AllocOracle)
    (hok : ∀ k n, ok k n = true) (k : Nat) :
    ∃ k' as, (∀ tl, specParse ok k (bs ++ tl) = (specParse ok k' tl).after as) ∧ AtomsOf f as := by
  induction h generalizing k with
  | nil => exact ⟨k, [], fun tl => rfl, .nil⟩
  | @file name content item p q bs mode rest h1 h2 h3 h4 h5 h6 h7 h8 h9 _ ih =>
    obtain ⟨k', as, i1, i2⟩ := ih (k+1)
    refine ⟨k', _, ?_, .file h8 h4 h3 h6 (by rw [gapOf_eq h6 h7]; exact Nat.ne_of_gt h9.pos) i2⟩
    intro tl
    have e : item ++ name ++ p ++ content ++ q ++ bs ++ tl =
      item ++ name ++ p ++ (content ++ (q ++ (bs ++ tl))) := by simp
    obtain ⟨s1, s2, s3⟩ := split_at content (q ++ (bs ++ tl)) (itFileSize item) h6.symm
    rw [e, specParse_name ok hok k h1 (by omega) h5, specBody, if_neg (by omega), if_pos h2, specFile,
      if_neg s1, s2, s3, gapOf_eq h6 h7, specSkip_at _ _ _ _ _ rfl, i1, ftOf, if_neg (by omega),
      if_pos h2]
    simp [Parsed.after]
  | @link name target item p q bs mode rest h1 h2 h3 h4 h5 h6 h7 h8 h9 _ ih =>
    obtain ⟨k', as, i1, i2⟩ := ih (k+1)
    refine ⟨k', _, ?_, .link (target := target) h8
      (by rw [gapOf_eq h6 h7]; exact Nat.ne_of_gt h9.pos) h3 i2⟩
    intro tl
    have e : item ++ name ++ p ++ target ++ q ++ bs ++ tl =
      item ++ name ++ p ++ (target ++ (q ++ (bs ++ tl))) := by simp
    obtain ⟨s1, s2, s3⟩ := split_at target (q ++ (bs ++ tl)) (itFileSize item) h6.symm
    rw [e, specParse_name ok hok k h1 (by omega) h5, specBody, if_neg (by omega), if_neg (by omega),
      specLink, if_neg s1, s2, s3, gapOf_eq h6 h7, specSkip_at _ _ _ _ _ rfl, i1, ftOf,
      if_neg (by omega), if_neg (by omega)]
    simp [Parsed.after]
  | @dir name item p e bs cs mode sub rest h1 h2 h3 h4 h5 h6 _ h7 h8 _ ih1 ih2 =>
    obtain ⟨k', as, i1, i2⟩ := ih1 (k+1)
    obtain ⟨k'', as', j1, j2⟩ := ih2 k'
    refine ⟨k'', _, ?_, .dir h6 h4 h3 h2 i2 j2⟩
    intro tl
    have e1 : item ++ name ++ p ++ bs ++ e ++ cs ++ tl =
      item ++ name ++ p ++ (bs ++ (e ++ (cs ++ tl))) := by simp
    rw [e1, specParse_name ok hok k h1 (by omega) h5, specBody, if_pos h2, i1,
      specParse_item _ _ _ _ h7, specItem, if_pos h8, j1, ftOf, if_pos h2]
    simp [Parsed.after]

/-- Every announced item has a name and, unless it is a directory, padding. -/
theorem AtomsOf.padded {f : Forest} {as : List Atom} (h : AtomsOf f as) (ft : FType) (nm it : Bytes)
    (hm : Atom.start ft nm it ∈ as) : nm ≠ [] ∧ (itKind it ≠ 1 → gapOf it ≠ 0) := by
  have ne : ∀ {n p : Bytes}, Pad p → n ++ p ≠ [] := by
    intro n p hp h
    have := hp.pos
    simp only [List.append_eq_nil_iff] at h
    rw [h.2] at this; simp at this
  induction h with
  | nil => simp at hm
  | file h1 h2 h3 h4 h5 _ ih =>
    rcases List.mem_cons.mp hm with hm | hm
    · cases hm; exact ⟨ne h1, fun _ => h5⟩
    · rcases List.mem_append.mp hm with hm | hm
      · simp at hm
      · exact ih (by simpa using hm)
  | link h1 h2 h3 _ ih =>
    rcases List.mem_cons.mp hm with hm | hm
    · cases hm; exact ⟨ne h1, fun _ => h2⟩
    · exact ih (by simpa using hm)
  | dir h1 h2 h3 h4 _ _ ih1 ih2 =>
    rcases List.mem_cons.mp hm with hm | hm
    · cases hm; exact ⟨ne h1, fun h => absurd h4 h⟩
    · rcases List.mem_append.mp hm with hm | hm
      · exact ih1 hm
      · exact ih2 (by simpa using hm)

theorem AtomsOf.noLinks {f : Forest} {as : List Atom} (h : AtomsOf f as) (hf : f.noLinks) (t : Bytes) :
    Atom.link t ∉ as := by
  induction h with
  | nil => simp
  | file h1 h2 h3 h4 h5 _ ih =>
    have := ih hf
    simp [this]
  | link h1 h2 h3 _ ih => exact absurd hf (by simp [Forest.noLinks])
  | dir h1 h2 h3 h4 _ _ ih1 ih2 =>
    have a := ih1 hf.1
    have b := ih2 hf.2
    simp [a, b]

/-! ### Where link targets end -/

theorem prefix_split {u a b : Bytes} (h : u <+: a ++ b) :
    (u <+: a ∧ u.length < a.length) ∨ ∃ u', u = a ++ u' ∧ u' <+: b := by
  rcases Nat.lt_or_ge u.length a.length with hl | hl
  · exact .inl ⟨List.prefix_of_prefix_length_le h (List.prefix_append a b) (by omega), hl⟩
  · right
    have ha : a <+: u := List.prefix_of_prefix_length_le (List.prefix_append a b) h hl
    obtain ⟨u', rfl⟩ := ha
    exact ⟨u', rfl, (List.prefix_append_right_inj a).mp h⟩

/-- In an encoded tree the byte after a link target is 0. -/
theorem Encodes.link_end {f : Forest} {bs : Bytes} (h : Encodes f bs) (ok : AllocOracle)
    (hok : ∀ k n, ok k n = true) (k : Nat) (u : Bytes) (hu : u <+: bs) (g m : Nat)
    (he : (specParse ok k u).ending = .inLink g m) : bs[u.length + m]? = some 0 := by
  have hname : ∀ {k : Nat} {item name p rest u : Bytes}, item.length = 40 →
      (itKind item = 0 ∨ itKind item = 1 ∨ itKind item = 4) →
      itNameLenNorm item = name.length + p.length → u <+: item ++ name ++ p ++ rest →
      (specParse ok k u).ending = .inLink g m → ∃ u', u = item ++ name ++ p ++ u' ∧ u' <+: rest ∧
        (specBody ok (k+1) item u').ending = .inLink g m := by
    intro k item name p rest u h1 h2 h3 hu he
    rw [List.append_assoc, List.append_assoc] at hu
    rcases prefix_split hu with ⟨_, hl⟩ | ⟨u1, rfl, hu1⟩
    · rw [specParse_short _ _ _ (by omega)] at he; simp at he
    · rw [← List.append_assoc] at hu1
      rcases prefix_split hu1 with ⟨_, hl⟩ | ⟨u2, rfl, hu2⟩
      · rw [specParse_item _ _ _ _ h1, specItem, if_neg (by omega), if_pos h2, if_pos (hok _ _), specName,
          if_pos (by rw [h3]; simpa using hl)] at he
        simp at he
      · refine ⟨u2, by simp, hu2, ?_⟩
        have := specParse_name ok hok k (rest := u2) h1 h2 h3
        rw [← List.append_assoc, ← List.append_assoc, this] at he
        simpa [Parsed.after] using he
  have skip : ∀ {k : Nat} {q rest u : Bytes} {n : Nat}, q.length = n → u <+: q ++ rest →
      (specSkip ok k n u).ending = .inLink g m →
      ∃ u', u = q ++ u' ∧ u' <+: rest ∧ (specParse ok k u').ending = .inLink g m := by
    intro k q rest u n hq hu he
    rcases prefix_split hu with ⟨_, hl⟩ | ⟨u1, rfl, hu1⟩
    · rw [specSkip, if_pos (by omega)] at he; simp at he
    · rw [specSkip_at _ _ _ _ _ hq] at he
      exact ⟨u1, rfl, hu1, he⟩
  induction h generalizing k u with
  | nil =>
    rw [List.prefix_nil.mp hu, specParse_short _ _ _ (by simp)] at he
    simp at he
  | @file name content item p q bs mode rest h1 h2 h3 h4 h5 h6 h7 h8 h9 _ ih =>
    have e : item ++ name ++ p ++ content ++ q ++ bs =
      item ++ name ++ p ++ (content ++ (q ++ bs)) := by simp
    rw [e] at hu ⊢
    obtain ⟨u1, rfl, hu1, he1⟩ := hname h1 (by omega) h5 hu he
    rw [specBody, if_neg (by omega), if_pos h2, specFile] at he1
    rcases prefix_split hu1 with ⟨_, hl⟩ | ⟨u2, rfl, hu2⟩
    · rw [if_pos (by omega)] at he1; simp at he1
    · obtain ⟨s1, s2, s3⟩ := split_at content u2 (itFileSize item) h6.symm
      rw [if_neg s1, s3, gapOf_eq h6 h7] at he1
      obtain ⟨u3, rfl, hu3, he3⟩ := skip rfl hu2 (by simpa [Parsed.after] using he1)
      have := ih (k+1) u3 hu3 he3
      rw [← this]
      simp only [List.length_append, List.append_assoc, List.getElem?_append]
      rw [if_neg (by omega), if_neg (by omega), if_neg (by omega), if_neg (by omega),
        if_neg (by omega)]
      congr 1; omega
  | @link name target item p q bs mode rest h1 h2 h3 h4 h5 h6 h7 h8 h9 _ ih =>
    have e : item ++ name ++ p ++ target ++ q ++ bs =
      item ++ name ++ p ++ (target ++ (q ++ bs)) := by simp
    rw [e] at hu ⊢
    obtain ⟨u1, rfl, hu1, he1⟩ := hname h1 (by omega) h5 hu he
    rw [specBody, if_neg (by omega), if_neg (by omega), specLink] at he1
    rcases prefix_split hu1 with ⟨_, hl⟩ | ⟨u2, rfl, hu2⟩
    · rw [if_pos (by omega)] at he1
      simp only [Ending.inLink.injEq] at he1
      obtain ⟨_, rfl⟩ := he1
      rw [← List.append_assoc, List.getElem?_append_right (by simp; omega)]
      have : (item ++ name ++ p ++ u1).length + (itFileSize item - u1.length) -
          (item ++ name ++ p ++ target).length = 0 := by simp; omega
      rw [this]; exact h9.head bs
    · obtain ⟨s1, s2, s3⟩ := split_at target u2 (itFileSize item) h6.symm
      rw [if_neg s1, s3, gapOf_eq h6 h7] at he1
      obtain ⟨u3, rfl, hu3, he3⟩ := skip rfl hu2 (by simpa [Parsed.after] using he1)
      have := ih (k+1) u3 hu3 he3
      rw [← this]
      simp only [List.length_append, List.append_assoc, List.getElem?_append]
      rw [if_neg (by omega), if_neg (by omega), if_neg (by omega), if_neg (by omega),
        if_neg (by omega)]
      congr 1; omega
  | @dir name item p e bs cs mode sub rest h1 h2 h3 h4 h5 h6 hsub h7 h8 _ ih1 ih2 =>
    have e1 : item ++ name ++ p ++ bs ++ e ++ cs =
      item ++ name ++ p ++ (bs ++ (e ++ cs)) := by simp
    rw [e1] at hu ⊢
    obtain ⟨u1, rfl, hu1, he1⟩ := hname h1 (by omega) h5 hu he
    rw [specBody, if_pos h2] at he1
    rcases prefix_split hu1 with ⟨hp, hl⟩ | ⟨u2, rfl, hu2⟩
    · have := ih1 (k+1) u1 hp he1
      have hb : u1.length + m < bs.length := (List.getElem?_eq_some_iff.mp this).1
      rw [← this]
      simp only [List.length_append, List.append_assoc, List.getElem?_append]
      rw [if_neg (by omega), if_neg (by omega), if_neg (by omega), if_pos (by omega)]
      congr 1; omega
    · obtain ⟨k', as, i1, _⟩ := hsub.atomsOf ok hok (k+1)
      rw [i1] at he1
      simp only [Parsed.after] at he1
      rcases prefix_split hu2 with ⟨_, hl⟩ | ⟨u3, rfl, hu3⟩
      · rw [specParse_short _ _ _ (by omega)] at he1; simp at he1
      · rw [specParse_item _ _ _ _ h7, specItem, if_pos h8] at he1
        have := ih2 k' u3 hu3 (by simpa [Parsed.after] using he1)
        rw [← this]
        simp only [List.length_append, List.append_assoc, List.getElem?_append]
        rw [if_neg (by omega), if_neg (by omega), if_neg (by omega), if_neg (by omega),
          if_neg (by omega)]
        congr 1; omega

/-- Reading on inside a link target. -/
theorem specParse_inLink (ok : AllocOracle) (k : Nat) (w x : Bytes) (g m : Nat)
    (h : (specParse ok k w).ending = .inLink g m) (hx : x.length < m) :
    (specParse ok k (w ++ x)).ending = .inLink (g + x.length) (m - x.length) := by
  induction hn : w.length using Nat.strongRecOn generalizing w k with
  | _ n ih =>
    subst hn
    by_cases hsh : w.length < 40
    · rw [specParse_short _ _ _ hsh] at h; simp at h
    · have hw : w = w.take 40 ++ w.drop 40 := (List.take_append_drop 40 w).symm
      have hil : (w.take 40).length = 40 := take_len (by omega)
      rw [hw] at h ⊢
      rw [List.append_assoc]
      rw [specParse_item _ _ _ _ hil] at h ⊢
      generalize hr : w.drop 40 = r at h ⊢
      generalize w.take 40 = item at h ⊢
      have hrl : r.length < w.length := by rw [← hr]; simp; omega
      have skip : ∀ k n (l : Bytes), l.length ≤ r.length →
          (specSkip ok k n l).ending = .inLink g m →
          (specSkip ok k n (l ++ x)).ending = .inLink (g + x.length) (m - x.length) := by
        intro k n l hl he
        simp only [specSkip] at he ⊢
        by_cases hln : l.length < n
        · rw [if_pos hln] at he; exact absurd he (by simp)
        · rw [if_neg hln] at he
          rw [if_neg (by simp; omega), (take_drop_append (by omega)).2]
          exact ih _ (by simp; omega) _ _ he rfl
      unfold specItem at h ⊢
      split
      · rename_i h2; rw [if_pos h2] at h
        exact ih _ hrl _ _ h rfl
      · rename_i h2; rw [if_neg h2] at h
        split
        · rename_i h3; rw [if_pos h3] at h
          split
          · rename_i h4; rw [if_pos h4] at h
            simp only [specName] at h ⊢
            by_cases hl : r.length < itNameLenNorm item
            · rw [if_pos hl] at h; simp at h
            · rw [if_neg hl] at h
              rw [if_neg (by simp; omega), (take_drop_append (by omega)).2]
              have hl2 : (r.drop (itNameLenNorm item)).length ≤ r.length := by simp
              simp only [Parsed.after] at h ⊢
              generalize r.drop (itNameLenNorm item) = l at hl2 h ⊢
              simp only [specBody] at h ⊢
              split
              · rename_i h5; rw [if_pos h5] at h
                exact ih _ (by omega) _ _ h rfl
              · rename_i h5; rw [if_neg h5] at h
                split
                · rename_i h6; rw [if_pos h6] at h
                  simp only [specFile] at h ⊢
                  by_cases hf : l.length < itFileSize item
                  · rw [if_pos hf] at h; simp at h
                  · rw [if_neg hf] at h
                    rw [if_neg (by simp; omega), (take_drop_append (by omega)).2]
                    simp only [Parsed.after] at h ⊢
                    exact skip _ _ _ (by simp; omega) h
                · rename_i h6; rw [if_neg h6] at h
                  simp only [specLink] at h ⊢
                  by_cases hf : l.length < itFileSize item
                  · rw [if_pos hf] at h
                    simp only [Ending.inLink.injEq] at h
                    obtain ⟨rfl, rfl⟩ := h
                    rw [if_pos (by simp; omega)]
                    simp only [List.length_append, Ending.inLink.injEq]
                    omega
                  · rw [if_neg hf] at h
                    rw [if_neg (by simp; omega), (take_drop_append (by omega)).2]
                    simp only [Parsed.after] at h ⊢
                    exact skip _ _ _ (by simp; omega) h
          · rename_i h4; rw [if_neg h4] at h; simp at h
        · rename_i h3; rw [if_neg h3] at h
          exact ih _ hrl _ _ h rfl

/-! ### From atoms to callbacks -/

theorem atoms_cons (e : Ev) (evs : List Ev) : atoms (e :: evs) = e.atoms ++ atoms evs := rfl

theorem file_events (evs : List Ev) : ∀ (c : Bytes) (rest : List Atom),
    atoms evs = c.map .byte ++ .fileEnd :: rest → ((Proto.inFile c.length).run evs).isSome →
    ∃ (ds : List Bytes) (e2 : List Ev), evs = ds.map .fileRead ++ .fileEnd :: e2 ∧ ds.flatten = c ∧ atoms e2 = rest ∧
      (Proto.idle.run e2).isSome := by
  induction evs with
  | nil => intro c rest h; simp [atoms] at h
  | cons e evs ih =>
    intro c rest h hp
    simp only [Proto.run] at hp
    cases e with
    | fileRead d =>
      simp only [Proto.step] at hp
      split at hp
      · rename_i hd
        simp only [Option.bind_some] at hp
        simp only [atoms_cons, Ev.atoms] at h
        have hc : c = d ++ c.drop d.length := by
          have h1 := congrArg (List.take d.length) h
          rw [List.take_left' (by simp), List.take_append_of_le_length (by simpa using hd),
            ← List.map_take] at h1
          have h2 : d = c.take d.length := by
            have inj : ∀ x y : Bytes, x.map Atom.byte = y.map Atom.byte → x = y := by
              intro x
              induction x with
              | nil => intro y h; cases y <;> simp at h ⊢
              | cons a x ih =>
                intro y h
                cases y with
                | nil => simp at h
                | cons b y =>
                  simp only [List.map_cons, List.cons.injEq, Atom.byte.injEq] at h
                  rw [h.1, ih y h.2]
            exact inj _ _ h1
          conv => lhs; rw [← List.take_append_drop d.length c, ← h2]
        have h2 : atoms evs = (c.drop d.length).map .byte ++ .fileEnd :: rest := by
          rw [hc] at h
          simpa using h
        obtain ⟨ds, e2, g1, g2, g3, g4⟩ := ih (c.drop d.length) rest h2 (by
          rw [List.length_drop]; exact hp)
        exact ⟨d :: ds, e2, by simp [g1], by rw [List.flatten_cons, g2, ← hc], g3, g4⟩
      · simp at hp
    | fileEnd =>
      cases hl : c.length with
      | zero =>
        have : c = [] := List.length_eq_zero_iff.mp hl
        subst this
        simp only [List.length_nil, Proto.step, Option.bind_some] at hp
        simp only [atoms_cons, Ev.atoms, List.map_nil, List.nil_append, List.cons_append,
          List.cons.injEq, true_and] at h
        exact ⟨[], evs, rfl, rfl, h, hp⟩
      | succ n => rw [hl] at hp; simp [Proto.step] at hp
    | _ => cases c <;> simp [Proto.step] at hp

theorem cstr?_pad {n : Bytes} (h : 0 ∉ n) {k : Nat} (hk : 0 < k) :
    cstr? (n ++ List.replicate k 0) = some n := by
  obtain ⟨k, rfl⟩ : ∃ j, k = j + 1 := ⟨k - 1, by omega⟩
  rw [cstr?, if_pos (by simp), List.takeWhile_append_of_pos]
  · simp [List.replicate_succ]
  · intro a ha
    simp only [bne_iff_ne, ne_eq]
    exact fun h0 => h (h0 ▸ ha)

theorem Forest.proper.wellNamed {f : Forest} (h : f.proper) : f.wellNamed := by
  induction f with
  | nil => trivial
  | file n m c r ih => exact ⟨h.1, ih h.2.2⟩
  | link n m t r ih => exact ⟨h.1, h.2.2.1, h.2.2.2.1, ih h.2.2.2.2⟩
  | dir n m s r ihs ih => exact ⟨h.1, ihs h.2.2.1, ih h.2.2.2⟩
  | other n r ih => exact ih h
  | bad n r ih => exact ih h

/-- A callback history with the atoms of a tree conveys the tree. -/
theorem AtomsOf.evsOf {f : Forest} {as : List Atom} (h : AtomsOf f as) : ∀ (evs : List Ev)
    (more : List Atom), atoms evs = as ++ more → (Proto.idle.run evs).isSome → f.wellNamed →
    (∀ t a, .symLink t a ∈ evs → t ≠ [] → a.head? = some 0) →
    ∃ e1 e2, evs = e1 ++ e2 ∧ EvsOf f e1 ∧ atoms e2 = more ∧ (Proto.idle.run e2).isSome := by
  -- the first callback
  have first : ∀ (evs : List Ev) (a : Atom) (more : List Atom), atoms evs = a :: more →
      (Proto.idle.run evs).isSome → (∃ ft nm it evs', a = .start ft nm it ∧
        evs = .itemStart ft nm it :: evs' ∧ atoms evs' = more ∧
        ((Proto.idle.step (.itemStart ft nm it)).bind (·.run evs')).isSome) ∨
      (∃ evs', a = .dirEnd ∧ evs = .dirEnd :: evs' ∧ atoms evs' = more ∧
        (Proto.idle.run evs').isSome) := by
    intro evs a more h hp
    cases evs with
    | nil => simp [atoms] at h
    | cons e evs =>
      simp only [Proto.run] at hp
      cases e with
      | itemStart ft nm it =>
        simp only [atoms_cons, Ev.atoms, List.cons_append, List.nil_append, List.cons.injEq] at h
        exact .inl ⟨ft, nm, it, evs, h.1.symm, rfl, h.2, hp⟩
      | dirEnd =>
        simp only [atoms_cons, Ev.atoms, List.cons_append, List.nil_append, List.cons.injEq] at h
        exact .inr ⟨evs, h.1.symm, rfl, h.2, by simpa [Proto.step] using hp⟩
      | _ => simp [Proto.step] at hp
  have nameTake : ∀ {item name p : Bytes}, itNameLen item = name.length →
      itNameLen item ≤ (name ++ p).length ∧ (name ++ p).take (itNameLen item) = name := by
    intro item name p h
    rw [h]; exact ⟨by simp, by simp⟩
  induction h with
  | nil => intro evs more h hp _ _; exact ⟨[], evs, rfl, .nil, h, hp⟩
  | @file name p item content mode rest as h1 h2 h3 h4 h5 _ ih =>
    intro evs more h hp hpr hl
    rcases first evs _ _ h hp with ⟨ft, nm, it, evs', g1, rfl, g3, g4⟩ | ⟨_, g1, _⟩
    · cases g1
      have g4' : ((Proto.inFile content.length).run evs').isSome := by
        simpa [Proto.step, h4] using g4
      obtain ⟨ds, e2, k1, k2, k3, k4⟩ := file_events evs' content (as ++ more) (by
        rw [g3]; simp) g4'
      subst k1
      obtain ⟨e1, e3, j1, j2, j3, j4⟩ := ih e2 more k3 k4 hpr.2 (fun t a hm => hl t a (by simp [hm]))
      subst j1
      exact ⟨.itemStart .file (name ++ p) item :: (ds.map .fileRead ++ .fileEnd :: e1), e3, by simp,
        .file (nameTake h2).1 (nameTake h2).2 h3 k2 (by
          obtain ⟨k, hk, _, rfl⟩ := h1
          exact cstr?_pad hpr.1.2.2.2.2 hk) j2, j3, j4⟩
    · cases g1
  | @link name p item target mode rest as h1 h2 hm _ ih =>
    intro evs more h hp hpr hl
    rcases first evs _ _ h hp with ⟨ft, nm, it, evs', g1, rfl, g3, g4⟩ | ⟨_, g1, _⟩
    · cases g1
      cases evs' with
      | nil => simp [atoms] at g3
      | cons e evs' =>
        simp only [Proto.step, Option.bind_some, Proto.run] at g4
        cases e with
        | symLink t a =>
          have g5 : atoms (.symLink t a :: evs') = .link target :: (as ++ more) := g3
          simp only [atoms_cons, Ev.atoms, List.cons_append, List.nil_append, List.cons.injEq,
            Atom.link.injEq] at g5
          obtain ⟨rfl, g5⟩ := g5
          obtain ⟨e1, e3, j1, j2, j3, j4⟩ := ih evs' more g5 (by simpa [Proto.step] using g4)
            hpr.2.2.2 (fun t a hm => hl t a (by simp [hm]))
          subst j1
          refine ⟨_, e3, rfl, .link ?_ (hl t a (by simp) hpr.2.1) hm j2, j3, j4⟩
          obtain ⟨k, hk, _, rfl⟩ := h1
          exact cstr?_pad hpr.1.2.2.2.2 hk
        | _ => simp [Proto.step] at g4
    · cases g1
  | @dir name p item mode sub rest as bs h1 h2 h3 h4 _ _ ih1 ih2 =>
    intro evs more h hp hpr hl
    rcases first evs _ _ h hp with ⟨ft, nm, it, evs', g1, rfl, g3, g4⟩ | ⟨_, g1, _⟩
    · cases g1
      obtain ⟨e1, e2, j1, j2, j3, j4⟩ := ih1 evs' (.dirEnd :: bs ++ more) (by rw [g3]; simp)
        (by simpa [Proto.step] using g4) hpr.2.1 (fun t a hm => hl t a (by simp [hm]))
      subst j1
      rcases first e2 _ _ j3 j4 with ⟨_, _, _, _, g1, _⟩ | ⟨e3, _, rfl, k3, k4⟩
      · cases g1
      · obtain ⟨e4, e5, m1, m2, m3, m4⟩ := ih2 e3 more k3 k4 hpr.2.2
          (fun t a hm => hl t a (by simp [hm]))
        subst m1
        exact ⟨.itemStart .dir (name ++ p) item :: (e1 ++ .dirEnd :: e4), e5, by simp,
          .dir (nameTake h2).1 (nameTake h2).2 h3 j2 m2, m3, m4⟩
    · cases g1

theorem atoms_nil_idle {evs : List Ev} (h : atoms evs = []) (hp : (Proto.idle.run evs).isSome) :
    evs = [] := by
  cases evs with
  | nil => rfl
  | cons e evs =>
    simp only [Proto.run] at hp
    cases e <;> simp [atoms_cons, Ev.atoms, Proto.step] at h hp

/-! ### Unfinished histories -/

/-- A callback for every atom. -/
def canon : List Atom → List Ev
  | [] => []
  | .flStart :: as => .flStart :: canon as
  | .drStart :: as => .drStart :: canon as
  | .start ft nm it :: as => .itemStart ft nm it :: canon as
  | .byte b :: as => .fileRead [b] :: canon as
  | .fileEnd :: as => .fileEnd :: canon as
  | .dirEnd :: as => .dirEnd :: canon as
  | .link t :: as => .symLink t [0] :: canon as

theorem canon_append (as bs : List Atom) : canon (as ++ bs) = canon as ++ canon bs := by
  induction as with
  | nil => rfl
  | cons a as ih => cases a <;> simp [canon, ih]

theorem atoms_canon (as : List Atom) : atoms (canon as) = as := by
  induction as with
  | nil => rfl
  | cons a as ih => cases a <;> simp [canon, atoms_cons, Ev.atoms, ih]

theorem run_bytes (d : Bytes) : ∀ n, d.length ≤ n →
    (Proto.inFile n).run (canon (d.map .byte)) = some (.inFile (n - d.length)) := by
  induction d with
  | nil => intro n _; simp [canon, Proto.run]
  | cons b d ih =>
    intro n h
    simp only [List.length_cons] at h
    simp only [List.map_cons, canon, Proto.run, Proto.step, List.length_cons, List.length_nil]
    rw [if_pos (by omega)]
    simp only [Option.bind_some]
    rw [ih _ (by omega)]
    congr 2; omega

/-- Cutting the file content into single bytes leads to the same state. -/
theorem run_canon (evs : List Ev) : ∀ p q : Proto, p.run evs = some q →
    p.run (canon (atoms evs)) = some q := by
  induction evs with
  | nil => intro p q h; exact h
  | cons e evs ih =>
    intro p q h
    rw [atoms_cons, canon_append, Proto.run_append]
    simp only [Proto.run] at h
    cases hs : p.step e with
    | none => rw [hs] at h; simp at h
    | some p' =>
      rw [hs] at h
      have h' : p'.run evs = some q := h
      have : p.run (canon e.atoms) = some p' := by
        cases e with
        | itemStart ft nm it => simpa [Ev.atoms, canon, Proto.run] using hs
        | fileRead d =>
          cases p with
          | inFile n =>
            simp only [Proto.step] at hs
            split at hs
            · cases hs; exact run_bytes d n (by assumption)
            · simp at hs
          | _ => simp [Proto.step] at hs
        | symLink t a =>
          cases p <;> simp [Proto.step] at hs
          subst hs
          simp [Ev.atoms, canon, Proto.run, Proto.step]
        | flStart => cases p <;> simp [Proto.step] at hs
        | drStart => cases p <;> simp [Proto.step] at hs
        | flRead d => cases p <;> simp [Proto.step] at hs
        | fileEnd => simpa [Ev.atoms, canon, Proto.run] using hs
        | dirEnd => simpa [Ev.atoms, canon, Proto.run] using hs
      rw [this]
      exact ih p' q h'

theorem AtomsOf.run {f : Forest} {as : List Atom} (h : AtomsOf f as) :
    Proto.idle.run (canon as) = some .idle := by
  induction h with
  | nil => rfl
  | @file name p item content mode rest as h1 h2 h3 h4 h5 _ ih =>
    simp only [canon, canon_append, Proto.run, Proto.step, Option.bind_some]
    rw [Proto.run_append, run_bytes _ _ (by omega)]
    simp only [h4, Nat.sub_self, Option.bind_some, Proto.run, Proto.step]
    exact ih
  | link h1 h2 h3 _ ih => simpa [canon, Proto.run, Proto.step] using ih
  | dir h1 h2 h3 h4 _ _ ih1 ih2 =>
    simp only [canon, canon_append, Proto.run, Proto.step, Option.bind_some]
    rw [Proto.run_append, ih1]
    simpa [Proto.run, Proto.step] using ih2

/-- A history with the first atoms of a tree can be completed to one that conveys the tree. -/
theorem AtomsOf.complete {f : Forest} {as : List Atom} (h : AtomsOf f as) (evs : List Ev)
    (more : List Atom) (ha : atoms evs ++ more = as) (hp : (Proto.idle.run evs).isSome)
    (hf : f.wellNamed) (hl : ∀ t a, .symLink t a ∈ evs → t ≠ [] → a.head? = some 0) :
    EvsOf f (evs ++ canon more) := by
  obtain ⟨q, hq⟩ := Option.isSome_iff_exists.mp hp
  have h1 : (Proto.idle.run (evs ++ canon more)).isSome := by
    have hr := h.run
    rw [← ha, canon_append, Proto.run_append, run_canon _ _ _ hq] at hr
    rw [Proto.run_append, hq]
    simp only [Option.bind_some] at hr ⊢
    rw [hr]; rfl
  have hcl : ∀ (m : List Atom) t a, Ev.symLink t a ∈ canon m → a = [0] := by
    intro m
    induction m with
    | nil => intro t a h; simp [canon] at h
    | cons x m ih =>
      intro t a h
      cases x <;> simp only [canon, List.mem_cons, reduceCtorEq, false_or] at h <;>
        first
          | exact ih t a h
          | (rcases h with h | h
             · cases h; rfl
             · exact ih t a h)
  obtain ⟨e1, e2, g1, g2, g3, g4⟩ := h.evsOf (evs ++ canon more) []
    (by rw [atoms_append, atoms_canon, ha, List.append_nil]) h1 hf (by
      intro t a hm ht
      rcases List.mem_append.mp hm with hm | hm
      · exact hl t a hm ht
      · rw [hcl _ _ _ hm]; rfl)
  rw [atoms_nil_idle g3 g4, List.append_nil] at g1
  rw [g1]; exact g2

end Zwt
