import Verif.Proofs.HLTree

/-! What extraction can touch, whatever the operating system refuses. -/

namespace Zwt

/-! ### Paths that lead to existing directories -/

theorem Walks.split {os : Os} {fs : FS} {n m : Nat} {cur d : Loc} {cs : List Bytes}
    (h : Walks os fs n cur cs m d) : ∀ (a b : List Bytes), cs = a ++ b →
    ∃ k e, Walks os fs n cur a k e ∧ Walks os fs k e b m d := by
  induction h with
  | nil =>
    intro a b hab
    obtain ⟨rfl, rfl⟩ := List.append_eq_nil_iff.mp hab.symm
    exact ⟨_, _, .nil, .nil⟩
  | skip h1 h2 hw ih =>
    intro a b hab
    cases a with
    | nil => subst hab; exact ⟨_, _, .nil, .skip h1 h2 hw⟩
    | cons x xs =>
      simp only [List.cons_append, List.cons.injEq] at hab
      obtain ⟨rfl, hab⟩ := hab
      obtain ⟨k, e, g1, g2⟩ := ih xs b hab
      exact ⟨k, e, .skip h1 h2 g1, g2⟩
  | up h1 hw ih =>
    intro a b hab
    cases a with
    | nil => subst hab; exact ⟨_, _, .nil, .up h1 hw⟩
    | cons x xs =>
      simp only [List.cons_append, List.cons.injEq] at hab
      obtain ⟨rfl, hab⟩ := hab
      obtain ⟨k, e, g1, g2⟩ := ih xs b hab
      exact ⟨k, e, .up h1 g1, g2⟩
  | dir h1 h2 h3 h4 hw ih =>
    intro a b hab
    cases a with
    | nil => subst hab; exact ⟨_, _, .nil, .dir h1 h2 h3 h4 hw⟩
    | cons x xs =>
      simp only [List.cons_append, List.cons.injEq] at hab
      obtain ⟨rfl, hab⟩ := hab
      obtain ⟨k, e, g1, g2⟩ := ih xs b hab
      exact ⟨k, e, .dir h1 h2 h3 h4 g1, g2⟩
  | @link n cur c cs m d t h1 h2 h3 h4 hw ih =>
    intro a b hab
    cases a with
    | nil => subst hab; exact ⟨_, _, .nil, .link h1 h2 h3 h4 hw⟩
    | cons x xs =>
      simp only [List.cons_append, List.cons.injEq] at hab
      obtain ⟨rfl, hab⟩ := hab
      obtain ⟨k, e, g1, g2⟩ := ih (splitPath t ++ xs) b (by rw [hab, List.append_assoc])
      exact ⟨k, e, .link h1 h2 h3 h4 g1, g2⟩

/-- Also without following a last link there is something. -/
theorem Walks.exists {os : Os} {fs : FS} {n m : Nat} {cur e : Loc} {cs : List Bytes}
    (h : Walks os fs n cur cs m e) : fs e ≠ none →
    ∃ l, Zwt.resolve os fs false n cur cs = some l ∧ fs l ≠ none := by
  induction h with
  | nil => intro he; exact ⟨_, resolve_nil .., he⟩
  | skip h1 h2 _ ih =>
    intro he
    rw [resolve_cons, if_neg (by simp [h1]), if_pos h2]
    exact ih he
  | up h1 _ ih =>
    intro he
    rw [resolve_cons, if_neg (by simp [h1]), if_neg (by simp), if_pos rfl]
    exact ih he
  | dir h1 h2 h3 h4 _ ih =>
    intro he
    rw [resolve_cons, if_neg (by simp [h1]), if_neg h2, if_neg h3, h4]
    exact ih he
  | @link n cur c cs m d t h1 h2 h3 h4 _ ih =>
    intro he
    rw [resolve_cons, if_neg (by simp [h1]), if_neg h2, if_neg h3, h4]
    simp only
    by_cases hc : cs = [] ∧ ¬ false = true
    · rw [if_pos hc]; exact ⟨_, rfl, by rw [h4]; simp⟩
    · rw [if_neg hc]; exact ih he

/-! ### The paths `MkdirRecurse` passes to `mkdir` -/

/-- The path itself, or a part of it that ends before a slash. -/
def PathCut (path s : Bytes) : Prop := s = path ∨ ∃ t, path = s ++ 47 :: t

/-- The memory of the path with NULs in place of the slashes at `idxs`. -/
structure MemOk (path : Bytes) (idxs : List Nat) (mem : Bytes) : Prop where
  len : mem.length = path.length
  get : ∀ j, mem[j]? = if j ∈ idxs then some 0 else path[j]?
  slash : ∀ i ∈ idxs, path[i]? = some 47
  sorted : idxs.Pairwise (· < ·)

theorem cString_take (b : Bytes) : ∀ (k : Nat), (∀ j, j < k → b[j]? ≠ some 0) →
    (b[k]? = some 0 ∨ k = b.length) → cString b = b.take k := by
  induction b with
  | nil => intro k _ _; simp [cString]
  | cons x xs ih =>
    intro k h1 h2
    cases k with
    | zero =>
      have : x = 0 := by simpa using h2
      subst this
      simp [cString]
    | succ k =>
      have hx : x ≠ 0 := by simpa using h1 0 (by omega)
      have := ih k (fun j hj => by simpa using h1 (j + 1) (by omega)) (by simpa using h2)
      simp only [cString] at this
      simp [cString, List.takeWhile_cons, hx, this]

theorem MemOk.cString {path : Bytes} {idxs : List Nat} {mem : Bytes} (h : MemOk path idxs mem)
    (h0 : 0 ∉ path) : cString mem = path.take (idxs.headD path.length) := by
  have hlt : ∀ j, j < idxs.headD path.length → j ∉ idxs := by
    intro j hj hm
    cases idxs with
    | nil => simp at hm
    | cons a as =>
      simp only [List.headD_cons] at hj
      rcases List.mem_cons.mp hm with rfl | hm
      · omega
      · have := (List.pairwise_cons.mp h.sorted).1 j hm
        omega
  rw [cString_take mem (idxs.headD path.length)]
  · apply List.ext_getElem?
    intro j
    rw [List.getElem?_take, List.getElem?_take]
    split
    · rename_i hj
      rw [h.get, if_neg (hlt j hj)]
    · rfl
  · intro j hj
    rw [h.get, if_neg (hlt j hj)]
    intro hc
    exact h0 (List.mem_of_getElem? hc)
  · cases idxs with
    | nil => right; simp [h.len]
    | cons a as => left; rw [h.get]; simp

theorem cut_take {path : Bytes} {i : Nat} (h : path[i]? = some 47) : PathCut path (path.take i) := by
  right
  refine ⟨path.drop (i + 1), ?_⟩
  obtain ⟨hl, hi⟩ := List.getElem?_eq_some_iff.mp h
  conv => lhs; rw [← List.take_append_drop i path, List.drop_eq_getElem_cons hl, hi]

theorem MemOk.cut {path : Bytes} {idxs : List Nat} {mem : Bytes} (h : MemOk path idxs mem)
    (h0 : 0 ∉ path) : PathCut path (Zwt.cString mem) := by
  rw [h.cString h0]
  cases idxs with
  | nil => left; simp
  | cons a as => exact cut_take (h.slash a List.mem_cons_self)

theorem lastIndexOf_some {c : UInt8} {p : Bytes} {i : Nat} (h : lastIndexOf c p = some i) :
    p[i]? = some c := by
  induction p generalizing i with
  | nil => simp [lastIndexOf] at h
  | cons b bs ih =>
    simp only [lastIndexOf] at h
    split at h
    · rename_i j hj
      cases h
      simpa using ih hj
    · split at h
      · rename_i hb
        cases h
        simp [hb]
      · simp at h

theorem lastIndexOf_eq_none {c : UInt8} {p : Bytes} (h : lastIndexOf c p = none) : c ∉ p := by
  induction p with
  | nil => simp
  | cons b bs ih =>
    simp only [lastIndexOf] at h
    split at h
    · simp at h
    · rename_i hn
      split at h
      · simp at h
      · rename_i hb
        simp only [List.mem_cons, not_or]
        exact ⟨fun h => hb h.symm, ih hn⟩

theorem MemOk.restore {path : Bytes} {i : Nat} {idxs : List Nat} {mem : Bytes}
    (h : MemOk path (i :: idxs) mem) : MemOk path idxs (mem.set i 47) := by
  have hp := List.pairwise_cons.mp h.sorted
  refine ⟨by rw [List.length_set]; exact h.len, ?_, fun j hj => h.slash j (List.mem_cons_of_mem _ hj),
    hp.2⟩
  intro j
  have hi := h.slash i List.mem_cons_self
  have hl : i < mem.length := by
    rw [h.len]; exact (List.getElem?_eq_some_iff.mp hi).1
  by_cases hj : j = i
  · subst hj
    rw [if_neg (fun hm => absurd (hp.1 j hm) (Nat.lt_irrefl _)), hi]
    simp [hl]
  · rw [List.getElem?_set_ne (fun h => hj h.symm), h.get]
    simp [hj]

theorem MemOk.push {path : Bytes} {i : Nat} {idxs : List Nat} {mem : Bytes}
    (h : MemOk path idxs mem) (h0 : 0 ∉ path) (hi : (Zwt.cString mem)[i]? = some 47) :
    MemOk path (i :: idxs) (mem.set i 0) := by
  rw [h.cString h0, List.getElem?_take] at hi
  split at hi
  · rename_i hlt
    have hl : i < mem.length := by
      rw [h.len]; exact (List.getElem?_eq_some_iff.mp hi).1
    refine ⟨by rw [List.length_set]; exact h.len, ?_, ?_, ?_⟩
    · intro j
      by_cases hj : j = i
      · subst hj; simp [hl]
      · rw [List.getElem?_set_ne (fun h => hj h.symm), h.get]
        simp [hj]
    · intro j hj
      rcases List.mem_cons.mp hj with rfl | hj
      · exact hi
      · exact h.slash j hj
    · refine List.pairwise_cons.mpr ⟨?_, h.sorted⟩
      intro j hj
      cases idxs with
      | nil => simp at hj
      | cons a as =>
        simp only [List.headD_cons] at hlt
        rcases List.mem_cons.mp hj with rfl | hj
        · exact hlt
        · have := (List.pairwise_cons.mp h.sorted).1 j hj
          omega
  · simp at hi

/-- What holds after `mkdir` of every part of the path holds after `MkdirRecurse`. -/
theorem mkRestore_inv (os : Os) (mode : Nat) (Q : World → Prop) (path : Bytes) (h0 : 0 ∉ path)
    (hQ : ∀ s w, PathCut path s → Q w → Q (osCreate os w s mode).2) (idxs : List Nat) :
    ∀ (mem : Bytes) (w : World), MemOk path idxs mem → Q w →
      Q (mkRestore os mode idxs mem w).2 := by
  induction idxs with
  | nil => intro mem w _ h; exact h
  | cons i idxs ih =>
    intro mem w hm h
    have h1 := hQ _ w (hm.restore.cut h0) h
    simp only [mkRestore]
    generalize osCreate os w (cString (mem.set i 47)) mode = r at h1
    obtain ⟨r, w'⟩ := r
    simp only
    split
    · exact h1
    · exact ih _ _ hm.restore h1

theorem mkCut_inv (os : Os) (mode : Nat) (Q : World → Prop) (path : Bytes) (h0 : 0 ∉ path)
    (hb : ∀ s, PathCut path s → 47 ∉ s → 92 ∉ s)
    (hQ : ∀ s w, PathCut path s → Q w → Q (osCreate os w s mode).2) (n : Nat) :
    ∀ (idxs : List Nat) (mem : Bytes) (w : World), MemOk path idxs mem → Q w →
      Q (mkCut os mode n idxs mem w).2 := by
  induction n with
  | zero => intro idxs mem w _ h; exact h
  | succ n ih =>
    intro idxs mem w hm h
    simp only [mkCut]
    cases hd : fileDelimiter (cString mem) with
    | none => exact h
    | some i =>
      have hi : (cString mem)[i]? = some 47 := by
        simp only [fileDelimiter] at hd
        split at hd
        · rename_i j hj
          cases hd
          exact lastIndexOf_some hj
        · rename_i hn
          have h47 := lastIndexOf_eq_none hn
          have h92 := hb _ (hm.cut h0) h47
          rw [lastIndexOf_none 92 _ h92] at hd
          simp at hd
      have hp := hm.push h0 hi
      have h1 := hQ _ w (hp.cut h0) h
      simp only
      generalize osCreate os w (cString (mem.set i 0)) mode = r at h1
      obtain ⟨r, w'⟩ := r
      simp only
      split
      · exact h1
      · split
        · split
          · exact mkRestore_inv os mode Q path h0 hQ _ _ _ hp h1
          · exact h1
        · exact ih _ _ _ hp h1

theorem mkdirRecurse_inv (os : Os) (mode : Nat) (Q : World → Prop) (path : Bytes) (h0 : 0 ∉ path)
    (hb : ∀ s, PathCut path s → 47 ∉ s → 92 ∉ s) (hT : ∀ w, Q w → Q w.tick)
    (hQ : ∀ s w, PathCut path s → Q w → Q (osCreate os w s mode).2) (w : World) (h : Q w) :
    Q (mkdirRecurse os mode path w).2 := by
  simp only [mkdirRecurse]
  split
  · exact hT w h
  · simp only [mkdirRaw]
    have h1 := hQ path w.tick (.inl rfl) (hT w h)
    generalize osCreate os w.tick path mode = r at h1
    obtain ⟨r, w'⟩ := r
    simp only
    split
    · exact h1
    · exact mkCut_inv os mode Q path h0 hb hQ 62 [] path w' ⟨rfl, by simp, by simp, by simp⟩ h1

/-! ### Shape of the parts -/

/-- Names, each with a slash before it. -/
def slashed (ns : List Bytes) : Bytes := (ns.map (47 :: ·)).flatten

theorem slashed_cons (n : Bytes) (ns : List Bytes) : slashed (n :: ns) = 47 :: n ++ slashed ns := rfl

theorem slashed_snoc (ns : List Bytes) (n : Bytes) : slashed (ns ++ [n]) = slashed ns ++ 47 :: n := by
  simp [slashed]

theorem slashed_append (ns ms : List Bytes) : slashed (ns ++ ms) = slashed ns ++ slashed ms := by
  simp [slashed]

theorem joinNames_slashed (n : Bytes) (ns : List Bytes) :
    joinNames (n :: ns) = n ++ slashed ns := by
  induction ns generalizing n with
  | nil => simp [joinNames, slashed]
  | cons m ms ih => rw [joinNames, ih, slashed_cons]; simp; simp

theorem slashed_cut (ns : List Bytes) (hn : ∀ n ∈ ns, 47 ∉ n) : ∀ (a t : Bytes),
    slashed ns = a ++ 47 :: t → ∃ ns', ns' <+: ns ∧ a = slashed ns' := by
  induction ns with
  | nil => intro a t h; simp [slashed] at h
  | cons x xs ih =>
    intro a t h
    have hx := hn x List.mem_cons_self
    cases a with
    | nil => exact ⟨[], List.nil_prefix, rfl⟩
    | cons y a =>
      rw [slashed_cons, List.cons_append, List.cons_append, List.cons.injEq] at h
      obtain ⟨rfl, h⟩ := h
      rcases List.append_eq_append_iff.mp h with ⟨c, rfl, h2⟩ | ⟨c, h1, h2⟩
      · obtain ⟨ns', g1, rfl⟩ := ih (fun n hm => hn n (List.mem_cons_of_mem _ hm)) c t h2
        exact ⟨x :: ns', by simpa using g1, by rw [slashed_cons]; rfl⟩
      · cases c with
        | nil =>
          rw [List.append_nil] at h1
          subst h1
          exact ⟨[x], by simp, by simp [slashed]⟩
        | cons z c =>
          simp only [List.cons_append, List.cons.injEq] at h2
          exact absurd (by rw [h1, ← h2.1]; simp) hx

theorem cut_cases (pre n : Bytes) (ns : List Bytes) (hn : 47 ∉ n) (hns : ∀ x ∈ ns, 47 ∉ x)
    (s : Bytes) (h : PathCut (pre ++ n ++ slashed ns) s) :
    (∃ t, pre = s ++ 47 :: t) ∨ ∃ ns', ns' <+: ns ∧ s = pre ++ n ++ slashed ns' := by
  rcases h with rfl | ⟨t, h⟩
  · exact .inr ⟨ns, List.prefix_refl _, rfl⟩
  · rcases List.append_eq_append_iff.mp h with ⟨c, rfl, h2⟩ | ⟨c, h1, h2⟩
    · obtain ⟨ns', g1, rfl⟩ := slashed_cut ns hns c t h2
      exact .inr ⟨ns', g1, rfl⟩
    · cases c with
      | nil =>
        rw [List.append_nil] at h1
        exact .inr ⟨[], List.nil_prefix, by simp [slashed, h1]⟩
      | cons z c =>
        simp only [List.cons_append, List.cons.injEq] at h2
        obtain ⟨rfl, _⟩ := h2
        rcases List.append_eq_append_iff.mp h1 with ⟨e, rfl, h4⟩ | ⟨e, h3, h4⟩
        · exact absurd (by rw [h4]; simp) hn
        · cases e with
          | nil =>
            simp only [List.nil_append] at h4
            exact absurd (by rw [← h4]; simp) hn
          | cons y e =>
            simp only [List.cons_append, List.cons.injEq] at h4
            obtain ⟨rfl, _⟩ := h4
            exact .inl ⟨e, h3⟩

theorem splitPath_slashed (n : Bytes) (ns : List Bytes) (hn : 47 ∉ n) (hns : ∀ x ∈ ns, 47 ∉ x) :
    splitPath (n ++ slashed ns) = n :: ns := by
  induction ns generalizing n with
  | nil => simp [slashed, splitPath_plain n hn]
  | cons m ms ih =>
    rw [slashed_cons, List.cons_append, splitPath_append, splitPath_plain n hn,
      ih m (hns m List.mem_cons_self) (fun x hx => hns x (List.mem_cons_of_mem _ hx))]
    rfl

/-! ### Resolution below a place without links -/

/-- No links at or below the place. -/
def Sealed (fs : FS) (r : Loc) : Prop := ∀ q t, fs (r ++ q) ≠ some (.link t)

theorem resolve_sealed (os : Os) (fs : FS) (follow : Bool) (m : Nat) (r : Loc) (hs : Sealed fs r)
    (cs : List Bytes) (hc : ∀ c ∈ cs, PlainName c) : ∀ (cur l : Loc), r <+: cur →
    resolve os fs follow m cur cs = some l → r <+: l := by
  induction cs with
  | nil => intro cur l hr h; rw [resolve_nil] at h; cases h; exact hr
  | cons c cs ih =>
    intro cur l hr h
    have hp := hc c List.mem_cons_self
    have hr' : r <+: cur ++ [c] := hr.trans (List.prefix_append _ _)
    rw [resolve_cons] at h
    split at h
    · simp at h
    · rw [if_neg (by simp [hp.1, hp.2.1]), if_neg hp.2.2.1] at h
      split at h
      · split at h
        · cases h; exact hr'
        · simp at h
      · rename_i t ht
        obtain ⟨q, hq⟩ := hr'
        rw [← hq] at ht
        exact absurd ht (hs q t)
      · exact ih (fun x hx => hc x (List.mem_cons_of_mem _ hx)) _ _ hr' h

theorem resolve_sealed_from (os : Os) (fs : FS) (follow : Bool) (m : Nat) (d : Loc) (n : Bytes)
    (hn : PlainName n) (hs : Sealed fs (d ++ [n])) (cs : List Bytes) (hc : ∀ c ∈ cs, PlainName c)
    (l : Loc) (h : resolve os fs follow m d (n :: cs) = some l) : d ++ [n] <+: l := by
  rw [resolve_cons] at h
  split at h
  · simp at h
  · rw [if_neg (by simp [hn.1, hn.2.1]), if_neg hn.2.2.1] at h
    split at h
    · split at h
      · cases h; exact List.prefix_refl _
      · simp at h
    · rename_i t ht
      exact absurd ht (by simpa using hs [] t)
    · exact resolve_sealed os fs follow m _ hs cs hc _ _ (List.prefix_refl _) h

/-! ### Confinement of the system calls -/

/-- The world `w` differs from `w0` at most at and below `d/n`, where it has no links. -/
structure Conf (w0 w : World) (r : Loc) : Prop where
  out : ∀ x, ¬ r <+: x → w.fs x = w0.fs x
  noLink : Sealed w.fs r
  cwd : w.cwd = w0.cwd
  keeps : Keeps w0.fs w.fs

theorem Conf.tick {w0 w : World} {r : Loc} (h : Conf w0 w r) : Conf w0 w.tick r :=
  ⟨h.out, h.noLink, h.cwd, h.keeps⟩

/-- Storing a directory or file inside. -/
theorem Conf.put {w0 w : World} {r l : Loc} (h : Conf w0 w r) (hl : r <+: l) (n : Node)
    (hn : ∀ t, n ≠ .link t) (hk : Keeps w.fs (w.fs.put l n)) : Conf w0 (w.put l n) r := by
  refine ⟨?_, ?_, h.cwd, h.keeps.trans hk⟩
  · intro x hx
    show (w.fs.put l n) x = _
    rw [FS.put, if_neg (fun (he : x = l) => hx (by rw [he]; exact hl))]
    exact h.out x hx
  · intro q t
    show (w.fs.put l n) _ ≠ _
    rw [FS.put]
    split
    · simpa using hn t
    · exact h.noLink q t

/-- A front of the initial world, for a world confined. -/
structure Base (os : Os) (w0 : World) (pre : Bytes) (d : Loc) (n : Bytes) : Prop where
  front : Front os w0.fs w0.cwd pre d
  dir : searchable os w0.fs d = true
  name : PlainName n
  back : 92 ∉ pre ++ n

theorem Base.locate {os : Os} {w0 w : World} {pre : Bytes} {d : Loc} {n : Bytes}
    (B : Base os w0 pre d n) (h : Conf w0 w (d ++ [n])) (ns : List Bytes)
    (hns : ∀ x ∈ ns, PlainName x) (follow : Bool) (l : Loc)
    (hl : Zwt.locate os w follow (pre ++ n ++ slashed ns) = some l) : d ++ [n] <+: l := by
  obtain ⟨_, b, cs, m, h1, h2⟩ := B.front.mono h.keeps
  have hp := h2 (n ++ slashed ns) (by simp [B.name.1]) (by
    have := B.name.head
    cases hn : n with
    | nil => exact absurd hn B.name.1
    | cons a as => rw [hn] at this; simpa using this)
  rw [← h.cwd, ← List.append_assoc] at hp
  rw [Zwt.locate, if_neg (by simp [B.name.1]), hp.1, hp.2,
    splitPath_slashed n ns B.name.2.2.2.1 (fun x hx => (hns x hx).2.2.2.1),
    h1.resolve follow _ (by simp)] at hl
  exact resolve_sealed_from os w.fs follow m d n B.name h.noLink ns hns l hl

/-- A part that ends inside the front leads to something that exists. -/
theorem Base.part {os : Os} {w0 w : World} {pre : Bytes} {d : Loc} {n : Bytes}
    (B : Base os w0 pre d n) (h : Conf w0 w (d ++ [n])) (s t : Bytes) (hs : pre = s ++ 47 :: t)
    (l : Loc) (hl : Zwt.locate os w false s = some l) : w.fs l ≠ none := by
  obtain ⟨_, b, cs, m, h1, h2⟩ := B.front.mono h.keeps
  have hsd := h.keeps.searchable B.dir
  have hne : s ≠ [] := by intro h; rw [h] at hl; simp [Zwt.locate] at hl
  have hp := h2 n B.name.1 B.name.head
  subst hs
  rw [List.append_assoc, List.cons_append, pathBase_append _ _ _ hne, splitPath_append,
    splitPath_plain n B.name.2.2.2.1] at hp
  -- the components of `s` are a part of those of the front
  obtain ⟨cs', hcs⟩ : ∃ cs', cs = splitPath s ++ cs' := by
    have hx := congrArg List.dropLast hp.2
    rw [List.dropLast_concat, List.dropLast_append_of_ne_nil (splitPath_ne_nil _)] at hx
    exact ⟨_, hx.symm⟩
  obtain ⟨k, e, g1, g2⟩ := h1.split _ _ hcs
  have he : w.fs e ≠ none := by
    have hse : searchable os w.fs e = true := by
      cases g2 with
      | nil => exact hsd
      | skip a => exact a
      | up a => exact a
      | dir a => exact a
      | link a => exact a
    obtain ⟨md, hmd⟩ := searchable_dir hse
    rw [hmd]; simp
  obtain ⟨l', q1, q2⟩ := g1.exists he
  rw [Zwt.locate, if_neg hne, h.cwd, hp.1, q1] at hl
  cases hl
  exact q2

theorem sysIsDir_tick (os : Os) (w : World) (p : Bytes) : (sysIsDir os w p).2 = w.tick := by
  simp only [sysIsDir]
  split
  · rfl
  · split
    · rfl
    · split <;> rfl

theorem osCreate_world (os : Os) (w : World) (s : Bytes) (mode : Nat) :
    (osCreate os w s mode).2 = (sysMkdir os w s mode).2 ∨
      (osCreate os w s mode).2 = (sysMkdir os w s mode).2.tick := by
  simp only [osCreate]
  cases hm : sysMkdir os w s mode with
  | mk r w' =>
    cases r with
    | ok => left; rfl
    | exist =>
      right
      have := sysIsDir_tick os w' s
      simp only
      cases hd : sysIsDir os w' s with
      | mk b w2 =>
        rw [hd] at this
        cases b <;> simpa using this
    | fail => left; rfl

theorem Base.create {os : Os} {w0 w : World} {pre : Bytes} {d : Loc} {n : Bytes}
    (B : Base os w0 pre d n) (h : Conf w0 w (d ++ [n])) (ns : List Bytes)
    (hns : ∀ x ∈ ns, PlainName x) (s : Bytes) (mode : Nat)
    (hs : PathCut (pre ++ n ++ slashed ns) s) : Conf w0 (osCreate os w s mode).2 (d ++ [n]) := by
  have hm : Conf w0 (sysMkdir os w s mode).2 (d ++ [n]) := by
    simp only [sysMkdir]
    split
    · exact h.tick
    · split
      · exact h.tick
      · rename_i l hl
        split
        · exact h.tick
        · rename_i hnone
          simp only [addNode]
          split
          · exact h.tick
          · rename_i w' hw'
            split at hw'
            · cases hw'
              rcases cut_cases pre n ns B.name.2.2.2.1 (fun x hx => (hns x hx).2.2.2.1) s hs with
                ⟨t, ht⟩ | ⟨ns', hp, rfl⟩
              · exact absurd hnone (B.part h s t ht l hl)
              · have hin := B.locate h ns' (fun x hx => hns x (hp.subset hx)) false l hl
                exact (h.put hin _ (by simp) (Keeps.put hnone _)).tick
            · simp at hw'
  rcases osCreate_world os w s mode with h1 | h1 <;> rw [h1]
  · exact hm
  · exact hm.tick

theorem Base.backslash {os : Os} {w0 : World} {pre : Bytes} {d : Loc} {n : Bytes}
    (B : Base os w0 pre d n) (ns : List Bytes) (hns : ∀ x ∈ ns, PlainName x) (s : Bytes)
    (hs : PathCut (pre ++ n ++ slashed ns) s) (h47 : 47 ∉ s) : 92 ∉ s := by
  have hb := B.back
  simp only [List.mem_append, not_or] at hb
  rcases cut_cases pre n ns B.name.2.2.2.1 (fun x hx => (hns x hx).2.2.2.1) s hs with
    ⟨t, ht⟩ | ⟨ns', hp, rfl⟩
  · intro hm; exact hb.1 (by rw [ht]; simp [hm])
  · cases ns' with
    | nil => simpa [slashed] using hb
    | cons x xs => exact absurd (by simp [slashed_cons]) h47

theorem Base.mkdirs {os : Os} {w0 w : World} {pre : Bytes} {d : Loc} {n : Bytes}
    (B : Base os w0 pre d n) (h : Conf w0 w (d ++ [n])) (ns : List Bytes)
    (hns : ∀ x ∈ ns, PlainName x) (mode : Nat) :
    Conf w0 (mkdirRecurse os mode (pre ++ n ++ slashed ns) w).2 (d ++ [n]) := by
  refine mkdirRecurse_inv os mode (fun w => Conf w0 w (d ++ [n])) _ ?_ ?_ (fun _ h => h.tick) ?_ w h
  · have h0 := B.front.1
    simp only [List.mem_append, not_or]
    refine ⟨⟨h0, B.name.2.2.2.2⟩, ?_⟩
    intro hm
    simp only [slashed, List.mem_flatten, List.mem_map] at hm
    obtain ⟨_, ⟨x, hx, rfl⟩, hm⟩ := hm
    rcases List.mem_cons.mp hm with h | h
    · exact absurd h (by decide)
    · exact (hns x hx).2.2.2.2 h
  · intro s hs h47; exact B.backslash ns hns s hs h47
  · intro s w hs h; exact B.create h ns hns s mode hs

theorem Base.openFile {os : Os} {w0 w w' : World} {pre : Bytes} {d : Loc} {n : Bytes}
    (B : Base os w0 pre d n) (h : Conf w0 w (d ++ [n])) (ns : List Bytes)
    (hns : ∀ x ∈ ns, PlainName x) (mode : Nat) (ol : Option Loc)
    (ho : sysOpen os w (pre ++ n ++ slashed ns) mode false = (ol, w')) :
    Conf w0 w' (d ++ [n]) ∧ ∀ l, ol = some l → d ++ [n] <+: l := by
  simp only [sysOpen] at ho
  split at ho
  · cases ho; exact ⟨h.tick, by simp⟩
  · split at ho
    · cases ho; exact ⟨h.tick, by simp⟩
    · rename_i l hl
      have hin := B.locate h ns hns true l hl
      split at ho
      · split at ho
        · cases ho; exact ⟨h.tick, by simp⟩
        · cases ho
          refine ⟨h.tick, ?_⟩
          intro l' hl'; cases hl'; exact hin
      · cases ho; exact ⟨h.tick, by simp⟩
      · rename_i hnone
        split at ho
        · cases ho; exact ⟨h.tick, by simp⟩
        · simp only [addNode] at ho
          split at ho
          · cases ho; exact ⟨h.tick, by simp⟩
          · rename_i w2 hw2
            cases ho
            split at hw2
            · cases hw2
              refine ⟨(h.put hin _ (by simp) (Keeps.put hnone _)).tick, ?_⟩
              intro l' hl'; cases hl'; exact hin
            · simp at hw2

theorem Conf.write {os : Os} {w0 w w' : World} {r : Loc} (h : Conf w0 w r) {f f' : OpenFile}
    (hf : r <+: f.loc) (data : Bytes) (hw : sysWrite os w f data = (f', w')) :
    Conf w0 w' r ∧ f'.loc = f.loc := by
  simp only [sysWrite] at hw
  split at hw
  · cases hw; exact ⟨h.tick, rfl⟩
  · split at hw
    · rename_i m c hc
      cases hw
      exact ⟨(h.put hf _ (by simp) (Keeps.putFile hc _)).tick, rfl⟩
    · cases hw; exact ⟨h.tick, rfl⟩

/-! ### Confinement of the callbacks -/

/-- State between callbacks: inside the directories `q` below the output directory. -/
structure Inside (w0 : World) (pre : Bytes) (d : Loc) (n : Bytes) (ns : List Bytes) (h : HL)
    (p : Proto) (q : List Bytes) : Prop where
  path : h.dirPath = some (pre ++ n ++ slashed (ns ++ q))
  plain : ∀ x ∈ q, PlainName x
  conf : Conf w0 h.w (d ++ [n])
  fd : ∀ f, h.fd = .opened f → d ++ [n] <+: f.loc
  live : p ≠ .idle → h.fd ≠ .closed

theorem balance_after {d : Nat} {a b : List Atom} (h : balance d (a ++ b) ≠ none) :
    balance d a ≠ none := by
  induction a generalizing d with
  | nil => simp [balance]
  | cons x xs ih =>
    cases x with
    | start ft nm it => cases ft <;> exact ih h
    | dirEnd =>
      cases d with
      | zero => simp [balance] at h
      | succ d => exact ih h
    | byte b => exact ih (d := d) h
    | fileEnd => exact ih (d := d) h
    | link t => exact ih (d := d) h
    | drStart => exact ih (d := d) h
    | flStart => exact ih (d := d) h

theorem balance_bytes (d : Nat) (ds : Bytes) (as : List Atom) :
    balance d (ds.map .byte ++ as) = balance d as := by
  induction ds with
  | nil => rfl
  | cons b bs ih => simpa [balance] using ih

theorem inside_events {os : Os} {w0 : World} {pre : Bytes} {d : Loc} {n : Bytes}
    (B : Base os w0 pre d n) (ns : List Bytes) (hns : ∀ x ∈ ns, PlainName x) (out : Bytes)
    (hmem : ∀ k, os.noMem k = false) (evs : List Ev) :
    ∀ (h : HL) (p : Proto) (q : List Bytes), Inside w0 pre d n ns h p q →
    (p.run evs).isSome → (∀ a ∈ atoms evs, SafeEntry a) → balance q.length (atoms evs) ≠ none →
    ∃ h', hlEvents os out h evs = .ok h' ∧ Conf w0 h'.w (d ++ [n]) ∧ h'.ret = h.ret := by
  induction evs with
  | nil => intro h p q I _ _ _; exact ⟨h, rfl, I.conf, rfl⟩
  | cons e evs ih =>
    intro h p q I hp hs hb
    have hall : ∀ x ∈ ns ++ q, PlainName x := by
      intro x hx
      rcases List.mem_append.mp hx with h | h
      · exact hns x h
      · exact I.plain x h
    simp only [Proto.run] at hp
    cases hst : p.step e with
    | none => rw [hst] at hp; simp at hp
    | some p' =>
      rw [hst] at hp
      simp only [Option.bind_some] at hp
      have hs1 : ∀ a ∈ e.atoms, SafeEntry a := by
        intro a ha; exact hs a (by simp [atoms, ha])
      have hs2 : ∀ a ∈ atoms evs, SafeEntry a := by
        intro a ha
        refine hs a ?_
        simp only [atoms, List.flatMap_cons, List.mem_append]
        exact .inr ha
      have hat : atoms (e :: evs) = e.atoms ++ atoms evs := by simp [atoms]
      rw [hat] at hb
      have zero : ∀ x ∈ ns ++ q, 0 ∉ x := fun x hx => (hall x hx).2.2.2.2
      have path0 : ∀ (ms : List Bytes), (∀ x ∈ ms, PlainName x) → 0 ∉ pre ++ n ++ slashed ms := by
        intro ms hms
        simp only [List.mem_append, not_or]
        refine ⟨⟨B.front.1, B.name.2.2.2.2⟩, ?_⟩
        intro hm
        simp only [slashed, List.mem_flatten, List.mem_map] at hm
        obtain ⟨_, ⟨x, hx, rfl⟩, hm⟩ := hm
        rcases List.mem_cons.mp hm with h | h
        · exact absurd h (by decide)
        · exact (hms x hx).2.2.2.2 h
      cases e with
      | flStart => cases p <;> simp [Proto.step] at hst
      | flRead _ => cases p <;> simp [Proto.step] at hst
      | drStart => cases p <;> simp [Proto.step] at hst
      | symLink t a => exact (hs1 (.link t) (by simp [Ev.atoms])).elim
      | fileRead ds =>
        cases p with
        | idle => simp [Proto.step] at hst
        | inLink => simp [Proto.step] at hst
        | inFile left =>
          have hlive := I.live (by simp)
          have hp' : p' ≠ .idle := by
            simp only [Proto.step] at hst
            split at hst
            · cases hst; simp
            · simp at hst
          have hb' : balance q.length (atoms evs) ≠ none := by
            rw [show (Ev.fileRead ds).atoms = ds.map .byte from rfl, balance_bytes] at hb
            exact hb
          cases hfd : h.fd with
          | bad =>
            obtain ⟨h', g1, g2, g3⟩ := ih { h with w := h.w.tick } p' q
              ⟨I.path, I.plain, I.conf.tick, I.fd, fun _ => by simp [hfd]⟩ hp hs2 hb'
            refine ⟨h', ?_, g2, g3⟩
            simp only [hlEvents, hlEvent, hlFileRead, hfd]
            rw [hfd] at g1
            exact g1
          | closed => exact absurd hfd hlive
          | opened f =>
            cases hw : sysWrite os h.w f ds with
            | mk f' w' =>
              obtain ⟨c1, c2⟩ := I.conf.write (I.fd f hfd) ds hw
              obtain ⟨h', g1, g2, g3⟩ := ih { h with w := w', fd := .opened f' } p' q
                ⟨I.path, I.plain, c1, by
                  intro f2 hf2; cases hf2; rw [c2]; exact I.fd f hfd, fun _ => by simp⟩ hp hs2 hb'
              refine ⟨h', ?_, g2, g3⟩
              simp only [hlEvents, hlEvent, hlFileRead, hfd, hw]
              exact g1
      | fileEnd =>
        cases p with
        | idle => simp [Proto.step] at hst
        | inLink => simp [Proto.step] at hst
        | inFile left =>
          have hlive := I.live (by simp)
          have hp' : p' = .idle := by
            cases left with
            | zero => simpa [Proto.step] using hst.symm
            | succ k => simp [Proto.step] at hst
          have hb' : balance q.length (atoms evs) ≠ none := by
            simpa [Ev.atoms, balance] using hb
          cases hfd : h.fd with
          | bad =>
            obtain ⟨h', g1, g2, g3⟩ := ih { h with w := h.w.tick } p' q
              ⟨I.path, I.plain, I.conf.tick, I.fd, fun hc => absurd hp' hc⟩ hp hs2 hb'
            refine ⟨h', ?_, g2, g3⟩
            simp only [hlEvents, hlEvent, hlFileEnd, hfd]
            rw [hfd] at g1
            exact g1
          | closed => exact absurd hfd hlive
          | opened f =>
            obtain ⟨h', g1, g2, g3⟩ := ih { h with w := h.w.tick, fd := .closed } p' q
              ⟨I.path, I.plain, I.conf.tick, by simp, fun hc => absurd hp' hc⟩ hp hs2 hb'
            refine ⟨h', ?_, g2, g3⟩
            simp only [hlEvents, hlEvent, hlFileEnd, hfd]
            exact g1
      | dirEnd =>
        have hidle : p = .idle ∧ p' = .idle := by
          cases p with
          | idle => simpa [Proto.step] using hst.symm
          | inLink => simp [Proto.step] at hst
          | inFile left => cases left <;> simp [Proto.step] at hst
        rcases List.eq_nil_or_concat q with rfl | ⟨q', x, rfl⟩
        · simp [Ev.atoms, balance] at hb
        · have hx := I.plain x (by simp)
          have hb' : balance q'.length (atoms evs) ≠ none := by
            simpa [Ev.atoms, balance] using hb
          have e1 : pre ++ n ++ slashed (ns ++ q'.concat x) =
              pre ++ n ++ slashed (ns ++ q') ++ 47 :: x := by
            rw [List.concat_eq_append, ← List.append_assoc, slashed_snoc, List.append_assoc]
            simp
          obtain ⟨h', g1, g2, g3⟩ := ih { h with dirPath := some (pre ++ n ++ slashed (ns ++ q')) }
            p' q' ⟨rfl, fun y hy => I.plain y (by simp [hy]), I.conf, I.fd,
              fun hc => absurd hidle.2 hc⟩ hp hs2 hb'
          refine ⟨h', ?_, g2, g3⟩
          have hz := path0 (ns ++ q'.concat x) hall
          have hpth := I.path
          rw [e1] at hz hpth
          simp only [hlEvents, hlEvent, hlDirEnd, hpth, cString_plain _ hz,
            lastIndexOf_append 47 _ x hx.2.2.2.1, List.take_left']
          exact g1
      | itemStart ft nm it =>
        have hidle : p = .idle := by
          cases p with
          | idle => rfl
          | inLink => simp [Proto.step] at hst
          | inFile left => cases left <;> simp [Proto.step] at hst
        subst hidle
        have hsafe := hs1 (.start ft nm it) (by simp [Ev.atoms])
        cases ft with
        | none => simp [Proto.step] at hst
        | symlink => exact hsafe.elim
        | file =>
          obtain ⟨hle, hpl⟩ := hsafe
          have hb' : balance q.length (atoms evs) ≠ none := by
            simpa [Ev.atoms, balance] using hb
          have hms : ∀ x ∈ ns ++ q ++ [nm.take (itNameLen it)], PlainName x := by
            intro x hx
            rcases List.mem_append.mp hx with h | h
            · exact hall x h
            · rw [List.mem_singleton.mp h]; exact hpl
          have e1 : pre ++ n ++ slashed (ns ++ q) ++ 47 :: nm.take (itNameLen it) =
              pre ++ n ++ slashed (ns ++ q ++ [nm.take (itNameLen it)]) := by
            rw [slashed_snoc, List.append_assoc (pre ++ n)]
          have hz := path0 _ hms
          cases ho : sysOpen os h.w (pre ++ n ++ slashed (ns ++ q ++ [nm.take (itNameLen it)]))
              (modeFo (itMode it)) false with
          | mk ol w' =>
            obtain ⟨c1, c2⟩ := B.openFile I.conf _ hms _ ol ho
            cases ol with
            | none =>
              obtain ⟨h', g1, g2, g3⟩ := ih 
                { h with name := some nm, w := w', fd := .bad, hasError := true } p' q ⟨I.path, I.plain, c1, by simp, fun _ => by simp⟩ hp hs2 hb'
              refine ⟨h', ?_, g2, g3⟩
              simp only [hlEvents, hlEvent, hlItemStart, hlFileItem, itemPath, if_pos hle, I.path,
                Option.getD_some, e1, cString_plain _ hz, ho]
              rw [I.path] at g1
              exact g1
            | some l =>
              obtain ⟨h', g1, g2, g3⟩ := ih { h with name := some nm, w := w', fd := .opened ⟨l, 0⟩ }
                p' q ⟨I.path, I.plain, c1, by
                  intro f hf; cases hf; exact c2 l rfl, fun _ => by simp⟩ hp hs2 hb'
              refine ⟨h', ?_, g2, g3⟩
              simp only [hlEvents, hlEvent, hlItemStart, hlFileItem, itemPath, if_pos hle, I.path,
                Option.getD_some, e1, cString_plain _ hz, ho]
              rw [I.path] at g1
              exact g1
        | dir =>
          obtain ⟨hle, hpl⟩ := hsafe
          have hp' : p' = .idle := by simpa [Proto.step] using hst.symm
          have hb' : balance (q.length + 1) (atoms evs) ≠ none := by
            simpa [Ev.atoms, balance] using hb
          have hms : ∀ x ∈ ns ++ q ++ [nm.take (itNameLen it)], PlainName x := by
            intro x hx
            rcases List.mem_append.mp hx with h | h
            · exact hall x h
            · rw [List.mem_singleton.mp h]; exact hpl
          have e1 : pre ++ n ++ slashed (ns ++ q) ++ 47 :: nm.take (itNameLen it) =
              pre ++ n ++ slashed (ns ++ q ++ [nm.take (itNameLen it)]) := by
            rw [slashed_snoc, List.append_assoc (pre ++ n)]
          have hz := path0 _ hms
          have c1 := B.mkdirs I.conf.tick _ hms (itMode it)
          generalize hmk : mkdirRecurse os (itMode it)
            (pre ++ n ++ slashed (ns ++ q ++ [nm.take (itNameLen it)])) h.w.tick = mk at c1
          obtain ⟨r, w'⟩ := mk
          obtain ⟨h', g1, g2, g3⟩ := ih { h with
              name := some nm, w := w',
              dirPath := some (pre ++ n ++ slashed (ns ++ q ++ [nm.take (itNameLen it)])),
              hasError := h.hasError || r != 0 }
            p' (q ++ [nm.take (itNameLen it)]) ⟨by simp only [List.append_assoc], by
              intro x hx
              rcases List.mem_append.mp hx with h | h
              · exact I.plain x h
              · rw [List.mem_singleton.mp h]; exact hpl, c1, I.fd, fun hc => absurd hp' hc⟩ hp hs2
            (by simpa using hb')
          refine ⟨h', ?_, g2, g3⟩
          simp only [hlEvents, hlEvent, hlItemStart, hlDirItem, hmem, Bool.false_eq_true, if_false, itemPath, if_pos hle,
            I.path, Option.getD_some, e1, cString_plain _ hz, hmk]
          exact g1

end Zwt
