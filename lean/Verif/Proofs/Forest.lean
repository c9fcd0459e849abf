import Verif.Spec.Forest
import Verif.Proofs.DirParser

/-! Reading an encoded tree gives the tree back. -/

namespace Zwt

theorem split_at (a b : Bytes) (n : Nat) (h : a.length = n) :
    ¬ (a ++ b).length < n ∧ (a ++ b).take n = a ∧ (a ++ b).drop n = b := by
  subst h; simp

/-- Item and name of a record. -/
theorem specParse_name (ok : AllocOracle) (hok : ∀ k n, ok k n = true) (k : Nat)
    {item name p rest : Bytes} (hl : item.length = 40)
    (hk : itKind item = 0 ∨ itKind item = 1 ∨ itKind item = 4)
    (hn : itNameLenNorm item = name.length + p.length) :
    specParse ok k (item ++ name ++ p ++ rest) =
      (specBody ok (k+1) item rest).after [.start (ftOf (itKind item)) (name ++ p) item] := by
  have e : item ++ name ++ p ++ rest = item ++ ((name ++ p) ++ rest) := by simp
  obtain ⟨h1, h2, h3⟩ := split_at (name ++ p) rest (itNameLenNorm item) (by simp [hn])
  rw [e, specParse_item _ _ _ _ hl, specItem, if_neg (by omega), if_pos hk, if_pos (hok _ _), specName,
    if_neg h1, h2, h3]

theorem gapOf_eq {item q : Bytes} {n : Nat} (hs : itFileSize item = n)
    (hn : itFileSizeNorm item = n + q.length) : gapOf item = q.length := by
  unfold gapOf; rw [sub64_le (by omega)]; omega

theorem specSkip_at (ok : AllocOracle) (k : Nat) (q rest : Bytes) (n : Nat) (h : q.length = n) :
    specSkip ok k n (q ++ rest) = specParse ok k rest := by
  obtain ⟨h1, h2, h3⟩ := split_at q rest n h
  rw [specSkip, if_neg h1, h3]

/-- Reading an encoded tree followed by anything. -/
theorem Encodes.parse {f : Forest} {bs : Bytes} (h : Encodes f bs) (ok : AllocOracle)
    (hok : ∀ k n, ok k n = true) (k : Nat) :
    ∃ k' as, (∀ tl, specParse ok k (bs ++ tl) = (specParse ok k' tl).after as) ∧
      as.map Atom.shape = f.shapes ∧ ∀ d more, balance d (as ++ more) = balance d more := by
  induction h generalizing k with
  | nil => exact ⟨k, [], fun tl => rfl, rfl, fun _ _ => rfl⟩
  | @file name content item p q bs mode rest h1 h2 h3 h4 h5 h6 h7 h8 h9 _ ih =>
    obtain ⟨k', as, i1, i2, i3⟩ := ih (k+1)
    refine ⟨k', .start .file (name ++ p) item :: content.map .byte ++ [.fileEnd] ++ as, ?_, ?_, ?_⟩
    · intro tl
      have e : item ++ name ++ p ++ content ++ q ++ bs ++ tl =
        item ++ name ++ p ++ (content ++ (q ++ (bs ++ tl))) := by simp
      obtain ⟨s1, s2, s3⟩ := split_at content (q ++ (bs ++ tl)) (itFileSize item) h6.symm
      rw [e, specParse_name ok hok k h1 (by omega) h5, specBody, if_neg (by omega), if_pos h2, specFile,
        if_neg s1, s2, s3, gapOf_eq h6 h7, specSkip_at _ _ _ _ _ rfl, i1, ftOf, if_neg (by omega),
        if_pos h2]
      simp [Parsed.after]
    · have : (content.map Atom.byte).map Atom.shape = content.map Shape.byte := by simp [Atom.shape]
      simp only [List.map_append, List.map_cons, this, i2, Forest.shapes, Atom.shape, h3, h4, h6,
        List.take_left', List.map_nil]
    · intro d more
      have hb : ∀ (c : Bytes) d l, balance d (c.map .byte ++ l) = balance d l := by
        intro c d l
        induction c with
        | nil => rfl
        | cons x c ih => cases d <;> simpa [balance] using ih
      have := i3 d more
      cases d <;> simp only [List.cons_append, List.append_assoc, balance, hb, List.nil_append, this]
  | @link name target item p q bs mode rest h1 h2 h3 h4 h5 h6 h7 h8 h9 _ ih =>
    obtain ⟨k', as, i1, i2, i3⟩ := ih (k+1)
    refine ⟨k', [.start .symlink (name ++ p) item, .link target] ++ as, ?_, ?_, ?_⟩
    · intro tl
      have e : item ++ name ++ p ++ target ++ q ++ bs ++ tl =
        item ++ name ++ p ++ (target ++ (q ++ (bs ++ tl))) := by simp
      obtain ⟨s1, s2, s3⟩ := split_at target (q ++ (bs ++ tl)) (itFileSize item) h6.symm
      rw [e, specParse_name ok hok k h1 (by omega) h5, specBody, if_neg (by omega), if_neg (by omega),
        specLink, if_neg s1, s2, s3, gapOf_eq h6 h7, specSkip_at _ _ _ _ _ rfl, i1, ftOf,
        if_neg (by omega), if_neg (by omega)]
      simp [Parsed.after]
    · simp only [List.map_append, List.map_cons, i2, Forest.shapes, Atom.shape, h3, h4,
        List.take_left', List.map_nil]
      simp
    · intro d more
      have := i3 d more
      cases d <;> simp only [List.cons_append, balance, List.nil_append, this]
  | @dir name item p e bs cs mode sub rest h1 h2 h3 h4 h5 h6 _ h7 h8 _ ih1 ih2 =>
    obtain ⟨k', as, i1, i2, i3⟩ := ih1 (k+1)
    obtain ⟨k'', as', j1, j2, j3⟩ := ih2 k'
    refine ⟨k'', .start .dir (name ++ p) item :: as ++ [.dirEnd] ++ as', ?_, ?_, ?_⟩
    · intro tl
      have e1 : item ++ name ++ p ++ bs ++ e ++ cs ++ tl =
        item ++ name ++ p ++ (bs ++ (e ++ (cs ++ tl))) := by simp
      rw [e1, specParse_name ok hok k h1 (by omega) h5, specBody, if_pos h2, i1,
        specParse_item _ _ _ _ h7, specItem, if_pos h8, j1, ftOf, if_pos h2]
      simp [Parsed.after]
    · simp only [List.map_append, List.map_cons, i2, j2, Forest.shapes, Atom.shape, h3, h4,
        List.take_left', List.map_nil]
    · intro d more
      have := i3 (d+1) (.dirEnd :: (as' ++ more))
      simp only [List.cons_append, List.append_assoc, balance, List.nil_append, this, j3]

theorem Encodes.append {f g : Forest} {a b : Bytes} (hf : Encodes f a) (hg : Encodes g b) :
    Encodes (f ++ g) (a ++ b) := by
  show Encodes (f.append g) _
  induction hf with
  | nil => exact hg
  | file h1 h2 h3 h4 h5 h6 h7 h8 h9 _ ih =>
    rw [List.append_assoc]; exact .file h1 h2 h3 h4 h5 h6 h7 h8 h9 ih
  | link h1 h2 h3 h4 h5 h6 h7 h8 h9 _ ih =>
    rw [List.append_assoc]; exact .link h1 h2 h3 h4 h5 h6 h7 h8 h9 ih
  | dir h1 h2 h3 h4 h5 h6 hs h7 h8 _ _ ih =>
    rw [List.append_assoc]; exact .dir h1 h2 h3 h4 h5 h6 hs h7 h8 ih

theorem Encodes.isPure {f : Forest} {a : Bytes} (hf : Encodes f a) : f.pure := by
  induction hf with
  | nil => trivial
  | file _ _ _ _ _ _ _ _ _ _ ih => exact ih
  | link _ _ _ _ _ _ _ _ _ _ ih => exact ih
  | dir _ _ _ _ _ _ _ _ _ _ ih1 ih2 => exact ⟨ih1, ih2⟩

theorem bytes_fileEnd_inj {c c' : Bytes} {s t : List Shape}
    (h : c.map Shape.byte ++ [.fileEnd] ++ s = c'.map Shape.byte ++ [.fileEnd] ++ t) :
    c = c' ∧ s = t := by
  induction c generalizing c' with
  | nil => cases c' <;> simp at h; simp [h]
  | cons x c ih =>
    cases c' with
    | nil => simp at h
    | cons y c' =>
      simp only [List.map_cons, List.cons_append, List.cons.injEq, Shape.byte.injEq] at h
      obtain ⟨rfl, h⟩ := h
      obtain ⟨rfl, rfl⟩ := ih h
      exact ⟨rfl, rfl⟩

/-- The shapes of a tree determine the tree. -/
theorem Forest.shapes_inj (f g : Forest) (hf : f.pure) (hg : g.pure) (s t : List Shape)
    (hs : s = [] ∨ ∃ s', s = .dirEnd :: s') (ht : t = [] ∨ ∃ t', t = .dirEnd :: t')
    (h : f.shapes ++ s = g.shapes ++ t) : f = g ∧ s = t := by
  induction f generalizing g s t with
  | nil =>
    simp only [shapes, List.nil_append] at h
    subst h
    cases g with
    | nil => exact ⟨rfl, rfl⟩
    | other => exact hg.elim
    | bad => exact hg.elim
    | file => rcases hs with hs | ⟨_, hs⟩ <;> simp [shapes] at hs
    | link => rcases hs with hs | ⟨_, hs⟩ <;> simp [shapes] at hs
    | dir => rcases hs with hs | ⟨_, hs⟩ <;> simp [shapes] at hs
  | other => exact hf.elim
  | bad => exact hf.elim
  | file n m c r ih =>
    cases g with
    | nil =>
      simp only [shapes, List.nil_append] at h
      subst h
      rcases ht with ht | ⟨_, ht⟩ <;> simp at ht
    | other => exact hg.elim
    | bad => exact hg.elim
    | link => simp [shapes] at h
    | dir => simp [shapes] at h
    | file n' m' c' r' =>
      simp only [shapes, List.cons_append, List.append_assoc, List.cons.injEq, Shape.file.injEq] at h
      obtain ⟨⟨rfl, rfl, _⟩, h⟩ := h
      have h' : c.map Shape.byte ++ [.fileEnd] ++ (r.shapes ++ s) =
        c'.map Shape.byte ++ [.fileEnd] ++ (r'.shapes ++ t) := by simpa using h
      obtain ⟨rfl, h2⟩ := bytes_fileEnd_inj h'
      obtain ⟨rfl, rfl⟩ := ih r' hf hg s t hs ht h2
      exact ⟨rfl, rfl⟩
  | link n m c r ih =>
    cases g with
    | nil =>
      simp only [shapes, List.nil_append] at h
      subst h
      rcases ht with ht | ⟨_, ht⟩ <;> simp at ht
    | other => exact hg.elim
    | bad => exact hg.elim
    | file => simp [shapes] at h
    | dir => simp [shapes] at h
    | link n' m' c' r' =>
      simp only [shapes, List.cons_append, List.cons.injEq, Shape.link.injEq, Shape.target.injEq] at h
      obtain ⟨⟨rfl, rfl⟩, rfl, h⟩ := h
      obtain ⟨rfl, rfl⟩ := ih r' hf hg s t hs ht h
      exact ⟨rfl, rfl⟩
  | dir n m u r ihu ih =>
    cases g with
    | nil =>
      simp only [shapes, List.nil_append] at h
      subst h
      rcases ht with ht | ⟨_, ht⟩ <;> simp at ht
    | other => exact hg.elim
    | bad => exact hg.elim
    | file => simp [shapes] at h
    | link => simp [shapes] at h
    | dir n' m' u' r' =>
      simp only [shapes, List.cons_append, List.append_assoc, List.cons.injEq, Shape.dir.injEq] at h
      obtain ⟨⟨rfl, rfl⟩, h⟩ := h
      obtain ⟨rfl, h2⟩ := ihu u' hf.1 hg.1 _ _ (.inr ⟨_, rfl⟩) (.inr ⟨_, rfl⟩) h
      simp only [List.nil_append, List.cons.injEq, true_and] at h2
      obtain ⟨rfl, rfl⟩ := ih r' hf.2 hg.2 s t hs ht h2
      exact ⟨rfl, rfl⟩

end Zwt
