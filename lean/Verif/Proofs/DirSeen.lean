import Verif.Proofs.DirFeed

/-! Where the parser finds link targets, and when it owes callbacks. -/

namespace Zwt

/-- `Seen` over a sequence of buffers. -/
theorem dirFeed_seen (ok : AllocOracle) (chunks : List Bytes) (s : DirSt) (hi : Inv s) :
    ∃ s' evs, dirFeed ok s chunks = .ok (s', evs) ∧
      (∀ t a, .symLink t a ∈ evs → t ≠ [] → ∃ n u g, chunks[n]? = some (u ++ t ++ a) ∧
        (specFrom ok s ((chunks.take n).flatten ++ u)).ending = .inLink g t.length) ∧
      (InBody s' → (InBody s ∧ s'.item = s.item) ∨ ∃ ft nm, .itemStart ft nm s'.item ∈ evs) := by
  induction chunks generalizing s with
  | nil => exact ⟨s, [], rfl, by simp, fun h => .inl ⟨h, rfl⟩⟩
  | cons b bs ih =>
    obtain ⟨s1, e1, h1, hi1, hle1, _, _, _, hs1⟩ := dirData_depthFor ok s b hi _ (Nat.le_refl _)
    obtain ⟨s2, e2, h2, hl2, hb2⟩ := ih s1 hi1
    refine ⟨s2, e1 ++ e2, by simp [dirFeed, h1, h2], ?_, ?_⟩
    · intro t a hm ht
      rcases List.mem_append.mp hm with hm | hm
      · obtain ⟨u, g, hu, he⟩ := hs1.link t a hm ht
        exact ⟨0, u, g, by simp [hu], by simpa using he⟩
      · obtain ⟨n, u, g, hu, he⟩ := hl2 t a hm ht
        refine ⟨n + 1, u, g, by simpa using hu, ?_⟩
        have := (hle1 ((bs.take n).flatten ++ u)).2
        simp only [Parsed.after] at this
        rw [List.take_succ_cons, List.flatten_cons, List.append_assoc, ← this, he]
    · intro hb
      rcases hb2 hb with ⟨g1, g2⟩ | ⟨ft, nm, g⟩
      · rcases hs1.item g1 with ⟨k1, k2⟩ | ⟨ft, nm, k⟩
        · exact .inl ⟨k1, g2.trans k2⟩
        · exact .inr ⟨ft, nm, by rw [g2]; exact List.mem_append_left _ k⟩
      · exact .inr ⟨ft, nm, List.mem_append_right _ g⟩

/-- A state owes callbacks at a record boundary only for an empty name or empty padding. -/
theorem owed_why (ok : AllocOracle) (s : DirSt) (hi : Inv s) (ho : (specFrom ok s []).atoms ≠ [])
    (he : (specFrom ok s []).ending = .inItem []) :
    (∃ ft it, Atom.start ft [] it ∈ (specFrom ok s []).atoms) ∨
      (InBody s ∧ itKind s.item ≠ 1 ∧ gapOf s.item = 0) := by
  cases hr : s.hasError with
  | true => simp [specFrom, hr] at ho
  | false =>
    have hl := hi.live hr
    have hil := hi.itemLen
    have short : ∀ k n, (specSkip ok k n []).ending = .inItem [] → n = 0 := by
      intro k n; simp only [specSkip]; split
      · simp
      · rename_i h; intro _; simpa using h
    have empty : ∀ k n, (specSkip ok k n []).atoms = [] := by
      intro k n; simp only [specSkip]; split
      · rfl
      · rw [specParse_short _ _ _ (by simp)]
    unfold specFrom at ho he ⊢
    cases hs : s.stage <;>
      simp only [hr, hs, StInv, Bool.false_eq_true, if_false, InBody] at hl ho he ⊢
    · rw [specParse_short _ _ _ (by simp; omega)] at ho; simp at ho
    · left
      obtain ⟨hsz, hof, ⟨nm, hnm, hnml⟩, hk, hft⟩ := hl
      rw [hnm, Option.getD_some, List.append_nil, specName] at ho he ⊢
      by_cases h0 : (nm.take s.offset).length < itNameLenNorm s.item
      · rw [if_pos h0] at ho; simp at ho
      · rw [if_neg h0]
        refine ⟨ftOf (itKind s.item), s.item, List.mem_append_left _ (List.mem_singleton.mpr ?_)⟩
        · have : nm = [] := by
            apply List.eq_nil_of_length_eq_zero
            simp at h0; omega
          subst this; simp
    · right
      refine ⟨⟨trivial, .inl trivial⟩, by omega, ?_⟩
      simp only [specFile] at ho he
      split at ho
      · simp at ho
      · rename_i h
        rw [if_neg h] at he
        exact short _ _ (by simpa [Parsed.after] using he)
    · rw [empty] at ho; exact absurd rfl ho
    · right
      refine ⟨⟨trivial, .inr trivial⟩, by omega, ?_⟩
      simp only [specLink] at ho he
      split at ho
      · simp at ho
      · rename_i h
        rw [if_neg h] at he
        exact short _ _ (by simpa [Parsed.after] using he)
    · rw [empty] at ho; exact absurd rfl ho

theorem start_mem_atoms {evs : List Ev} {ft : FType} {nm it : Bytes} (h : .itemStart ft nm it ∈ evs) :
    Atom.start ft nm it ∈ atoms evs :=
  List.mem_flatMap.mpr ⟨_, h, by simp [Ev.atoms]⟩

/-- `feed_init` with the above. -/
theorem feed_init_seen (ok : AllocOracle) (junk : Bytes) (hj : junk.length = 11)
    (chunks : List Bytes) :
    ∃ s evs, dirFeed ok (dirInit junk) chunks = .ok (s, evs) ∧ Inv s ∧
      ((specFrom ok s []).after (atoms evs)).Le (specParse ok 0 chunks.flatten) ∧
      Proto.idle.run evs = some (pst s) ∧
      (NoLinkCut ok chunks →
        (specFrom ok s []).after (atoms evs) = specParse ok 0 chunks.flatten) ∧
      (∀ t a, .symLink t a ∈ evs → t ≠ [] → ∃ n u g, chunks[n]? = some (u ++ t ++ a) ∧
        (specParse ok 0 ((chunks.take n).flatten ++ u)).ending = .inLink g t.length) ∧
      ((specFrom ok s []).atoms ≠ [] → (specParse ok 0 chunks.flatten).ending = .inItem [] →
        ∃ ft nm it, Atom.start ft nm it ∈ atoms evs ++ (specFrom ok s []).atoms ∧
          (nm = [] ∨ (itKind it ≠ 1 ∧ sub64 (itFileSizeNorm it) (itFileSize it) = 0))) := by
  obtain ⟨s, evs, h, hi, hle, hp, hex⟩ := feed_init ok junk hj chunks
  obtain ⟨s', evs', h', hl, hb⟩ := dirFeed_seen ok chunks _ (dirInit_inv junk hj)
  rw [h] at h'
  cases h'
  refine ⟨s, evs, h, hi, hle, hp, hex, ?_, ?_⟩
  · intro t a hm ht
    obtain ⟨n, u, g, h1, h2⟩ := hl t a hm ht
    rw [specFrom_init] at h2
    exact ⟨n, u, g, h1, h2⟩
  · intro ho he
    rcases owed_why ok s hi ho (by rw [← he]; exact hle.2) with ⟨ft, it, g⟩ | ⟨g1, g2⟩
    · exact ⟨ft, [], it, List.mem_append_right _ g, .inl rfl⟩
    · rcases hb g1 with ⟨k, _⟩ | ⟨ft, nm, k⟩
      · exact absurd k (by simp [InBody, dirInit])
      · exact ⟨ft, nm, s.item, List.mem_append_left _ (start_mem_atoms k), .inr g2⟩

end Zwt
