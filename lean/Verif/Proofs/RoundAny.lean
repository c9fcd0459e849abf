import Verif.Proofs.RoundRun

/-! Archives of trees when the parser may run out of memory. -/

namespace Zwt

/-- If allocations fail, less is read. -/
theorem specParse_mono (ok ok' : AllocOracle) (hok : ∀ k n, ok' k n = true) (k k' : Nat) (w : Bytes) :
    (specParse ok k w).atoms <+: (specParse ok' k' w).atoms := by
  induction hn : w.length using Nat.strongRecOn generalizing w k k' with
  | _ n ih =>
    subst hn
    by_cases hsh : w.length < 40
    · rw [specParse_short _ _ _ hsh]; exact List.nil_prefix
    · have hw : w = w.take 40 ++ w.drop 40 := (List.take_append_drop 40 w).symm
      have hil : (w.take 40).length = 40 := take_len (by omega)
      rw [hw, specParse_item _ _ _ _ hil, specParse_item _ _ _ _ hil]
      generalize hr : w.drop 40 = r
      generalize w.take 40 = item
      have hrl : r.length < w.length := by rw [← hr]; simp; omega
      have hafter : ∀ as {p q : Parsed}, p.atoms <+: q.atoms →
          (p.after as).atoms <+: (q.after as).atoms := by
        intro as p q h; exact (List.prefix_append_right_inj as).mpr h
      have skip : ∀ k k' n (l : Bytes), l.length ≤ r.length →
          (specSkip ok k n l).atoms <+: (specSkip ok' k' n l).atoms := by
        intro k k' n l hl
        simp only [specSkip]
        split
        · exact List.prefix_refl _
        · exact ih _ (by simp; omega) _ _ _ rfl
      unfold specItem
      split
      · exact hafter _ (ih _ hrl _ _ _ rfl)
      split
      · by_cases ho : ok k (itNameLenNorm item) = true
        · rw [if_pos ho, if_pos (hok _ _)]
          simp only [specName]
          split
          · exact List.prefix_refl _
          · apply hafter
            have hl2 : (r.drop (itNameLenNorm item)).length ≤ r.length := by simp
            generalize r.drop (itNameLenNorm item) = l at hl2
            simp only [specBody]
            split
            · exact ih _ (by omega) _ _ _ rfl
            split
            · simp only [specFile]
              split
              · exact List.prefix_refl _
              · exact hafter _ (skip _ _ _ _ (by simp; omega))
            · simp only [specLink]
              split
              · exact List.prefix_refl _
              · exact hafter _ (skip _ _ _ _ (by simp; omega))
        · rw [if_neg ho]; exact List.nil_prefix
      · exact ih _ hrl _ _ _ rfl

/-- A beginning of the encoding of a tree, read with failing allocations. -/
theorem Encodes.atomsAny {f : Forest} {bs : Bytes} (h : Encodes f bs) :
    ∃ as, AtomsOf f as ∧ ∀ (ok : AllocOracle) (k : Nat) (x : Bytes), x <+: bs →
      (specParse ok k x).atoms <+: as := by
  obtain ⟨k', as, p1, p2⟩ := h.atomsOf (fun _ _ => true) (fun _ _ => rfl) 0
  have pt := p1 []
  rw [List.append_nil, specParse_short _ _ [] (by simp)] at pt
  simp only [Parsed.after, List.append_nil] at pt
  refine ⟨as, p2, fun ok k x hx => ?_⟩
  obtain ⟨v, rfl⟩ := hx
  have h1 := specParse_mono ok (fun _ _ => true) (fun _ _ => rfl) k 0 x
  have h2 := specParse_prefix (fun _ _ => true) 0 x v
  rw [pt] at h2
  exact h1.trans h2

/-- As `log_tree` for trees without links, whatever allocations fail in the parser. -/
theorem log_tree_any {junk t : Bytes} {f : Forest} (hj : junk.length = 120) (he : Encodes f t)
    (ok : AllocOracle) (hf : f.proper) (hl : f.noLinks) {P : Bytes} {pieces : List Bytes}
    {log : List Ev} {B : Nat} (hP : P <+: headerBytes 0 1 junk ++ t) (h : ArchiveLog ok B P pieces log) :
    log = [] ∨ ∃ evs rest, log = .drStart :: evs ∧ EvsOf f (evs ++ rest) := by
  obtain ⟨e1, e2, e3⟩ := C02_header_roundtrip 0 1 junk hj (by decide) (by decide)
  have e1' : (headerBytes 0 1 junk).length = 128 := e1
  have hdr : 128 ≤ P.length → P.take 128 = headerBytes 0 1 junk := by
    intro h
    rw [(take_header hP h).1, List.take_left' e1']
  cases h with
  | short h => exact .inl rfl
  | version h1 h2 => exact .inl rfl
  | empty h1 h2 => exact .inl rfl
  | unknown h1 h2 h3 => exact .inl rfl
  | @file hd _ h1 h2 h3 =>
    have := hdr (by rw [List.length_append]; omega)
    rw [List.take_left' h1] at this
    rw [this, e3] at h3
    exact absurd h3 (by decide)
  | @dir hd _ evs owed h1 h2 h3 h4 h5 h6 h7 h8 h9 h10 h11 h12 =>
    right
    have hhd : hd = headerBytes 0 1 junk := by
      have := hdr (by rw [List.length_append]; omega)
      rwa [List.take_left' h1] at this
    subst hhd
    have hc : pieces.flatten <+: t := (List.prefix_append_right_inj _).mp hP
    obtain ⟨as, p2, p1⟩ := he.atomsAny
    have hpre := p1 ok 0 _ hc
    have heq : atoms evs ++ owed = (specParse ok 0 pieces.flatten).atoms :=
      h8.eq_of_noLink (fun t ht => p2.noLinks hl t (hpre.subset ht))
    rw [← heq] at hpre
    obtain ⟨v, hv⟩ := hpre
    refine ⟨evs, canon (owed ++ v), rfl, ?_⟩
    refine p2.complete evs (owed ++ v) (by rw [← hv]; simp) h10 hf.wellNamed ?_
    intro tg a hm ht
    refine absurd ?_ (p2.noLinks hl tg)
    rw [← hv, List.mem_append, List.mem_append]
    exact .inl (.inl (List.mem_flatMap.mpr ⟨_, hm, by simp [Ev.atoms]⟩))

end Zwt
