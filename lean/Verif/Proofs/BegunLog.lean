import Verif.Proofs.Begun
import Verif.Props.HLConfine

/-! The callbacks for the beginning of an archive. -/

namespace Zwt

/-- The callbacks for a beginning of an archive of a tree without links: what the whole records in it call for
has been called, but for announcements and ends at its end. -/
theorem log_begun {junk t u : Bytes} {f g : Forest} (hj : junk.length = 120) (hb : Begun f g t u)
    (ok : AllocOracle) (hok : ∀ k n, ok k n = true) (hf : f.proper) (hl : f.noLinks) {P : Bytes}
    {pieces : List Bytes} {log : List Ev} {B : Nat} (hP : P <+: headerBytes 0 1 junk ++ (t ++ u))
    (hP1 : headerBytes 0 1 junk ++ t <+: P) (h : ArchiveLog ok B P pieces log) :
    (log = [] ∧ g = .nil) ∨ ∃ e1 e2 rest more, log = .drStart :: (e1 ++ e2) ∧ EvsOf f (e1 ++ e2 ++ rest) ∧
      EvsOf g (e1 ++ canon more) ∧
      (∀ a ∈ more, (∃ ft nm it, a = .start ft nm it) ∨ a = .fileEnd ∨ a = .dirEnd) ∧
      (P = headerBytes 0 1 junk ++ t → ∀ a ∈ more, a = .dirEnd) := by
  obtain ⟨e1, e2, e3⟩ := C02_header_roundtrip 0 1 junk hj (by decide) (by decide)
  have e1' : (headerBytes 0 1 junk).length = 128 := e1
  have h128 : 128 + t.length ≤ P.length := by
    have := hP1.length_le
    rw [List.length_append] at this
    omega
  have hdr : P.take 128 = headerBytes 0 1 junk := by
    rw [(take_header hP (by omega)).1, List.take_left' e1']
  have hnil : t = [] → g = .nil := by
    intro h
    cases hb with
    | here => rfl
    | file h1 => have := congrArg List.length h; simp [h1] at this
    | dir h1 => have := congrArg List.length h; simp [h1] at this
    | inside h1 => have := congrArg List.length h; simp [h1] at this
  cases h with
  | short h => omega
  | version h1 h2 => rw [hdr] at h2; exact absurd e2 h2
  | empty h1 h2 => exact .inl ⟨rfl, hnil (List.length_eq_zero_iff.mp (by omega))⟩
  | unknown h1 h2 h3 => rw [hdr] at h3; exact absurd e3 h3
  | @file hd _ h1 h2 h3 =>
    rw [List.take_left' h1] at hdr
    rw [hdr, e3] at h3
    exact absurd h3 (by decide)
  | @dir hd _ evs owed h1 h2 h3 h4 h5 h6 h7 h8 h9 h10 h11 h12 =>
    right
    rw [List.take_left' h1] at hdr
    subst hdr
    have hc : pieces.flatten <+: t ++ u := (List.prefix_append_right_inj _).mp hP
    obtain ⟨x, hx⟩ := (List.prefix_append_right_inj _).mp hP1
    obtain ⟨as, p2, p1⟩ := hb.encodes.atomsAny
    have hpre := p1 ok 0 _ hc
    have heq : atoms evs ++ owed = (specParse ok 0 pieces.flatten).atoms :=
      h8.eq_of_noLink (fun t ht => p2.noLinks hl t (hpre.subset ht))
    rw [← heq] at hpre
    obtain ⟨v, hv⟩ := hpre
    have hlk : ∀ tg a, Ev.symLink tg a ∈ evs → False := by
      intro tg a hm
      refine absurd ?_ (p2.noLinks hl tg)
      rw [← hv, List.mem_append, List.mem_append]
      exact .inl (.inl (List.mem_flatMap.mpr ⟨_, hm, by simp [Ev.atoms]⟩))
    have hfull : EvsOf f (evs ++ canon (owed ++ v)) :=
      p2.complete evs (owed ++ v) (by rw [← hv]; simp) h10 hf.wellNamed (fun tg a hm _ => (hlk tg a hm).elim)
    obtain ⟨k', as1, j, q1, q2, q3⟩ := hb.atoms ok hok 0
    rw [← hx, q1] at heq
    simp only [Parsed.after] at heq
    have hkind : ∀ a ∈ as1, (∃ ft nm it, a = .start ft nm it) ∨ (∃ b, a = .byte b) ∨
        a = .fileEnd ∨ a = .dirEnd := by
      intro a ha
      rcases q2.kinds a (List.mem_append_left _ ha) with h | h | ⟨t, rfl⟩ | h
      · exact .inl h
      · exact .inr (.inl h)
      · exact absurd (List.mem_append_left _ ha) (q2.noLinks (hb.noLinks hl) t)
      · exact .inr (.inr h)
    have hgw := (hb.proper hf).wellNamed
    rcases List.append_eq_append_iff.mp heq with ⟨c, c1, c2⟩ | ⟨c, c1, c2⟩
    · -- something is owed
      refine ⟨evs, [], canon (owed ++ v), c ++ List.replicate j .dirEnd, by rw [List.append_nil],
        by rw [List.append_nil]; exact hfull, ?_, ?_, ?_⟩
      · refine q2.complete evs _ (by rw [← List.append_assoc, ← c1]) h10 hgw (fun tg a hm _ => (hlk tg a hm).elim)
      · intro a ha
        rcases List.mem_append.mp ha with ha | ha
        · rcases hkind a (by rw [c1]; exact List.mem_append_right _ ha) with h | ⟨b, rfl⟩ | h
          · exact .inl h
          · exact absurd (by rw [c2]; exact List.mem_append_left _ ha) (h7 b)
          · exact .inr h
        · exact .inr (.inr (List.eq_of_mem_replicate ha))
      · intro hex a ha
        have hft : pieces.flatten = t := List.append_cancel_left hex
        have hx0 : x = [] := by
          have := congrArg List.length hx
          rw [hft, List.length_append] at this
          exact List.length_eq_zero_iff.mp (by omega)
        subst hx0
        have hend : (specParse ok 0 pieces.flatten).ending = .inItem [] := by
          rw [← hx, q1, specParse_short _ _ [] (by simp)]; rfl
        have ho : owed = [] := by
          by_cases ho : owed = []
          · exact ho
          · obtain ⟨ft, nm, it, a1, a2⟩ := h12 ho hend
            rw [heq, specParse_short _ _ [] (by simp), List.append_nil] at a1
            obtain ⟨b1, b2⟩ := q2.padded ft nm it (List.mem_append_left _ a1)
            rcases a2 with a2 | a2
            · exact absurd a2 b1
            · exact absurd a2.2 (b2 a2.1)
        rw [ho] at c2
        rw [(List.append_eq_nil_iff.mp c2.symm).1, List.nil_append] at ha
        exact List.eq_of_mem_replicate ha
    · -- all of it has been called
      obtain ⟨ea, eb, r1, r2⟩ := atoms_split evs as1 c c1 q3
      refine ⟨ea, eb, canon (owed ++ v), List.replicate j .dirEnd, by rw [r1], by rw [← r1]; exact hfull, ?_,
        fun a ha => .inr (.inr (List.eq_of_mem_replicate ha)), fun _ a ha => List.eq_of_mem_replicate ha⟩
      refine q2.complete ea _ (by rw [r2]) ?_ hgw
        (fun tg a hm _ => (hlk tg a (by rw [r1]; exact List.mem_append_left _ hm)).elim)
      rw [r1, Proto.run_append] at h10
      cases hr : Proto.idle.run ea with
      | none => rw [hr] at h10; cases h10
      | some _ => rfl

end Zwt
