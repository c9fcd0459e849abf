import Verif.Proofs.DirParser

/-! The parser over sequences of buffers. -/

namespace Zwt

theorem need_le_depthFor {s : DirSt} {n : Nat} (hi : Inv s) (he : s.hasError = false) :
    need s n ≤ depthFor n := by
  have hl := hi.live he
  unfold need depthFor
  cases hs : s.stage <;> simp only [StInv, hs] at hl ⊢ <;> omega

theorem dirData_depthFor (ok : AllocOracle) (s : DirSt) (buf : Bytes) (hi : Inv s) (d : Nat)
    (hd : depthFor buf.length ≤ d) : Good ok s buf (dirData ok d s buf) := by
  by_cases he : s.hasError = true
  · obtain ⟨d, rfl⟩ : ∃ d', d = d' + 1 := ⟨d - 1, by unfold depthFor at hd; omega⟩
    refine ⟨s, [], by simp [dirData, dirBody, he], hi, ?_, ?_, ?_, rfl, by simp,
        by simp [InBody, he]⟩ <;> intros <;>
        simp [specFrom, he, Parsed.after, atoms, Parsed.Le, LinkSfx.nil]
  · exact dirData_good ok d s buf hi
      (Nat.le_trans (need_le_depthFor hi (by simpa using he)) hd)

theorem dirFeed_append (ok : AllocOracle) (s : DirSt) (a b : List Bytes) :
    dirFeed ok s (a ++ b) =
      match dirFeed ok s a with
      | .error e => .error e
      | .ok (s', evs) =>
        match dirFeed ok s' b with
        | .error e => .error e
        | .ok (s'', evs') => .ok (s'', evs ++ evs') := by
  induction a generalizing s with
  | nil =>
    simp only [List.nil_append, dirFeed]
    cases dirFeed ok s b <;> simp
  | cons x a ih =>
    simp only [List.cons_append, dirFeed]
    cases h : dirData ok (depthFor (List.length x)) s x with
    | error e => simp
    | ok r =>
      obtain ⟨s1, e1⟩ := r
      simp only [ih]
      cases dirFeed ok s1 a with
      | error e => simp
      | ok r =>
        obtain ⟨s2, e2⟩ := r
        simp only
        cases dirFeed ok s2 b with
        | error e => simp
        | ok r => simp [List.append_assoc]

/-- The ending of a cut parser state. -/
theorem cut_ending (ok : AllocOracle) {s : DirSt} (hi : Inv s) (hc : Cut s) :
    ∃ got missing, (specFrom ok s []).ending = .inLink got missing ∧ 0 < got := by
  obtain ⟨he, hs, ho⟩ := hc
  have hl := hi.live he
  simp only [StInv, hs] at hl
  refine ⟨s.offset, s.secSize - s.offset, ?_, ho⟩
  simp only [specFrom, he, hs, specLink]
  rw [if_neg (by decide), if_pos (by simp; omega)]
  simp

/-- Feeding a sequence of buffers. -/
theorem dirFeed_good (ok : AllocOracle) (chunks : List Bytes) (s : DirSt) (hi : Inv s) :
    ∃ s' evs, dirFeed ok s chunks = .ok (s', evs) ∧ Inv s' ∧
      (∀ tl, ((specFrom ok s' tl).after (atoms evs)).Le (specFrom ok s (chunks.flatten ++ tl))) ∧
      (pst s).run evs = some (pst s') ∧
      ((∀ n, n < chunks.length → ∀ got missing,
          (specFrom ok s (chunks.take n).flatten).ending = .inLink got missing → got = 0) →
        (specFrom ok s' []).after (atoms evs) = specFrom ok s chunks.flatten) := by
  induction chunks generalizing s with
  | nil =>
    refine ⟨s, [], rfl, hi, ?_, rfl, ?_⟩
    · intro tl; simp [atoms, Parsed.after_nil, Parsed.Le.refl]
    · intro _; simp [atoms, Parsed.after_nil]
  | cons b bs ih =>
    obtain ⟨s1, e1, h1, hi1, hle1, heq1, hn1, hp1, _⟩ := dirData_depthFor ok s b hi _ (Nat.le_refl _)
    obtain ⟨s2, e2, h2, hi2, hle2, hp2, hex2⟩ := ih s1 hi1
    refine ⟨s2, e1 ++ e2, by simp [dirFeed, h1, h2], hi2, ?_, ?_, ?_⟩
    · intro tl
      rw [atoms_append, ← Parsed.after_after]
      have := hle1 (bs.flatten ++ tl)
      rw [List.flatten_cons, List.append_assoc]
      exact ((hle2 tl).after _).trans this
    · rw [Proto.run_append, hp1]; exact hp2
    · intro hcut
      rw [atoms_append, ← Parsed.after_after]
      have hsub : ∀ n, n < bs.length → ∀ got missing,
          (specFrom ok s1 (bs.take n).flatten).ending = .inLink got missing → got = 0 := by
        intro n hn got missing he
        refine hcut (n+1) (by simpa using hn) got missing ?_
        have := (hle1 (bs.take n).flatten).2
        simp only [Parsed.after] at this
        rw [List.take_succ_cons, List.flatten_cons, ← this, he]
      rw [hex2 hsub, List.flatten_cons]
      by_cases hnil : bs = []
      · subst hnil; simpa using hn1
      · have hlen : 0 < bs.length := List.length_pos_iff.mpr hnil
        have hnc : ¬ Cut s1 := by
          intro hc
          obtain ⟨got, missing, he, hg⟩ := cut_ending ok hi1 hc
          have h0 := hcut 1 (by simp; omega) got missing (by
            have := (hle1 []).2
            simp only [Parsed.after, List.append_nil] at this
            simp only [List.take_succ_cons, List.take_zero, List.flatten_cons, List.flatten_nil,
              List.append_nil]
            rw [← this, he])
          omega
        exact heq1 hnc _

/-- Number of lazy (zero-length) steps a state may still owe. -/
def lazy (s : DirSt) : Nat :=
  match s.stage with
  | .filename => 2
  | .readfile | .symLink => 1
  | _ => 0

/-- Feeding an empty buffer settles one lazy step. -/
theorem feed_nil (ok : AllocOracle) (s : DirSt) (hi : Inv s) :
    ∃ s' evs, dirData ok (depthFor 0) s [] = .ok (s', evs) ∧ Inv s' ∧
      (specFrom ok s' []).after (atoms evs) = specFrom ok s [] ∧
      ((specFrom ok s' []).atoms = [] ∨ lazy s' < lazy s) := by
  obtain ⟨s1, e1, h1, hi1, _, _, hn1, _⟩ := dirData_depthFor ok s [] hi _ (Nat.le_refl _)
  refine ⟨s1, e1, h1, hi1, hn1, ?_⟩
  by_cases hq : (specFrom ok s []).atoms = []
  · left
    rw [← hn1] at hq
    simp only [Parsed.after, List.append_eq_nil_iff] at hq
    exact hq.2
  · right
    obtain ⟨item, name, ft, stage, off, sec, err, re⟩ := s
    cases err with
    | true => simp [specFrom] at hq
    | false =>
      have hl := hi.live rfl
      have hil : item.length = 40 := hi.itemLen
      simp only [depthFor, dirData, dirBody] at h1
      cases stage with
      | header =>
        simp only [StInv] at hl
        exfalso; apply hq
        simp only [specFrom, Bool.false_eq_true, if_false]
        rw [specParse_short _ _ _ (by simp; omega)]
      | filename =>
        simp only [StInv] at hl
        obtain ⟨hsz, hof, ⟨nm, hnm, hnml⟩, hk, hft⟩ := hl
        subst hnm
        by_cases h0 : sec = 0
        · have hoff : off = 0 := by omega
          subst hoff h0
          have : nm = [] := List.eq_nil_of_length_eq_zero hnml
          subst this
          rcases hk with k | k | k <;>
          · simp [sub64, memcpyAt, k, K_FILE, K_DIR_START, K_SYM_LINK] at h1
            rw [← h1.1]; simp [lazy]
        · exfalso; apply hq
          simp only [specFrom, Bool.false_eq_true, if_false, specName, Option.getD_some]
          rw [if_pos (by simp; omega)]
      | readfile =>
        simp only [StInv] at hl
        by_cases h0 : sec = 0
        · have hoff : off = 0 := by omega
          subst hoff h0
          simp [sub64, hl.2.2, K_FILE] at h1
          rw [← h1.1]; simp [lazy]
        · exfalso; apply hq
          simp only [specFrom, Bool.false_eq_true, if_false, specFile]
          rw [if_pos (by simp; omega)]; rfl
      | symLink =>
        simp only [StInv] at hl
        by_cases h0 : sec = 0
        · have hoff : off = 0 := by omega
          subst hoff h0
          simp [sub64, hl.2.2, K_SYM_LINK] at h1
          rw [← h1.1]; simp [lazy]
        · exfalso; apply hq
          simp only [specFrom, Bool.false_eq_true, if_false, specLink]
          rw [if_pos (by simp; omega)]
      | fileGap =>
        exfalso; apply hq
        simp only [specFrom, Bool.false_eq_true, if_false, specSkip]
        split
        · rfl
        · rw [specParse_short _ _ _ (by simp)]
      | symLinkGap =>
        exfalso; apply hq
        simp only [specFrom, Bool.false_eq_true, if_false, specSkip]
        split
        · rfl
        · rw [specParse_short _ _ _ (by simp)]

theorem lazy_zero (ok : AllocOracle) (s : DirSt) (hi : Inv s) (h : lazy s = 0) :
    (specFrom ok s []).atoms = [] := by
  unfold specFrom
  cases he : s.hasError with
  | true => rfl
  | false =>
    have hl := hi.live he
    have hil := hi.itemLen
    unfold lazy at h
    cases hs : s.stage <;> simp only [hs, StInv] at h hl ⊢ <;> try omega
    · rw [if_neg (by decide), specParse_short _ _ _ (by simp; omega)]
    · rw [if_neg (by decide), specSkip]
      split
      · rfl
      · rw [specParse_short _ _ _ (by simp)]
    · rw [if_neg (by decide), specSkip]
      split
      · rfl
      · rw [specParse_short _ _ _ (by simp)]

/-- Two empty buffers settle everything. -/
theorem feed_two_nil (ok : AllocOracle) (s : DirSt) (hi : Inv s) :
    ∃ s' evs, dirFeed ok s [[], []] = .ok (s', evs) ∧ Inv s' ∧
      (specFrom ok s' []).after (atoms evs) = specFrom ok s [] ∧
      (specFrom ok s' []).atoms = [] := by
  obtain ⟨s1, e1, h1, hi1, heq1, hz1⟩ := feed_nil ok s hi
  obtain ⟨s2, e2, h2, hi2, heq2, hz2⟩ := feed_nil ok s1 hi1
  refine ⟨s2, e1 ++ e2, by simp [dirFeed, h1, h2], hi2, ?_, ?_⟩
  · rw [atoms_append, ← Parsed.after_after, heq2, heq1]
  · have hlz : lazy s ≤ 2 := by unfold lazy; split <;> omega
    rcases hz1 with hz1 | hz1
    · rw [← heq2] at hz1
      simp only [Parsed.after, List.append_eq_nil_iff] at hz1
      exact hz1.2
    · rcases hz2 with hz2 | hz2
      · exact hz2
      · exact lazy_zero ok s2 hi2 (by omega)

/-- At most two atoms, none of them payload, are owed by a state. -/
theorem owed (ok : AllocOracle) (s : DirSt) (hi : Inv s) :
    (specFrom ok s []).atoms.length ≤ 2 ∧ ∀ b, Atom.byte b ∉ (specFrom ok s []).atoms := by
  unfold specFrom
  cases he : s.hasError with
  | true => simp
  | false =>
    have hl := hi.live he
    have hil := hi.itemLen
    have short : ∀ k n, (specSkip ok k n []).atoms = [] := by
      intro k n; simp only [specSkip]; split
      · rfl
      · rw [specParse_short _ _ _ (by simp)]
    have parseNil : ∀ k, (specParse ok k []).atoms = [] := by
      intro k; rw [specParse_short _ _ _ (by simp)]
    have file : ∀ k item n, (specFile ok k item n []).atoms.length ≤ 1 ∧
        ∀ b, Atom.byte b ∉ (specFile ok k item n []).atoms := by
      intro k item n; simp only [specFile]; split
      · simp
      · simp [Parsed.after, short]
    have link : ∀ k item g n, (specLink ok k item g n []).atoms.length ≤ 1 ∧
        ∀ b, Atom.byte b ∉ (specLink ok k item g n []).atoms := by
      intro k item g n; simp only [specLink]; split
      · simp
      · simp [Parsed.after, short]
    cases hs : s.stage <;> simp only [hs, StInv, Bool.false_eq_true, if_false] at hl ⊢
    · rw [specParse_short _ _ _ (by simp; omega)]; simp
    · obtain ⟨hsz, hof, ⟨nm, hnm, hnml⟩, hk, hft⟩ := hl
      rw [hnm, Option.getD_some, List.append_nil, specName]
      by_cases h0 : (nm.take s.offset).length < itNameLenNorm s.item
      · rw [if_pos h0]; simp
      · rw [if_neg h0]
        have hd : (nm.take s.offset).drop (itNameLenNorm s.item) = [] :=
          List.drop_of_length_le (by simp at h0 ⊢; omega)
        rw [hd]
        simp only [Parsed.after, specBody]
        split
        · simp [parseNil]
        · split
          · have := file s.reallocs s.item (itFileSize s.item)
            simp; exact ⟨by omega, this.2⟩
          · have := link s.reallocs s.item 0 (itFileSize s.item)
            simp; exact ⟨by omega, this.2⟩
    · have := file s.reallocs s.item (s.secSize - s.offset); exact ⟨by omega, this.2⟩
    · simp [short]
    · have := link s.reallocs s.item s.offset (s.secSize - s.offset); exact ⟨by omega, this.2⟩
    · simp [short]

/-! ### Properties of the grammar -/

theorem take_drop_append {w x : Bytes} {n : Nat} (h : n ≤ w.length) :
    (w ++ x).take n = w.take n ∧ (w ++ x).drop n = w.drop n ++ x := by
  constructor
  · rw [List.take_append_of_le_length h]
  · rw [List.drop_append_of_le_length h]

/-- Reading `w ++ x` first does what reading `w` does; atoms of a prefix are a prefix. -/
theorem specParse_prefix (ok : AllocOracle) (k : Nat) (w x : Bytes) :
    (specParse ok k w).atoms <+: (specParse ok k (w ++ x)).atoms := by
  induction hn : w.length using Nat.strongRecOn generalizing w k with
  | _ n ih =>
    subst hn
    by_cases hsh : w.length < 40
    · rw [specParse_short _ _ _ hsh]; exact List.nil_prefix
    · have hw : w = w.take 40 ++ w.drop 40 := (List.take_append_drop 40 w).symm
      have hil : (w.take 40).length = 40 := take_len (by omega)
      rw [hw, List.append_assoc, specParse_item _ _ _ _ hil, specParse_item _ _ _ _ hil]
      generalize hr : w.drop 40 = r
      generalize w.take 40 = item
      have hrl : r.length < w.length := by rw [← hr]; simp; omega
      have skip : ∀ k n (l : Bytes), l.length ≤ r.length →
          (specSkip ok k n l).atoms <+: (specSkip ok k n (l ++ x)).atoms := by
        intro k n l hl
        simp only [specSkip]
        by_cases h : l.length < n
        · rw [if_pos h]; exact List.nil_prefix
        · rw [if_neg h, if_neg (by simp; omega), (take_drop_append (by omega)).2]
          exact ih _ (by simp; omega) _ _ rfl
      have hafter : ∀ as {p q : Parsed}, p.atoms <+: q.atoms →
          (p.after as).atoms <+: (q.after as).atoms := by
        intro as p q h; exact (List.prefix_append_right_inj as).mpr h
      unfold specItem
      split
      · exact hafter _ (ih _ hrl _ _ rfl)
      · split
        · split
          · simp only [specName]
            by_cases h : r.length < itNameLenNorm item
            · rw [if_pos h]; exact List.nil_prefix
            · rw [if_neg h, if_neg (by simp; omega)]
              obtain ⟨e1, e2⟩ := take_drop_append (w := r) (x := x) (n := itNameLenNorm item)
                (by omega)
              rw [e1, e2]
              apply hafter
              have hl2 : (r.drop (itNameLenNorm item)).length ≤ r.length := by simp
              generalize r.drop (itNameLenNorm item) = l at hl2
              simp only [specBody]
              split
              · exact ih _ (by omega) _ _ rfl
              · split
                · simp only [specFile]
                  by_cases h : l.length < itFileSize item
                  · rw [if_pos h]
                    split
                    · simp
                    · simp only [Parsed.after]
                      have : l <+: (l ++ x).take (itFileSize item) := by
                        rw [List.take_append, List.take_of_length_le (l := l) (by omega)]
                        exact List.prefix_append _ _
                      rw [List.append_assoc]
                      exact (this.map _).trans (List.prefix_append _ _)
                  · rw [if_neg h, if_neg (by simp; omega)]
                    obtain ⟨e1, e2⟩ := take_drop_append (w := l) (x := x) (n := itFileSize item)
                      (by omega)
                    rw [e1, e2]
                    exact hafter _ (skip _ _ _ (by simp; omega))
                · simp only [specLink]
                  by_cases h : l.length < itFileSize item
                  · rw [if_pos h]; exact List.nil_prefix
                  · rw [if_neg h, if_neg (by simp; omega)]
                    obtain ⟨e1, e2⟩ := take_drop_append (w := l) (x := x) (n := itFileSize item)
                      (by omega)
                    rw [e1, e2]
                    exact hafter _ (skip _ _ _ (by simp; omega))
          · exact List.prefix_refl _
        · exact ih _ hrl _ _ rfl

/-- If reading `w` ends between records or inside an item, reading on starts there. -/
theorem specParse_append (ok : AllocOracle) (k : Nat) (w part : Bytes)
    (h : (specParse ok k w).ending = .inItem part) :
    ∃ k', ∀ x, specParse ok k (w ++ x) =
      (specParse ok k' (part ++ x)).after (specParse ok k w).atoms := by
  induction hn : w.length using Nat.strongRecOn generalizing w k with
  | _ n ih =>
    subst hn
    by_cases hsh : w.length < 40
    · rw [specParse_short _ _ _ hsh] at h ⊢
      simp only [Ending.inItem.injEq] at h
      subst h
      exact ⟨k, fun x => by simp [Parsed.after_nil]⟩
    · have hw : w = w.take 40 ++ w.drop 40 := (List.take_append_drop 40 w).symm
      have hil : (w.take 40).length = 40 := take_len (by omega)
      rw [hw] at h ⊢
      simp only [List.append_assoc]
      rw [specParse_item _ _ _ _ hil] at h ⊢
      simp only [specParse_item _ _ _ _ hil]
      generalize hr : w.drop 40 = r at h ⊢
      generalize w.take 40 = item at h ⊢
      have hrl : r.length < w.length := by rw [← hr]; simp; omega
      have after : ∀ (as : List Atom) (p : Parsed) (q : Nat → Bytes → Parsed),
          (∃ k', ∀ x, q 0 x = (specParse ok k' (part ++ x)).after p.atoms) →
          ∃ k', ∀ x, (q 0 x).after as = (specParse ok k' (part ++ x)).after (p.after as).atoms := by
        intro as p q ⟨k', hq⟩
        exact ⟨k', fun x => by rw [hq, Parsed.after_after]; rfl⟩
      have skip : ∀ k n (l : Bytes), l.length ≤ r.length →
          (specSkip ok k n l).ending = .inItem part →
          ∃ k', ∀ x, specSkip ok k n (l ++ x) =
            (specParse ok k' (part ++ x)).after (specSkip ok k n l).atoms := by
        intro k n l hl he
        simp only [specSkip] at he ⊢
        by_cases hln : l.length < n
        · rw [if_pos hln] at he; exact absurd he (by simp)
        · rw [if_neg hln] at he ⊢
          obtain ⟨k', hk'⟩ := ih _ (by simp; omega) _ _ he rfl
          refine ⟨k', fun x => ?_⟩
          rw [if_neg (by simp; omega), (take_drop_append (by omega)).2]
          exact hk' x
      unfold specItem at h ⊢
      split
      · rename_i h2; rw [if_pos h2] at h
        exact after [.dirEnd] (specParse ok k r) (fun _ x => specParse ok k (r ++ x))
          (ih _ hrl _ _ h rfl)
      · rename_i h2; rw [if_neg h2] at h
        split
        · rename_i h3; rw [if_pos h3] at h
          split
          · rename_i h4; rw [if_pos h4] at h
            simp only [specName] at h ⊢
            by_cases hnl : r.length < itNameLenNorm item
            · rw [if_pos hnl] at h; exact absurd h (by simp)
            · rw [if_neg hnl] at h ⊢
              have e := fun x => take_drop_append (w := r) (x := x) (n := itNameLenNorm item)
                (by omega)
              have hif : ∀ x, ¬ (r ++ x).length < itNameLenNorm item := by
                intro x; simp; omega
              simp only [if_neg (hif _), (e _).1, (e _).2]
              refine after _ _ (fun _ x => specBody ok (k+1) item
                (r.drop (itNameLenNorm item) ++ x)) ?_
              simp only [Parsed.after] at h
              have hl2 : (r.drop (itNameLenNorm item)).length ≤ r.length := by simp
              generalize r.drop (itNameLenNorm item) = l at hl2 h
              simp only [specBody] at h ⊢
              split
              · rename_i h5; rw [if_pos h5] at h
                exact ih _ (by omega) _ _ h rfl
              · rename_i h5; rw [if_neg h5] at h
                split
                · rename_i h6; rw [if_pos h6] at h
                  simp only [specFile] at h ⊢
                  by_cases hfl : l.length < itFileSize item
                  · rw [if_pos hfl] at h; exact absurd h (by simp)
                  · rw [if_neg hfl] at h ⊢
                    have e := fun x => take_drop_append (w := l) (x := x) (n := itFileSize item)
                      (by omega)
                    have hif : ∀ x, ¬ (l ++ x).length < itFileSize item := by
                      intro x; simp; omega
                    simp only [if_neg (hif _), (e _).1, (e _).2]
                    exact after _ _ (fun _ x => specSkip ok (k+1) (gapOf item)
                      (l.drop (itFileSize item) ++ x)) (skip _ _ _ (by simp; omega) h)
                · rename_i h6; rw [if_neg h6] at h
                  simp only [specLink] at h ⊢
                  by_cases hfl : l.length < itFileSize item
                  · rw [if_pos hfl] at h; exact absurd h (by simp)
                  · rw [if_neg hfl] at h ⊢
                    have e := fun x => take_drop_append (w := l) (x := x) (n := itFileSize item)
                      (by omega)
                    have hif : ∀ x, ¬ (l ++ x).length < itFileSize item := by
                      intro x; simp; omega
                    simp only [if_neg (hif _), (e _).1, (e _).2]
                    exact after _ _ (fun _ x => specSkip ok (k+1) (gapOf item)
                      (l.drop (itFileSize item) ++ x)) (skip _ _ _ (by simp; omega) h)
          · rename_i h4; rw [if_neg h4] at h; exact absurd h (by simp)
        · rename_i h3; rw [if_neg h3] at h
          exact ih _ hrl _ _ h rfl

end Zwt

namespace Zwt

theorem specFrom_init (ok : AllocOracle) (junk bs : Bytes) :
    specFrom ok (dirInit junk) bs = specParse ok 0 bs := by
  simp [specFrom, dirInit]

/-- From the initial state: everything about a feed at once. -/
theorem feed_init (ok : AllocOracle) (junk : Bytes) (hj : junk.length = 11) (chunks : List Bytes) :
    ∃ s evs, dirFeed ok (dirInit junk) chunks = .ok (s, evs) ∧ Inv s ∧
      ((specFrom ok s []).after (atoms evs)).Le (specParse ok 0 chunks.flatten) ∧
      Proto.idle.run evs = some (pst s) ∧
      (NoLinkCut ok chunks →
        (specFrom ok s []).after (atoms evs) = specParse ok 0 chunks.flatten) := by
  obtain ⟨s, evs, h, hi, hle, hp, hex⟩ := dirFeed_good ok chunks _ (dirInit_inv junk hj)
  refine ⟨s, evs, h, hi, ?_, hp, ?_⟩
  · have := hle []
    rwa [List.append_nil, specFrom_init] at this
  · intro hc
    rw [specFrom_init] at hex
    apply hex
    intro n hn got missing he
    rw [specFrom_init] at he
    rcases Nat.eq_zero_or_pos got with h | h
    · exact h
    · exact absurd ⟨got, missing, he, h⟩ (hc n hn)

/-- … and followed by two empty buffers, which make the parser deliver zero-length pieces. -/
theorem feed_init_flush (ok : AllocOracle) (junk : Bytes) (hj : junk.length = 11)
    (chunks : List Bytes) :
    ∃ s evs, dirFeed ok (dirInit junk) (chunks ++ [[], []]) = .ok (s, evs) ∧
      LinkSfx (atoms evs) (specParse ok 0 chunks.flatten).atoms ∧
      (NoLinkCut ok chunks → atoms evs = (specParse ok 0 chunks.flatten).atoms) := by
  obtain ⟨s, evs, h, hi, hle, _, hex⟩ := feed_init ok junk hj chunks
  obtain ⟨s2, e2, h2, _, heq, hz⟩ := feed_two_nil ok s hi
  refine ⟨s2, evs ++ e2, by rw [dirFeed_append, h]; simp [h2], ?_, ?_⟩
  · have := hle.1
    rw [← heq, Parsed.after_after] at this
    simp only [Parsed.after, hz, List.append_nil] at this
    rwa [atoms_append]
  · intro hc
    have := congrArg Parsed.atoms (hex hc)
    rw [← heq, Parsed.after_after] at this
    simp only [Parsed.after, hz, List.append_nil] at this
    rwa [atoms_append]

/-- Only the error state reads as dead. -/
theorem dead_iff (ok : AllocOracle) {s : DirSt} (hi : Inv s)
    (h : (specFrom ok s []).ending = .dead) : s.hasError = true := by
  cases he : s.hasError with
  | true => rfl
  | false =>
    exfalso
    have hl := hi.live he
    have hil := hi.itemLen
    have parseNil : ∀ k, (specParse ok k []).ending ≠ .dead := by
      intro k; rw [specParse_short _ _ _ (by simp)]; simp
    have short : ∀ k n, (specSkip ok k n []).ending ≠ .dead := by
      intro k n; simp only [specSkip]; split
      · simp
      · rw [specParse_short _ _ _ (by simp)]; simp
    have file : ∀ k item n, (specFile ok k item n []).ending ≠ .dead := by
      intro k item n; simp only [specFile]; split
      · simp
      · simp only [Parsed.after, List.drop_nil]; exact short _ _
    have link : ∀ k item g n, (specLink ok k item g n []).ending ≠ .dead := by
      intro k item g n; simp only [specLink]; split
      · simp
      · simp only [Parsed.after, List.drop_nil]; exact short _ _
    revert h
    unfold specFrom
    rw [if_neg (by simp [he])]
    cases hs : s.stage <;> simp only [hs, StInv] at hl ⊢
    · rw [specParse_short _ _ _ (by simp; omega)]; simp
    · obtain ⟨hsz, hof, ⟨nm, hnm, hnml⟩, hk, hft⟩ := hl
      rw [hnm, Option.getD_some, List.append_nil, specName]
      by_cases h0 : (nm.take s.offset).length < itNameLenNorm s.item
      · rw [if_pos h0]; simp
      · rw [if_neg h0]
        have hd : (nm.take s.offset).drop (itNameLenNorm s.item) = [] :=
          List.drop_of_length_le (by simp at h0 ⊢; omega)
        rw [hd]
        simp only [Parsed.after, specBody]
        split
        · exact parseNil _
        · split
          · exact file _ _ _
          · exact link _ _ _ _
    · exact file _ _ _
    · exact short _ _
    · exact link _ _ _ _
    · exact short _ _

theorem dirFeed_dead (ok : AllocOracle) {s : DirSt} (he : s.hasError = true) (chunks : List Bytes) :
    dirFeed ok s chunks = .ok (s, []) := by
  induction chunks with
  | nil => rfl
  | cons b bs ih =>
    have : dirData ok (depthFor b.length) s b = .ok (s, []) := by
      simp [depthFor, dirData, dirBody, he]
    simp [dirFeed, this, ih]

theorem LinkSfx.length_eq {a b : List Atom} (h : LinkSfx a b) : a.length = b.length := by
  induction h <;> simp_all

end Zwt
