import Verif.Proofs.HLRun

/-! Bytes beyond the archive size do not matter. -/

namespace Zwt

theorem nextSize_sub {n total : Nat} (hn : 0 < n) : nextSize n total ≤ n - total := by
  have hc : DEF_CHUNK_SIZE = 524288 := rfl
  simp only [nextSize, hc]
  split <;> (try split) <;> (try split) <;> omega

theorem take_sub {a b : Bytes} {k m : Nat} (h : a.take k = b.take k) (hm : m ≤ k) :
    a.take m = b.take m ∧ (a.drop m).take (k - m) = (b.drop m).take (k - m) := by
  constructor
  · have := congrArg (List.take m) h
    simpa [List.take_take, Nat.min_eq_left hm] using this
  · have := congrArg (List.drop m) h
    simpa [List.drop_take] using this

theorem hlLoop_beyond {Z : Inflater} (os : Os) (ok : AllocOracle) (fuel : Nat) (out : Bytes) (n : Nat)
    (hn : 0 < n) (e e' : Bool) (rounds : Nat) : ∀ (i total : Nat) (a b : Bytes) (l : LL Z) (s : Sess)
    (h : HL), n - total ≤ a.length → n - total ≤ b.length → a.take (n - total) = b.take (n - total) →
    hlLoop os ok fuel out n rounds i total ⟨a, e⟩ l s h =
      hlLoop os ok fuel out n rounds i total ⟨b, e'⟩ l s h := by
  induction rounds with
  | zero => intros; rfl
  | succ rounds ih =>
    intro i total a b l s h ha hb hab
    have hle := nextSize_sub (total := total) hn
    obtain ⟨t1, t2⟩ := take_sub hab hle
    have s1 : ¬ a.length < nextSize n total := by omega
    have s2 : ¬ b.length < nextSize n total := by omega
    have hl : (b.take (nextSize n total)).length = nextSize n total := by
      rw [List.length_take]; omega
    simp only [hlLoop, s1, s2, decide_false, Bool.false_and, t1, hl]
    split
    · rfl
    · simp only [Bool.false_eq_true, if_false, Bool.not_false, Bool.true_and]
      split
      · rfl
      · split
        · rfl
        · split
          · have e1 : n - (total + nextSize n total) = n - total - nextSize n total := by omega
            exact ih _ _ _ _ _ _ _ (by rw [List.length_drop, e1]; omega)
              (by rw [List.length_drop, e1]; omega) (by rw [e1]; exact t2)
          · rfl

end Zwt
