import Verif.Proofs.WinStop
import Verif.Proofs.WinFile

/-! Two runs on the same Windows drive, one after the other. -/

namespace Zwt

theorem winNames_key {win win2 : Win} (hk : win2.key = win.key) (f : Forest) :
    f.winNames win2 = f.winNames win := by
  induction f <;> simp_all [Forest.winNames, Win.same]

theorem winOk_key {win win2 : Win} (hk : win2.key = win.key) (f : Forest) :
    f.winOk win2 ↔ f.winOk win := by
  induction f <;> simp_all [Forest.winOk, WinName, Win.same, winNames_key hk]

/-- A new place elsewhere is still new. -/
theorem WFresh.elsewhere {win win2 : Win} {w w2 : WWorld} {top top' : Loc} {out out' : Bytes} {ns ns' : List Bytes}
    (h : WFresh win w out top ns) (h' : WFresh win2 w out' top' ns') (hne : ¬ top <+: top')
    (hc : w2.cwd = w.cwd) (hout : ∀ x, ¬ top <+: x → w2.fs x = w.fs x) : WFresh win2 w2 out' top' ns' := by
  refine ⟨by rw [hc]; exact h'.front, h'.names, h'.few, h'.ne, ?_, fun q => ?_⟩
  · rw [hout _ fun hp => hne (hp.trans (List.dropLast_prefix _))]; exact h'.parent
  · rw [hout]
    · exact h'.absent q
    · intro hp
      rcases List.prefix_or_prefix_of_prefix hp (List.prefix_append top' q) with e | ⟨t, rfl⟩
      · exact hne e
      · rcases List.eq_nil_or_concat t with rfl | ⟨t0, c, rfl⟩
        · exact hne (by simp)
        · have := h.parent
          rw [List.concat_eq_append, ← List.append_assoc, List.dropLast_concat, h'.absent] at this
          cases this

/-- A file can be opened again. -/
theorem winOpen_again {win : Win} (hq : win.quiet) {w w2 : WWorld} {p : Bytes} {l : Loc}
    (ho : (winOpen win w p false true).1 = some l) (hc : w2.cwd = w.cwd)
    (hfs : w2.fs = w.fs ∨ ∃ e, w2.fs = w.fs.put l (.file false e)) :
    (winOpen win w2 p false true).1 = some l := by
  unfold winOpen at ho ⊢
  simp only [hq.1, Bool.false_eq_true, false_or] at ho ⊢
  rw [hc]
  split at ho
  · cases ho
  · rename_i hsep
    rw [if_neg hsep]
    split at ho
    · cases ho
    · rename_i l' hl
      have hll : l' = l := by
        revert ho
        split
        · split
          · simp
          · simp
        · simp
        · split <;> simp
      subst hll
      rcases hfs with h | ⟨e, h⟩
      · simp only [h]
        revert ho
        split
        · split <;> simp
        · simp
        · split <;> simp
      · have : w2.fs l' = some (.file false e) := by rw [h]; simp [WFS.put]
        simp only [this]
        rfl

end Zwt
