import Verif.Proofs.WinKeep
import Verif.Spec.WinLater

/-! What any number of extractions leave of a Windows drive. -/

namespace Zwt

theorem winLoop_keeps {Z : Inflater} (win : Win) (ok : AllocOracle) (fuel : Nat) (out : Bytes) (size : Nat) :
    ∀ (rounds i total : Nat) (inp : Input) (l : LL Z) (s : Sess) (h : HLW) (r : WExtracted),
      winLoop win ok fuel out size rounds i total inp l s h = .ok r → WKeeps h.w.fs r.w.fs := by
  intro rounds
  induction rounds with
  | zero => intro i total inp l s h r hr; cases hr
  | succ n ih =>
    intro i total inp l s h r hr
    rw [winLoop] at hr
    split at hr
    · cases hr; exact .refl _
    · dsimp only at hr
      split at hr
      · cases hr; exact .refl _
      · split at hr
        · cases hr
        · split at hr
          · cases hr
          · rename_i h' he
            have hk := (winEvents_keeps win out _ _ h' he).1
            split at hr
            · exact hk.trans (ih _ _ _ _ _ _ _ hr)
            · cases hr; exact hk

theorem WEarlier.keeps {fs now : WFS} (h : WEarlier fs now) : WKeeps fs now := by
  induction h with
  | start => exact .refl _
  | more Z win ok fuel hdr item out n inp w r _ hw hr ih =>
    subst hw
    refine ih.trans ?_
    have := winLoop_keeps win ok fuel out n _ _ _ _ _ _ _ r hr
    exact this

end Zwt
