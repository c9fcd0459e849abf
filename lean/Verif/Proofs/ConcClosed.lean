import Verif.Proofs.ConcRun
import Verif.Proofs.Relink

/-! The calls made for a history whose link targets may lack the final NUL. -/

namespace Zwt

/-- The calls of a callback are among those it makes with a NUL after the target. -/
theorem hlEventsP_closed {Q : Call → World → Prop} (os : Os) (out : Bytes) (evs : List Ev) :
    ∀ (v : HLv) (w : World), (hlEventsP out v (evs.map Ev.closed)).All Q os w →
      (hlEventsP out v evs).All Q os w := by
  induction evs with
  | nil => intro v w _; trivial
  | cons e evs ih =>
    intro v w h
    have step : hlEventP out v e = hlEventP out v e.closed ∨
        ((hlEventP out v e.closed).All Q os w → (hlEventP out v e).All Q os w) ∧
          ∀ a, ((hlEventP out v e).run os w).1 = .ok a →
            (hlEventP out v e).run os w = (hlEventP out v e.closed).run os w := by
      unfold Ev.closed
      split
      · rename_i t
        cases hc : cstr? (t ++ []) with
        | some x => left; simp only [hlEventP, hlSymLinkP, hc, cstr_snoc hc]
        | none =>
          right
          simp only [hlEventP, hlSymLinkP, hc, Prog.All, Prog.run]
          cases (Call.exec os w (Call.getcwd CWD_SIZE)).1 with
          | none => exact ⟨fun h => ⟨h.1, trivial⟩, fun _ _ => rfl⟩
          | some old =>
            simp only
            cases v.dirPath with
            | none => exact ⟨fun h => h, fun _ _ => rfl⟩
            | some dir =>
              simp only [Prog.All, Prog.run]
              cases (Call.exec os _ (Call.chdir (cString dir))).1 with
              | false => exact ⟨fun h => h, fun _ _ => rfl⟩
              | true =>
                simp only
                cases v.name with
                | none => exact ⟨fun h => h, fun _ _ => rfl⟩
                | some nm =>
                  refine ⟨fun h => ⟨h.1, h.2.1, trivial⟩, fun a ha => ?_⟩
                  simp [Prog.run] at ha
      · exact .inl rfl
    simp only [List.map_cons, hlEventsP] at h ⊢
    rw [all_andThen] at h ⊢
    rcases step with hs | ⟨hs1, hs2⟩
    · rw [hs]
      exact ⟨h.1, fun a ha => ih a _ (h.2 a ha)⟩
    · refine ⟨hs1 h.1, fun a ha => ?_⟩
      have := hs2 a ha
      rw [this] at ha ⊢
      exact ih a _ (h.2 a ha)

end Zwt
