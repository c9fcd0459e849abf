import Verif.Proofs.WinLossy
import Verif.Spec.WinDisk

/-! Copies on Windows drives that are archived again. -/

namespace Zwt

theorem WFresh.locates {win : Win} {w : WWorld} {out : Bytes} {top : Loc} {ns : List Bytes}
    (h : WFresh win w out top ns) : winLocate win w.cwd out = some (top ++ ns.map win.same) := by
  obtain ⟨p, hp, _, hloc⟩ := h.front
  have := winLocate_extend win w.cwd ns p top h.names hloc
  rw [extendPath_eq] at this
  rw [hp]; exact this

/-- A drive with a copy on it. -/
theorem WCopyOf.tree {src fs fs' : WFS} {l top : Loc} {ns : List Bytes} (h : WCopyOf src l fs fs' top (top ++ ns))
    (hs : src.tree) (ht : fs.tree) (hne : top ≠ []) (hp : fs top.dropLast = some .dir) : fs'.tree := by
  obtain ⟨h1, h2, h3⟩ := h
  intro x k n hx
  by_cases hin : ∃ q, q ≠ [] ∧ x ++ [k] = top ++ ns ++ q
  · obtain ⟨q, hq, e⟩ := hin
    have hq' : q = q.dropLast ++ [q.getLast hq] := (List.dropLast_concat_getLast hq).symm
    rw [hq', ← List.append_assoc] at e
    obtain ⟨e1, e2⟩ := List.append_inj' e rfl
    rw [e1]
    by_cases hd : q.dropLast = []
    · rw [hd, List.append_nil]; exact h1 _ (List.prefix_append _ _) List.prefix_rfl
    · rw [h2 _ hd]
      rw [e, List.append_assoc, ← hq', h2 q hq, hq', ← List.append_assoc] at hx
      exact hs _ _ _ hx
  · by_cases hway : top <+: x ++ [k] ∧ x ++ [k] <+: top ++ ns
    · rcases List.prefix_concat_iff.mp hway.1 with e | e
      · have hx' : x = top.dropLast := by rw [e]; simp
        rw [h3 x ?_ ?_, hx']
        · exact hp
        · intro a
          have := a.1.length_le
          rw [e] at this
          simp at this
          omega
        · intro q _ a
          have := congrArg List.length e
          rw [a] at this
          simp at this
      · exact h1 x e ((List.prefix_append x [k]).trans hway.2)
    · rw [h3 _ hway (fun q hq a => hin ⟨q, hq, a⟩)] at hx
      have hxd := ht x k n hx
      by_cases hw : top <+: x ∧ x <+: top ++ ns
      · exact h1 x hw.1 hw.2
      · rw [h3 x hw]
        · exact hxd
        · intro q hq a
          exact hin ⟨q ++ [k], by simp, by rw [a]; simp⟩

/-- A copy can be archived as the original could, as far as paths stay short. -/
theorem WCopyOf.archivable {win : Win} {w w' v : WWorld} {env env' : Env} {p out : Bytes} {l top : Loc}
    {ns : List Bytes} (A : WArchivable win w env p l) (hw : WFresh win w' out top ns) (hv : v.cwd = w'.cwd)
    (h : WCopyOf w.fs l w'.fs v.fs top (top ++ ns.map win.same)) (hout : out.length ≤ 240)
    (hshort : ∀ (ms : List Bytes) (es : List Entry) (e : Entry), (∀ x ∈ ms, WinName win x) →
      env'.list (out ++ (ms.map (47 :: ·)).flatten) = some es → e ∈ es → WinName win e.name →
      (out ++ (ms.map (47 :: ·)).flatten).length + 1 + e.name.length ≤ 240) :
    WArchivable win v env' out (top ++ ns.map win.same) where
  leads := by rw [hv]; exact hw.locates
  isDir := h.1 _ (List.prefix_append _ _) List.prefix_rfl
  files q ro c hc := by
    by_cases hq : q = []
    · rw [hq, List.append_nil, h.1 _ (List.prefix_append _ _) List.prefix_rfl] at hc
      cases hc
    · rw [h.2.1 q hq] at hc
      exact A.files q ro c hc
  top := hout
  short := hshort

end Zwt
