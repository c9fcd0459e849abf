import Verif.Spec.HLSample
import Verif.Spec.Forest
import Verif.Props.Format

/-! The sample archives are archives of their trees. -/

namespace Zwt.HLSample

/-- Lengths and modes fit in their fields; only files, links and directories. -/
def fits : Forest → Bool
  | .nil => true
  | .file n m c r => decide (n.length < 2 ^ 31) && decide (m < 2 ^ 32) && decide (c.length < 2 ^ 63) && fits r
  | .link n m t r => decide (n.length < 2 ^ 31) && decide (m < 2 ^ 32) && decide (t.length < 2 ^ 63) && fits r
  | .dir n m s r => decide (n.length < 2 ^ 31) && decide (m < 2 ^ 32) && fits s && fits r
  | .other _ _ => false
  | .bad _ _ => false

theorem pad_pad (n : Nat) : Pad (pad n) := ⟨8 - n % 8, by omega, by omega, rfl⟩

theorem item_fields (k s nl m : Nat) (hk : k < 2 ^ 8) (hs : s < 2 ^ 63) (hn : nl < 2 ^ 31)
    (hm : m < 2 ^ 32) :
    (item k s nl m).length = 40 ∧ itKind (item k s nl m) = k ∧ itMode (item k s nl m) = m ∧
      itNameLen (item k s nl m) = nl ∧ itNameLenNorm (item k s nl m) = nl + (pad nl).length ∧
      itFileSize (item k s nl m) = s ∧ itFileSizeNorm (item k s nl m) = s + (pad s).length := by
  obtain ⟨h1, h2⟩ := C03_item_roundtrip ⟨s, s + (8 - s % 8), nl, nl + (8 - nl % 8), m, k⟩
    (List.replicate 11 0xAA) (by simp) (by simp only; omega) (by simp only; omega)
    (by simp only; omega) (by simp only; omega) hm hk
  simp only [itemFields, ItemFields.mk.injEq] at h2
  obtain ⟨a, b, c, d, e, f⟩ := h2
  exact ⟨h1, f, e, c, by rw [pad, List.length_replicate]; exact d, a,
    by rw [pad, List.length_replicate]; exact b⟩

/-- The sample encoding is one of the encodings of the tree. -/
theorem encodes (f : Forest) (h : fits f = true) : Encodes f (encode f) := by
  induction f with
  | nil => exact .nil
  | file n m c r ih =>
    simp only [fits, Bool.and_eq_true, decide_eq_true_eq] at h
    obtain ⟨a1, a2, a3, a4, a5, a6, a7⟩ := item_fields 0 c.length n.length m (by decide) h.1.2 h.1.1.1 h.1.1.2
    exact .file a1 a2 a3 a4 a5 a6 a7 (pad_pad _) (pad_pad _) (ih h.2)
  | link n m t r ih =>
    simp only [fits, Bool.and_eq_true, decide_eq_true_eq] at h
    obtain ⟨a1, a2, a3, a4, a5, a6, a7⟩ := item_fields 4 t.length n.length m (by decide) h.1.2 h.1.1.1 h.1.1.2
    exact .link a1 a2 a3 a4 a5 a6 a7 (pad_pad _) (pad_pad _) (ih h.2)
  | dir n m s r ihs ih =>
    simp only [fits, Bool.and_eq_true, decide_eq_true_eq] at h
    obtain ⟨a1, a2, a3, a4, a5, a6, a7⟩ := item_fields 1 0 n.length m (by decide) (by decide) h.1.1.1 h.1.1.2
    obtain ⟨b1, b2, _⟩ := item_fields 2 0 0 0 (by decide) (by decide) (by decide) (by decide)
    exact .dir a1 a2 a3 a4 a5 (pad_pad _) (ihs h.1.2) b1 b2 (ih h.2)
  | other n r => simp [fits] at h
  | bad n r => simp [fits] at h

end Zwt.HLSample
