import Verif.Model.Destroy

/-! Vocabulary of C84. -/

namespace Zwt

/-- The plaintext of an archive of version 0, or less than its header. -/
def Version0 (P : Bytes) : Prop := ∀ h, h.length = 128 → h <+: P → hdrVersion h = 0

end Zwt
