import Verif.Model.Zlib

/-! A compressor that keeps a record of its calls. -/

namespace Zwt

/-- State of the compressor, return codes of its calls (latest last), number of input bytes taken. -/
structure Watched (τ : Type) where
  st : τ
  codes : List Int
  taken : Nat

/-- The compressor `D`, watched. -/
def watch (D : Deflater) : Deflater where
  τ := Watched D.τ
  init level := (D.init level).map (⟨·, [], 0⟩)
  run s flush inp room :=
    let r := D.run s.st flush inp room
    ⟨r.ret, ⟨r.st, s.codes ++ [r.ret], s.taken + min r.consumed inp.length⟩, r.consumed, r.out⟩

end Zwt
