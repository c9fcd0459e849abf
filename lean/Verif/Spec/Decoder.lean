import Verif.Spec.End

/-! A decompressor that meets the contract, made of any reader of bytes that only adds to its output. -/

namespace Zwt

/-- A reader of bytes.  `out`: all its output; `final`: it has come to an end, to a good one if `ended`. -/
structure Decoder where
  σ : Type
  init : σ
  byte : σ → UInt8 → σ
  out : σ → Bytes
  final : σ → Bool
  ended : σ → Bool
  mono : ∀ s b, out s <+: out (byte s b)
  stays : ∀ s b, final s = true → byte s b = s

def Decoder.run (d : Decoder) (s : d.σ) (c : Bytes) : d.σ := c.foldl d.byte s

/-- What `c` decodes to. -/
def Decoder.plain (d : Decoder) (c : Bytes) : Bytes := d.out (d.run d.init c)

/-- Reads bytes as long as there is room for more output; `sent` bytes of output were handed over before.
Also the number of bytes read. -/
def Decoder.read (d : Decoder) (sent room : Nat) : d.σ → Bytes → d.σ × Nat
  | s, [] => (s, 0)
  | s, b :: bs =>
    if d.final s = true ∨ sent + room ≤ (d.out s).length then (s, 0)
    else ((d.read sent room (d.byte s b) bs).1, (d.read sent room (d.byte s b) bs).2 + 1)

/-- State of the decompressor: that of the reader, how much has been handed over, and whether the end has
been reported. -/
structure DecSt (d : Decoder) where
  s : d.σ
  sent : Nat
  dead : Bool

/-- The code that reports the end. -/
def Decoder.endCode (d : Decoder) (s : d.σ) : Int := if d.ended s then Z_STREAM_END else Z_DATA_ERROR

/-- `inflate`. -/
def Decoder.inflater (d : Decoder) : Inflater where
  τ := DecSt d
  init := ⟨d.init, 0, false⟩
  run st _ inp room :=
    if st.dead then ⟨d.endCode st.s, st, 0, []⟩
    else
      let r := d.read st.sent room st.s inp
      let o := ((d.out r.1).drop st.sent).take room
      if d.final r.1 = true ∧ (d.out r.1).length ≤ st.sent + room then
        ⟨d.endCode r.1, ⟨r.1, st.sent + o.length, true⟩, r.2, o⟩
      else if r.2 = 0 ∧ o = [] then ⟨Z_BUF_ERROR, st, 0, []⟩
      else ⟨Z_OK, ⟨r.1, st.sent + o.length, false⟩, r.2, o⟩

end Zwt
