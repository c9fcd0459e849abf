import Verif.Spec.Rfc

/-! A compressor that writes zlib streams of stored blocks (RFC 1951, 3.2.4), and, like zlib, takes all its
input at once and keeps what does not fit into the output room for later calls. -/

namespace Zwt.Rfc

/-- A stored block that is not the last one. -/
def storedBlock (d : Bytes) : Bytes :=
  [0, UInt8.ofNat (d.length % 256), UInt8.ofNat (d.length / 256),
    UInt8.ofNat (255 - d.length % 256), UInt8.ofNat (255 - d.length / 256)] ++ d

/-- Blocks of up to 65535 bytes, and an empty one, as a flush writes it. -/
def storedBlocks (d : Bytes) : Bytes :=
  if h : d = [] then storedBlock []
  else storedBlock (d.take 65535) ++ storedBlocks (d.drop 65535)
termination_by d.length
decreasing_by
  have := List.length_pos_iff.2 h
  simp only [List.length_drop]
  omega

/-- What there is to hand over. -/
def offer (q inp : Bytes) : Bytes := if inp = [] then q else q ++ storedBlocks inp

/-- `deflate` with level 0; the bytes not yet handed over begin with the zlib header. -/
def storedD : Deflater where
  τ := Bytes
  init level := if -1 ≤ level ∧ level ≤ 9 then some [0x78, 0x01] else none
  run q _ inp room :=
    if room = 0 ∨ offer q inp = [] then ⟨Z_BUF_ERROR, q, 0, []⟩
    else ⟨Z_OK, (offer q inp).drop room, inp.length, (offer q inp).take room⟩

end Zwt.Rfc
