import Verif.Model.Zlib

/-!
What is assumed about zlib.  `plain c` are the plaintext bytes determined by the compressed bytes
`c` (up to the first defect, if `c` is not valid).
-/

namespace Zwt

/-- Flush requests that `inflate` treats like none at all (only `Z_FINISH`, `Z_BLOCK` and `Z_TREES`
change what it does). -/
def SoftFlush (flush : Int) : Prop := flush = Z_NO_FLUSH ∨ flush = Z_PARTIAL_FLUSH

/-- Contract of `inflate` (zlib.h, description of `inflate`).
`Rep st c p`: in state `st`, `c` has been consumed and `p` produced since `inflateInit`.
`Dead st`: the stream has ended or failed for good. -/
structure InflateOK (Z : Inflater) (plain : Bytes → Bytes) where
  Rep : Z.τ → Bytes → Bytes → Prop
  Dead : Z.τ → Prop
  /-- later input does not revoke plaintext -/
  mono : ∀ c x, plain c <+: plain (c ++ x)
  init : Rep Z.init [] []
  alive : ¬ Dead Z.init
  /-- input is consumed from the front, output fits into the room given -/
  bounds : ∀ {st c p}, Rep st c p → ∀ flush inp room,
    (Z.run st flush inp room).consumed ≤ inp.length ∧ (Z.run st flush inp room).out.length ≤ room
  step : ∀ {st c p}, Rep st c p → ∀ flush inp room,
    Rep (Z.run st flush inp room).st (c ++ inp.take (Z.run st flush inp room).consumed)
      (p ++ (Z.run st flush inp room).out)
  /-- only plaintext of the consumed bytes is produced -/
  sound : ∀ {st c p}, Rep st c p → p <+: plain c
  /-- "`Z_OK` if some progress has been made" -/
  progress : ∀ {st c p}, Rep st c p → ∀ flush inp room, (Z.run st flush inp room).ret = Z_OK →
    0 < (Z.run st flush inp room).consumed ∨ (Z.run st flush inp room).out ≠ []
  /-- without such a flush request, `Z_OK` with room left means that everything was processed -/
  complete : ∀ {st c p}, Rep st c p → ∀ flush inp room, SoftFlush flush →
    (Z.run st flush inp room).ret = Z_OK → (Z.run st flush inp room).out.length < room →
    (Z.run st flush inp room).consumed = inp.length ∧
      p ++ (Z.run st flush inp room).out = plain (c ++ inp)
  /-- another return code is final, or just says that there was no room -/
  fail : ∀ {st c p}, Rep st c p → ∀ flush inp room, SoftFlush flush → inp ≠ [] →
    (Z.run st flush inp room).ret ≠ Z_OK →
    Dead (Z.run st flush inp room).st ∨ (room = 0 ∧ (Z.run st flush inp room).consumed = 0)
  /-- `Z_OK` is not returned by a dead stream, nor does it produce a dead one -/
  okAlive : ∀ {st c p}, Rep st c p → ∀ flush inp room, (Z.run st flush inp room).ret = Z_OK →
    ¬ Dead (Z.run st flush inp room).st
  dead : ∀ {st}, Dead st → ∀ flush inp room, (Z.run st flush inp room).ret ≠ Z_OK ∧
    (Z.run st flush inp room).out = [] ∧ Dead (Z.run st flush inp room).st

/-- Contract of `deflate` as used here, with flush request `Z_PARTIAL_FLUSH` (zlib.h, description
of `deflate`).  `Rep st c e`: in state `st`, plaintext `c` has been consumed and `e` emitted. -/
structure DeflateOK (D : Deflater) (plain : Bytes → Bytes) where
  Rep : D.τ → Bytes → Bytes → Prop
  /-- bound on the number of calls that take no input -/
  rank : D.τ → Nat
  init : ∀ {level st}, D.init level = some st → Rep st [] []
  bounds : ∀ {st c e}, Rep st c e → ∀ inp room,
    (D.run st Z_PARTIAL_FLUSH inp room).consumed ≤ inp.length ∧
      (D.run st Z_PARTIAL_FLUSH inp room).out.length ≤ room
  step : ∀ {st c e}, Rep st c e → ∀ inp room,
    Rep (D.run st Z_PARTIAL_FLUSH inp room).st
      (c ++ inp.take (D.run st Z_PARTIAL_FLUSH inp room).consumed)
      (e ++ (D.run st Z_PARTIAL_FLUSH inp room).out)
  /-- what is emitted decodes to plaintext consumed -/
  sound : ∀ {st c e}, Rep st c e → plain e <+: c
  /-- "as much as possible is processed": with input and room, a call takes input or empties
  internal buffers -/
  progress : ∀ {st c e}, Rep st c e → ∀ inp room, inp ≠ [] → 0 < room →
    (D.run st Z_PARTIAL_FLUSH inp room).consumed = 0 →
    rank (D.run st Z_PARTIAL_FLUSH inp room).st < rank st
  /-- no spurious stream error -/
  noStreamError : ∀ {st c e}, Rep st c e → ∀ inp room,
    (D.run st Z_PARTIAL_FLUSH inp room).ret ≠ Z_STREAM_ERROR
  /-- room left means that the flush is complete: everything consumed can be decoded -/
  complete : ∀ {st c e}, Rep st c e → ∀ inp room, inp ≠ [] →
    (D.run st Z_PARTIAL_FLUSH inp room).out.length < room →
    (D.run st Z_PARTIAL_FLUSH inp room).consumed = inp.length ∧
      plain (e ++ (D.run st Z_PARTIAL_FLUSH inp room).out) = c ++ inp
  /-- "If no progress is possible, deflate returns `Z_BUF_ERROR`": no room, no effect -/
  noRoom : ∀ {st c e}, Rep st c e → ∀ inp, (D.run st Z_PARTIAL_FLUSH inp 0).consumed = 0 ∧
    (D.run st Z_PARTIAL_FLUSH inp 0).ret = Z_BUF_ERROR

/-- Plaintext may still follow: the compressed bytes are the beginning of a longer stream. -/
def Open (plain : Bytes → Bytes) (c : Bytes) : Prop := ∃ x, plain (c ++ x) ≠ plain c

/-- `inflate` gives up only on streams that have ended or are defective, so never for lack of
memory.  (Not part of `InflateOK`; only where all the plaintext must arrive.) -/
def InflateOK.Final {Z : Inflater} {plain : Bytes → Bytes} (C : InflateOK Z plain) : Prop :=
  ∀ st c p, C.Rep st c p → C.Dead st → ¬ Open plain c

/-- At the end of the compressed bytes `e` nothing is withheld: whenever `inflate` has used the last
one, it has produced all the plaintext.  zlib.h does not promise this for a full output buffer.  It
holds when the last byte of `e` has no part in a code that stands for data (`Decoder.inflateOK_prompt`),
as `inflate` reads no byte before it needs it; this is so after some flushes and not after others
(`C11_standard_false`).  (Not part of `InflateOK`; used as an alternative to room left in the output
buffer.) -/
def InflateOK.Prompt {Z : Inflater} {plain : Bytes → Bytes} (C : InflateOK Z plain) (e : Bytes) :
    Prop :=
  ∀ st c p flush inp room, C.Rep st c p → SoftFlush flush → inp ≠ [] → c ++ inp = e →
    (Z.run st flush inp room).ret = Z_OK → (Z.run st flush inp room).consumed = inp.length →
    p ++ (Z.run st flush inp room).out = plain e

/-- The output of `deflate` for one more byte is bounded, so some room suffices (`deflateBound`). -/
def DeflateOK.Fits {D : Deflater} {plain : Bytes → Bytes} (C : DeflateOK D plain) : Prop :=
  ∀ st c e, C.Rep st c e → ∀ b, ∃ room, (D.run st Z_PARTIAL_FLUSH [b] room).out.length < room

end Zwt
