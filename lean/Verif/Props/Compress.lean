import Verif.Proofs.LLCompress
import Verif.Props.Format
import Verif.Spec.Toy

/-! C04–C08: the compress session. -/

namespace Zwt

variable {D : Deflater} {plain : Bytes → Bytes}

/-- A history over a session with the copying codec, used in the examples: buffer of 100 bytes,
later 7 bytes. -/
def demoOps : List COp := [.compress [1, 2, 3], .setBuffer 7, .compress [4], .compress []]

theorem demoOps_sane : ∀ op ∈ demoOps, op.sane 100 := by
  intro op h
  simp only [demoOps, List.mem_cons, List.not_mem_nil, or_false] at h
  rcases h with rfl | rfl | rfl | rfl
  · trivial
  · exact ⟨by decide +kernel, by decide +kernel⟩
  · trivial
  · trivial

theorem demoOps_small : ∀ op ∈ demoOps, op.small := by
  intro op h
  simp only [demoOps, List.mem_cons, List.not_mem_nil, or_false] at h
  rcases h with rfl | rfl | rfl | rfl <;> simp [COp.small, U32]

/-- C04 (with C05).  Whatever calls are made on a session with positive output buffers (at most
`B`) and inputs below 4 GiB: every call returns, and returns 0; `deflate` has then consumed exactly
the header and all inputs, the bytes passed to the callback are exactly the bytes it emitted, in
order, in pieces of at most `B` bytes. -/
theorem C04_compress_hands_over_everything (C : DeflateOK D plain) (kind : Nat) (level : Int)
    (z : D.τ) (hz : D.init level = some z) (B bufSize : Nat) (hb : 0 < uInt bufSize)
    (hB : uInt bufSize ≤ B) (junk : Bytes) (hj : junk.length = 120) (ops : List COp)
    (hops : ∀ op ∈ ops, op.sane B) (hsmall : ∀ op ∈ ops, op.small) :
    ∃ s0 s rets n0, (∀ fuel, n0 ≤ fuel →
        CS.create D fuel kind level bufSize junk = .ok (some s0) ∧
        compressRun fuel ops s0 = .ok (rets, s)) ∧
      (∀ r ∈ rets, r = 0) ∧
      C.Rep s.z (headerBytes VERSION kind junk ++ (ops.map COp.data).flatten) s.log.flatten ∧
      (∀ b ∈ s.log, b.length ≤ B) := by
  obtain ⟨s0, n1, h1, h2, h3, h4, _⟩ := CS.create_good C kind level z hz bufSize hb junk hj
  obtain ⟨s, new, n2, rets, g1, g2, g3, _, _, g6, g7⟩ :=
    compressRun_good C B ops hops s0 _ h2 (by omega) (by omega)
  rw [taken_eq ops hsmall] at g3
  refine ⟨s0, s, rets, max n1 n2, fun f hf => ⟨h1 f (by omega), g1 f (by omega)⟩, g2, g3, ?_⟩
  intro b hbm
  rw [g6] at hbm
  rcases List.mem_append.mp hbm with h | h
  · exact Nat.le_trans (h4 b h) hB
  · exact g7 b h

example : queueD.init 6 = some [] ∧ 0 < uInt 100 ∧ uInt 100 ≤ 100 ∧ (∀ op ∈ demoOps, op.sane 100) ∧
    (∀ op ∈ demoOps, op.small) :=
  ⟨rfl, by decide +kernel, by decide +kernel, demoOps_sane, demoOps_small⟩

/-- C02, for the archive that a session has passed to its callback: whatever was compressed, and into
pieces of whatever size, as soon as 128 bytes can be decoded they hold version 0 and the kind the session
was created with. -/
theorem C02_every_archive (C : DeflateOK D plain) (kind : Nat) (hk : kind < 2 ^ 32) (level : Int)
    (z : D.τ) (hz : D.init level = some z) (B bufSize : Nat) (hb : 0 < uInt bufSize)
    (hB : uInt bufSize ≤ B) (junk : Bytes) (hj : junk.length = 120) (ops : List COp)
    (hops : ∀ op ∈ ops, op.sane B) (hsmall : ∀ op ∈ ops, op.small) :
    ∃ s0 s rets n0, (∀ fuel, n0 ≤ fuel →
        CS.create D fuel kind level bufSize junk = .ok (some s0) ∧
        compressRun fuel ops s0 = .ok (rets, s)) ∧
      (128 ≤ (plain s.log.flatten).length →
        hdrVersion ((plain s.log.flatten).take 128) = 0 ∧
        hdrKind ((plain s.log.flatten).take 128) = kind) := by
  obtain ⟨s0, s, rets, n0, h1, _, h3, _⟩ :=
    C04_compress_hands_over_everything C kind level z hz B bufSize hb hB junk hj ops hops hsmall
  refine ⟨s0, s, rets, n0, h1, fun hl => ?_⟩
  obtain ⟨r1, r2, r3⟩ := C02_header_roundtrip VERSION kind junk hj (by decide) hk
  obtain ⟨t, ht⟩ := C.sound h3
  have : (plain s.log.flatten).take 128 = headerBytes VERSION kind junk := by
    have := congrArg (List.take 128) ht
    rw [List.take_append_of_le_length hl] at this
    exact this.trans (List.take_left' r1)
  rw [this]
  exact ⟨r2, r3⟩

/-- Example: the history above; all of it, 132 bytes, can be decoded. -/
example : queueD.init 6 = some [] ∧ (∀ op ∈ demoOps, op.sane 100) ∧ (∀ op ∈ demoOps, op.small) ∧
    (match CS.create queueD 20 CT_BLOB 6 100 (List.replicate 120 0xEE) with
      | .ok (some s0) =>
        match compressRun 20 demoOps s0 with
        | .ok (_, s) => s.log.map List.length
        | .error _ => []
      | _ => []) = [100, 31, 1] :=
  ⟨rfl, demoOps_sane, demoOps_small, by decide +kernel⟩

/-- C05.  With a positive output buffer a compress call returns, for every input of every length,
in every session state reached. -/
theorem C05_compress_terminates (C : DeflateOK D plain) (kind : Nat) (level : Int)
    (z : D.τ) (hz : D.init level = some z) (B bufSize : Nat) (hb : 0 < uInt bufSize)
    (hB : uInt bufSize ≤ B) (junk : Bytes) (hj : junk.length = 120) (ops : List COp)
    (hops : ∀ op ∈ ops, op.sane B) (data : Bytes) :
    ∃ s0 s rets n0, (∀ fuel, n0 ≤ fuel →
        CS.create D fuel kind level bufSize junk = .ok (some s0) ∧
        compressRun fuel ops s0 = .ok (rets, s)) ∧
      ∃ s' n1, ∀ fuel, n1 ≤ fuel → compress fuel s data = .ok (0, s') := by
  obtain ⟨s0, n1, h1, h2, h3, h4, _⟩ := CS.create_good C kind level z hz bufSize hb junk hj
  obtain ⟨s, new, n2, rets, g1, g2, g3, g4, _⟩ :=
    compressRun_good C B ops hops s0 _ h2 (by omega) (by omega)
  refine ⟨s0, s, rets, max n1 n2, fun f hf => ⟨h1 f (by omega), g1 f (by omega)⟩, ?_⟩
  obtain ⟨s', _, n3, h, _⟩ := compress_good C s _ data g3 g4
  exact ⟨s', n3, h⟩

example : queueD.init 6 = some [] ∧ 0 < uInt 100 ∧ uInt 100 ≤ 100 ∧ (∀ op ∈ demoOps, op.sane 100) :=
  ⟨rfl, by decide +kernel, by decide +kernel, demoOps_sane⟩

/-- C06 is false: with an output buffer of size 0 (also: of 4 GiB, converted to 0) the very first
call, session creation, never returns, for every conforming zlib. -/
theorem C06_degenerate_buffer_false (C : DeflateOK D plain) (kind : Nat) (level : Int)
    (z : D.τ) (hz : D.init level = some z) (bufSize : Nat) (hb : uInt bufSize = 0) (junk : Bytes)
    (hj : junk.length = 120) :
    ¬ ∃ fuel r, CS.create D fuel kind level bufSize junk = .ok r := by
  rintro ⟨fuel, r, h⟩
  have hlen : (headerBytes VERSION kind junk).length = 128 := by
    simp [headerBytes, leEnc_length, hj]
  have := compressLoop_stuck C fuel { z := z, bufSize := uInt bufSize, log := [] } [] []
    (headerBytes VERSION kind junk) (C.init hz) hb (by intro h; rw [h] at hlen; cases hlen)
  simp only [CS.create, hz, compress, take_uInt (by rw [hlen]; decide : _ < U32), this] at h
  cases h

example : queueD.init 6 = some [] ∧ uInt 0 = 0 ∧ uInt 4294967296 = 0 :=
  ⟨rfl, by decide +kernel, by decide +kernel⟩

/-- C06, the same in the middle of a session: a call with data never returns once the buffer has
size 0. -/
theorem C06_degenerate_buffer_false_later (C : DeflateOK D plain) (s : CS D) (c e : Bytes)
    (hr : C.Rep s.z c e) (size : Nat) (hs : uInt size = 0) (data : Bytes) (hd : data ≠ [])
    (hd' : data.length < U32) :
    ¬ ∃ fuel r, compress fuel (s.setBuffer size) data = .ok r := by
  rintro ⟨fuel, r, h⟩
  have := compressLoop_stuck C fuel (s.setBuffer size) c e data hr hs hd
  rw [compress, take_uInt hd', this] at h
  cases h

example : queueDOK.Rep (D := queueD) [] [1] [1] := rfl

/-- C06, what holds: the call returns for every buffer size whose 32-bit value is not 0, and, for
size 0, when there is nothing to compress.  Missing: size 0 with data. -/
theorem C06_degenerate_buffer_partial (C : DeflateOK D plain) (s : CS D) (c : Bytes)
    (hr : C.Rep s.z c s.log.flatten) (size : Nat) (data : Bytes)
    (h : 0 < uInt size ∨ data = []) :
    ∃ s' n0, ∀ fuel, n0 ≤ fuel → compress fuel (s.setBuffer size) data = .ok (0, s') := by
  rcases h with h | h
  · obtain ⟨s', _, n, h, _⟩ := compress_good C (s.setBuffer size) c data hr h
    exact ⟨s', n, h⟩
  · subst h
    refine ⟨s.setBuffer size, 1, ?_⟩
    intro fuel hf
    obtain ⟨f, rfl⟩ : ∃ f, fuel = f + 1 := ⟨fuel - 1, by omega⟩
    simp [compress, compressLoop]

example : queueDOK.Rep (D := queueD) [] [1] [1] ∧ 0 < uInt 5 := ⟨rfl, by decide +kernel⟩

/-- C07 is false: a call with 4 GiB of input returns 0 without having consumed any of it. -/
theorem C07_large_inputs_false :
    ¬ ∀ (D : Deflater) (plain : Bytes → Bytes) (C : DeflateOK D plain) (s s' : CS D)
      (c data : Bytes) (fuel : Nat), C.Rep s.z c s.log.flatten → 0 < s.bufSize →
      data.length < U64 → compress fuel s data = .ok (0, s') →
      C.Rep s'.z (c ++ data) s'.log.flatten := by
  intro h
  have hl : (List.replicate U32 (0 : UInt8)).length = U32 := List.length_replicate
  have hu : uInt U32 = 0 := by decide +kernel
  have := h queueD id queueDOK ⟨([] : Bytes), 5, []⟩ ⟨([] : Bytes), 5, []⟩ []
    (List.replicate U32 (0 : UInt8)) 1 rfl (by decide)
    (by rw [hl]; decide) (by
      unfold compress
      rw [hl, hu]
      rfl)
  have h2 : ([] : Bytes) ++ [] = [] ++ List.replicate U32 (0 : UInt8) := this
  have h3 := congrArg List.length h2
  rw [List.nil_append, List.nil_append, hl] at h3
  exact absurd h3 (by decide)

/-- C07, what holds: exactly the first `length mod 2^32` bytes are consumed; so everything below
4 GiB.  Missing: the bytes beyond. -/
theorem C07_large_inputs_partial (C : DeflateOK D plain) (s s' : CS D) (c data : Bytes)
    (fuel : Nat) (ret : Int) (hr : C.Rep s.z c s.log.flatten) (hb : 0 < s.bufSize)
    (h : compress fuel s data = .ok (ret, s')) :
    ret = 0 ∧ C.Rep s'.z (c ++ data.take (data.length % 2 ^ 32)) s'.log.flatten ∧
      (data.length < 2 ^ 32 → C.Rep s'.z (c ++ data) s'.log.flatten) := by
  obtain ⟨s1, _, n, h1, h2, _⟩ := compress_good C s c data hr hb
  have h3 : compress (max n fuel) s data = .ok (ret, s') :=
    compressLoop_mono (by omega) _ _ h
  rw [h1 _ (by omega)] at h3
  cases h3
  refine ⟨rfl, ?_, ?_⟩
  · have : uInt data.length = data.length % 2 ^ 32 := by unfold uInt; rfl
    rwa [this] at h2
  · intro hlt
    rwa [take_uInt (by simpa [U32] using hlt)] at h2

example : queueDOK.Rep (D := queueD) [] [1] [1] ∧
    compress 1 (⟨([] : Bytes), 5, [[1]]⟩ : CS queueD) [] = .ok (0, ⟨([] : Bytes), 5, [[1]]⟩) :=
  ⟨rfl, by simp [compress, compressLoop]⟩

/-- C08 is false: with a 4-byte output buffer and a (conforming) codec that emits only what fits,
the bytes handed over when the session is closed decode to 4 bytes of the header. -/
theorem C08_closing_loses_nothing_false :
    ¬ ∀ (D : Deflater) (plain : Bytes → Bytes) (_ : DeflateOK D plain) (fuel kind : Nat)
      (level : Int) (bufSize : Nat) (junk : Bytes) (s0 s : CS D) (ops : List COp)
      (rets : List Int), junk.length = 120 →
      CS.create D fuel kind level bufSize junk = .ok (some s0) →
      compressRun fuel ops s0 = .ok (rets, s) →
      plain s.log.flatten = headerBytes VERSION kind junk ++ (ops.map COp.data).flatten := by
  intro h
  obtain ⟨junk, hj⟩ : ∃ j : Bytes, j.length = 120 := ⟨List.replicate 120 0, List.length_replicate⟩
  have hlen : (headerBytes VERSION CT_FILE junk).length = 128 := by
    simp [headerBytes, leEnc_length, hj]
  have hc : CS.create queueD 5 CT_FILE 6 4 junk =
      .ok (some ⟨(headerBytes VERSION CT_FILE junk).drop 4, 4,
        [(headerBytes VERSION CT_FILE junk).take 4]⟩) := by
    have hne : headerBytes VERSION CT_FILE junk ≠ [] := by
      intro h; rw [h] at hlen; cases hlen
    simp only [CS.create, compress, take_uInt (by rw [hlen]; decide : _ < U32)]
    simp [queueD, compressLoop, hne, uInt_of_lt (by decide : 4 < U32), Z_OK, Z_STREAM_ERROR]
  have := h queueD id queueDOK 5 CT_FILE 6 4 junk _ _ [] [] hj hc rfl
  have h2 := congrArg List.length this
  simp [hlen] at h2

/-- C08, what holds: what the archive decodes to is always a prefix of what was compressed, and it
is all of it if the last callback of the last non-empty call got fewer bytes than the output
buffer holds.  Missing: nothing makes the library flush the rest at closing. -/
theorem C08_closing_loses_nothing_partial (C : DeflateOK D plain) (kind : Nat) (level : Int)
    (z : D.τ) (hz : D.init level = some z) (B bufSize : Nat) (hb : 0 < uInt bufSize)
    (hB : uInt bufSize ≤ B) (junk : Bytes) (hj : junk.length = 120) (ops : List COp)
    (hops : ∀ op ∈ ops, op.sane B) (hsmall : ∀ op ∈ ops, op.small) (data : Bytes)
    (hd : data ≠ []) (hdl : data.length < U32) :
    ∃ s0 s rets n0, (∀ fuel, n0 ≤ fuel →
        CS.create D fuel kind level bufSize junk = .ok (some s0) ∧
        compressRun fuel (ops ++ [.compress data]) s0 = .ok (rets, s)) ∧
      plain s.log.flatten <+:
        headerBytes VERSION kind junk ++ (ops.map COp.data).flatten ++ data ∧
      ∃ lastPiece, s.log.getLast? = some lastPiece ∧
        (lastPiece.length < s.bufSize → plain s.log.flatten =
          headerBytes VERSION kind junk ++ (ops.map COp.data).flatten ++ data) := by
  obtain ⟨s0, n1, h1, h2, h3, h4, _⟩ := CS.create_good C kind level z hz bufSize hb junk hj
  obtain ⟨s1, new, n2, rets, g1, g2, g3, g4, g5, g6, g7⟩ :=
    compressRun_good C B ops hops s0 _ h2 (by omega) (by omega)
  rw [taken_eq ops hsmall] at g3
  obtain ⟨s, new', n3, k1, k2, k3, k4, k5, k6⟩ := compress_good C s1 _ data g3 g4
  rw [take_uInt hdl] at k2 k6
  refine ⟨s0, s, rets ++ [0], max n1 (max n2 n3), ?_, C.sound k2, ?_⟩
  · intro f hf
    refine ⟨h1 f (by omega), ?_⟩
    simp [compressRun_append, g1 f (by omega), compressRun, k1 f (by omega)]
  · obtain ⟨b, hb1, hb2⟩ := k6 hd
    refine ⟨b, ?_, ?_⟩
    · rw [k4, getLast?_append_ne (by intro h; simp [h] at hb1)]; exact hb1
    · rw [k3]; exact hb2

example : queueD.init 6 = some [] ∧ 0 < uInt 100 ∧ uInt 100 ≤ 100 ∧ (∀ op ∈ demoOps, op.sane 100) ∧
    (∀ op ∈ demoOps, op.small) :=
  ⟨rfl, by decide +kernel, by decide +kernel, demoOps_sane, demoOps_small⟩

end Zwt
