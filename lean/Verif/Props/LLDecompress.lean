import Verif.Proofs.LLDecompress
import Verif.Spec.Toy

/-! C09–C12 (low-level part): the low-level decompress session. -/

namespace Zwt

variable {Z : Inflater} {plain : Bytes → Bytes}

/-- History used in the examples: 3-byte buffer, input with a defect (byte 255 for `checkI`). -/
def demoLL : List LLOp :=
  [.decompress 0 [1, 2], .setBuffer 2, .decompress 0 [3, 4, 5, 6], .decompress 0 [7, 255, 9],
    .decompress 0 [10]]

theorem demoLL_sane : ∀ op ∈ demoLL, op.sane 3 := by
  intro op h
  simp only [demoLL, List.mem_cons, List.not_mem_nil, or_false] at h
  rcases h with rfl | rfl | rfl | rfl | rfl
  · exact ⟨rfl, by decide⟩
  · exact ⟨by decide +kernel, by decide +kernel⟩
  · exact ⟨rfl, by decide⟩
  · exact ⟨rfl, by decide⟩
  · exact ⟨rfl, by decide⟩

/-- C09.  Whatever the input bytes, valid or not, and however split into calls (no flush requests,
positive buffers of at most `B` bytes, possibly changing): the bytes passed to the callback are,
concatenated, a prefix of the plaintext of the bytes given, in pieces of at most `B` bytes. -/
theorem C09_faithful_prefix (C : InflateOK Z plain) (B size : Nat) (hs : 0 < uInt size)
    (hB : uInt size ≤ B) (ops : List LLOp) (hops : ∀ op ∈ ops, op.sane B) :
    ∃ rets l log n0, (∀ fuel, n0 ≤ fuel →
        llRun fuel ops (LL.create Z size) [] = .ok (rets, l, log)) ∧
      log.flatten <+: plain (ops.map LLOp.data).flatten ∧ (∀ b ∈ log, b.length ≤ B) := by
  obtain ⟨rets, l, log, n0, h1, h2, _, _, h5⟩ :=
    llRun_good C B ops hops (LL.create Z size) [] [] (.create C size) hs hB
  exact ⟨rets, l, log, n0, h1, by simpa using h2.1, h5⟩

example : 0 < uInt 3 ∧ uInt 3 ≤ 3 ∧ (∀ op ∈ demoLL, op.sane 3) :=
  ⟨by decide +kernel, by decide +kernel, demoLL_sane⟩
/-- The history above with the checking codec: the error is reported, what precedes it is there
(except what the failing call produced). -/
example : (match llRun 10 demoLL (LL.create checkI 3) [] with
    | .ok (rets, _, log) => some (rets, log) | .error _ => none) =
    some ([0, 0, -3, -3], [[1, 2], [3, 4], [5, 6]]) := by decide +kernel

/-- C10.  Every call returns: for every input, every buffer size including 0, every flush request
and every history. -/
theorem C10_decompress_terminates (C : InflateOK Z plain) (size : Nat) (ops : List LLOp) :
    ∃ r n0, ∀ fuel, n0 ≤ fuel → llRun fuel ops (LL.create Z size) [] = .ok r :=
  llRun_terminates C ops _ _ [] [] C.init

/-- Example: also with a buffer of size 0 in between and a flush request. -/
example : (match llRun 10 [.decompress 4 [1, 2, 3], .setBuffer 0, .decompress 0 [4], .setBuffer 2,
      .decompress 0 [5]] (LL.create copyI 1) [] with
    | .ok (rets, _, log) => some (rets, log.flatten) | .error _ => none) = some ([0, -5, 0], [1, 2, 3, 5]) := by
  decide +kernel

/-- C11 is false: a call may return 0 although plaintext determined by its input has not been
passed on (buffer of 1 byte, input of 2 bytes). -/
theorem C11_nothing_withheld_false :
    ¬ ∀ (Z : Inflater) (plain : Bytes → Bytes) (_ : InflateOK Z plain) (fuel size : Nat)
      (data : Bytes) (l : LL Z) (log : List Bytes), 0 < uInt size →
      llRun fuel [.decompress Z_NO_FLUSH data] (LL.create Z size) [] = .ok ([Z_OK], l, log) →
      log.flatten = plain data := by
  intro h
  have hu : uInt 1 = 1 := by decide +kernel
  have hu2 : uInt 2 = 2 := by decide +kernel
  have := h queueI id queueIOK 5 1 [1, 2]
    ⟨([2] : Bytes), [], 0, [1], 1, 1, [0]⟩ [[1]] (by rw [hu]; decide)
    (by
      simp [llRun, llDecompress, readOldIn, LL.feed, LL.create, LL.setup, LL.inflate, LL.after,
        LL.handed, recordCb, queueI, hu, hu2, Z_OK])
  exact absurd this (by decide)

/-- C11, what holds: when a call with input returns 0 and the last piece it delivered was shorter
than the buffer (or `inflate` is known to withhold nothing at this point of the input), everything
determined by all input so far has been delivered.  Missing: the case of a last piece that fills the
buffer. -/
theorem C11_nothing_withheld_partial (C : InflateOK Z plain) (B size : Nat) (hs : 0 < uInt size)
    (hB : uInt size ≤ B) (ops : List LLOp) (hops : ∀ op ∈ ops, op.sane B) (data : Bytes)
    (hd : data ≠ []) (hdl : data.length < U32) :
    ∃ rets ret l log n0, (∀ fuel, n0 ≤ fuel →
        llRun fuel (ops ++ [.decompress Z_NO_FLUSH data]) (LL.create Z size) [] =
          .ok (rets ++ [ret], l, log)) ∧
      (ret = Z_OK → ∃ lastPiece, log.getLast? = some lastPiece ∧ (lastPiece.length < l.bufSize ∨
        C.Prompt ((ops.map LLOp.data).flatten ++ data) → log.flatten = plain ((ops.map LLOp.data).flatten ++ data))) := by
  obtain ⟨rets, l, log, n0, h1, h2, h3, h4, h5⟩ :=
    llRun_good C B ops hops (LL.create Z size) [] [] (.create C size) hs hB
  obtain ⟨ret, l', new, n1, g1, g2, g3, g4, g5⟩ := llDecompress_good C l _ _ h2 h3 data hdl
  refine ⟨rets, ret, l', log ++ new, max n0 n1, ?_, ?_⟩
  · intro f hf
    simp only [List.nil_append] at h1 g1
    simp [llRun_append, h1 f (by omega), llRun, g1 f (by omega)]
  · intro h0
    obtain ⟨b, hb1, hb2⟩ := g5 h0 hd
    refine ⟨b, ?_, ?_⟩
    · rw [getLast?_append_ne (by intro h; simp [h] at hb1)]; exact hb1
    · rw [g3]
      intro hlt
      simpa using hb2 hlt

example : 0 < uInt 3 ∧ uInt 3 ≤ 3 ∧ (∀ op ∈ demoLL, op.sane 3) :=
  ⟨by decide +kernel, by decide +kernel, demoLL_sane⟩

/-- C12 for low-level sessions (archive sessions: `Props/Session.lean`): a call returns 0 only if every `inflate` call it made returned `Z_OK`;
otherwise it returns the code of the last one (and all before were `Z_OK`).  For every inflate
implementation whatsoever.
Missing: archive sessions (`C12_reports_zlib_errors_false`). -/
theorem C12_reports_zlib_errors_lowlevel_partial (fuel : Nat) (flush : Int) (l l' : LL Z)
    (u u' : List Bytes) (data : Bytes) (ret : Int)
    (h : llDecompress recordCb fuel flush l u data = .ok (ret, l', u')) :
    ∃ codes, l'.rets = codes ++ l.rets ∧ (ret = Z_OK → ∀ r ∈ codes, r = Z_OK) ∧
      (ret ≠ Z_OK → ∃ before, codes = ret :: before ∧ ∀ r ∈ before, r = Z_OK) :=
  readOldIn_rets recordCb (fun _ => True) (fun _ _ _ _ _ _ h => by cases h; exact ⟨rfl, trivial⟩) fuel
    flush (l.feed data) l' u u' ret trivial h

/-- A call with a defect. -/
example : (match llDecompress recordCb 10 0 (LL.create checkI 3) [] [1, 255] with
    | .ok (ret, l, log) => some (ret, l.rets, log) | .error _ => none) =
    some (-3, [-3], []) := by decide +kernel

end Zwt
