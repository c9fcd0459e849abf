import Verif.Proofs.WalkArchive
import Verif.Spec.Toy

/-! C69: read errors while a single file is compressed. -/

namespace Zwt

section

variable {D : Deflater} {plain : Bytes → Bytes}

/-- The read loop passes on whole chunks, and all of the file if nothing goes wrong. -/
theorem readFile_prefix (data : Bytes) (err : Bool) :
    (readFile data err).1.flatten <+: data ∧
      data.length < (readFile data err).1.flatten.length + 524288 := by
  induction hn : data.length using Nat.strongRecOn generalizing data with
  | _ n ih =>
    subst hn
    rw [readFile]
    by_cases h : data.length < DEF_CHUNK_SIZE
    · rw [if_pos h]
      cases err <;> simp
      simp only [DEF_CHUNK_SIZE] at h; omega
    · rw [if_neg h]
      obtain ⟨⟨t, h1⟩, h2⟩ := ih (data.drop DEF_CHUNK_SIZE).length
        (by simp only [List.length_drop, DEF_CHUNK_SIZE] at *; omega) _ rfl
      refine ⟨⟨t, ?_⟩, ?_⟩
      · simp only [List.flatten_cons, List.append_assoc, h1, List.take_append_drop]
      · simp only [List.flatten_cons, List.length_append, List.length_take, List.length_drop,
          DEF_CHUNK_SIZE] at *
        omega

/-- C69: when a single file is compressed, the error of the file is what is reported: the result is 0
exactly if all of the file could be read.  Whatever happens, the bytes passed to the callback decode
to a part of 'file' header and content; they decode to header and some first part of the content,
less than 512 KiB short of what could be read (and nothing short if 0 is reported), unless the last
piece of output fills the buffer of 512 KiB (see C08). -/
theorem C69_read_errors_reported (C : DeflateOK D plain) (content : Bytes) (err : Bool) (level : Int)
    (z : D.τ) (hz : D.init level = some z) (junk : Bytes) (hj : junk.length = 120) :
    ∃ n0 ret log b part, (∀ fuel, n0 ≤ fuel →
        compressFile D fuel content err level junk = .ok (ret, log)) ∧
      (ret = 0 ↔ err = false) ∧
      part <+: content ∧ content.length < part.length + 524288 ∧ (err = false → part = content) ∧
      plain log.flatten <+: headerBytes 0 2 junk ++ part ∧
      log.getLast? = some b ∧
      (b.length < 524288 → plain log.flatten = headerBytes 0 2 junk ++ part) := by
  obtain ⟨f1, f2, f3⟩ := readFile_ok content err
  obtain ⟨g1, g2⟩ := readFile_prefix content err
  obtain ⟨s0, s, n1, rets, c1, _, c2, b, c3, c4⟩ := session_writes_good C CT_FILE level z hz junk hj
    (readFile content err).1 f3
  refine ⟨n1, if err then 1 else 0, s.log, b, _, ?_, ?_, g1, g2, f2, c2, c3, c4⟩
  · intro fuel hf
    simp only [compressFile, (c1 fuel hf).1, (c1 fuel hf).2, f1]
  · cases err <;> simp

end

/-- Example: three bytes can be read, then the device fails: 1, and a header without content. -/
example : queueD.init 6 ≠ none ∧ (match compressFile queueD 5 [7, 8, 9] true 6 (List.replicate 120 1) with
    | .ok (ret, log) => decide (ret = 1 ∧ log.flatten = headerBytes 0 2 (List.replicate 120 1))
    | .error _ => false) = true := by
  have h : readFile [7, 8, 9] true = ([], true) := by rw [readFile]; simp [DEF_CHUNK_SIZE]
  simp only [compressFile, h]
  decide +kernel

/-- Example: no error: 0 and all of the file. -/
example : (match compressFile queueD 9 [7, 8, 9] false 6 (List.replicate 120 1) with
    | .ok (ret, log) =>
      decide (ret = 0 ∧ log.flatten = headerBytes 0 2 (List.replicate 120 1) ++ [7, 8, 9])
    | .error _ => false) = true := by
  have h : readFile [7, 8, 9] false = ([[7, 8, 9]], false) := by rw [readFile]; simp [DEF_CHUNK_SIZE]
  simp only [compressFile, h]
  decide +kernel

end Zwt
