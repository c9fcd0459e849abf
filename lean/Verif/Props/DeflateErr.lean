import Verif.Spec.Watch
import Verif.Model.Walk
import Verif.Spec.Toy
import Verif.Spec.HLSample
import Verif.Proofs.Bytes

/-! C81: errors of the compressor. -/

namespace Zwt

/-- What a compress call reports about the calls of `deflate` it has made (`codes`). -/
theorem compressLoop_codes (D : Deflater) (fuel : Nat) : ∀ (s : CS (watch D)) (inp : Bytes) (ret : Int)
    (s' : CS (watch D)), compressLoop fuel s inp = .ok (ret, s') →
    ∃ codes, s'.z.codes = s.z.codes ++ codes ∧
      ((ret = 0 ∧ Z_STREAM_ERROR ∉ codes ∧ s'.z.taken = s.z.taken + inp.length) ∨
       (ret = Z_STREAM_ERROR ∧ codes.getLast? = some Z_STREAM_ERROR)) := by
  induction fuel with
  | zero => intro s inp ret s' h; simp [compressLoop] at h
  | succ fuel ih =>
    intro s inp ret s' h
    rw [compressLoop] at h
    split at h
    · rename_i h0
      cases h
      exact ⟨[], by simp, .inl ⟨rfl, by simp, by simp [h0]⟩⟩
    · simp only at h
      split at h
      · rename_i h1
        cases h
        exact ⟨[Z_STREAM_ERROR], by simp only [watch] at h1 ⊢; rw [h1], .inr ⟨rfl, rfl⟩⟩
      · rename_i h1
        obtain ⟨codes, a1, a2⟩ := ih _ _ _ _ h
        refine ⟨((watch D).run s.z Z_PARTIAL_FLUSH inp s.bufSize).ret :: codes, ?_, ?_⟩
        · rw [a1]; simp [watch]
        · rcases a2 with ⟨b1, b2, b3⟩ | ⟨b1, b2⟩
          · left
            refine ⟨b1, ?_, ?_⟩
            · rw [List.mem_cons, not_or]; exact ⟨fun h => h1 h.symm, b2⟩
            · rw [b3]
              simp only [watch, List.length_drop]
              omega
          · right
            refine ⟨b1, ?_⟩
            cases codes with
            | nil => simp at b2
            | cons c cs => rw [List.getLast?_cons_cons]; exact b2

/-- C81 for a compress session, whatever the compressor does: a compress call returns 0 if none of
the calls of `deflate` it has made reported an error and they have taken all the data; otherwise it
returns the error of the last one.
Missing: the functions that compress a file or a directory, which ignore the result
(`C81_file_errors_false`). -/
theorem C81_session_errors_partial (D : Deflater) (fuel : Nat) (s : CS (watch D)) (data : Bytes)
    (hl : data.length < 2 ^ 32) (ret : Int) (s' : CS (watch D))
    (h : compress fuel s data = .ok (ret, s')) :
    ∃ codes, s'.z.codes = s.z.codes ++ codes ∧
      ((ret = 0 ∧ Z_STREAM_ERROR ∉ codes ∧ s'.z.taken = s.z.taken + data.length) ∨
       (ret = Z_STREAM_ERROR ∧ codes.getLast? = some Z_STREAM_ERROR)) := by
  have hu : uInt data.length = data.length := by
    unfold uInt; exact Nat.mod_eq_of_lt hl
  rw [compress, hu, List.take_length] at h
  exact compressLoop_codes D fuel s data ret s' h

theorem compressLoop_error (D : Deflater) (fuel : Nat) : ∀ (s : CS D) (inp : Bytes) (ret : Int)
    (s' : CS D), compressLoop fuel s inp = .ok (ret, s') → ret ≠ 0 →
    ∃ st inp', (D.run st Z_PARTIAL_FLUSH inp' s.bufSize).ret = Z_STREAM_ERROR := by
  induction fuel with
  | zero => intro s inp ret s' h; simp [compressLoop] at h
  | succ fuel ih =>
    intro s inp ret s' h hr
    rw [compressLoop] at h
    split at h
    · cases h; exact absurd rfl hr
    · simp only at h
      split at h
      · rename_i h1; exact ⟨_, _, h1⟩
      · have := ih _ _ _ _ h hr
        exact this

/-- C81 for the creation of a session: a session is returned only if the compressor could be set up,
has reported no error and has taken the 128 bytes of the header; none is returned only if it could
not be set up or reports an error.
Missing: the functions that compress a file or a directory (`C81_file_errors_false`). -/
theorem C81_creation_errors_partial (D : Deflater) (fuel : Nat) (kind : Nat) (level : Int) (size : Nat)
    (junk : Bytes) (hj : junk.length = 120) (os : Option (CS (watch D)))
    (h : CS.create (watch D) fuel kind level size junk = .ok os) :
    (∀ s, os = some s → Z_STREAM_ERROR ∉ s.z.codes ∧ s.z.taken = 128) ∧
    (os = none → D.init level = none ∨
      ∃ st inp, (D.run st Z_PARTIAL_FLUSH inp (uInt size)).ret = Z_STREAM_ERROR) := by
  have hlen : (headerBytes VERSION kind junk).length = 128 := by
    simp [headerBytes, leEnc_length, hj]
  simp only [CS.create, watch] at h
  cases hi : D.init level with
  | none =>
    rw [hi] at h
    simp only [Option.map_none] at h
    cases h
    exact ⟨by simp, fun _ => .inl rfl⟩
  | some z =>
    rw [hi] at h
    simp only [Option.map_some] at h
    split at h
    · cases h
    · rename_i ret s hc
      have hc' : compress (D := watch D) fuel ⟨⟨z, [], 0⟩, uInt size, []⟩ (headerBytes VERSION kind junk) =
        .ok (ret, s) := hc
      split at h
      · rename_i hr
        cases h
        refine ⟨by simp, fun _ => .inr ?_⟩
        obtain ⟨st, inp, h1⟩ := compressLoop_error (watch D) fuel _ _ _ _ hc' hr
        exact ⟨st.st, inp, h1⟩
      · rename_i hr
        cases h
        refine ⟨?_, by simp⟩
        intro s2 hs2
        cases hs2
        obtain ⟨codes, a1, a2⟩ := C81_session_errors_partial D fuel _ _ (by rw [hlen]; decide) _ _ hc'
        rcases a2 with ⟨_, b2, b3⟩ | ⟨b1, _⟩
        · exact ⟨by rw [a1]; simpa using b2, by rw [b3, hlen]⟩
        · exact absurd b1 (by simp only [Decidable.not_not] at hr; rw [hr]; decide)

/-- A compressor that copies `n` bytes and then reports an error. -/
def faulty (n : Nat) : Deflater where
  τ := Nat
  init _ := some n
  run k _ inp room :=
    if room = 0 then ⟨Z_BUF_ERROR, k, 0, []⟩
    else if k = 0 then ⟨Z_STREAM_ERROR, k, 0, []⟩
    else
      let m := min (min k room) inp.length
      ⟨Z_OK, k - m, m, inp.take m⟩

/-- Example: the compressor fails after 130 bytes; the session is created, the call for 3 bytes
returns the error; the compressor has taken two of them. -/
example : (match CS.create (watch (faulty 130)) 200 CT_FILE 6 64 (List.replicate 120 0) with
    | .ok (some s) => s.z.codes == [Z_OK, Z_OK] &&
      (match compress 200 s [1, 2, 3] with
       | .ok (r, s') => r == Z_STREAM_ERROR && s'.z.codes == [Z_OK, Z_OK, Z_OK, Z_STREAM_ERROR] &&
           s'.z.taken == 130
       | _ => false)
    | _ => false) = true := by decide +kernel

/-- Example: the compressor fails at once, and there is no session. -/
example : (match CS.create (watch (faulty 100)) 200 CT_FILE 6 64 (List.replicate 120 0) with
    | .ok none => true
    | _ => false) = true := by decide +kernel

/-- C81 is false for the functions that compress a file or a directory: they return 0 although
compress calls they made returned an error.  (A file of three bytes, a compressor that fails after
the header.) -/
theorem C81_file_errors_false :
    ¬ ∀ (D : Deflater) (fuel : Nat) (data : Bytes) (level : Int) (junk : Bytes) (log : List Bytes)
      (s s' : CS D) (rets : List Int), junk.length = 120 →
      CS.create D fuel CT_FILE level DEF_CHUNK_SIZE junk = .ok (some s) →
      compressRun fuel ((readFile data false).1.map .compress) s = .ok (rets, s') →
      compressFile D fuel data false level junk = .ok (0, log) → ∀ r ∈ rets, r = 0 := by
  intro h
  have key : (match CS.create (faulty 128) 5 CT_FILE 6 DEF_CHUNK_SIZE (List.replicate 120 0) with
      | .ok (some s) =>
        (match compressRun 5 ((readFile [1, 2, 3] false).1.map .compress) s with
         | .ok (rets, _) => rets == [Z_STREAM_ERROR]
         | _ => false)
      | _ => false) = true ∧
      (match compressFile (faulty 128) 5 [1, 2, 3] false 6 (List.replicate 120 0) with
       | .ok (r, _) => r == 0
       | _ => false) = true := by decide +kernel
  obtain ⟨k1, k2⟩ := key
  split at k1
  · rename_i s hs
    split at k1
    · rename_i rets s' hr
      split at k2
      · rename_i r log hf
        have hr0 : r = 0 := by simpa using k2
        subst hr0
        have hre : rets = [Z_STREAM_ERROR] := by simpa using k1
        have := h (faulty 128) 5 [1, 2, 3] 6 (List.replicate 120 0) log s s' rets
          (by decide +kernel) hs hr hf Z_STREAM_ERROR (by rw [hre]; simp)
        exact absurd this (by decide)
      · cases k2
    · cases k1
  · cases k1

end Zwt
