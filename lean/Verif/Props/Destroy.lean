import Verif.Proofs.Destroy
import Verif.Spec.Toy
import Verif.Props.Session

/-! C84: the end of a decompress session. -/

namespace Zwt

variable {Z : Inflater} {plain : Bytes → Bytes}

/-- C84 for low-level sessions: whatever the session has been through (flush requests that `inflate`
ignores), destroying it writes nothing to the output buffer, which may thus have been released; if the
last decompress call has returned 0, nothing is read from its input; and `inflate` is given an output
buffer only if it has been called before.
Missing: the input after a call that has returned an error; sessions never used (`C84_unused_false`). -/
theorem C84_lowlevel_partial (C : InflateOK Z plain) (hp : plain [] = []) (size room fuel : Nat)
    (ops : List LLOp) (hops : ∀ op ∈ ops, ∀ flush d, op = .decompress flush d → SoftFlush flush)
    (rets : List Int) (l : LL Z) (log : List Bytes)
    (h : llRun fuel ops (LL.created Z size room) [] = .ok (rets, l, log)) :
    ∀ x ∈ llDestroy l, x.wrote = [] ∧
      (rets = [] ∨ rets.getLast? = some Z_OK → x.availIn = 0 ∧ x.taken = []) ∧
      (l.rets ≠ [] → x.outSet = true) := by
  have h0 : Settled C (LL.created Z size room) :=
    ⟨[], [], C.init, .inr (.inr ⟨hp.symm, rfl⟩)⟩
  obtain ⟨h1, h2, h3⟩ := llRun_settled C fuel ops _ _ _ _ _ hops h0 h
  intro x hx
  refine ⟨h1.wrote _ x hx, fun hr => endCalls_read l ?_ _ x hx, fun hr => ?_⟩
  · rcases hr with hr | hr
    · rw [h3 hr]; rfl
    · exact h2 hr
  · rw [endCalls_outSet l _ x hx]
    simpa using hr

/-- C84 for archive sessions: whatever the session has been through, destroying it writes nothing to the
output buffer; if `inflate` has reported no error and the archive is of version 0 (or shorter than its
header), nothing is read from the input buffers either.
Missing: the input after errors, and for other versions (`C84_input_false`). -/
theorem C84_archive_partial (C : InflateOK Z plain) (hp : plain [] = []) (ok : AllocOracle)
    (hdr item : Bytes) (hh : hdr.length = 128) (bufSize fuel : Nat) (ops : List SOp)
    (hops : ∀ op ∈ ops, ∀ flush d, op = .decompress flush d → SoftFlush flush)
    (rets : List Int) (l : LL Z) (s : Sess)
    (h : sessRun ok fuel ops (Sess.create Z hdr item bufSize).1 (Sess.create Z hdr item bufSize).2 =
      .ok (rets, l, s)) :
    ∀ x ∈ sessDestroy l, x.wrote = [] ∧ x.outSet = true ∧
      ((∀ r ∈ l.rets, r = Z_OK) → Version0 (plain (ops.map SOp.data).flatten) →
        (∀ op ∈ ops, ∀ flush d, op = .decompress flush d → d.length < U32) →
        x.availIn = 0 ∧ x.taken = []) := by
  have hb : (Sess.create Z hdr item bufSize).1.bufSize = 128 := by
    show uInt MAIN_HEADER_SIZE = 128
    decide +kernel
  have h0 : Settled C (Sess.create Z hdr item bufSize).1 :=
    ⟨[], [], C.init, .inr (.inr ⟨hp.symm, rfl⟩)⟩
  have h1 := sessRun_settled C ok fuel ops _ _ _ _ _ hops h0 h
  intro x hx
  refine ⟨h1.wrote _ x hx, endCalls_outSet l _ x hx, fun hok hv hd => endCalls_read l ?_ _ x hx⟩
  refine sessRun_used C ok fuel ops [] _ _ _ _ _ hd hv rfl (.inl ?_) h hok
  exact ⟨rfl, rfl, rfl, hh, hb, rfl, by show _ = 128 - 0; rw [← hb]; rfl, by show 0 < 128; decide, [], C.init,
    rfl⟩

/-- A copying decompressor that, like zlib, reads ahead: with room for `n` bytes it takes `n + 1`. -/
def aheadI : Inflater where
  τ := Bytes
  init := []
  run q _ inp room :=
    if inp = [] ∧ (q = [] ∨ room = 0) then ⟨Z_BUF_ERROR, q, 0, []⟩
    else ⟨Z_OK, (q ++ inp.take (room + 1)).drop room, min (room + 1) inp.length,
      (q ++ inp.take (room + 1)).take room⟩

def aheadIOK : InflateOK aheadI id where
  Rep (q : Bytes) c p := p ++ q = c
  Dead _ := False
  mono c x := List.prefix_append _ _
  init := rfl
  alive := id
  bounds := by
    intro (st : Bytes) c e _ flush inp room
    simp only [aheadI]
    split
    · simp
    · exact ⟨Nat.min_le_right _ _, by rw [List.length_take]; exact Nat.min_le_left _ _⟩
  step := by
    intro (st : Bytes) c e h flush inp room
    simp only [aheadI]
    split
    · simpa using h
    · subst h
      rw [← List.take_eq_take_min, List.append_assoc, List.append_assoc, List.take_append_drop]
  sound := by
    intro (st : Bytes) c e h
    subst h
    exact List.prefix_append _ _
  progress := by
    intro (st : Bytes) c e _ flush inp room h
    simp only [aheadI] at h ⊢
    split
    · rename_i h0
      rw [if_pos h0] at h
      simp only [Z_BUF_ERROR, Z_OK] at h
      exact absurd h (by decide)
    · rename_i h0
      by_cases hi : inp = []
      · right
        subst hi
        simp only [true_and, not_or] at h0
        intro hc
        have := congrArg List.length hc
        simp only [List.take_nil, List.append_nil, List.length_take, List.length_nil] at this
        have : 0 < st.length := List.length_pos_iff.mpr h0.1
        omega
      · left
        have := List.length_pos_iff.mpr hi
        show 0 < min (room + 1) inp.length
        omega
  complete := by
    intro (st : Bytes) c p h flush inp room _ hret hlt
    subst h
    simp only [aheadI] at hlt hret ⊢
    split
    · rename_i h0
      rw [if_pos h0] at hret
      simp only [Z_BUF_ERROR, Z_OK] at hret
      exact absurd hret (by decide)
    · rename_i h0
      rw [if_neg h0] at hlt
      simp only [List.length_take, List.length_append] at hlt
      have h1 : inp.length ≤ room + 1 := by omega
      rw [List.take_of_length_le h1]
      refine ⟨by show min (room + 1) inp.length = inp.length; omega, ?_⟩
      rw [List.take_of_length_le (by rw [List.length_append]; omega)]
      simp
  fail := by
    intro (st : Bytes) c p h flush inp room _ hi hret
    simp only [aheadI] at hret
    rw [if_neg (by simp [hi])] at hret
    exact absurd rfl hret
  okAlive := by intros; exact id
  dead := by intro st h; exact absurd h id

/-- C84 is false for archives of another version: the call returns 0 and leaves input behind, which is
read when the session is destroyed, though the caller may have released it. -/
theorem C84_input_false :
    ¬ ∀ (Z : Inflater) (plain : Bytes → Bytes) (_ : InflateOK Z plain) (ok : AllocOracle)
      (hdr item : Bytes) (bufSize fuel : Nat) (data : Bytes) (l : LL Z) (s : Sess), plain [] = [] →
      hdr.length = 128 → item.length = 40 → 0 < uInt bufSize →
      sessRun ok fuel [.decompress Z_NO_FLUSH data] (Sess.create Z hdr item bufSize).1
        (Sess.create Z hdr item bufSize).2 = .ok ([Z_OK], l, s) →
      ∀ x ∈ sessDestroy l, x.taken = [] := by
  intro h
  let data := headerBytes 1 CT_FILE (List.replicate 120 0xEE) ++ [7, 8, 9, 10]
  have hev : (match sessRun (fun _ _ => true) 9 [.decompress Z_NO_FLUSH data]
      (Sess.create aheadI SessSample.mem SessSample.item 1).1
      (Sess.create aheadI SessSample.mem SessSample.item 1).2 with
      | .ok (rets, l, _) => decide (rets = [Z_OK] ∧ (sessDestroy l).map (·.taken) = [[8], [9]])
      | .error _ => false) = true := by
    decide +kernel
  split at hev
  · rename_i rets l s hr
    simp only [decide_eq_true_eq] at hev
    obtain ⟨rfl, h2⟩ := hev
    have h3 := h aheadI id aheadIOK _ _ _ _ _ data l s rfl (by decide +kernel) (by decide +kernel)
      (by decide +kernel) hr
    have h4 : [8] ∈ (sessDestroy l).map (·.taken) := by rw [h2]; simp
    obtain ⟨x, hx, hx2⟩ := List.mem_map.mp h4
    rw [h3 x hx] at hx2
    cases hx2
  · cases hev

/-- C84 is false for low-level sessions that have been given nothing: destroying one calls `inflate` with
uninitialised `next_out` and `avail_out`. -/
theorem C84_unused_false : ¬ ∀ (Z : Inflater) (size room : Nat),
    ∀ x ∈ llDestroy (LL.created Z size room), x.outSet = true := by
  intro h
  have := h copyI 5 0 _ (List.mem_cons_self)
  cases this

/-- Example: a low-level session given `[1, 2, 3]` and `[4]` with a buffer of 2 bytes, and an archive
session given a file archive in two pieces. -/
example : (match llRun 9 [.decompress 0 [1, 2, 3], .decompress 0 [4]] (LL.created aheadI 2 77) [] with
      | .ok (rets, l, _) => some (rets, llDestroy l) | .error _ => none) =
        some ([0, 0], [⟨true, 0, [], []⟩, ⟨true, 0, [], []⟩]) ∧
    (match sessRun (fun _ _ => true) 9
      [.decompress 0 (headerBytes 0 CT_FILE (List.replicate 120 0xEE) ++ [7, 8, 9]), .decompress 1 [10]]
      (Sess.create aheadI SessSample.mem SessSample.item 3).1
      (Sess.create aheadI SessSample.mem SessSample.item 3).2 with
      | .ok (rets, l, s) => some (rets, sessDestroy l, s.log) | .error _ => none) =
        some ([0, 0], [⟨true, 0, [], []⟩, ⟨true, 0, [], []⟩],
          [.flStart, .flRead [7, 8, 9], .flRead [10]]) := by
  decide +kernel

end Zwt
