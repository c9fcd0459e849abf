import Verif.Proofs.Accept
import Verif.Props.Compress
import Verif.Props.Format
import Verif.Spec.HLSample

/-! C59, C60: from a compress session to a decompress session. -/

namespace Zwt

variable {D : Deflater} {Z : Inflater} {plain : Bytes → Bytes}

/-- C59.  What a compress session has handed over so far, of any kind, is accepted by a decompress
session: let any part of it from the beginning be supplied, in any splits, with any exchanges of
output buffers.  Then every call returns 0, and so did every call of `inflate`. -/
theorem C59_accepts_own_output (CD : DeflateOK D plain) (hT : CD.Fits) (C : InflateOK Z plain)
    (hF : C.Final) (kind : Nat) (hk : kind < 2^32) (level : Int) (z : D.τ)
    (hz : D.init level = some z) (B bufSize : Nat) (hb : 0 < uInt bufSize) (hB : uInt bufSize ≤ B)
    (junk : Bytes) (hj : junk.length = 120) (cops : List COp) (hcops : ∀ op ∈ cops, op.sane B) :
    ∃ s0 s crets n0, (∀ fuel, n0 ≤ fuel →
        CS.create D fuel kind level bufSize junk = .ok (some s0) ∧
        compressRun fuel cops s0 = .ok (crets, s)) ∧
      ∀ (ok : AllocOracle) (hdr item : Bytes), hdr.length = 128 → item.length = 40 →
      ∀ (E dBuf : Nat), 0 < uInt dBuf → uInt dBuf ≤ E → ∀ ops : List SOp, (∀ op ∈ ops, op.sane E) →
      (ops.map SOp.data).flatten <+: s.log.flatten →
      ∃ n1 rets l t, (∀ fuel, n1 ≤ fuel → sessRun ok fuel ops (Sess.create Z hdr item dBuf).1
          (Sess.create Z hdr item dBuf).2 = .ok (rets, l, t)) ∧
        (∀ r ∈ rets, r = 0) ∧ ∀ r ∈ l.rets, r = Z_OK := by
  obtain ⟨s0, n1, h1, h2, h3, _, _⟩ := CS.create_good CD kind level z hz bufSize hb junk hj
  obtain ⟨s, new, n2, crets, g1, _, g3, _, _, _, _⟩ :=
    compressRun_good CD B cops hcops s0 _ h2 (by omega) (by omega)
  refine ⟨s0, s, crets, max n1 n2, fun f hf => ⟨h1 f (by omega), g1 f (by omega)⟩, ?_⟩
  intro ok hdr item hh hi E dBuf hd1 hd2 ops hops ⟨rest, hrest⟩
  have hO : Open plain ([] ++ (ops.map SOp.data).flatten) := by
    have := CD.isOpen hT g3
    rw [← hrest] at this
    exact this.left C
  obtain ⟨e1, e2, _⟩ := C02_header_roundtrip 0 kind junk hj (by decide) hk
  have e1' : (headerBytes 0 kind junk).length = 128 := e1
  obtain ⟨n3, rets, l, t, _, k2, k3, k4⟩ := sessRun_accepts C hF ok item hi E ops hops _ _ []
    (SInv.create C ok hdr item hh E dBuf ⟨hd1, hd2⟩) hO (by
      intro h hl hp
      have hs := CD.sound g3
      rw [← hrest] at hs
      have hp' : h <+: headerBytes 0 kind junk ++ (cops.map COp.taken).flatten :=
        (hp.trans (C.mono _ _)).trans hs
      obtain ⟨u, hu⟩ := hp'
      have := congrArg (List.take 128) hu
      rw [List.take_left' hl, List.take_left' e1'] at this
      rw [this]; exact e2) (by
      intro r hr; simp [Sess.create, LL.create, LL.setBuffer, LL.setup] at hr)
  exact ⟨n3, rets, l, t, k4, k2, k3⟩

/-- C60, what holds: let a file or blob be compressed through a session in any calls (the last one,
with data, shown), and let what was handed over be decompressed in any calls.  Then all calls of
both sessions return 0; the file callbacks deliver, in order, the first bytes of the data; when
everything has been supplied, the last compress callback got less than a full buffer, and the last
`inflate` left room in the output buffer, they deliver all of it.
Missing: the case of full buffers, see `C08_closing_loses_nothing_false` and
`C11_nothing_withheld_false`. -/
theorem C60_streaming_round_trip_partial (CD : DeflateOK D plain) (hT : CD.Fits)
    (C : InflateOK Z plain) (hF : C.Final) (kind : Nat) (hk : kind = CT_FILE ∨ kind = CT_BLOB)
    (level : Int) (z : D.τ) (hz : D.init level = some z) (B bufSize : Nat) (hb : 0 < uInt bufSize)
    (hB : uInt bufSize ≤ B) (junk : Bytes) (hj : junk.length = 120) (cops : List COp)
    (hcops : ∀ op ∈ cops, op.sane B) (hsmall : ∀ op ∈ cops, op.small) (data : Bytes)
    (hd : data ≠ []) (hdl : data.length < U32) :
    ∃ s0 s crets n0 lastPiece, (∀ fuel, n0 ≤ fuel →
        CS.create D fuel kind level bufSize junk = .ok (some s0) ∧
        compressRun fuel (cops ++ [.compress data]) s0 = .ok (crets, s)) ∧
      (∀ r ∈ crets, r = 0) ∧ s.log.getLast? = some lastPiece ∧
      ∀ (ok : AllocOracle) (hdr item : Bytes), hdr.length = 128 → item.length = 40 →
      ∀ (E dBuf : Nat), 0 < uInt dBuf → uInt dBuf ≤ E → ∀ ops : List SOp, (∀ op ∈ ops, op.sane E) →
      ∀ rest, (ops.map SOp.data).flatten ++ rest = s.log.flatten →
      ∃ n1 rets l t chunks, (∀ fuel, n1 ≤ fuel → sessRun ok fuel ops (Sess.create Z hdr item dBuf).1
          (Sess.create Z hdr item dBuf).2 = .ok (rets, l, t)) ∧
        (∀ r ∈ rets, r = 0) ∧
        t.log = (if chunks = [] then [] else .flStart :: chunks.map .flRead) ∧
        (∀ b ∈ chunks, b.length ≤ E) ∧
        chunks.flatten <+: (cops.map COp.data).flatten ++ data ∧
        (rest = [] → lastPiece.length < s.bufSize → 0 < l.availOut ∨ C.Prompt s.log.flatten →
          chunks.flatten = (cops.map COp.data).flatten ++ data) := by
  obtain ⟨s0, n1, h1, h2, h3, _, _⟩ := CS.create_good CD kind level z hz bufSize hb junk hj
  obtain ⟨s1, new, n2, crets, g1, g2, g3, g4, g5, _, _⟩ :=
    compressRun_good CD B cops hcops s0 _ h2 (by omega) (by omega)
  rw [taken_eq cops hsmall] at g3
  obtain ⟨s, new', n3, k1, k2, k3, k4, k5, k6⟩ := compress_good CD s1 _ data g3 g4
  rw [take_uInt hdl, List.append_assoc] at k2 k6
  obtain ⟨lp, lp1, lp2⟩ := k6 hd
  refine ⟨s0, s, crets ++ [0], max n1 (max n2 n3), lp, ?_, ?_, ?_, ?_⟩
  · intro f hf
    refine ⟨h1 f (by omega), ?_⟩
    simp [compressRun_append, g1 f (by omega), compressRun, k1 f (by omega)]
  · intro r hr
    rcases List.mem_append.mp hr with h | h
    · exact g2 r h
    · simpa using h
  · rw [k4, getLast?_append_ne (by intro h; simp [h] at lp1)]; exact lp1
  intro ok hdr item hh hi E dBuf hd1 hd2 ops hops rest hrest
  have hkb : kind < 2^32 := by rcases hk with rfl | rfl <;> decide
  obtain ⟨e1, e2, e3⟩ := C02_header_roundtrip 0 kind junk hj (by decide) hkb
  have e1' : (headerBytes 0 kind junk).length = 128 := e1
  have hO : Open plain ([] ++ (ops.map SOp.data).flatten) := by
    have := CD.isOpen hT k2
    rw [← hrest] at this
    exact this.left C
  have hs : plain s.log.flatten <+:
      headerBytes 0 kind junk ++ ((cops.map COp.data).flatten ++ data) := CD.sound k2
  rw [← hrest] at hs
  have htake : ∀ h : Bytes, h.length = 128 → h <+: plain (ops.map SOp.data).flatten →
      h = headerBytes 0 kind junk := by
    intro h hl hp
    obtain ⟨u, hu⟩ := (hp.trans (C.mono _ rest)).trans hs
    have := congrArg (List.take 128) hu
    rwa [List.take_left' hl, List.take_left' e1'] at this
  obtain ⟨n4, rets, l, t, q1, q2, q3, q4⟩ := sessRun_accepts C hF ok item hi E ops hops _ _ []
    (SInv.create C ok hdr item hh E dBuf ⟨hd1, hd2⟩) hO
    (by intro h hl hp; rw [htake h hl hp]; exact e2)
    (by intro r hr; simp [Sess.create, LL.create, LL.setBuffer, LL.setup] at hr)
  rw [List.nil_append] at q1
  obtain ⟨P, p1, p2, p3⟩ := q1.archive hi
  have hP128 : 128 ≤ P.length → P.take 128 = headerBytes 0 kind junk := by
    intro h
    exact htake _ (by rw [List.length_take]; omega) ((List.take_prefix _ _).trans p1)
  have hPpre := (p1.trans (C.mono _ rest)).trans hs
  have hfull : rest = [] → lp.length < s.bufSize → 0 < l.availOut ∨ C.Prompt s.log.flatten →
      P = headerBytes 0 kind junk ++ ((cops.map COp.data).flatten ++ data) := by
    intro r1 r2 r3
    rw [r1, List.append_nil] at hrest
    rw [k3] at r2
    have hpl : plain s.log.flatten =
      headerBytes 0 kind junk ++ ((cops.map COp.data).flatten ++ data) := lp2 r2
    rw [← hrest] at hpl
    have hne : (ops.map SOp.data).flatten ≠ [] := by
      intro h0
      rw [h0, CD.plain_nil hz] at hpl
      have := congrArg List.length hpl
      rw [List.length_append, e1', List.length_nil] at this
      omega
    rw [← hrest] at r3
    rcases p3 q3 r3 (.inl hne) with h | ⟨h, h'⟩
    · rw [h, hpl]
    · rw [hP128 h] at h'; exact absurd e2 h'
  generalize hlog : t.log = log at p2
  generalize t.pieces = pcs at p2
  have hnone : log = [] → P.length ≤ 128 → ∃ n1 rets l t chunks, (∀ fuel, n1 ≤ fuel →
        sessRun ok fuel ops (Sess.create Z hdr item dBuf).1
          (Sess.create Z hdr item dBuf).2 = .ok (rets, l, t)) ∧
        (∀ r ∈ rets, r = 0) ∧
        t.log = (if chunks = [] then [] else .flStart :: chunks.map .flRead) ∧
        (∀ b ∈ chunks, b.length ≤ E) ∧
        chunks.flatten <+: (cops.map COp.data).flatten ++ data ∧
        (rest = [] → lp.length < s.bufSize → 0 < l.availOut ∨ C.Prompt s.log.flatten →
          chunks.flatten = (cops.map COp.data).flatten ++ data) := by
    intro hl hle
    refine ⟨n4, rets, l, t, [], q4, q2, by simp [hlog, hl], by simp, List.nil_prefix, ?_⟩
    intro r1 r2 r3
    have := congrArg List.length (hfull r1 r2 r3)
    have hdp : 0 < data.length := List.length_pos_iff.mpr hd
    rw [List.length_append, e1', List.length_append] at this
    omega
  have hne : ∀ x, hdrKind (headerBytes 0 kind junk) = x → kind = x := by
    intro x hx; rw [← hx, e3]
  cases p2 with
  | short a => exact hnone rfl (by omega)
  | version a b => rw [hP128 a] at b; exact absurd e2 b
  | empty a => exact hnone rfl (by omega)
  | unknown a b c d e =>
    rw [hP128 a, e3] at d e
    rcases hk with hk | hk
    · exact absurd hk d
    · exact absurd hk e
  | @file h _ a b c d e =>
    have hh' : h = headerBytes 0 kind junk :=
      htake h a ((List.prefix_append _ _).trans p1)
    refine ⟨n4, rets, l, t, pcs, q4, q2, by rw [hlog, if_neg d], e, ?_, ?_⟩
    · rw [hh'] at hPpre
      exact (List.prefix_append_right_inj _).mp hPpre
    · intro r1 r2 r3
      have := hfull r1 r2 r3
      rw [hh'] at this
      exact List.append_cancel_left this
  | @dir h _ evs owed a b c =>
    have hh' : h = headerBytes 0 kind junk :=
      htake h a ((List.prefix_append _ _).trans p1)
    rw [hh', e3] at c
    rcases hk with hk | hk <;> rw [hk] at c <;> exact absurd c (by decide)

theorem queueDOK_fits : queueDOK.Fits := by
  intro (st : Bytes) c e _ b
  refine ⟨st.length + 2, ?_⟩
  simp only [queueD, if_neg (by omega : ¬ st.length + 2 = 0), List.length_take, List.length_append,
    List.length_cons, List.length_nil]
  omega

theorem copyIOK_final : copyIOK.Final := fun _ _ _ _ h => absurd h (by simp [copyIOK])

theorem queueIOK_final : queueIOK.Final := fun _ _ _ _ h => absurd h (by simp [queueIOK])

/-- A defective stream cannot be continued. -/
theorem checkIOK_final : checkIOK.Final := by
  intro st c p hr hd ⟨x, hx⟩
  have hd' : st.2 = true := hd
  simp only [checkIOK, hd', if_true] at hr
  exact hx (takeWhile_append_stop hr.2)

/-- C60 is false without the condition on full buffers: the compress session has a buffer of 4 bytes
(and the codec emits what fits), all calls return 0, and none of the data arrives. -/
theorem C60_streaming_round_trip_false :
    ¬ ∀ (D : Deflater) (Z : Inflater) (plain : Bytes → Bytes) (CD : DeflateOK D plain)
      (C : InflateOK Z plain), CD.Fits → C.Final →
      ∀ (fuel bufSize dBuf : Nat) (junk data hdr item : Bytes) (s0 s : CS D) (crets rets : List Int)
        (l : LL Z) (t : Sess), junk.length = 120 → hdr.length = 128 → item.length = 40 →
      0 < uInt bufSize → 0 < uInt dBuf →
      CS.create D fuel CT_FILE 6 bufSize junk = .ok (some s0) →
      compressRun fuel [.compress data] s0 = .ok (crets, s) →
      sessRun (fun _ _ => true) fuel [.decompress 0 s.log.flatten] (Sess.create Z hdr item dBuf).1
        (Sess.create Z hdr item dBuf).2 = .ok (rets, l, t) →
      0 < l.availOut → (∀ r ∈ crets, r = 0) → (∀ r ∈ rets, r = 0) →
      ∃ chunks, t.log = (if chunks = [] then [] else .flStart :: chunks.map .flRead) ∧
        chunks.flatten = data := by
  intro h
  have key : (match CS.create queueD 20 CT_FILE 6 4 (List.replicate 120 0xEE) with
      | .ok (some s0) => (match compressRun 20 [.compress [1, 2, 3]] s0 with
        | .ok (crets, s) => decide (crets = [0]) &&
          (match sessRun (fun _ _ => true) 20 [.decompress 0 s.log.flatten]
            (Sess.create copyI (List.replicate 128 0) (List.replicate 40 0) 100).1
            (Sess.create copyI (List.replicate 128 0) (List.replicate 40 0) 100).2 with
          | .ok (rets, l, t) => decide (rets = [0] ∧ 0 < l.availOut ∧ t.log = [])
          | .error _ => false)
        | .error _ => false)
      | _ => false) = true := by decide +kernel
  have hc : ∃ s0, CS.create queueD 20 CT_FILE 6 4 (List.replicate 120 0xEE) = .ok (some s0) ∧
      ∃ s, compressRun 20 [.compress [1, 2, 3]] s0 = .ok ([0], s) ∧
      ∃ l t, sessRun (fun _ _ => true) 20 [.decompress 0 s.log.flatten]
        (Sess.create copyI (List.replicate 128 0) (List.replicate 40 0) 100).1
        (Sess.create copyI (List.replicate 128 0) (List.replicate 40 0) 100).2 = .ok ([0], l, t) ∧
        0 < l.availOut ∧ t.log = [] := by
    split at key
    · rename_i s0 e0
      split at key
      · rename_i crets s e1
        simp only [Bool.and_eq_true, decide_eq_true_eq] at key
        obtain ⟨rfl, key⟩ := key
        split at key
        · rename_i rets l t e2
          simp only [decide_eq_true_eq] at key
          obtain ⟨rfl, k1, k2⟩ := key
          exact ⟨s0, e0, s, e1, l, t, e2, k1, k2⟩
        · simp at key
      · simp at key
    · simp at key
  obtain ⟨s0, h1, s, h2, l, t, h3, h4, h5⟩ := hc
  obtain ⟨chunks, c1, c2⟩ := h queueD copyI id queueDOK copyIOK queueDOK_fits copyIOK_final 20 4 100 _
    [1, 2, 3] _ _ s0 s [0] [0] l t List.length_replicate List.length_replicate List.length_replicate
    (by decide +kernel) (by decide +kernel) h1 h2 h3 h4 (by simp) (by simp)
  rw [h5] at c1
  split at c1
  · rename_i h0; rw [h0] at c2; simp at c2
  · simp at c1

/-- Example: the copying codecs meet the hypotheses of C59 and C60; the session of `demoOps`. -/
example : queueDOK.Fits ∧ queueIOK.Final ∧ copyIOK.Final ∧ queueD.init 6 = some [] ∧
    0 < uInt 100 ∧ uInt 100 ≤ 100 ∧ (∀ op ∈ demoOps, op.sane 100) ∧ (∀ op ∈ demoOps, op.small) :=
  ⟨queueDOK_fits, queueIOK_final, copyIOK_final, rfl, by decide +kernel, by decide +kernel,
    demoOps_sane, demoOps_small⟩

example := C59_accepts_own_output queueDOK queueDOK_fits copyIOK copyIOK_final CT_FILE (by decide) 6 [] rfl
  100 100 (by decide +kernel) (by decide +kernel) (List.replicate 120 7) List.length_replicate demoOps
  demoOps_sane

example := C60_streaming_round_trip_partial queueDOK queueDOK_fits copyIOK copyIOK_final CT_FILE (.inl rfl) 6
  [] rfl 100 100 (by decide +kernel) (by decide +kernel) (List.replicate 120 7) List.length_replicate demoOps
  demoOps_sane demoOps_small [1, 2] (by decide) (by decide)

end Zwt
