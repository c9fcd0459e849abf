import Verif.Spec.End
import Verif.Proofs.LLDecompress
import Verif.Spec.HLSample
import Verif.Props.Accept
import Verif.Props.LLDecompress

/-! C98: compressed streams that are finished (`Z_FINISH`), as other programs make them; C99: the
streams of this library, for other programs. -/

namespace Zwt

variable {D : Deflater} {Z : Inflater} {plain : Bytes → Bytes}

/-! ### One call on a stream that is not dead -/

/-- A call that returns 0 has used all its input and passed on all that `inflate` produced. -/
theorem readOldIn_all (C : InflateOK Z plain) (fuel : Nat) : ∀ (flush : Int) (l l' : LL Z)
    (u u' : List Bytes) (c : Bytes), C.Rep l.z c u.flatten → ¬ C.Dead l.z →
    readOldIn recordCb fuel flush l u = .ok (Z_OK, l', u') →
    C.Rep l'.z (c ++ l.inp) u'.flatten ∧ ¬ C.Dead l'.z ∧ l'.bufSize = l.bufSize := by
  induction fuel with
  | zero => intro flush l l' u u' c _ _ h; simp [readOldIn] at h
  | succ fuel ih =>
    intro flush l l' u u' c hr hd h
    rw [readOldIn] at h
    by_cases hi : l.inp = []
    · rw [if_pos hi] at h
      cases h
      rw [hi, List.append_nil]; exact ⟨hr, hd, rfl⟩
    · rw [if_neg hi] at h
      have h1 : l.setup.inflate flush = ((Z.run l.z flush l.inp l.bufSize).ret,
        l.setup.after (Z.run l.z flush l.inp l.bufSize)) := rfl
      rw [h1] at h
      dsimp only at h
      by_cases hret : (Z.run l.z flush l.inp l.bufSize).ret = Z_OK
      · rw [if_neg (fun hh => hh hret)] at h
        have hst := C.step hr flush l.inp l.bufSize
        have hbd := C.bounds hr flush l.inp l.bufSize
        simp only [LL.handed] at h
        split at h
        · cases h
        · rename_i buf hb
          split at hb
          · cases hb
            simp only [recordCb] at h
            have hflat : (u ++ [(l.setup.after (Z.run l.z flush l.inp
                l.bufSize)).acc]).flatten = u.flatten ++ (Z.run l.z flush l.inp l.bufSize).out := by
              simp [LL.after, LL.setup]
            have := ih Z_NO_FLUSH _ l' _ u' (c ++ l.inp.take (Z.run l.z flush l.inp l.bufSize).consumed)
              (by rw [hflat]; exact hst) (C.okAlive hr flush l.inp l.bufSize hret) h
            simp only [LL.after, LL.setup] at this
            rwa [List.append_assoc, List.take_append_drop] at this
          · cases hb
      · rw [if_pos hret] at h
        have := congrArg (fun x => x.1) (Except.ok.inj h)
        exact absurd this hret

/-- A call that returns `Z_STREAM_END` has passed on everything but what is in the output buffer. -/
theorem readOldIn_end (C : InflateOK Z plain) (hE : C.Ends) (fuel : Nat) : ∀ (flush : Int)
    (l l' : LL Z) (u u' : List Bytes) (c : Bytes), C.Rep l.z c u.flatten → ¬ C.Dead l.z →
    readOldIn recordCb fuel flush l u = .ok (Z_STREAM_END, l', u') →
    (∀ x, u'.flatten ++ l'.acc = plain (c ++ l.inp ++ x)) ∧ l'.acc.length ≤ l'.bufSize := by
  induction fuel with
  | zero => intro flush l l' u u' c _ _ h; simp [readOldIn] at h
  | succ fuel ih =>
    intro flush l l' u u' c hr hd h
    rw [readOldIn] at h
    by_cases hi : l.inp = []
    · rw [if_pos hi] at h
      have := congrArg (fun x => x.1) (Except.ok.inj h)
      simp [Z_STREAM_END] at this
    · rw [if_neg hi] at h
      have h1 : l.setup.inflate flush = ((Z.run l.z flush l.inp l.bufSize).ret,
        l.setup.after (Z.run l.z flush l.inp l.bufSize)) := rfl
      rw [h1] at h
      dsimp only at h
      have hst := C.step hr flush l.inp l.bufSize
      have hbd := C.bounds hr flush l.inp l.bufSize
      by_cases hret : (Z.run l.z flush l.inp l.bufSize).ret = Z_OK
      · rw [if_neg (fun hh => hh hret)] at h
        simp only [LL.handed] at h
        split at h
        · cases h
        · rename_i buf hb
          split at hb
          · cases hb
            simp only [recordCb] at h
            have hflat : (u ++ [(l.setup.after (Z.run l.z flush l.inp
                l.bufSize)).acc]).flatten = u.flatten ++ (Z.run l.z flush l.inp l.bufSize).out := by
              simp [LL.after, LL.setup]
            have := ih Z_NO_FLUSH _ l' _ u' (c ++ l.inp.take (Z.run l.z flush l.inp l.bufSize).consumed)
              (by rw [hflat]; exact hst) (C.okAlive hr flush l.inp l.bufSize hret) h
            simp only [LL.after, LL.setup] at this
            rwa [List.append_assoc c, List.take_append_drop] at this
          · cases hb
      · rw [if_pos hret] at h
        simp only [Except.ok.injEq, Prod.mk.injEq] at h
        obtain ⟨h1, rfl, rfl⟩ := h
        refine ⟨fun x => ?_, ?_⟩
        · have := hE l.z c u.flatten flush l.inp l.bufSize hr hd h1 x
          simpa [LL.after, LL.setup] using this
        · simpa [LL.after, LL.setup] using hbd.2

theorem llRun_alive (C : InflateOK Z plain) (fuel : Nat) (ops : List LLOp) : ∀ (l l' : LL Z)
    (u u' : List Bytes) (c : Bytes) (rets : List Int), C.Rep l.z c u.flatten → ¬ C.Dead l.z →
    (∀ op ∈ ops, op.data.length < U32) → llRun fuel ops l u = .ok (rets, l', u') →
    (∀ r ∈ rets, r = Z_OK) →
    C.Rep l'.z (c ++ (ops.map LLOp.data).flatten) u'.flatten ∧ ¬ C.Dead l'.z := by
  induction ops with
  | nil =>
    intro l l' u u' c rets hr hd _ h _
    cases h
    simpa using ⟨hr, hd⟩
  | cons op ops ih =>
    intro l l' u u' c rets hr hd hs h hret
    have hs' := fun o ho => hs o (List.mem_cons_of_mem _ ho)
    cases op with
    | setBuffer size =>
      rw [llRun] at h
      have := ih (l.setBuffer size) l' u u' c rets hr hd hs' h hret
      simpa [LLOp.data] using this
    | decompress flush d =>
      rw [llRun] at h
      split at h
      · cases h
      · rename_i ret l1 u1 h1
        split at h
        · cases h
        · rename_i rets' l2 u2 h2
          cases h
          have hd1 : ret = Z_OK := hret ret List.mem_cons_self
          subst hd1
          have hlen : d.length < U32 := hs _ List.mem_cons_self
          obtain ⟨k1, k2, _⟩ := readOldIn_all C fuel flush (l.feed d) l1 u u1 c hr hd h1
          rw [show (l.feed d).inp = d from take_uInt hlen] at k1
          have := ih l1 l' u1 u' (c ++ d) rets' k1 k2 hs' h2 (fun r hr => hret r (List.mem_cons_of_mem _ hr))
          simpa [LLOp.data] using this

/-- C98, what holds: when a low-level decompress call returns `Z_STREAM_END`, after calls that
returned 0, the plaintext is what the callback got followed by what is in the output buffer, at most
the size of the buffer; what follows the end of the stream in the input makes no difference.
Missing: the part in the output buffer is not passed to the callback (`C98_finished_false`). -/
theorem C98_finished_partial (C : InflateOK Z plain) (hE : C.Ends) (fuel size : Nat)
    (ops : List LLOp) (hs : ∀ op ∈ ops, op.data.length < U32) (flush : Int) (d : Bytes)
    (hd : d.length < U32) (rets : List Int) (hrets : ∀ r ∈ rets, r = Z_OK) (l : LL Z)
    (log : List Bytes)
    (h : llRun fuel (ops ++ [.decompress flush d]) (LL.create Z size) [] =
      .ok (rets ++ [Z_STREAM_END], l, log)) :
    (∀ x, log.flatten ++ l.acc = plain ((ops.map LLOp.data).flatten ++ d ++ x)) ∧
      l.acc.length ≤ l.bufSize := by
  rw [llRun_append] at h
  split at h
  · cases h
  · rename_i r1 l1 u1 h1
    rw [llRun] at h
    split at h
    · cases h
    · rename_i r2 l2 u2 h2
      split at h2
      · cases h2
      · rename_i ret l3 u3 h3
        rw [llRun] at h2
        cases h2
        simp only [Except.ok.injEq, Prod.mk.injEq] at h
        obtain ⟨e1, rfl, rfl⟩ := h
        obtain ⟨rfl, e2⟩ := List.append_inj' e1 rfl
        cases e2
        obtain ⟨k1, k2⟩ := llRun_alive C fuel ops (LL.create Z size) l1 [] u1 [] r1 C.init C.alive hs
          h1 hrets
        have := readOldIn_end C hE fuel flush (l1.feed d) l2 u1 u2 _ k1 k2 h3
        rw [show (l1.feed d).inp = d from take_uInt hd] at this
        exact ⟨by simpa using this.1, this.2⟩

/-- The last call gets the end of the stream and a byte after it; 3 is in the buffer. -/
example : (match llRun 10 [.decompress 0 [1, 2], .decompress 0 [3, 255, 9]] (LL.create endI 4) [] with
    | .ok (rets, l, log) => some (rets, l.acc, log) | .error _ => none) =
    some ([0] ++ [Z_STREAM_END], [3], [[1, 2]]) := by decide +kernel

/-- C98 is false: the end of the plaintext is not passed on. -/
theorem C98_finished_false :
    ¬ ∀ (Z : Inflater) (plain : Bytes → Bytes) (C : InflateOK Z plain), C.Ends →
      ∀ (fuel size : Nat) (d : Bytes) (l : LL Z) (log : List Bytes), 0 < uInt size →
      llRun fuel [.decompress Z_NO_FLUSH d] (LL.create Z size) [] = .ok ([Z_STREAM_END], l, log) →
      log.flatten = plain d := by
  intro h
  have key : (match llRun 10 [.decompress 0 [3, 255]] (LL.create endI 4) [] with
    | .ok (rets, _, log) => some (rets, log) | .error _ => none) = some ([Z_STREAM_END], []) := by
    decide +kernel
  cases hr : llRun 10 [.decompress 0 [3, 255]] (LL.create endI 4) [] with
  | error e => rw [hr] at key; cases key
  | ok x =>
    obtain ⟨rets, l, log⟩ := x
    rw [hr] at key
    simp only [Option.some.injEq, Prod.mk.injEq] at key
    obtain ⟨rfl, rfl⟩ := key
    have := h endI _ endIOK endIOK_ends 10 4 [3, 255] l [] (by decide +kernel) hr
    exact absurd this (by decide)

open HLSample in
/-- C98 is false of extraction: the archive of a file, its stream finished, yields nothing (without
the end of the stream the file arrives). -/
theorem C98_archive_false :
    ¬ ∀ (c : Bytes) (n : Nat) (w1 w2 : Loc → Option Node), 255 ∉ c →
      (match extract endI os (fun _ _ => true) 5 hdrMem itemMem [111] 0 ⟨fileArc c, false⟩ (world [])
        with | .ok r => r.ret = n ∧ r.w.fs = w1 | .error _ => False) →
      (match extract endI os (fun _ _ => true) 5 hdrMem itemMem [111] 0 ⟨fileArc c ++ [255], false⟩
        (world []) with | .ok r => r.w.fs = w2 | .error _ => False) →
      w1 [[104], [119], [111]] = w2 [[104], [119], [111]] := by
  intro h
  have k1 : view [[[104], [119], [111]]] (extract endI os (fun _ _ => true) 5 hdrMem itemMem [111] 0
      ⟨fileArc [1, 2, 3], false⟩ (world [])) =
      .done CT_FILE [[104], [119]] [some (.file 0o644 [1, 2, 3])] := by decide +kernel
  have k2 : view [[[104], [119], [111]]] (extract endI os (fun _ _ => true) 5 hdrMem itemMem [111] 0
      ⟨fileArc [1, 2, 3] ++ [255], false⟩ (world [])) = .done 0 [[104], [119]] [none] := by
    decide +kernel
  obtain ⟨r1, a1, a2, _, a4⟩ := view_done k1
  obtain ⟨r2, b1, b2, _, b4⟩ := view_done k2
  have := h [1, 2, 3] r1.ret r1.w.fs r2.w.fs (by decide) (by rw [a1]; exact ⟨rfl, rfl⟩)
    (by rw [b1])
  simp only [List.map_cons, List.map_nil, List.cons.injEq, and_true] at a4 b4
  rw [a4, b4] at this
  cases this

/-! ### The streams of this library -/

theorem readOldIn_open (C : InflateOK Z plain) (hF : C.Final) (fuel : Nat) : ∀ (flush : Int)
    (l l' : LL Z) (u u' : List Bytes) (c p : Bytes) (ret : Int), C.Rep l.z c p → SoftFlush flush →
    0 < l.bufSize → Open plain (c ++ l.inp) →
    readOldIn recordCb fuel flush l u = .ok (ret, l', u') → ret = Z_OK := by
  induction fuel with
  | zero => intro flush l l' u u' c p ret _ _ _ _ h; simp [readOldIn] at h
  | succ fuel ih =>
    intro flush l l' u u' c p ret hr hfl hb hO h
    rw [readOldIn] at h
    by_cases hi : l.inp = []
    · rw [if_pos hi] at h
      cases h; rfl
    · rw [if_neg hi] at h
      have h1 : l.setup.inflate flush = ((Z.run l.z flush l.inp l.bufSize).ret,
        l.setup.after (Z.run l.z flush l.inp l.bufSize)) := rfl
      rw [h1] at h
      dsimp only at h
      have hst := C.step hr flush l.inp l.bufSize
      by_cases hret : (Z.run l.z flush l.inp l.bufSize).ret = Z_OK
      · rw [if_neg (fun hh => hh hret)] at h
        simp only [LL.handed] at h
        split at h
        · cases h
        · rename_i buf hb'
          split at hb'
          · cases hb'
            simp only [recordCb] at h
            refine ih Z_NO_FLUSH (l.setup.after (Z.run l.z flush l.inp l.bufSize)) l' _ u' _ _ ret hst
              (.inl rfl) hb ?_ h
            simp only [LL.after, LL.setup]
            rwa [List.append_assoc, List.take_append_drop]
          · cases hb'
      · exfalso
        rcases C.fail hr flush l.inp l.bufSize hfl hi hret with hd | hd
        · refine hF _ _ _ hst hd (Open.left C (x := l.inp.drop
            (Z.run l.z flush l.inp l.bufSize).consumed) ?_)
          rwa [List.append_assoc, List.take_append_drop]
        · omega

theorem llRun_open (C : InflateOK Z plain) (hF : C.Final) (fuel B : Nat) (ops : List LLOp) :
    ∀ (l l' : LL Z) (u u' : List Bytes) (c : Bytes) (rets : List Int), C.Rep l.z c u.flatten →
    ¬ C.Dead l.z → 0 < l.bufSize → l.bufSize ≤ B → (∀ op ∈ ops, op.sane B) →
    Open plain (c ++ (ops.map LLOp.data).flatten) →
    llRun fuel ops l u = .ok (rets, l', u') → ∀ r ∈ rets, r = Z_OK := by
  induction ops with
  | nil =>
    intro l l' u u' c rets _ _ _ _ _ _ h
    cases h
    simp
  | cons op ops ih =>
    intro l l' u u' c rets hr hd hb hB hs hO h
    have hs' := fun o ho => hs o (List.mem_cons_of_mem _ ho)
    have hop := hs op List.mem_cons_self
    cases op with
    | setBuffer size =>
      rw [llRun] at h
      exact ih (l.setBuffer size) l' u u' c rets hr hd hop.1 hop.2 hs' (by simpa [LLOp.data] using hO) h
    | decompress flush d =>
      obtain ⟨rfl, hlen⟩ := hop
      rw [llRun] at h
      split at h
      · cases h
      · rename_i ret l1 u1 h1
        split at h
        · cases h
        · rename_i rets' l2 u2 h2
          cases h
          have hin : (l.feed d).inp = d := take_uInt hlen
          have hO1 : Open plain (c ++ d ++ (ops.map LLOp.data).flatten) := by
            simpa [LLOp.data] using hO
          have hz := readOldIn_open C hF fuel Z_NO_FLUSH (l.feed d) l1 u u1 c _ ret hr (.inl rfl) hb
            (by rw [hin]; exact hO1.left C) h1
          subst hz
          obtain ⟨k1, k2, hbs⟩ := readOldIn_all C fuel Z_NO_FLUSH (l.feed d) l1 u u1 c hr hd h1
          rw [hin] at k1
          replace hbs : l1.bufSize = l.bufSize := hbs
          have := ih l1 l' u1 u' (c ++ d) rets' k1 k2 (by omega) (by omega) hs' hO1 h2
          intro r hr
          rcases List.mem_cons.mp hr with rfl | hr
          · rfl
          · exact this r hr

/-- What a low-level decompress session makes of the output of a compress session, or of the
beginning of it. -/
theorem compressed_read (CD : DeflateOK D plain) (hT : CD.Fits) (C : InflateOK Z plain)
    (hF : C.Final) {z : D.τ} {c e : Bytes} (hr : CD.Rep z c e) (E dBuf : Nat) (hd1 : 0 < uInt dBuf)
    (hd2 : uInt dBuf ≤ E) (ops : List LLOp) (hops : ∀ op ∈ ops, op.sane E) (rest : Bytes)
    (hrest : (ops.map LLOp.data).flatten ++ rest = e) :
    ∃ n1 rets l log, (∀ fuel, n1 ≤ fuel → llRun fuel ops (LL.create Z dBuf) [] = .ok (rets, l, log)) ∧
      (∀ r ∈ rets, r = Z_OK) ∧ (∀ b ∈ log, b.length ≤ E) ∧ log.flatten <+: c ∧
      C.Rep l.z (ops.map LLOp.data).flatten log.flatten := by
  have hO : Open plain (ops.map LLOp.data).flatten := by
    have := CD.isOpen hT hr
    rw [← hrest] at this
    exact this.left C
  obtain ⟨rets, l, log, n0, h1, h2, _, _, h5⟩ :=
    llRun_good C E ops hops (LL.create Z dBuf) [] [] (.create C dBuf) hd1 hd2
  simp only [List.nil_append] at h1 h2
  have hz := llRun_open C hF n0 E ops (LL.create Z dBuf) l [] log [] rets C.init C.alive hd1 hd2 hops
    (by simpa using hO) (h1 n0 (Nat.le_refl _))
  refine ⟨n0, rets, l, log, h1, hz, h5, ?_, ?_⟩
  · refine (h2.1.trans (C.mono _ rest)).trans ?_
    rw [hrest]; exact CD.sound hr
  · have := (llRun_alive C n0 ops (LL.create Z dBuf) l [] log [] rets C.init C.alive (by
      intro op hop
      have := hops op hop
      cases op with
      | setBuffer => simp [LLOp.data, U32]
      | decompress => exact this.2) (h1 n0 (Nat.le_refl _)) hz).1
    simpa using this

/-- C99, what holds: the output of a compress session, in any calls (the last one, with data, shown),
is accepted by a low-level decompress session, which any zlib decoder could be: let any part of it from
the beginning be supplied, in any splits, with any exchanges of output buffers.  Then every call
returns 0, and the callback gets the first bytes of the header and the data; all of them, when
everything has been supplied (the last call with some of it) and the last callbacks of both sides got
less than a full buffer (or, on the reading side, `inflate` is known to withhold nothing).
Missing: the end of the stream is never reported (`C99_complete_false`). -/
theorem C99_accepted_partial (CD : DeflateOK D plain) (hT : CD.Fits) (C : InflateOK Z plain)
    (hF : C.Final) (kind : Nat) (level : Int) (z : D.τ) (hz : D.init level = some z) (B bufSize : Nat)
    (hb : 0 < uInt bufSize) (hB : uInt bufSize ≤ B) (junk : Bytes) (hj : junk.length = 120)
    (cops : List COp) (hcops : ∀ op ∈ cops, op.sane B) (hsmall : ∀ op ∈ cops, op.small) (data : Bytes)
    (hd : data ≠ []) (hdl : data.length < U32) :
    ∃ s0 s crets n0 lastPiece, (∀ fuel, n0 ≤ fuel →
        CS.create D fuel kind level bufSize junk = .ok (some s0) ∧
        compressRun fuel (cops ++ [.compress data]) s0 = .ok (crets, s)) ∧
      (∀ r ∈ crets, r = 0) ∧ s.log.getLast? = some lastPiece ∧
      ∀ (E dBuf : Nat), 0 < uInt dBuf → uInt dBuf ≤ E → ∀ ops : List LLOp, (∀ op ∈ ops, op.sane E) →
      ∀ rest, (ops.map LLOp.data).flatten ++ rest = s.log.flatten →
      ∃ n1 rets l log, (∀ fuel, n1 ≤ fuel →
          llRun fuel ops (LL.create Z dBuf) [] = .ok (rets, l, log)) ∧
        (∀ r ∈ rets, r = Z_OK) ∧ (∀ b ∈ log, b.length ≤ E) ∧
        log.flatten <+: headerBytes VERSION kind junk ++ ((cops.map COp.data).flatten ++ data) ∧
        (∀ ops' d b, ops = ops' ++ [.decompress Z_NO_FLUSH d] → d ≠ [] → rest = [] →
          lastPiece.length < s.bufSize → log.getLast? = some b →
          b.length < l.bufSize ∨ C.Prompt s.log.flatten →
          log.flatten = headerBytes VERSION kind junk ++ ((cops.map COp.data).flatten ++ data)) := by
  obtain ⟨s0, n1, h1, h2, h3, _, _⟩ := CS.create_good CD kind level z hz bufSize hb junk hj
  obtain ⟨s1, new, n2, crets, g1, g2, g3, g4, g5, _, _⟩ :=
    compressRun_good CD B cops hcops s0 _ h2 (by omega) (by omega)
  rw [taken_eq cops hsmall] at g3
  obtain ⟨s, new', n3, k1, k2, k3, k4, k5, k6⟩ := compress_good CD s1 _ data g3 g4
  rw [take_uInt hdl, List.append_assoc] at k2 k6
  obtain ⟨lp, lp1, lp2⟩ := k6 hd
  refine ⟨s0, s, crets ++ [0], max n1 (max n2 n3), lp, ?_, ?_, ?_, ?_⟩
  · intro f hf
    refine ⟨h1 f (by omega), ?_⟩
    simp [compressRun_append, g1 f (by omega), compressRun, k1 f (by omega)]
  · intro r hr
    rcases List.mem_append.mp hr with h | h
    · exact g2 r h
    · simpa using h
  · rw [k4, getLast?_append_ne (by intro h; simp [h] at lp1)]; exact lp1
  intro E dBuf hd1 hd2 ops hops rest hrest
  obtain ⟨n4, rets, l, log, e1, e2, e3, e4, e5⟩ := compressed_read CD hT C hF k2 E dBuf hd1 hd2 ops hops
    rest hrest
  refine ⟨n4, rets, l, log, e1, e2, e3, e4, fun ops' d b ho hd0 hr hlp hb' hp => ?_⟩
  rw [hr, List.append_nil] at hrest
  subst ho
  have hop : LLOp.sane E (.decompress Z_NO_FLUSH d) := hops _ (by simp)
  obtain ⟨rets', ret, l', log', n5, q1, q2⟩ := C11_nothing_withheld_partial C E dBuf hd1 hd2 ops'
    (fun o h => hops o (List.mem_append_left _ h)) d hd0 hop.2
  have hq := q1 (max n4 n5) (by omega)
  rw [e1 (max n4 n5) (by omega)] at hq
  cases hq
  obtain ⟨b', hb1, hb2⟩ := q2 (e2 _ (by simp))
  have : b = b' := by rw [hb'] at hb1; cases hb1; rfl
  subst this
  have hfl : (ops'.map LLOp.data).flatten ++ d = s.log.flatten := by
    rw [← hrest]; simp [LLOp.data]
  rw [hfl] at hb2
  rw [hb2 hp, lp2 (by rw [← k3]; exact hlp)]

/-- C99 is false: whatever a compress session hands over from its creation to its destruction (which
adds nothing), in any calls, no decoder ever reports the end of a stream for it. -/
theorem C99_complete_false (CD : DeflateOK D plain) (hT : CD.Fits) (C : InflateOK Z plain)
    (hF : C.Final) (kind : Nat) (level : Int) (z : D.τ) (hz : D.init level = some z) (B bufSize : Nat)
    (hb : 0 < uInt bufSize) (hB : uInt bufSize ≤ B) (junk : Bytes) (hj : junk.length = 120)
    (cops : List COp) (hcops : ∀ op ∈ cops, op.sane B) :
    ∃ s0 s crets n0, (∀ fuel, n0 ≤ fuel →
        CS.create D fuel kind level bufSize junk = .ok (some s0) ∧
        compressRun fuel cops s0 = .ok (crets, s)) ∧
      ¬ ∃ (E dBuf fuel' : Nat) (ops : List LLOp) (rets : List Int) (l : LL Z) (log : List Bytes),
        0 < uInt dBuf ∧ uInt dBuf ≤ E ∧ (∀ op ∈ ops, op.sane E) ∧
        (ops.map LLOp.data).flatten = s.log.flatten ∧
        llRun fuel' ops (LL.create Z dBuf) [] = .ok (rets, l, log) ∧ Z_STREAM_END ∈ rets := by
  obtain ⟨s0, n1, h1, h2, h3, _, _⟩ := CS.create_good CD kind level z hz bufSize hb junk hj
  obtain ⟨s, new, n2, crets, g1, g2, g3, g4, g5, _, _⟩ :=
    compressRun_good CD B cops hcops s0 _ h2 (by omega) (by omega)
  refine ⟨s0, s, crets, max n1 n2, fun f hf => ⟨h1 f (by omega), g1 f (by omega)⟩, ?_⟩
  rintro ⟨E, dBuf, fuel', ops, rets, l, log, hd1, hd2, hops, hall, hrun, hend⟩
  have := llRun_open C hF fuel' E ops (LL.create Z dBuf) l [] log [] rets C.init C.alive hd1 hd2 hops
    (by rw [List.nil_append, hall]; exact CD.isOpen hT g3) hrun _ hend
  exact absurd this (by decide)

/-- Examples: copying codecs, the calls of `demoOps`. -/
example := C99_complete_false queueDOK queueDOK_fits copyIOK copyIOK_final CT_FILE 6 [] rfl 100 100
  (by decide +kernel) (by decide +kernel) (List.replicate 120 0) List.length_replicate demoOps demoOps_sane

example := C99_accepted_partial queueDOK queueDOK_fits copyIOK copyIOK_final CT_FILE 6 [] rfl 100 100
  (by decide +kernel) (by decide +kernel) (List.replicate 120 0) List.length_replicate demoOps demoOps_sane
  demoOps_small [7, 8, 9] (by decide) (by decide)

end Zwt
