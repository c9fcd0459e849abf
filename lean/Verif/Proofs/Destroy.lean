import Verif.Spec.Destroy
import Verif.Proofs.SessionRun

/-! Lemmas about the end of a decompress session. -/

namespace Zwt

variable {Z : Inflater} {plain : Bytes → Bytes} {υ : Type}

/-- Nothing is left to be written: no room, a dead stream, or everything delivered. -/
def Spent (C : InflateOK Z plain) (l : LL Z) : Prop :=
  ∃ c p, C.Rep l.z c p ∧ (l.availOut = 0 ∨ C.Dead l.z ∨ p = plain c)

/-- At the end of a call. -/
def Settled (C : InflateOK Z plain) (l : LL Z) : Prop :=
  ∃ c p, C.Rep l.z c p ∧ (l.availOut = 0 ∨ C.Dead l.z ∨ (p = plain c ∧ l.inp = []))

theorem Settled.spent {C : InflateOK Z plain} {l : LL Z} (h : Settled C l) : Spent C l := by
  obtain ⟨c, p, hr, h | h | h⟩ := h
  · exact ⟨c, p, hr, .inl h⟩
  · exact ⟨c, p, hr, .inr (.inl h)⟩
  · exact ⟨c, p, hr, .inr (.inr h.1)⟩

theorem Spent.settled {C : InflateOK Z plain} {l : LL Z} (h : Spent C l)
    (hi : l.inp = [] ∨ l.availOut = 0) : Settled C l := by
  obtain ⟨c, p, hr, h | h | h⟩ := h
  · exact ⟨c, p, hr, .inl h⟩
  · exact ⟨c, p, hr, .inr (.inl h)⟩
  · rcases hi with hi | hi
    · exact ⟨c, p, hr, .inr (.inr ⟨h, hi⟩)⟩
    · exact ⟨c, p, hr, .inl hi⟩

theorem inflate_settled (C : InflateOK Z plain) {l : LL Z} (hr : ∃ c p, C.Rep l.z c p) (hi : l.inp ≠ [])
    {flush : Int} (hf : SoftFlush flush) : Settled C (l.inflate flush).2 := by
  obtain ⟨c, p, hr⟩ := hr
  have hs := C.step hr flush l.inp l.availOut
  refine ⟨_, _, hs, ?_⟩
  by_cases hret : (Z.run l.z flush l.inp l.availOut).ret = Z_OK
  · by_cases hlt : (Z.run l.z flush l.inp l.availOut).out.length < l.availOut
    · obtain ⟨h1, h2⟩ := C.complete hr flush l.inp l.availOut hf hret hlt
      refine .inr (.inr ⟨?_, ?_⟩)
      · rw [h2, h1, List.take_length]
      · show l.inp.drop _ = []
        rw [h1, List.drop_length]
    · refine .inl ?_
      show l.availOut - _ = 0
      omega
  · rcases C.fail hr flush l.inp l.availOut hf hi hret with h | h
    · exact .inr (.inl h)
    · refine .inl ?_
      show l.availOut - _ = 0
      omega

theorem Settled.rep {C : InflateOK Z plain} {l : LL Z} (h : Settled C l) : ∃ c p, C.Rep l.z c p :=
  ⟨_, _, h.choose_spec.choose_spec.1⟩

theorem Spent.rep {C : InflateOK Z plain} {l : LL Z} (h : Spent C l) : ∃ c p, C.Rep l.z c p :=
  ⟨_, _, h.choose_spec.choose_spec.1⟩

theorem readOldIn_settled (C : InflateOK Z plain) {cb : Cb Z υ}
    (hcb : ∀ l u b l' u', Settled C l → cb l u b = .ok (l', u') → Settled C l') :
    ∀ fuel flush (l : LL Z) u ret l' u', SoftFlush flush → Spent C l →
      readOldIn cb fuel flush l u = .ok (ret, l', u') → Settled C l' := by
  intro fuel
  induction fuel with
  | zero => intro flush l u ret l' u' _ _ h; cases h
  | succ fuel ih =>
    intro flush l u ret l' u' hf hs h
    simp only [readOldIn] at h
    split at h
    · rename_i hi; cases h; exact hs.settled (.inl hi)
    · rename_i hi
      have h1 : Settled C (l.setup.inflate flush).2 := inflate_settled C (l := l.setup) hs.rep hi hf
      generalize l.setup.inflate flush = x at h h1
      obtain ⟨r, l1⟩ := x
      simp only at h h1
      split at h
      · cases h; exact h1
      · split at h
        · cases h
        · split at h
          · cases h
          · rename_i l2 u2 hc
            exact ih _ _ _ _ _ _ (.inl rfl) (hcb _ _ _ _ _ h1 hc).spent h

theorem noTouch_settled (C : InflateOK Z plain) {cb : Cb Z υ}
    (hcb : ∀ l u b l' u', Settled C l → cb l u b = .ok (l', u') → Settled C l') :
    ∀ fuel flush (l : LL Z) u ret l' u', SoftFlush flush → Spent C l →
      noTouchLoop cb fuel flush l u = .ok (ret, l', u') → Settled C l' := by
  intro fuel
  induction fuel with
  | zero => intro flush l u ret l' u' _ _ h; cases h
  | succ fuel ih =>
    intro flush l u ret l' u' hf hs h
    simp only [noTouchLoop] at h
    split at h
    · rename_i hi; cases h; exact hs.settled hi
    · rename_i hi
      have h1 : Settled C (l.inflate flush).2 := inflate_settled C hs.rep (fun h => hi (.inl h)) hf
      generalize l.inflate flush = x at h h1
      obtain ⟨r, l1⟩ := x
      simp only at h h1
      split at h
      · cases h; exact h1
      · split at h
        · cases h
        · split at h
          · cases h
          · rename_i l2 u2 hc
            exact ih _ _ _ _ _ _ (.inl rfl) (hcb _ _ _ _ _ h1 hc).spent h

theorem dataCb_same (ok : AllocOracle) {l l' : LL Z} {s s' : Sess} {b : Bytes}
    (h : dataCb ok l s b = .ok (l', s')) : l' = l := by
  unfold dataCb at h
  split at h
  · cases h
  · cases hv : v0Cb ok s b <;> rw [hv] at h <;> cases h; rfl
  · cases hv : dirCb ok s b <;> rw [hv] at h <;> cases h; rfl
  · cases hv : blobCb s b <;> rw [hv] at h <;> cases h; rfl

theorem Settled.setBuffer {C : InflateOK Z plain} {l : LL Z} (h : Settled C l) (n : Nat) :
    Settled C (l.setBuffer n) := h

theorem sessCb_settled (C : InflateOK Z plain) (ok : AllocOracle) (F : Nat) :
    ∀ (l : LL Z) s b l' s', Settled C l → sessCb ok F l s b = .ok (l', s') → Settled C l' := by
  intro l s b l' s' hs h
  have hd : ∀ l s b l' s', Settled C l → dataCb ok l s b = .ok (l', s') → Settled C l' :=
    fun l s b l' s' hs h => by rw [dataCb_same ok h]; exact hs
  unfold sessCb at h
  split at h
  · unfold headerCb at h
    simp only at h
    split at h
    · split at h
      · split at h
        · split at h <;> cases h
        · split at h
          · cases h
          · rename_i ret l2 s2 hro
            cases h
            exact readOldIn_settled C hd _ _ _ _ _ _ _ (.inl rfl) (hs.setBuffer _).spent hro
      · cases h; exact hs
    · cases h; exact hs
  · exact hd _ _ _ _ _ hs h

/-- Destruction writes nothing. -/
theorem Settled.wrote {C : InflateOK Z plain} {l : LL Z} (h : Settled C l) (o : Bool) :
    ∀ x ∈ l.endCalls o, x.wrote = [] := by
  have step : ∀ {l : LL Z} (flush : Int), Settled C l →
      (l.endCall o flush).1.wrote = [] ∧ Settled C (l.endCall o flush).2 := by
    intro l flush ⟨c, p, hr, h⟩
    have hb := C.bounds hr flush l.inp l.availOut
    have hst := C.step hr flush l.inp l.availOut
    have hw : (Z.run l.z flush l.inp l.availOut).out = [] := by
      rcases h with h | h | ⟨h1, h2⟩
      · exact List.eq_nil_of_length_eq_zero (by omega)
      · exact (C.dead h flush l.inp l.availOut).2.1
      · have := C.sound hst
        rw [h2] at this ⊢
        simp only [List.take_nil, List.append_nil] at this
        rw [← h1] at this
        have := this.length_le
        rw [List.length_append] at this
        exact List.eq_nil_of_length_eq_zero (by omega)
    refine ⟨hw, _, _, hst, ?_⟩
    rw [hw, List.append_nil]
    rcases h with h | h | ⟨h1, h2⟩
    · left
      show l.availOut - _ = 0
      omega
    · exact .inr (.inl (C.dead h flush l.inp l.availOut).2.2)
    · right; right
      rw [h2, List.take_nil, List.append_nil]
      refine ⟨h1, ?_⟩
      show l.inp.drop _ = []
      rw [h2, List.drop_nil]
  intro x hx
  have h1 := step Z_FULL_FLUSH h
  simp only [LL.endCalls, List.mem_cons, List.not_mem_nil, or_false] at hx
  rcases hx with rfl | rfl
  · exact h1.1
  · exact (step Z_FINISH h1.2).1

/-- Without input nothing is read. -/
theorem endCalls_read (l : LL Z) (h : l.inp = []) (o : Bool) :
    ∀ x ∈ l.endCalls o, x.availIn = 0 ∧ x.taken = [] := by
  intro x hx
  simp only [LL.endCalls, List.mem_cons, List.not_mem_nil, or_false] at hx
  rcases hx with rfl | rfl
  · simp [LL.endCall, h]
  · simp [LL.endCall, LL.after, h]

theorem endCalls_outSet (l : LL Z) (o : Bool) : ∀ x ∈ l.endCalls o, x.outSet = o := by
  intro x hx
  simp only [LL.endCalls, List.mem_cons, List.not_mem_nil, or_false] at hx
  rcases hx with rfl | rfl <;> rfl

/-- A call that returns 0 has used its input up. -/
theorem readOldIn_used {cb : Cb Z υ} : ∀ fuel flush (l : LL Z) u l' u',
    readOldIn cb fuel flush l u = .ok (Z_OK, l', u') → l'.inp = [] := by
  intro fuel
  induction fuel with
  | zero => intro flush l u l' u' h; cases h
  | succ fuel ih =>
    intro flush l u l' u' h
    simp only [readOldIn] at h
    split at h
    · rename_i hi; cases h; exact hi
    · split at h
      · rename_i hne
        simp only [Except.ok.injEq, Prod.mk.injEq] at h
        exact absurd h.1 hne
      · split at h
        · cases h
        · split at h
          · cases h
          · exact ih _ _ _ _ _ h

/-! ### Archive sessions -/

/-- The codes recorded so far stay recorded. -/
def CodesKept (l l' : LL Z) : Prop := ∀ r ∈ l.rets, r ∈ l'.rets

theorem readOldIn_codes {cb : Cb Z υ} (hcb : ∀ l u b l' u', cb l u b = .ok (l', u') → CodesKept l l') :
    ∀ fuel flush (l : LL Z) u ret l' u', readOldIn cb fuel flush l u = .ok (ret, l', u') →
      CodesKept l l' ∧ (ret ≠ Z_OK → ret ∈ l'.rets) := by
  intro fuel
  induction fuel with
  | zero => intro flush l u ret l' u' h; cases h
  | succ fuel ih =>
    intro flush l u ret l' u' h
    simp only [readOldIn] at h
    split at h
    · cases h; exact ⟨fun _ h => h, fun h => absurd rfl h⟩
    · have h1 : CodesKept l (l.setup.inflate flush).2 ∧
          (l.setup.inflate flush).1 ∈ (l.setup.inflate flush).2.rets :=
        ⟨fun r hr => List.mem_cons_of_mem _ hr, List.mem_cons_self⟩
      generalize l.setup.inflate flush = x at h h1
      obtain ⟨r, l1⟩ := x
      simp only at h h1
      split at h
      · cases h; exact ⟨h1.1, fun _ => h1.2⟩
      · split at h
        · cases h
        · split at h
          · cases h
          · rename_i l2 u2 hc
            have h2 := ih _ _ _ _ _ _ h
            exact ⟨fun r hr => h2.1 r (hcb _ _ _ _ _ hc r (h1.1 r hr)), h2.2⟩

theorem noTouch_codes {cb : Cb Z υ} (hcb : ∀ l u b l' u', cb l u b = .ok (l', u') → CodesKept l l') :
    ∀ fuel flush (l : LL Z) u ret l' u', noTouchLoop cb fuel flush l u = .ok (ret, l', u') →
      CodesKept l l' ∧ (ret ≠ Z_OK → ret ∈ l'.rets) := by
  intro fuel
  induction fuel with
  | zero => intro flush l u ret l' u' h; cases h
  | succ fuel ih =>
    intro flush l u ret l' u' h
    simp only [noTouchLoop] at h
    split at h
    · cases h; exact ⟨fun _ h => h, fun h => absurd rfl h⟩
    · have h1 : CodesKept l (l.inflate flush).2 ∧ (l.inflate flush).1 ∈ (l.inflate flush).2.rets :=
        ⟨fun r hr => List.mem_cons_of_mem _ hr, List.mem_cons_self⟩
      generalize l.inflate flush = x at h h1
      obtain ⟨r, l1⟩ := x
      simp only at h h1
      split at h
      · cases h; exact ⟨h1.1, fun _ => h1.2⟩
      · split at h
        · cases h
        · split at h
          · cases h
          · rename_i l2 u2 hc
            have h2 := ih _ _ _ _ _ _ h
            exact ⟨fun r hr => h2.1 r (hcb _ _ _ _ _ hc r (h1.1 r hr)), h2.2⟩

theorem dataCb_codes (ok : AllocOracle) : ∀ (l : LL Z) s b l' s', dataCb ok l s b = .ok (l', s') →
    CodesKept l l' := fun l s b l' s' h => by rw [dataCb_same ok h]; exact fun _ h => h

theorem sessCb_codes (ok : AllocOracle) (F : Nat) : ∀ (l : LL Z) s b l' s',
    sessCb ok F l s b = .ok (l', s') → CodesKept l l' := by
  intro l s b l' s' h
  unfold sessCb at h
  split at h
  · unfold headerCb at h
    simp only at h
    split at h
    · split at h
      · split at h
        · split at h <;> cases h
        · split at h
          · cases h
          · rename_i hro
            cases h
            exact (readOldIn_codes (dataCb_codes ok) _ _ _ _ _ _ _ hro).1
      · cases h; exact fun _ h => h
    · cases h; exact fun _ h => h
  · exact dataCb_codes ok _ _ _ _ _ h

theorem dataCb_inited (ok : AllocOracle) {l l' : LL Z} {s s' : Sess} {b : Bytes}
    (h : dataCb ok l s b = .ok (l', s')) : s'.isInited = s.isInited := by
  have hd : ∀ {s s' : Sess}, dirCb ok s b = .ok s' → s'.isInited = s.isInited := by
    intro s s' h
    unfold dirCb at h
    split at h
    · cases h
    · cases h; rfl
  unfold dataCb at h
  split at h
  · cases h
  · cases hv : v0Cb ok s b with
    | error e => rw [hv] at h; cases h
    | ok s1 =>
      rw [hv] at h
      cases h
      unfold v0Cb at hv
      split at hv
      · exact hd (s := { s with d := v0Reset s.d, log := s.log ++ [.drStart], cb := .dir }) hv
      · split at hv <;> cases hv <;> rfl
  · cases hv : dirCb ok s b <;> rw [hv] at h <;> cases h
    exact hd hv
  · cases h; rfl

theorem readOldIn_inited {cb : Cb Z Sess} (hcb : ∀ l s b l' s', s.isInited = true →
    cb l s b = .ok (l', s') → s'.isInited = true) :
    ∀ fuel flush (l : LL Z) s ret l' s', s.isInited = true →
      readOldIn cb fuel flush l s = .ok (ret, l', s') → s'.isInited = true := by
  intro fuel
  induction fuel with
  | zero => intro flush l u ret l' u' _ h; cases h
  | succ fuel ih =>
    intro flush l u ret l' u' hs h
    simp only [readOldIn] at h
    split at h
    · cases h; exact hs
    · split at h
      · cases h; exact hs
      · split at h
        · cases h
        · split at h
          · cases h
          · rename_i l2 u2 hc
            exact ih _ _ _ _ _ _ (hcb _ _ _ _ _ hs hc) h

theorem sessCb_inited (ok : AllocOracle) (F : Nat) : ∀ (l : LL Z) s b l' s', s.isInited = true →
    sessCb ok F l s b = .ok (l', s') → s'.isInited = true := by
  intro l s b l' s' hs h
  unfold sessCb at h
  split at h
  · unfold headerCb at h
    simp only at h
    split at h
    · split at h
      · split at h
        · split at h <;> cases h
        · split at h
          · cases h
          · rename_i hro
            cases h
            exact readOldIn_inited (fun l s b l' s' hs h => by rw [dataCb_inited ok h]; exact hs)
              _ _ _ _ _ _ _ (by rfl) hro
      · cases h; rfl
    · cases h; exact hs
  · rw [dataCb_inited ok h]; exact hs

/-- Before the header is complete; `given` is all the data of the calls so far. -/
structure HeadSt (C : InflateOK Z plain) (given : Bytes) (l : LL Z) (s : Sess) : Prop where
  cb : s.cb = .hdr
  inited : s.isInited = false
  own : s.ownBuf = true
  hdrLen : s.hdr.length = 128
  bufSize : l.bufSize = 128
  acc : l.acc.length = l.totalOut
  room : l.availOut = 128 - l.totalOut
  lt : l.totalOut < 128
  rep : ∃ c, C.Rep l.z c l.acc ∧ c ++ l.inp = given

theorem noTouch_used (C : InflateOK Z plain) (ok : AllocOracle) (F : Nat) {given : Bytes}
    (hv : Version0 (plain given)) : ∀ fuel flush (l : LL Z) s ret l' s', HeadSt C given l s →
      noTouchLoop (sessCb ok F) fuel flush l s = .ok (ret, l', s') → (∀ r ∈ l'.rets, r = Z_OK) →
      l'.inp = [] ∧ (HeadSt C given l' s' ∨ s'.isInited = true) := by
  intro fuel
  induction fuel with
  | zero => intro flush l s ret l' s' _ h; cases h
  | succ fuel ih =>
    intro flush l s ret l' s' H h hok
    simp only [noTouchLoop] at h
    split at h
    · rename_i hi
      cases h
      rcases hi with hi | hi
      · exact ⟨hi, .inl H⟩
      · have := H.room; have := H.lt; omega
    · obtain ⟨c, hr, hc⟩ := H.rep
      have hb := C.bounds hr flush l.inp l.availOut
      have hst := C.step hr flush l.inp l.availOut
      have hl1 : l.inflate flush = ((Z.run l.z flush l.inp l.availOut).ret,
        l.after (Z.run l.z flush l.inp l.availOut)) := rfl
      rw [hl1] at h
      generalize Z.run l.z flush l.inp l.availOut = r at *
      simp only at h
      have hlt := H.lt
      have hroom := H.room
      have hacc := H.acc
      split at h
      · rename_i hne
        cases h
        exact absurd (hok _ (by simp [LL.after])) hne
      · have hh : (l.after r).handed = .ok (l.acc ++ r.out) := by
          refine if_pos ?_
          show (l.acc ++ r.out).length + (l.availOut - r.out.length) = l.bufSize
          have := H.bufSize
          rw [List.length_append]
          omega
        rw [hh] at h
        simp only at h
        split at h
        · cases h
        · rename_i l2 s2 hcb
          have hcs : (l.after r).inp = l.inp.drop r.consumed := rfl
          have hgiven : c ++ l.inp.take r.consumed ++ (l.after r).inp = given := by
            rw [hcs, List.append_assoc, List.take_append_drop, hc]
          unfold sessCb at hcb
          rw [H.cb] at hcb
          simp only [headerCb] at hcb
          have hseen : s.seenHdr (l.acc ++ r.out) =
              (l.acc ++ r.out) ++ s.hdr.drop (l.acc ++ r.out).length := by
            simp [Sess.seenHdr, H.own]
          have htot : (l.after r).totalOut = l.totalOut + r.out.length := rfl
          have hlen : (l.acc ++ r.out).length = l.totalOut + r.out.length := by
            rw [List.length_append, hacc]
          split at hcb
          · -- the header is complete
            rename_i hge
            have h128 : l.totalOut + r.out.length = 128 := by
              have : MAIN_HEADER_SIZE = 128 := rfl
              omega
            have hhdr : s.seenHdr (l.acc ++ r.out) = l.acc ++ r.out := by
              rw [hseen, List.drop_eq_nil_of_le (by rw [H.hdrLen]; omega), List.append_nil]
            have hver : hdrVersion (l.acc ++ r.out) = 0 := by
              refine hv _ (by omega) ((C.sound hst).trans ?_)
              rw [← hgiven]
              exact C.mono _ _
            rw [hhdr, if_pos hver] at hcb
            rw [if_neg (by
              show ¬ (l.after r).totalOut > MAIN_HEADER_SIZE
              have : MAIN_HEADER_SIZE = 128 := rfl
              omega)] at hcb
            split at hcb
            · cases hcb
            · rename_i ret2 l3 s3 hro
              cases hcb
              have g1 := readOldIn_codes (dataCb_codes ok) _ _ _ _ _ _ _ hro
              have g2 : s2.isInited = true :=
                readOldIn_inited (fun l s b l' s' hs h => by rw [dataCb_inited ok h]; exact hs)
                  _ _ _ _ _ _ _ (by rfl) hro
              have g3 : CodesKept l2 l' := (noTouch_codes (sessCb_codes ok F) _ _ _ _ _ _ _ h).1
              have hret2 : ret2 = Z_OK := by
                refine Classical.byContradiction fun hne => hne (hok _ (g3 _ (g1.2 hne)))
              subst hret2
              have hi := readOldIn_used _ _ _ _ _ _ hro
              cases fuel with
              | zero => cases h
              | succ fuel =>
                simp only [noTouchLoop, hi, true_or, if_true] at h
                cases h
                exact ⟨hi, .inr g2⟩
          · rename_i hge
            cases hcb
            refine ih _ _ _ _ _ _ ?_ h hok
            have hlt2 : l.totalOut + r.out.length < 128 := by
              have : MAIN_HEADER_SIZE = 128 := rfl
              omega
            exact ⟨H.cb, H.inited, H.own, by
                show (s.seenHdr (l.acc ++ r.out)).length = 128
                rw [hseen, List.length_append, List.length_drop, H.hdrLen]; omega,
              H.bufSize, hlen, by show l.availOut - r.out.length = 128 - (l.totalOut + r.out.length); omega,
              hlt2, _, hst, hgiven⟩

theorem sessDecompress_codes {ok : AllocOracle} {fuel : Nat} {flush : Int} {l l' : LL Z} {s s' : Sess}
    {d : Bytes} {ret : Int} (h : sessDecompress ok fuel flush l s d = .ok (ret, l', s')) :
    CodesKept l l' ∧ (ret ≠ Z_OK → ret ∈ l'.rets) := by
  unfold sessDecompress at h
  split at h
  · exact readOldIn_codes (sessCb_codes ok fuel) _ _ (l.feed d) _ _ _ _ h
  · exact noTouch_codes (sessCb_codes ok fuel) _ _ (l.feed d) _ _ _ _ h

theorem sessRun_codes {ok : AllocOracle} {fuel : Nat} : ∀ {ops : List SOp} {l l' : LL Z} {s s' : Sess}
    {rets : List Int}, sessRun ok fuel ops l s = .ok (rets, l', s') → CodesKept l l' := by
  intro ops
  induction ops with
  | nil => intro l l' s s' rets h; cases h; exact fun _ h => h
  | cons op ops ih =>
    intro l l' s s' rets h
    cases op with
    | setBuffer n =>
      have h1 : CodesKept l (Sess.setBuffer l s n).1 := by
        intro r hr
        unfold Sess.setBuffer
        split <;> exact hr
      exact fun r hr => ih h r (h1 r hr)
    | decompress flush d =>
      simp only [sessRun] at h
      split at h
      · cases h
      · rename_i ret l1 s1 h1
        split at h
        · cases h
        · rename_i rets2 l2 s2 h2
          cases h
          exact fun r hr => ih h2 r ((sessDecompress_codes h1).1 r hr)

theorem Version0.left {P Q : Bytes} (h : Version0 Q) (hp : P <+: Q) : Version0 P :=
  fun x h1 h2 => h x h1 (h2.trans hp)

/-- After a history without errors nothing of the input is left. -/
theorem sessRun_used (C : InflateOK Z plain) (ok : AllocOracle) (fuel : Nat) :
    ∀ (ops : List SOp) (given : Bytes) (l : LL Z) (s : Sess) rets l' s',
      (∀ op ∈ ops, ∀ flush d, op = .decompress flush d → d.length < U32) →
      Version0 (plain (given ++ (ops.map SOp.data).flatten)) → l.inp = [] →
      HeadSt C given l s ∨ s.isInited = true → sessRun ok fuel ops l s = .ok (rets, l', s') →
      (∀ r ∈ l'.rets, r = Z_OK) → l'.inp = [] := by
  intro ops
  induction ops with
  | nil => intro given l s rets l' s' _ _ hi _ h _; cases h; exact hi
  | cons op ops ih =>
    intro given l s rets l' s' hd hv hi hs h hok
    have hd' : ∀ op ∈ ops, ∀ flush d, op = .decompress flush d → d.length < U32 :=
      fun o ho => hd o (List.mem_cons_of_mem _ ho)
    cases op with
    | setBuffer n =>
      simp only [sessRun] at h
      refine ih given _ _ _ _ _ hd' (by simpa [SOp.data] using hv) ?_ ?_ h hok
      · unfold Sess.setBuffer
        split <;> exact hi
      · unfold Sess.setBuffer
        rcases hs with H | H
        · rw [H.inited]
          exact .inl ⟨H.cb, rfl, H.own, H.hdrLen, H.bufSize, H.acc, H.room, H.lt, H.rep⟩
        · rw [H]; exact .inr rfl
    | decompress flush d =>
      simp only [sessRun] at h
      split at h
      · cases h
      · rename_i ret l1 s1 h1
        split at h
        · cases h
        · rename_i rets2 l2 s2 h2
          cases h
          have hok1 : ∀ r ∈ l1.rets, r = Z_OK := fun r hr => hok r (sessRun_codes h2 r hr)
          have hdl : d.take (uInt d.length) = d := by
            rw [uInt_of_lt (hd _ List.mem_cons_self flush d rfl), List.take_length]
          have hfeed : (l.feed d).inp = d := hdl
          have hmid : l1.inp = [] ∧ (HeadSt C (given ++ d) l1 s1 ∨ s1.isInited = true) := by
            rcases hs with H | H
            · unfold sessDecompress at h1
              rw [H.inited] at h1
              refine noTouch_used C ok fuel (given := given ++ d) (hv.left ?_) _ _ _ _ _ _ _ ?_ h1 hok1
              · simp only [List.map_cons, List.flatten_cons, SOp.data]
                rw [← List.append_assoc]
                exact C.mono _ _
              · obtain ⟨c, hr, hc⟩ := H.rep
                refine ⟨H.cb, H.inited, H.own, H.hdrLen, H.bufSize, H.acc, H.room, H.lt, c, hr, ?_⟩
                rw [hi, List.append_nil] at hc
                rw [hfeed, hc]
            · unfold sessDecompress at h1
              rw [H] at h1
              have g := readOldIn_codes (sessCb_codes ok fuel) _ _ (l.feed d) _ _ _ _ h1
              have hret : ret = Z_OK :=
                Classical.byContradiction fun hne => hne (hok1 _ (g.2 hne))
              subst hret
              exact ⟨readOldIn_used _ _ (l.feed d) _ _ _ h1,
                .inr (readOldIn_inited (sessCb_inited ok fuel) _ _ (l.feed d) _ _ _ _ H h1)⟩
          exact ih (given ++ d) _ _ _ _ _ hd' (by simpa [SOp.data] using hv) hmid.1 hmid.2 h2 hok

theorem Spent.feed {C : InflateOK Z plain} {l : LL Z} (h : Spent C l) (d : Bytes) : Spent C (l.feed d) := h

theorem sessRun_settled (C : InflateOK Z plain) (ok : AllocOracle) (fuel : Nat) :
    ∀ (ops : List SOp) (l : LL Z) (s : Sess) rets l' s',
      (∀ op ∈ ops, ∀ flush d, op = .decompress flush d → SoftFlush flush) → Settled C l →
      sessRun ok fuel ops l s = .ok (rets, l', s') → Settled C l' := by
  intro ops
  induction ops with
  | nil => intro l s rets l' s' _ hs h; cases h; exact hs
  | cons op ops ih =>
    intro l s rets l' s' hf hs h
    have hf' : ∀ op ∈ ops, ∀ flush d, op = .decompress flush d → SoftFlush flush :=
      fun o ho => hf o (List.mem_cons_of_mem _ ho)
    cases op with
    | setBuffer n =>
      refine ih _ _ _ _ _ hf' ?_ h
      unfold Sess.setBuffer
      split <;> exact hs
    | decompress flush d =>
      simp only [sessRun] at h
      split at h
      · cases h
      · rename_i ret l1 s1 h1
        split at h
        · cases h
        · rename_i rets2 l2 s2 h2
          cases h
          refine ih _ _ _ _ _ hf' ?_ h2
          have hfl := hf _ List.mem_cons_self flush d rfl
          unfold sessDecompress at h1
          split at h1
          · exact readOldIn_settled C (sessCb_settled C ok fuel) _ _ (l.feed d) _ _ _ _ (.inl rfl)
              (hs.spent.feed d) h1
          · exact noTouch_settled C (sessCb_settled C ok fuel) _ _ (l.feed d) _ _ _ _ hfl
              (hs.spent.feed d) h1

theorem llRun_settled (C : InflateOK Z plain) (fuel : Nat) :
    ∀ (ops : List LLOp) (l : LL Z) (log : List Bytes) rets l' log',
      (∀ op ∈ ops, ∀ flush d, op = .decompress flush d → SoftFlush flush) → Settled C l →
      llRun fuel ops l log = .ok (rets, l', log') → Settled C l' ∧
        (rets.getLast? = some Z_OK → l'.inp = []) ∧ (rets = [] → l'.inp = l.inp) := by
  intro ops
  induction ops with
  | nil => intro l s rets l' s' _ hs h; cases h; exact ⟨hs, by simp, fun _ => rfl⟩
  | cons op ops ih =>
    intro l s rets l' s' hf hs h
    have hf' : ∀ op ∈ ops, ∀ flush d, op = .decompress flush d → SoftFlush flush :=
      fun o ho => hf o (List.mem_cons_of_mem _ ho)
    cases op with
    | setBuffer n => exact ih (l.setBuffer n) _ _ _ _ hf' hs h
    | decompress flush d =>
      simp only [llRun] at h
      split at h
      · cases h
      · rename_i ret l1 s1 h1
        split at h
        · cases h
        · rename_i rets2 l2 s2 h2
          cases h
          have hfl := hf _ List.mem_cons_self flush d rfl
          have hs1 : Settled C l1 := readOldIn_settled C
            (fun l u b l' u' hs h => by cases h; exact hs) _ _ (l.feed d) _ _ _ _ hfl (hs.spent.feed d) h1
          have h3 := ih _ _ _ _ _ hf' hs1 h2
          refine ⟨h3.1, fun hl => ?_, fun h => by cases h⟩
          cases rets2 with
          | nil =>
            have : ret = Z_OK := Option.some.inj hl
            subst this
            rw [h3.2.2 rfl]
            exact readOldIn_used _ _ (l.feed d) _ _ _ h1
          | cons r0 rs => exact h3.2.1 (by rw [List.getLast?_cons_cons] at hl; exact hl)

end Zwt
