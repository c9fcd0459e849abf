import Verif.Model.LLCompress
import Verif.Spec.Zlib
import Verif.Proofs.Bytes

/-! Lemmas about the compress loop. -/

namespace Zwt

theorem uInt_of_lt {n : Nat} (h : n < U32) : uInt n = n := by
  unfold uInt; exact Nat.mod_eq_of_lt h

theorem uInt_lt (n : Nat) : uInt n < U32 := by
  unfold uInt; exact Nat.mod_lt _ (by decide)

theorem uInt_le (n : Nat) : uInt n ≤ n := by
  unfold uInt; exact Nat.mod_le _ _

variable {D : Deflater} {plain : Bytes → Bytes}

/-- More fuel changes nothing. -/
theorem compressLoop_mono {n m : Nat} (hnm : n ≤ m) (s : CS D) (inp : Bytes) {r : Int × CS D}
    (h : compressLoop n s inp = .ok r) : compressLoop m s inp = .ok r := by
  induction n generalizing m s inp with
  | zero => simp [compressLoop] at h
  | succ n ih =>
    obtain ⟨m, rfl⟩ : ∃ m', m = m' + 1 := ⟨m - 1, by omega⟩
    simp only [compressLoop] at h ⊢
    split
    · rename_i hi; simpa [hi] using h
    · rename_i hi
      rw [if_neg hi] at h
      split
      · rename_i hr; rwa [if_pos hr] at h
      · rename_i hr; rw [if_neg hr] at h
        exact ih (by omega) _ _ h

theorem getLast?_append_ne {α} {a b : List α} (h : b ≠ []) : (a ++ b).getLast? = b.getLast? := by
  rw [List.getLast?_append]
  cases hb : b.getLast? with
  | none => exact absurd (List.getLast?_eq_none_iff.mp hb) h
  | some x => rfl

/-- Nothing decodes to nothing. -/
theorem DeflateOK.plain_nil (C : DeflateOK D plain) {level : Int} {z : D.τ}
    (hz : D.init level = some z) : plain [] = [] := List.prefix_nil.mp (C.sound (C.init hz))

/-- What `deflate` emits can always be continued. -/
theorem DeflateOK.isOpen (C : DeflateOK D plain) (hF : C.Fits) {st : D.τ} {c e : Bytes}
    (hr : C.Rep st c e) : Open plain e := by
  obtain ⟨room, h⟩ := hF st c e hr 0
  refine ⟨(D.run st Z_PARTIAL_FLUSH [0] room).out, fun he => ?_⟩
  have h1 := (C.complete hr [0] room (by simp) h).2
  have h2 := (C.sound hr).length_le
  rw [he] at h1
  rw [h1] at h2
  simp at h2
  omega

/-- The loop with a positive buffer: terminates, returns 0, hands over everything emitted. -/
theorem compressLoop_good (C : DeflateOK D plain) (s : CS D) (c inp : Bytes)
    (hr : C.Rep s.z c s.log.flatten) (hb : 0 < s.bufSize) :
    ∃ s' new n0, (∀ fuel, n0 ≤ fuel → compressLoop fuel s inp = .ok (0, s')) ∧
      C.Rep s'.z (c ++ inp) s'.log.flatten ∧ s'.bufSize = s.bufSize ∧ s'.log = s.log ++ new ∧
      (∀ b ∈ new, b.length ≤ s.bufSize) ∧
      (inp ≠ [] → ∃ b, new.getLast? = some b ∧
        (b.length < s.bufSize → plain s'.log.flatten = c ++ inp)) := by
  have key : ∀ (k rk : Nat) (s : CS D) (c inp : Bytes), inp.length = k → C.rank s.z = rk →
      C.Rep s.z c s.log.flatten → 0 < s.bufSize →
      ∃ s' new n0, (∀ fuel, n0 ≤ fuel → compressLoop fuel s inp = .ok (0, s')) ∧
        C.Rep s'.z (c ++ inp) s'.log.flatten ∧ s'.bufSize = s.bufSize ∧ s'.log = s.log ++ new ∧
        (∀ b ∈ new, b.length ≤ s.bufSize) ∧
        (inp ≠ [] → ∃ b, new.getLast? = some b ∧
          (b.length < s.bufSize → plain s'.log.flatten = c ++ inp)) := by
    intro k
    induction k using Nat.strongRecOn with
    | _ k ihk =>
      intro rk
      induction rk using Nat.strongRecOn with
      | _ rk ihr =>
        intro s c inp hk hrk hr hb
        by_cases hi : inp = []
        · subst hi
          refine ⟨s, [], 1, ?_, by simpa using hr, rfl, by simp, by simp, by simp⟩
          intro fuel hf
          obtain ⟨f, rfl⟩ : ∃ f, fuel = f + 1 := ⟨fuel - 1, by omega⟩
          simp [compressLoop]
        · let r := D.run s.z Z_PARTIAL_FLUSH inp s.bufSize
          let s1 : CS D := { s with z := r.st, log := s.log ++ [r.out] }
          have hbd := C.bounds hr inp s.bufSize
          have hst : C.Rep s1.z (c ++ inp.take r.consumed) s1.log.flatten := by
            have := C.step hr inp s.bufSize
            simpa [s1, r] using this
          have hdec : ∃ s' new n0,
              (∀ fuel, n0 ≤ fuel → compressLoop fuel s1 (inp.drop r.consumed) = .ok (0, s')) ∧
              C.Rep s'.z ((c ++ inp.take r.consumed) ++ inp.drop r.consumed) s'.log.flatten ∧
              s'.bufSize = s1.bufSize ∧ s'.log = s1.log ++ new ∧
              (∀ b ∈ new, b.length ≤ s1.bufSize) ∧
              (inp.drop r.consumed ≠ [] → ∃ b, new.getLast? = some b ∧
                (b.length < s1.bufSize → plain s'.log.flatten =
                  (c ++ inp.take r.consumed) ++ inp.drop r.consumed)) := by
            have hlen : 0 < inp.length := List.length_pos_iff.mpr hi
            by_cases h0 : r.consumed = 0
            · have hlt : C.rank r.st < C.rank s.z := C.progress hr inp s.bufSize hi hb h0
              refine ihr (C.rank r.st) (by omega) s1 _ _ ?_ rfl hst hb
              rw [h0, List.drop_zero]; exact hk
            · exact ihk (inp.drop r.consumed).length (by rw [List.length_drop]; omega) _ s1 _ _
                rfl rfl hst hb
          obtain ⟨s', new, n0, hf, hrep, hbs, hlog, hbnd, hlast⟩ := hdec
          refine ⟨s', r.out :: new, n0 + 1, ?_, ?_, hbs, ?_, ?_, ?_⟩
          · intro fuel hfu
            obtain ⟨f, rfl⟩ : ∃ f, fuel = f + 1 := ⟨fuel - 1, by omega⟩
            simp only [compressLoop, if_neg hi]
            rw [if_neg (C.noStreamError hr inp s.bufSize)]
            exact hf f (by omega)
          · rwa [List.append_assoc, List.take_append_drop] at hrep
          · simp [hlog, s1]
          · intro b hbm
            rcases List.mem_cons.mp hbm with rfl | h
            · exact hbd.2
            · exact hbnd b h
          · intro _
            by_cases hd : inp.drop r.consumed = []
            · -- the loop ends here
              have hs1 : s' = s1 := by
                have h1 := hf (n0 + 1) (by omega)
                rw [hd] at h1
                simp [compressLoop] at h1
                exact h1.symm
              have hnew : new = [] := by
                rw [hs1] at hlog
                have := congrArg List.length hlog
                simp at this
                exact this
              refine ⟨r.out, by simp [hnew], ?_⟩
              intro hlt
              have := (C.complete hr inp s.bufSize hi hlt).2
              rw [hs1]
              simpa [s1, r] using this
            · obtain ⟨b, hb1, hb2⟩ := hlast hd
              refine ⟨b, ?_, ?_⟩
              · have : new ≠ [] := by intro h; simp [h] at hb1
                rw [show r.out :: new = [r.out] ++ new from rfl, getLast?_append_ne this]; exact hb1
              · intro hlt
                rw [hb2 hlt, List.append_assoc, List.take_append_drop]
  exact key _ _ s c inp rfl rfl hr hb

/-- One API call. -/
theorem compress_good (C : DeflateOK D plain) (s : CS D) (c data : Bytes)
    (hr : C.Rep s.z c s.log.flatten) (hb : 0 < s.bufSize) :
    ∃ s' new n0, (∀ fuel, n0 ≤ fuel → compress fuel s data = .ok (0, s')) ∧
      C.Rep s'.z (c ++ data.take (uInt data.length)) s'.log.flatten ∧ s'.bufSize = s.bufSize ∧
      s'.log = s.log ++ new ∧ (∀ b ∈ new, b.length ≤ s.bufSize) ∧
      (data.take (uInt data.length) ≠ [] → ∃ b, new.getLast? = some b ∧
        (b.length < s.bufSize → plain s'.log.flatten = c ++ data.take (uInt data.length))) :=
  compressLoop_good C s c _ hr hb

theorem take_uInt {data : Bytes} (h : data.length < U32) : data.take (uInt data.length) = data := by
  rw [uInt_of_lt h, List.take_length]

/-- The plaintext a history of calls asks to compress. -/
def COp.data : COp → Bytes
  | .setBuffer _ => []
  | .compress d => d

/-- The part of it that is looked at: lengths are converted to 32 bits. -/
def COp.taken : COp → Bytes
  | .setBuffer _ => []
  | .compress d => d.take (uInt d.length)

/-- Buffer sizes are positive and at most `B` (after conversion to 32 bits). -/
def COp.sane (B : Nat) : COp → Prop
  | .setBuffer size => 0 < uInt size ∧ uInt size ≤ B
  | .compress _ => True

/-- Inputs are shorter than 4 GiB. -/
def COp.small : COp → Prop
  | .setBuffer _ => True
  | .compress d => d.length < U32

theorem taken_eq (ops : List COp) (h : ∀ op ∈ ops, op.small) :
    ops.map COp.taken = ops.map COp.data := by
  apply List.map_congr_left
  intro op ho
  cases op with
  | setBuffer _ => rfl
  | compress d => exact take_uInt (h _ ho)

/-- A history of API calls. -/
theorem compressRun_good (C : DeflateOK D plain) (B : Nat) (ops : List COp)
    (hops : ∀ op ∈ ops, op.sane B) (s : CS D) (c : Bytes)
    (hr : C.Rep s.z c s.log.flatten) (hb : 0 < s.bufSize) (hB : s.bufSize ≤ B) :
    ∃ s' new n0 rets, (∀ fuel, n0 ≤ fuel → compressRun fuel ops s = .ok (rets, s')) ∧
      (∀ r ∈ rets, r = 0) ∧
      C.Rep s'.z (c ++ (ops.map COp.taken).flatten) s'.log.flatten ∧ 0 < s'.bufSize ∧
      s'.bufSize ≤ B ∧ s'.log = s.log ++ new ∧ (∀ b ∈ new, b.length ≤ B) := by
  induction ops generalizing s c with
  | nil => exact ⟨s, [], 0, [], fun _ _ => rfl, by simp, by simpa using hr, hb, hB, by simp,
      by simp⟩
  | cons op ops ih =>
    have hops' : ∀ op ∈ ops, op.sane B := fun o ho => hops o (List.mem_cons_of_mem _ ho)
    have hop := hops op List.mem_cons_self
    cases op with
    | setBuffer size =>
      simp only [COp.sane] at hop
      obtain ⟨s', new, n0, rets, h1, h2, h4, h5, h6, h7, h8⟩ :=
        ih hops' (s.setBuffer size) c hr hop.1 hop.2
      exact ⟨s', new, n0, rets, fun f hf => by simp only [compressRun]; exact h1 f hf, h2,
        by simpa [COp.taken] using h4, h5, h6, by simpa [CS.setBuffer] using h7, h8⟩
    | compress d =>
      obtain ⟨s1, new1, n1, g1, g2, g3, g4, g5, _⟩ := compress_good C s c d hr hb
      obtain ⟨s', new, n0, rets, h1, h2, h4, h5, h6, h7, h8⟩ :=
        ih hops' s1 _ g2 (by omega) (by omega)
      refine ⟨s', new1 ++ new, max n0 n1, 0 :: rets, ?_, ?_, ?_, h5, h6, ?_, ?_⟩
      · intro f hf
        simp only [compressRun, g1 f (by omega), h1 f (by omega)]
      · simpa using h2
      · simpa [COp.taken] using h4
      · rw [h7, g4, List.append_assoc]
      · intro b hbm
        rcases List.mem_append.mp hbm with h | h
        · exact Nat.le_trans (g5 b h) hB
        · exact h8 b h

/-- Session creation. -/
theorem CS.create_good (C : DeflateOK D plain) (kind : Nat) (level : Int) (z : D.τ)
    (hz : D.init level = some z) (bufSize : Nat) (hb : 0 < uInt bufSize) (junk : Bytes)
    (hj : junk.length = 120) :
    ∃ s n0, (∀ fuel, n0 ≤ fuel → CS.create D fuel kind level bufSize junk = .ok (some s)) ∧
      C.Rep s.z (headerBytes VERSION kind junk) s.log.flatten ∧ s.bufSize = uInt bufSize ∧
      (∀ b ∈ s.log, b.length ≤ uInt bufSize) ∧ ∃ b, s.log.getLast? = some b ∧
        (b.length < s.bufSize → plain s.log.flatten = headerBytes VERSION kind junk) := by
  have hlen : (headerBytes VERSION kind junk).length = 128 := by
    simp [headerBytes, leEnc_length, hj]
  obtain ⟨s', new, n0, h1, h2, h3, h4, h5, h6⟩ :=
    compress_good C { z := z, bufSize := uInt bufSize, log := [] } [] (headerBytes VERSION kind junk)
      (C.init hz) hb
  rw [take_uInt (by rw [hlen]; decide)] at h2 h6
  refine ⟨s', n0, ?_, by simpa using h2, h3, ?_, ?_⟩
  · intro f hf
    simp only [CS.create, hz, h1 f hf]
    simp
  · intro b hb'
    rw [h4] at hb'
    exact h5 b (by simpa using hb')
  · obtain ⟨b, hb1, hb2⟩ := h6 (by intro h; rw [h] at hlen; cases hlen)
    refine ⟨b, by rw [h4]; simpa using hb1, ?_⟩
    intro hlt
    rw [h3] at hlt
    simpa using hb2 hlt

theorem compressRun_append (fuel : Nat) (a b : List COp) (s : CS D) :
    compressRun fuel (a ++ b) s =
      match compressRun fuel a s with
      | .error e => .error e
      | .ok (r1, s1) =>
        match compressRun fuel b s1 with
        | .error e => .error e
        | .ok (r2, s2) => .ok (r1 ++ r2, s2) := by
  induction a generalizing s with
  | nil => simp only [List.nil_append, compressRun]; cases compressRun fuel b s <;> simp
  | cons op a ih =>
    cases op with
    | setBuffer size => simp only [List.cons_append, compressRun]; exact ih _
    | compress d =>
      simp only [List.cons_append, compressRun]
      cases Zwt.compress fuel s d with
      | error e => simp
      | ok r =>
        obtain ⟨r0, s0⟩ := r
        simp only [ih]
        cases compressRun fuel a s0 with
        | error e => simp
        | ok r =>
          obtain ⟨r1, s1⟩ := r
          simp only
          cases compressRun fuel b s1 <;> simp

/-- Without output room the loop never ends. -/
theorem compressLoop_stuck (C : DeflateOK D plain) (fuel : Nat) (s : CS D) (c e inp : Bytes)
    (hr : C.Rep s.z c e) (hb : s.bufSize = 0) (hi : inp ≠ []) :
    compressLoop fuel s inp = .error .outOfFuel := by
  induction fuel generalizing s c e inp with
  | zero => rfl
  | succ n ih =>
    obtain ⟨h1, h2⟩ := C.noRoom hr inp
    have h3 := C.step hr inp 0
    simp only [compressLoop, if_neg hi, hb, h2]
    rw [if_neg (by decide)]
    exact ih _ _ _ _ h3 rfl (by simpa [h1] using hi)

end Zwt
