import Verif.Model.HL
import Verif.Proofs.SessionHistory

/-! The extraction loop in terms of the session's callback history. -/

namespace Zwt

variable {Z : Inflater} {plain : Bytes → Bytes}

/-! ### The history only grows -/

/-- A callback that only adds to the history. -/
def Grows (cb : Cb Z Sess) : Prop :=
  ∀ l s b l' s', cb l s b = .ok (l', s') → s.log <+: s'.log

theorem readOldIn_grows (cb : Cb Z Sess) (h : Grows cb) (fuel : Nat) (flush : Int) (l : LL Z)
    (s : Sess) (r : Int) (l' : LL Z) (s' : Sess)
    (hr : readOldIn cb fuel flush l s = .ok (r, l', s')) : s.log <+: s'.log := by
  induction fuel generalizing flush l s with
  | zero => simp [readOldIn] at hr
  | succ fuel ih =>
    simp only [readOldIn] at hr
    split at hr
    · cases hr; exact List.prefix_refl _
    · split at hr
      · cases hr; exact List.prefix_refl _
      · split at hr
        · simp at hr
        · split at hr
          · simp at hr
          · rename_i hcb
            exact (h _ _ _ _ _ hcb).trans (ih _ _ _ hr)

theorem noTouchLoop_grows (cb : Cb Z Sess) (h : Grows cb) (fuel : Nat) (flush : Int) (l : LL Z)
    (s : Sess) (r : Int) (l' : LL Z) (s' : Sess)
    (hr : noTouchLoop cb fuel flush l s = .ok (r, l', s')) : s.log <+: s'.log := by
  induction fuel generalizing flush l s with
  | zero => simp [noTouchLoop] at hr
  | succ fuel ih =>
    simp only [noTouchLoop] at hr
    split at hr
    · cases hr; exact List.prefix_refl _
    · split at hr
      · cases hr; exact List.prefix_refl _
      · split at hr
        · simp at hr
        · split at hr
          · simp at hr
          · rename_i hcb
            exact (h _ _ _ _ _ hcb).trans (ih _ _ _ hr)

theorem dirCb_grows (ok : AllocOracle) (s s' : Sess) (b : Bytes) (h : dirCb ok s b = .ok s') :
    s.log <+: s'.log := by
  simp only [dirCb] at h
  split at h
  · simp at h
  · cases h; exact List.prefix_append _ _

theorem v0Cb_grows (ok : AllocOracle) (s s' : Sess) (b : Bytes) (h : v0Cb ok s b = .ok s') :
    s.log <+: s'.log := by
  simp only [v0Cb] at h
  split at h
  · exact (List.prefix_append _ _).trans (dirCb_grows ok _ _ _ h)
  · split at h
    · simp only [blobCb] at h
      cases h
      exact (List.prefix_append _ _).trans (List.prefix_append _ _)
    · cases h; exact List.prefix_refl _

theorem map_ok {α β : Type} {x : Run α} {f : α → β} {y : β} (h : x.map f = .ok y) :
    ∃ a, x = .ok a ∧ f a = y := by
  cases x with
  | error e => simp [Except.map] at h
  | ok a => exact ⟨a, rfl, by simpa [Except.map] using h⟩

theorem dataCb_grows (ok : AllocOracle) : Grows (dataCb (Z := Z) ok) := by
  intro l s b l' s' h
  simp only [dataCb] at h
  split at h
  · simp at h
  · obtain ⟨a, h1, h2⟩ := map_ok h
    cases h2; exact v0Cb_grows ok _ _ _ h1
  · obtain ⟨a, h1, h2⟩ := map_ok h
    cases h2; exact dirCb_grows ok _ _ _ h1
  · obtain ⟨a, h1, h2⟩ := map_ok h
    cases h2
    simp only [blobCb] at h1
    cases h1; exact List.prefix_append _ _

theorem headerCb_grows (ok : AllocOracle) (F : Nat) : Grows (headerCb (Z := Z) ok F) := by
  intro l s b l' s' h
  simp only [headerCb] at h
  split at h
  · split at h
    · split at h
      · split at h <;> simp at h
      · split at h
        · simp at h
        · rename_i hr
          cases h
          have := readOldIn_grows _ (dataCb_grows ok) _ _ _ _ _ _ _ hr
          exact this
    · cases h; exact List.prefix_refl _
  · cases h; exact List.prefix_refl _

theorem sessCb_grows (ok : AllocOracle) (F : Nat) : Grows (sessCb (Z := Z) ok F) := by
  intro l s b l' s' h
  simp only [sessCb] at h
  split at h
  · exact headerCb_grows ok F _ _ _ _ _ h
  · exact dataCb_grows ok _ _ _ _ _ h

theorem sessDecompress_grows (ok : AllocOracle) (fuel : Nat) (flush : Int) (l : LL Z) (s : Sess)
    (d : Bytes) (r : Int) (l' : LL Z) (s' : Sess)
    (h : sessDecompress ok fuel flush l s d = .ok (r, l', s')) : s.log <+: s'.log := by
  simp only [sessDecompress] at h
  split at h
  · exact readOldIn_grows _ (sessCb_grows ok fuel) _ _ _ _ _ _ _ h
  · exact noTouchLoop_grows _ (sessCb_grows ok fuel) _ _ _ _ _ _ _ h

/-! ### The loop -/

theorem hlFlush_soft (i : Nat) : SoftFlush (hlFlush i) := by
  have h : (i &&& 0x10) >>> 4 = (i >>> 4) % 2 := by
    rw [Nat.shiftRight_and_distrib]
    exact Nat.and_one_is_mod _
  have h2 : (i >>> 4) % 2 < 2 := Nat.mod_lt _ (by omega)
  simp only [hlFlush, h, SoftFlush, Z_NO_FLUSH, Z_PARTIAL_FLUSH]
  generalize (i >>> 4) % 2 = m at h2
  match m, h2 with
  | 0, _ => left; rfl
  | 1, _ => right; rfl

theorem hlEvents_append (os : Os) (out : Bytes) (es es' : List Ev) (h : HL) :
    hlEvents os out h (es ++ es') =
      match hlEvents os out h es with
      | .error e => .error e
      | .ok h => hlEvents os out h es' := by
  induction es generalizing h with
  | nil => rfl
  | cons e es ih =>
    simp only [List.cons_append, hlEvents]
    split
    · rfl
    · exact ih _

/-- One call on an archive session. -/
theorem sess_call (C : InflateOK Z plain) (ok : AllocOracle) (item0 : Bytes)
    (hi : item0.length = 40) (B : Nat) (l : LL Z) (s : Sess) (given : Bytes)
    (D : SInv C ok item0 B l s given) (flush : Int) (hfl : SoftFlush flush) (d : Bytes)
    (hd : d.length < U32) :
    ∃ n1, (∃ ret l' s', SInv C ok item0 B l' s' (given ++ d) ∧
      (∀ fuel, n1 ≤ fuel → sessDecompress ok fuel flush l s d = .ok (ret, l', s'))) ∨
      (∃ h, h.length = 128 ∧ hdrVersion h ≠ 0 ∧ h <+: plain given ∧
      ∀ fuel, n1 ≤ fuel → sessDecompress ok fuel flush l s d = .error .assertFail) := by
  cases D with
  | header D =>
    obtain ⟨ret, l', s', n1, g1, _, g2⟩ := header_call C ok item0 hi B l s given D d hd flush hfl
    exact ⟨n1, .inl ⟨ret, l', s', g1, g2⟩⟩
  | data h ds D =>
    obtain ⟨ret, l', s', n1, ds', g1, g2⟩ := data_call C ok item0 hi B l s given h ds D d hd
    exact ⟨n1, .inl ⟨ret, l', s', .data h ds' g1, fun f hf => g2 f hf _⟩⟩
  | bad h D =>
    obtain ⟨n1, ⟨ret, l', s', g1, g2⟩ | g⟩ := bad_call C ok B l s given h D d
    · exact ⟨n1, .inl ⟨ret, l', s', .bad h g1, fun f hf => g2 f hf _⟩⟩
    · exact ⟨n1, .inr ⟨h, D.hLen, D.version, D.pre, fun f hf => g f hf _⟩⟩

/-- The bytes that may be read: `n` at most if `n > 0`, `total` of them have been read before. -/
def allowed (n total : Nat) (d : Bytes) : Bytes := if n > 0 then d.take (n - total) else d

theorem nextSize_le (n total : Nat) : nextSize n total ≤ DEF_CHUNK_SIZE := by
  simp only [nextSize]; split <;> (try split) <;> (try split) <;> omega

theorem nextSize_zero {n total : Nat} (h : nextSize n total < 1) (d : Bytes) :
    allowed n total d = [] := by
  have hc : DEF_CHUNK_SIZE = 524288 := rfl
  simp only [nextSize, hc] at h
  simp only [allowed]
  by_cases hn : n > 0
  · rw [if_pos hn] at h ⊢
    by_cases ht : n > total
    · rw [if_pos ht] at h
      split at h <;> omega
    · have : n - total = 0 := by omega
      rw [this, List.take_zero]
  · rw [if_neg hn] at h; omega

/-- A full read. -/
theorem allowed_step {n total : Nat} (d : Bytes) (h : ¬ nextSize n total < 1)
    (hd : ¬ d.length < nextSize n total) :
    allowed n total d = d.take (nextSize n total) ++
      allowed n (total + (d.take (nextSize n total)).length) (d.drop (nextSize n total)) := by
  have hc : DEF_CHUNK_SIZE = 524288 := rfl
  have hlen : (d.take (nextSize n total)).length = nextSize n total := by
    rw [List.length_take]; omega
  rw [hlen]
  simp only [allowed]
  by_cases hn : n > 0
  · rw [if_pos hn, if_pos hn]
    have : nextSize n total ≤ n - total := by
      simp only [nextSize, if_pos hn, hc] at h ⊢
      split <;> (try split) <;> omega
    rw [Nat.sub_add_eq]
    conv => lhs; rw [show n - total = nextSize n total + (n - total - nextSize n total) by omega]
    rw [List.take_add]
  · rw [if_neg hn, if_neg hn, List.take_append_drop]

/-- A read that meets the end of the input. -/
theorem allowed_short {n total : Nat} (d : Bytes) (hd : d.length < nextSize n total) :
    allowed n total d = d ∧ (n = 0 ∨ total + d.length < n) := by
  have hc : DEF_CHUNK_SIZE = 524288 := rfl
  simp only [allowed, nextSize, hc] at *
  by_cases hn : n > 0
  · rw [if_pos hn] at hd ⊢
    have : d.length < n - total := by
      split at hd <;> (try split at hd) <;> omega
    exact ⟨List.take_of_length_le (by omega), .inr (by omega)⟩
  · rw [if_neg hn]
    exact ⟨rfl, .inl (by omega)⟩

/-- How the extraction loop ends, in terms of the session's callback history. -/
inductive LoopEnd (C : InflateOK Z plain) (ok : AllocOracle) (item0 : Bytes) (os : Os)
    (out : Bytes) (w : World) (given lim : Bytes) (err : Bool) (short : Prop) :
    Run Extracted → Prop
  | stop {l : LL Z} {s : Sess} {g : Bytes} {h : HL} :
      SInv C ok item0 DEF_CHUNK_SIZE l s (given ++ g) →
      hlEvents os out (HL.init w) s.log = .ok h → g <+: lim → (h.hasError = false → g = lim) →
      (h.hasError = false → err = true → ¬ short) →
      LoopEnd C ok item0 os out w given lim err short
        (.ok ⟨h.ret, h.w, (given ++ g).length, h.hasError, l.rets, l.availOut, s.pieces⟩)
  | readErr {l : LL Z} {s : Sess} {g : Bytes} {h : HL} :
      SInv C ok item0 DEF_CHUNK_SIZE l s (given ++ g) →
      hlEvents os out (HL.init w) s.log = .ok h → g <+: lim → h.hasError = false → err = true →
      short →
      LoopEnd C ok item0 os out w given lim err short
        (.ok ⟨CT_NONE, h.w, (given ++ lim).length, false, l.rets, l.availOut, s.pieces⟩)
  | fault {l : LL Z} {s : Sess} {g : Bytes} {e : Fault} :
      SInv C ok item0 DEF_CHUNK_SIZE l s (given ++ g) →
      hlEvents os out (HL.init w) s.log = .error e → g <+: lim →
      LoopEnd C ok item0 os out w given lim err short (.error e)
  | version {hd : Bytes} : hd.length = 128 → hdrVersion hd ≠ 0 → hd <+: plain (given ++ lim) →
      LoopEnd C ok item0 os out w given lim err short (.error .assertFail)

theorem nextSize_notShort {n : Nat} {given : Bytes} (h : nextSize n given.length < 1) (d : Bytes) :
    ¬ (n = 0 ∨ given.length + d.length < n) := by
  have hc : DEF_CHUNK_SIZE = 524288 := rfl
  simp only [nextSize, hc] at h
  split at h
  · split at h
    · split at h <;> omega
    · omega
  · omega

theorem hlLoop_end (C : InflateOK Z plain) (ok : AllocOracle) (item0 : Bytes)
    (hi : item0.length = 40) (os : Os) (out : Bytes) (w : World) (n : Nat) (err : Bool) (k : Nat) :
    ∀ (data : Bytes), data.length = k → ∀ (i : Nat) (l : LL Z) (s : Sess) (given : Bytes) (h : HL),
    SInv C ok item0 DEF_CHUNK_SIZE l s given → hlEvents os out (HL.init w) s.log = .ok h →
    h.hasError = false →
    ∃ n0 X, LoopEnd C ok item0 os out w given (allowed n given.length data) err
        (n = 0 ∨ given.length + data.length < n) X ∧
      ∀ fuel rounds, n0 ≤ fuel → n0 ≤ rounds →
        hlLoop os ok fuel out n rounds i given.length ⟨data, err⟩ l s h = X := by
  induction k using Nat.strongRecOn with
  | ind k ih =>
    intro data hk i l s given h D hev hne
    by_cases hz : nextSize n given.length < 1
    · refine ⟨1, .ok ⟨h.ret, h.w, (given ++ []).length, h.hasError, l.rets, l.availOut, s.pieces⟩,
        .stop (by rw [List.append_nil]; exact D) hev List.nil_prefix
          (fun _ => (nextSize_zero hz data).symm) (fun _ _ => nextSize_notShort hz data), ?_⟩
      intro fuel rounds _ hr
      obtain ⟨f, rfl⟩ : ∃ f, rounds = f + 1 := ⟨rounds - 1, by omega⟩
      simp only [hlLoop, if_pos hz, List.append_nil]
    · by_cases hsh : data.length < nextSize n given.length
      · -- end of the input
        obtain ⟨a1, a2⟩ := allowed_short data hsh
        have htk : data.take (nextSize n given.length) = data := List.take_of_length_le (by omega)
        cases err with
        | true =>
          refine ⟨1, _, .readErr (g := []) (by rw [List.append_nil]; exact D) hev List.nil_prefix hne
            rfl a2, ?_⟩
          intro fuel rounds _ hr
          obtain ⟨f, rfl⟩ : ∃ f, rounds = f + 1 := ⟨rounds - 1, by omega⟩
          simp only [hlLoop, if_neg hz, hsh, decide_true, Bool.and_self, if_true, a1, htk,
            List.length_append, hne]
        | false =>
          have hu : data.length < U32 := by
            have := nextSize_le n given.length
            have hc : DEF_CHUNK_SIZE = 524288 := rfl
            have : U32 = 4294967296 := rfl
            omega
          obtain ⟨n1, ⟨ret, l', s', g1, g2⟩ | ⟨hd, h1, h2, h3, h4⟩⟩ :=
            sess_call C ok item0 hi _ l s given D _ (hlFlush_soft (i + 1)) data hu
          · obtain ⟨new, hnew⟩ := sessDecompress_grows ok n1 _ l s data _ _ _ (g2 n1 (Nat.le_refl _))
            have hdrop : s'.log.drop s.log.length = new := by rw [← hnew]; simp
            have hall : hlEvents os out (HL.init w) s'.log = hlEvents os out h new := by
              rw [← hnew, hlEvents_append, hev]
            cases hx : hlEvents os out h new with
            | error e =>
              refine ⟨n1 + 1, .error e, .fault g1 (by rw [hall]; exact hx)
                (by rw [a1]; exact List.prefix_refl _), ?_⟩
              intro fuel rounds hf hr
              obtain ⟨f, rfl⟩ : ∃ f, rounds = f + 1 := ⟨rounds - 1, by omega⟩
              simp only [hlLoop, if_neg hz, Bool.and_false, htk, g2 fuel (by omega), hdrop, hx]
              simp
            | ok h' =>
              refine ⟨n1 + 1, _, .stop g1 (by rw [hall]; exact hx)
                (by rw [a1]; exact List.prefix_refl _) (fun _ => a1.symm) (by simp), ?_⟩
              intro fuel rounds hf hr
              obtain ⟨f, rfl⟩ : ∃ f, rounds = f + 1 := ⟨rounds - 1, by omega⟩
              simp only [hlLoop, if_neg hz, Bool.and_false, htk, g2 fuel (by omega), hdrop, hx,
                hsh, decide_true]
              simp
          · refine ⟨n1 + 1, .error .assertFail, .version h1 h2 (h3.trans (C.mono _ _)), ?_⟩
            intro fuel rounds hf hr
            obtain ⟨f, rfl⟩ : ∃ f, rounds = f + 1 := ⟨rounds - 1, by omega⟩
            simp only [hlLoop, if_neg hz, Bool.and_false, htk, h4 fuel (by omega)]
            simp
      · -- a full read
        have hst := allowed_step data hz hsh
        generalize hpc : data.take (nextSize n given.length) = piece at hst
        have hpl : piece.length = nextSize n given.length := by
          rw [← hpc, List.length_take]; omega
        have hu : piece.length < U32 := by
          have := nextSize_le n given.length
          have hc : DEF_CHUNK_SIZE = 524288 := rfl
          have : U32 = 4294967296 := rfl
          omega
        obtain ⟨n1, ⟨ret, l', s', g1, g2⟩ | ⟨hd, h1, h2, h3, h4⟩⟩ :=
          sess_call C ok item0 hi _ l s given D _ (hlFlush_soft (i + 1)) piece hu
        · obtain ⟨new, hnew⟩ := sessDecompress_grows ok n1 _ l s piece _ _ _ (g2 n1 (Nat.le_refl _))
          have hdrop : s'.log.drop s.log.length = new := by rw [← hnew]; simp
          have hall : hlEvents os out (HL.init w) s'.log = hlEvents os out h new := by
            rw [← hnew, hlEvents_append, hev]
          cases hx : hlEvents os out h new with
          | error e =>
            refine ⟨n1 + 1, .error e, .fault g1 (by rw [hall]; exact hx)
              (by rw [hst]; exact List.prefix_append _ _), ?_⟩
            intro fuel rounds hf hr
            obtain ⟨f, rfl⟩ : ∃ f, rounds = f + 1 := ⟨rounds - 1, by omega⟩
            simp only [hlLoop, if_neg hz, hsh, decide_false, Bool.false_and, hpc,
              g2 fuel (by omega), hdrop, hx]
            simp
          | ok h' =>
            cases he : h'.hasError with
            | true =>
              refine ⟨n1 + 1, _, .stop g1 (by rw [hall]; exact hx)
                (by rw [hst]; exact List.prefix_append _ _) (by rw [he]; simp) (by rw [he]; simp), ?_⟩
              intro fuel rounds hf hr
              obtain ⟨f, rfl⟩ : ∃ f, rounds = f + 1 := ⟨rounds - 1, by omega⟩
              simp only [hlLoop, if_neg hz, hsh, decide_false, Bool.false_and, hpc,
                g2 fuel (by omega), hdrop, hx, he]
              simp
            | false =>
              obtain ⟨n2, X, hX, hrun⟩ := ih (data.drop (nextSize n given.length)).length
                (by rw [List.length_drop]; omega) _ rfl (i + 1) l' s' (given ++ piece) h' g1
                (by rw [hall]; exact hx) he
              refine ⟨max n1 n2 + 1, X, ?_, ?_⟩
              · have hlen2 : (given ++ piece).length +
                    (data.drop (nextSize n given.length)).length = given.length + data.length := by
                  rw [List.length_append, List.length_drop]; omega
                rw [hlen2, List.length_append] at hX
                rw [hst]
                cases hX with
                | stop a b c d f =>
                  rw [List.append_assoc] at a ⊢
                  refine .stop a b ?_ ?_ f
                  · obtain ⟨t, ht⟩ := c
                    exact ⟨t, by rw [← ht, List.append_assoc]⟩
                  · intro h0; rw [d h0]
                | readErr a b c d e f =>
                  rw [List.append_assoc] at a ⊢
                  refine .readErr a b ?_ d e f
                  obtain ⟨t, ht⟩ := c
                  exact ⟨t, by rw [← ht, List.append_assoc]⟩
                | fault a b c =>
                  rw [List.append_assoc] at a
                  refine .fault a b ?_
                  obtain ⟨t, ht⟩ := c
                  exact ⟨t, by rw [← ht, List.append_assoc]⟩
                | version a b c =>
                  rw [List.append_assoc] at c
                  exact .version a b c
              · intro fuel rounds hf hr
                obtain ⟨f, rfl⟩ : ∃ f, rounds = f + 1 := ⟨rounds - 1, by omega⟩
                simp only [hlLoop, if_neg hz, hsh, decide_false, Bool.false_and, hpc,
                  g2 fuel (by omega), hdrop, hx, he]
                have := hrun fuel f (by omega) (by omega)
                rw [List.length_append] at this
                simpa using this
        · refine ⟨n1 + 1, .error .assertFail, .version h1 h2 (h3.trans (C.mono _ _)), ?_⟩
          intro fuel rounds hf hr
          obtain ⟨f, rfl⟩ : ∃ f, rounds = f + 1 := ⟨rounds - 1, by omega⟩
          simp only [hlLoop, if_neg hz, hsh, decide_false, Bool.false_and, hpc,
            h4 fuel (by omega)]
          simp

/-- A whole extraction. -/
theorem extract_end (C : InflateOK Z plain) (ok : AllocOracle) (hdr item : Bytes)
    (hh : hdr.length = 128) (hi : item.length = 40) (os : Os) (out : Bytes) (w : World) (n : Nat)
    (inp : Input) :
    ∃ n0 X, LoopEnd C ok item os out w [] (allowed n 0 inp.data) inp.err
        (n = 0 ∨ inp.data.length < n) X ∧
      ∀ fuel, n0 ≤ fuel → extract Z os ok fuel hdr item out n inp w = X := by
  have hu : uInt DEF_CHUNK_SIZE = 524288 := uInt_of_lt (by decide)
  obtain ⟨n0, X, hX, hrun⟩ := hlLoop_end C ok item hi os out w n inp.err _ inp.data rfl 0
    (Sess.create Z hdr item DEF_CHUNK_SIZE).1 (Sess.create Z hdr item DEF_CHUNK_SIZE).2 []
    (HL.init w) (SInv.create C ok hdr item hh _ _ ⟨by omega, by rw [hu]; exact Nat.le_refl _⟩) rfl rfl
  refine ⟨n0, X, by simpa using hX, ?_⟩
  intro fuel hf
  exact hrun fuel fuel hf hf

/-- What a session has shown to the user. -/
theorem SInv.archive {C : InflateOK Z plain} {ok : AllocOracle} {item0 : Bytes}
    (hi : item0.length = 40) {B : Nat} {l : LL Z} {s : Sess} {given : Bytes}
    (D : SInv C ok item0 B l s given) :
    ∃ P, P <+: plain given ∧ ArchiveLog ok B P s.pieces s.log ∧
      ((∀ r ∈ l.rets, r = Z_OK) → 0 < l.availOut ∨ C.Prompt given → (given ≠ [] ∨ 128 ≤ P.length) →
        P = plain given ∨ (128 ≤ P.length ∧ hdrVersion (P.take 128) ≠ 0)) := by
  cases D with
  | header D =>
    obtain ⟨c, p, hr, hal⟩ := D.st
    by_cases hdead : C.Dead l.z
    · refine ⟨[], List.nil_prefix, ?_, ?_⟩
      · rw [D.log.1, D.log.2]; exact .short (by simp)
      · intro hok
        obtain ⟨r, r1, r2⟩ := D.deadRet hdead
        exact absurd (hok r r1) r2
    · obtain ⟨a1, _, _, a4, _, a6⟩ := hal hdead
      refine ⟨p, by rw [← a1]; exact C.sound hr, ?_, ?_⟩
      · rw [D.log.1, D.log.2]; exact .short a4
      · intro _ _ hne
        rcases hne with hne | hne
        · exact .inl (a6 hne)
        · omega
  | data h ds D =>
    obtain ⟨s0, b1, b2, b3, b4, b5⟩ := D.start
    refine ⟨h ++ ds.flatten, D.pre, ?_, fun h1 h2 _ => .inl (D.full h1 h2)⟩
    rw [D.shown hi, b5, startSess_log ok s0 h (by rw [b1]; exact hi) b2 b3 b4.1 ds]
    exact dataLog_archive ok B _ h (by simp [b1, hi]) ds D.hLen D.version D.pieces
  | bad h D =>
    have ht : h.take 128 = h := List.take_of_length_le (by rw [D.hLen]; omega)
    refine ⟨h, D.pre, ?_, fun _ _ _ => .inr ⟨by rw [D.hLen]; omega, ?_⟩⟩
    · rw [D.log]
      exact .version (by rw [D.hLen]; omega) (by rw [ht]; exact D.version)
    · rw [ht]; exact D.version

end Zwt
