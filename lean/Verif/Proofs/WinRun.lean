import Verif.Model.Win
import Verif.Proofs.HLEnd

/-! The extraction loop on Windows: as `Proofs/HLRun.lean` and `Proofs/HLEnd.lean`, for the callbacks of
`Model/Win.lean`. -/

namespace Zwt

variable {Z : Inflater} {plain : Bytes → Bytes}

theorem winEvents_append (win : Win) (out : Bytes) (es es' : List Ev) (h : HLW) :
    winEvents win out h (es ++ es') =
      match winEvents win out h es with
      | .error e => .error e
      | .ok h => winEvents win out h es' := by
  induction es generalizing h with
  | nil => rfl
  | cons e es ih =>
    simp only [List.cons_append, winEvents]
    split
    · rfl
    · exact ih _

/-- How the extraction loop ends, in terms of the session's callback history. -/
inductive WLoopEnd (C : InflateOK Z plain) (ok : AllocOracle) (item0 : Bytes) (win : Win)
    (out : Bytes) (w : WWorld) (given lim : Bytes) (err : Bool) (short : Prop) :
    Run WExtracted → Prop
  | stop {l : LL Z} {s : Sess} {g : Bytes} {h : HLW} :
      SInv C ok item0 DEF_CHUNK_SIZE l s (given ++ g) →
      winEvents win out (HLW.init w) s.log = .ok h → g <+: lim → (h.hasError = false → g = lim) →
      (h.hasError = false → err = true → ¬ short) →
      WLoopEnd C ok item0 win out w given lim err short
        (.ok ⟨h.ret, h.w, (given ++ g).length, h.hasError, l.rets, l.availOut, s.pieces⟩)
  | readErr {l : LL Z} {s : Sess} {g : Bytes} {h : HLW} :
      SInv C ok item0 DEF_CHUNK_SIZE l s (given ++ g) →
      winEvents win out (HLW.init w) s.log = .ok h → g <+: lim → h.hasError = false → err = true →
      short →
      WLoopEnd C ok item0 win out w given lim err short
        (.ok ⟨CT_NONE, h.w, (given ++ lim).length, false, l.rets, l.availOut, s.pieces⟩)
  | fault {l : LL Z} {s : Sess} {g : Bytes} {e : Fault} :
      SInv C ok item0 DEF_CHUNK_SIZE l s (given ++ g) →
      winEvents win out (HLW.init w) s.log = .error e → g <+: lim →
      WLoopEnd C ok item0 win out w given lim err short (.error e)
  | version {hd : Bytes} : hd.length = 128 → hdrVersion hd ≠ 0 → hd <+: plain (given ++ lim) →
      WLoopEnd C ok item0 win out w given lim err short (.error .assertFail)

theorem winLoop_end (C : InflateOK Z plain) (ok : AllocOracle) (item0 : Bytes)
    (hi : item0.length = 40) (win : Win) (out : Bytes) (w : WWorld) (n : Nat) (err : Bool) (k : Nat) :
    ∀ (data : Bytes), data.length = k → ∀ (i : Nat) (l : LL Z) (s : Sess) (given : Bytes) (h : HLW),
    SInv C ok item0 DEF_CHUNK_SIZE l s given → winEvents win out (HLW.init w) s.log = .ok h →
    h.hasError = false →
    ∃ n0 X, WLoopEnd C ok item0 win out w given (allowed n given.length data) err
        (n = 0 ∨ given.length + data.length < n) X ∧
      ∀ fuel rounds, n0 ≤ fuel → n0 ≤ rounds →
        winLoop win ok fuel out n rounds i given.length ⟨data, err⟩ l s h = X := by
  induction k using Nat.strongRecOn with
  | ind k ih =>
    intro data hk i l s given h D hev hne
    by_cases hz : nextSize n given.length < 1
    · refine ⟨1, .ok ⟨h.ret, h.w, (given ++ []).length, h.hasError, l.rets, l.availOut, s.pieces⟩,
        .stop (by rw [List.append_nil]; exact D) hev List.nil_prefix
          (fun _ => (nextSize_zero hz data).symm) (fun _ _ => nextSize_notShort hz data), ?_⟩
      intro fuel rounds _ hr
      obtain ⟨f, rfl⟩ : ∃ f, rounds = f + 1 := ⟨rounds - 1, by omega⟩
      simp only [winLoop, if_pos hz, List.append_nil]
    · by_cases hsh : data.length < nextSize n given.length
      · -- end of the input
        obtain ⟨a1, a2⟩ := allowed_short data hsh
        have htk : data.take (nextSize n given.length) = data := List.take_of_length_le (by omega)
        cases err with
        | true =>
          refine ⟨1, _, .readErr (g := []) (by rw [List.append_nil]; exact D) hev List.nil_prefix hne
            rfl a2, ?_⟩
          intro fuel rounds _ hr
          obtain ⟨f, rfl⟩ : ∃ f, rounds = f + 1 := ⟨rounds - 1, by omega⟩
          simp only [winLoop, if_neg hz, hsh, decide_true, Bool.and_self, if_true, a1, htk,
            List.length_append, hne]
        | false =>
          have hu : data.length < U32 := by
            have := nextSize_le n given.length
            have hc : DEF_CHUNK_SIZE = 524288 := rfl
            have : U32 = 4294967296 := rfl
            omega
          obtain ⟨n1, ⟨ret, l', s', g1, g2⟩ | ⟨hd, h1, h2, h3, h4⟩⟩ :=
            sess_call C ok item0 hi _ l s given D _ (hlFlush_soft (i + 1)) data hu
          · obtain ⟨new, hnew⟩ := sessDecompress_grows ok n1 _ l s data _ _ _ (g2 n1 (Nat.le_refl _))
            have hdrop : s'.log.drop s.log.length = new := by rw [← hnew]; simp
            have hall : winEvents win out (HLW.init w) s'.log = winEvents win out h new := by
              rw [← hnew, winEvents_append, hev]
            cases hx : winEvents win out h new with
            | error e =>
              refine ⟨n1 + 1, .error e, .fault g1 (by rw [hall]; exact hx)
                (by rw [a1]; exact List.prefix_refl _), ?_⟩
              intro fuel rounds hf hr
              obtain ⟨f, rfl⟩ : ∃ f, rounds = f + 1 := ⟨rounds - 1, by omega⟩
              simp only [winLoop, if_neg hz, Bool.and_false, htk, g2 fuel (by omega), hdrop, hx]
              simp
            | ok h' =>
              refine ⟨n1 + 1, _, .stop g1 (by rw [hall]; exact hx)
                (by rw [a1]; exact List.prefix_refl _) (fun _ => a1.symm) (by simp), ?_⟩
              intro fuel rounds hf hr
              obtain ⟨f, rfl⟩ : ∃ f, rounds = f + 1 := ⟨rounds - 1, by omega⟩
              simp only [winLoop, if_neg hz, Bool.and_false, htk, g2 fuel (by omega), hdrop, hx,
                hsh, decide_true]
              simp
          · refine ⟨n1 + 1, .error .assertFail, .version h1 h2 (h3.trans (C.mono _ _)), ?_⟩
            intro fuel rounds hf hr
            obtain ⟨f, rfl⟩ : ∃ f, rounds = f + 1 := ⟨rounds - 1, by omega⟩
            simp only [winLoop, if_neg hz, Bool.and_false, htk, h4 fuel (by omega)]
            simp
      · -- a full read
        have hst := allowed_step data hz hsh
        generalize hpc : data.take (nextSize n given.length) = piece at hst
        have hpl : piece.length = nextSize n given.length := by
          rw [← hpc, List.length_take]; omega
        have hu : piece.length < U32 := by
          have := nextSize_le n given.length
          have hc : DEF_CHUNK_SIZE = 524288 := rfl
          have : U32 = 4294967296 := rfl
          omega
        obtain ⟨n1, ⟨ret, l', s', g1, g2⟩ | ⟨hd, h1, h2, h3, h4⟩⟩ :=
          sess_call C ok item0 hi _ l s given D _ (hlFlush_soft (i + 1)) piece hu
        · obtain ⟨new, hnew⟩ := sessDecompress_grows ok n1 _ l s piece _ _ _ (g2 n1 (Nat.le_refl _))
          have hdrop : s'.log.drop s.log.length = new := by rw [← hnew]; simp
          have hall : winEvents win out (HLW.init w) s'.log = winEvents win out h new := by
            rw [← hnew, winEvents_append, hev]
          cases hx : winEvents win out h new with
          | error e =>
            refine ⟨n1 + 1, .error e, .fault g1 (by rw [hall]; exact hx)
              (by rw [hst]; exact List.prefix_append _ _), ?_⟩
            intro fuel rounds hf hr
            obtain ⟨f, rfl⟩ : ∃ f, rounds = f + 1 := ⟨rounds - 1, by omega⟩
            simp only [winLoop, if_neg hz, hsh, decide_false, Bool.false_and, hpc,
              g2 fuel (by omega), hdrop, hx]
            simp
          | ok h' =>
            cases he : h'.hasError with
            | true =>
              refine ⟨n1 + 1, _, .stop g1 (by rw [hall]; exact hx)
                (by rw [hst]; exact List.prefix_append _ _) (by rw [he]; simp) (by rw [he]; simp), ?_⟩
              intro fuel rounds hf hr
              obtain ⟨f, rfl⟩ : ∃ f, rounds = f + 1 := ⟨rounds - 1, by omega⟩
              simp only [winLoop, if_neg hz, hsh, decide_false, Bool.false_and, hpc,
                g2 fuel (by omega), hdrop, hx, he]
              simp
            | false =>
              obtain ⟨n2, X, hX, hrun⟩ := ih (data.drop (nextSize n given.length)).length
                (by rw [List.length_drop]; omega) _ rfl (i + 1) l' s' (given ++ piece) h' g1
                (by rw [hall]; exact hx) he
              refine ⟨max n1 n2 + 1, X, ?_, ?_⟩
              · have hlen2 : (given ++ piece).length +
                    (data.drop (nextSize n given.length)).length = given.length + data.length := by
                  rw [List.length_append, List.length_drop]; omega
                rw [hlen2, List.length_append] at hX
                rw [hst]
                cases hX with
                | stop a b c d f =>
                  rw [List.append_assoc] at a ⊢
                  refine .stop a b ?_ ?_ f
                  · obtain ⟨t, ht⟩ := c
                    exact ⟨t, by rw [← ht, List.append_assoc]⟩
                  · intro h0; rw [d h0]
                | readErr a b c d e f =>
                  rw [List.append_assoc] at a ⊢
                  refine .readErr a b ?_ d e f
                  obtain ⟨t, ht⟩ := c
                  exact ⟨t, by rw [← ht, List.append_assoc]⟩
                | fault a b c =>
                  rw [List.append_assoc] at a
                  refine .fault a b ?_
                  obtain ⟨t, ht⟩ := c
                  exact ⟨t, by rw [← ht, List.append_assoc]⟩
                | version a b c =>
                  rw [List.append_assoc] at c
                  exact .version a b c
              · intro fuel rounds hf hr
                obtain ⟨f, rfl⟩ : ∃ f, rounds = f + 1 := ⟨rounds - 1, by omega⟩
                simp only [winLoop, if_neg hz, hsh, decide_false, Bool.false_and, hpc,
                  g2 fuel (by omega), hdrop, hx, he]
                have := hrun fuel f (by omega) (by omega)
                rw [List.length_append] at this
                simpa using this
        · refine ⟨n1 + 1, .error .assertFail, .version h1 h2 (h3.trans (C.mono _ _)), ?_⟩
          intro fuel rounds hf hr
          obtain ⟨f, rfl⟩ : ∃ f, rounds = f + 1 := ⟨rounds - 1, by omega⟩
          simp only [winLoop, if_neg hz, hsh, decide_false, Bool.false_and, hpc,
            h4 fuel (by omega)]
          simp

/-- A whole extraction. -/
theorem winExtract_end (C : InflateOK Z plain) (ok : AllocOracle) (hdr item : Bytes)
    (hh : hdr.length = 128) (hi : item.length = 40) (win : Win) (out : Bytes) (w : WWorld) (n : Nat)
    (inp : Input) :
    ∃ n0 X, WLoopEnd C ok item win out w [] (allowed n 0 inp.data) inp.err
        (n = 0 ∨ inp.data.length < n) X ∧
      ∀ fuel, n0 ≤ fuel → winExtract Z win ok fuel hdr item out n inp w = X := by
  have hu : uInt DEF_CHUNK_SIZE = 524288 := uInt_of_lt (by decide)
  obtain ⟨n0, X, hX, hrun⟩ := winLoop_end C ok item hi win out w n inp.err _ inp.data rfl 0
    (Sess.create Z hdr item DEF_CHUNK_SIZE).1 (Sess.create Z hdr item DEF_CHUNK_SIZE).2 []
    (HLW.init w) (SInv.create C ok hdr item hh _ _ ⟨by omega, by rw [hu]; exact Nat.le_refl _⟩) rfl rfl
  refine ⟨n0, X, by simpa using hX, ?_⟩
  intro fuel hf
  exact hrun fuel fuel hf hf

/-- An extraction that ended with `r`: `P` is the plaintext seen, `log` the callbacks made, `h` the
state they led to; `lim` is the part of the input that may be read. -/
structure WDone (C : InflateOK Z plain) (ok : AllocOracle) (win : Win) (out : Bytes) (w : WWorld)
    (lim : Bytes) (err : Bool) (short : Prop) (r : WExtracted) (P : Bytes) (log : List Ev) (h : HLW) :
    Prop where
  pre : P <+: plain lim
  arch : ArchiveLog ok DEF_CHUNK_SIZE P r.pieces log
  run : winEvents win out (HLW.init w) log = .ok h
  world : r.w = h.w
  error : r.hasError = h.hasError
  ret : r.ret = h.ret ∨ (r.ret = CT_NONE ∧ err = true ∧ short)
  noErr : r.hasError = false → err = true → short → r.ret = CT_NONE
  full : err = false → r.hasError = false → (∀ c ∈ r.codes, c = Z_OK) →
    0 < r.room ∨ C.Prompt lim → (lim ≠ [] ∨ 128 ≤ P.length) →
    P = plain lim ∨ (128 ≤ P.length ∧ hdrVersion (P.take 128) ≠ 0)

/-- An extraction that ended with a fault. -/
inductive WBroken (plain : Bytes → Bytes) (ok : AllocOracle) (win : Win) (out : Bytes) (w : WWorld)
    (lim : Bytes) (e : Fault) : Prop
  /-- in a callback -/
  | callback {P : Bytes} {pieces : List Bytes} {log : List Ev} : P <+: plain lim →
      ArchiveLog ok DEF_CHUNK_SIZE P pieces log →
      winEvents win out (HLW.init w) log = .error e → WBroken plain ok win out w lim e
  /-- an archive of another version -/
  | version : 128 ≤ (plain lim).length → hdrVersion ((plain lim).take 128) ≠ 0 → e = .assertFail →
      WBroken plain ok win out w lim e

theorem winExtract_codes (C : InflateOK Z plain) (hF : C.Final) (ok : AllocOracle) (hdr item : Bytes)
    (hh : hdr.length = 128) (hi : item.length = 40) (win : Win) (out : Bytes) (w : WWorld) (n : Nat)
    (inp : Input) (hO : Open plain (allowed n 0 inp.data))
    (hv : hdrVersion ((plain (allowed n 0 inp.data)).take 128) = 0) :
    ∃ n0, ∀ fuel r, n0 ≤ fuel → winExtract Z win ok fuel hdr item out n inp w = .ok r →
      ∀ c ∈ r.codes, c = Z_OK := by
  obtain ⟨n0, X, hX, hrun⟩ := winExtract_end C ok hdr item hh hi win out w n inp
  refine ⟨n0, fun fuel r hf hr => ?_⟩
  rw [hrun fuel hf] at hr
  subst hr
  have key : ∀ {l : LL Z} {s : Sess} {g : Bytes}, SInv C ok item DEF_CHUNK_SIZE l s ([] ++ g) →
      g <+: allowed n 0 inp.data → ∀ c ∈ l.rets, c = Z_OK := by
    intro l s g D hp
    rw [List.nil_append] at D
    obtain ⟨t, ht⟩ := hp
    rw [← ht] at hO hv
    refine D.codes hF (hO.left C) ?_
    intro h h1 h2
    obtain ⟨u, hu⟩ := h2.trans (C.mono g t)
    rwa [← hu, List.take_left' h1] at hv
  cases hX with
  | stop hS _ hp => exact key hS hp
  | readErr hS _ hp => exact key hS hp

theorem winExtract_ends (C : InflateOK Z plain) (ok : AllocOracle) (hdr item : Bytes)
    (hh : hdr.length = 128) (hi : item.length = 40) (win : Win) (out : Bytes) (w : WWorld) (n : Nat)
    (inp : Input) :
    ∃ n0 X, (∀ fuel, n0 ≤ fuel → winExtract Z win ok fuel hdr item out n inp w = X) ∧
      (∀ r, X = .ok r → ∃ P log h, WDone C ok win out w (allowed n 0 inp.data) inp.err
        (n = 0 ∨ inp.data.length < n) r P log h) ∧
      ∀ e, X = .error e → WBroken plain ok win out w (allowed n 0 inp.data) e := by
  obtain ⟨n0, X, hX, hrun⟩ := winExtract_end C ok hdr item hh hi win out w n inp
  refine ⟨n0, X, hrun, ?_, ?_⟩
  · intro r hr
    subst hr
    cases hX with
    | @stop l s g h hS hev hp hf hsh =>
      rw [List.nil_append] at hS
      obtain ⟨P, p1, p2, p3⟩ := hS.archive hi
      obtain ⟨t, ht⟩ := hp
      refine ⟨P, s.log, h, ?_, p2, hev, rfl, rfl, .inl rfl,
        fun h1 h2 h3 => absurd h3 (hsh h1 h2), ?_⟩
      · rw [← ht]; exact p1.trans (C.mono _ _)
      · intro _ he hc hr hne
        have := hf he
        subst this
        exact p3 hc hr hne
    | @readErr l s g h hS hev hp he herr hsh =>
      rw [List.nil_append] at hS
      obtain ⟨P, p1, p2, p3⟩ := hS.archive hi
      obtain ⟨t, ht⟩ := hp
      refine ⟨P, s.log, h, ?_, p2, hev, rfl, he.symm, .inr ⟨rfl, herr, hsh⟩,
        fun _ _ _ => rfl, ?_⟩
      · rw [← ht]; exact p1.trans (C.mono _ _)
      · intro hf; rw [hf] at herr; simp at herr
  · intro e he
    subst he
    cases hX with
    | @fault l s g e hS hev hp =>
      rw [List.nil_append] at hS
      obtain ⟨P, p1, p2, _⟩ := hS.archive hi
      obtain ⟨t, ht⟩ := hp
      refine .callback (P := P) ?_ p2 hev
      rw [← ht]; exact p1.trans (C.mono _ _)
    | @version hd h1 h2 h3 =>
      rw [List.nil_append] at h3
      obtain ⟨t, ht⟩ := h3
      refine .version ?_ ?_ rfl
      · rw [← ht, List.length_append]; omega
      · rw [← ht, List.take_left' h1]; exact h2

end Zwt
