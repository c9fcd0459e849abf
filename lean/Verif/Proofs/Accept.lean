import Verif.Proofs.HLEnd

/-! Streams that can be continued are accepted by the sessions. -/

namespace Zwt

variable {Z : Inflater} {plain : Bytes → Bytes}

theorem readOldIn_ret {υ : Type} (cb : Cb Z υ) (fuel : Nat) : ∀ (flush : Int) (l : LL Z) (u : υ)
    (ret : Int) (l' : LL Z) (u' : υ), readOldIn cb fuel flush l u = .ok (ret, l', u') →
    ret = Z_OK ∨ ret ∈ l'.rets := by
  induction fuel with
  | zero => intro flush l u ret l' u' h; simp [readOldIn] at h
  | succ fuel ih =>
    intro flush l u ret l' u' h
    simp only [readOldIn] at h
    split at h
    · cases h; exact .inl rfl
    · split at h
      · cases h; exact .inr (by simp [LL.inflate, LL.after])
      · split at h
        · cases h
        · split at h
          · cases h
          · exact ih _ _ _ _ _ _ h

theorem noTouchLoop_ret {υ : Type} (cb : Cb Z υ) (fuel : Nat) : ∀ (flush : Int) (l : LL Z) (u : υ)
    (ret : Int) (l' : LL Z) (u' : υ), noTouchLoop cb fuel flush l u = .ok (ret, l', u') →
    ret = Z_OK ∨ ret ∈ l'.rets := by
  induction fuel with
  | zero => intro flush l u ret l' u' h; simp [noTouchLoop] at h
  | succ fuel ih =>
    intro flush l u ret l' u' h
    simp only [noTouchLoop] at h
    split at h
    · cases h; exact .inl rfl
    · split at h
      · cases h; exact .inr (by simp [LL.inflate, LL.after])
      · split at h
        · cases h
        · split at h
          · cases h
          · exact ih _ _ _ _ _ _ h

theorem sessDecompress_ret (ok : AllocOracle) (fuel : Nat) (flush : Int) (l : LL Z) (s : Sess)
    (d : Bytes) (ret : Int) (l' : LL Z) (s' : Sess)
    (h : sessDecompress ok fuel flush l s d = .ok (ret, l', s')) : ret = Z_OK ∨ ret ∈ l'.rets := by
  simp only [sessDecompress] at h
  split at h
  · exact readOldIn_ret _ _ _ _ _ _ _ _ h
  · exact noTouchLoop_ret _ _ _ _ _ _ _ _ h

/-- A history of calls on a stream that can be continued. -/
theorem sessRun_accepts (C : InflateOK Z plain) (hF : C.Final) (ok : AllocOracle) (item0 : Bytes)
    (hi : item0.length = 40) (B : Nat) (ops : List SOp) (hops : ∀ op ∈ ops, op.sane B) :
    ∀ (l : LL Z) (s : Sess) (given : Bytes), SInv C ok item0 B l s given →
    Open plain (given ++ (ops.map SOp.data).flatten) →
    (∀ h : Bytes, h.length = 128 → h <+: plain (given ++ (ops.map SOp.data).flatten) →
      hdrVersion h = 0) →
    (∀ r ∈ l.rets, r = Z_OK) →
    ∃ n0 rets l' s', SInv C ok item0 B l' s' (given ++ (ops.map SOp.data).flatten) ∧
      (∀ r ∈ rets, r = 0) ∧ (∀ r ∈ l'.rets, r = Z_OK) ∧
      ∀ fuel, n0 ≤ fuel → sessRun ok fuel ops l s = .ok (rets, l', s') := by
  induction ops with
  | nil =>
    intro l s given D _ _ hl
    exact ⟨0, [], l, s, by simpa using D, by simp, hl, fun _ _ => rfl⟩
  | cons op ops ih =>
    intro l s given D hO hv hl
    have hops' : ∀ op ∈ ops, op.sane B := fun o ho => hops o (List.mem_cons_of_mem _ ho)
    have hop := hops op List.mem_cons_self
    cases op with
    | setBuffer size =>
      have hdat : (ops.map SOp.data).flatten = ((SOp.setBuffer size :: ops).map SOp.data).flatten := by
        simp [SOp.data]
      have hl' : ∀ r ∈ (Sess.setBuffer l s size).1.rets, r = Z_OK := by
        intro r hr
        refine hl r ?_
        simp only [Sess.setBuffer] at hr
        split at hr
        · exact hr
        · exact hr
      obtain ⟨n0, rets, l', s', g1, g2, g3, g4⟩ := ih hops' _ _ given (D.setBuffer hi size hop)
        (by rw [hdat]; exact hO) (by rw [hdat]; exact hv) hl'
      exact ⟨n0, rets, l', s', by rw [hdat] at g1; exact g1, g2, g3, g4⟩
    | decompress flush d =>
      obtain ⟨hfl, hd⟩ := hop
      have hdat : given ++ d ++ (ops.map SOp.data).flatten =
          given ++ ((SOp.decompress flush d :: ops).map SOp.data).flatten := by
        simp [SOp.data]
      rw [← hdat] at hO hv
      have hv1 : ∀ h : Bytes, h.length = 128 → h <+: plain (given ++ d) → hdrVersion h = 0 :=
        fun h h1 h2 => hv h h1 (h2.trans (C.mono _ _))
      obtain ⟨n1, ⟨ret, l1, s1, g1, g2⟩ | ⟨h, h1, h2, h3, _⟩⟩ := sess_call C ok item0 hi B l s given D
        flush hfl d hd
      · have hl1 := g1.codes hF (hO.left C) hv1
        have hret : ret = 0 := by
          rcases sessDecompress_ret ok n1 flush l s d ret l1 s1 (g2 n1 (Nat.le_refl _)) with h | h
          · exact h
          · exact hl1 ret h
        subst hret
        obtain ⟨n0, rets, l', s', k1, k2, k3, k4⟩ := ih hops' l1 s1 _ g1 hO hv hl1
        refine ⟨max n0 n1, 0 :: rets, l', s', by rw [← hdat]; exact k1, by simpa using k2, k3, ?_⟩
        intro fuel hf
        simp only [sessRun, g2 fuel (by omega), k4 fuel (by omega)]
      · exact absurd (hv1 h h1 (h3.trans (C.mono _ _))) h2

end Zwt
