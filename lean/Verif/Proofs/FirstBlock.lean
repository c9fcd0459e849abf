import Verif.Proofs.HLEnd

/-! Where the first block of an archive ends, a buffer of content ends. -/

namespace Zwt

variable {Z : Inflater} {plain : Bytes → Bytes}

/-- A callback that only adds to the buffers delivered. -/
def PieceAdds (cb : Cb Z Sess) : Prop :=
  ∀ l s b l' s', cb l s b = .ok (l', s') → s.pieces <+: s'.pieces

theorem readOldIn_adds (cb : Cb Z Sess) (h : PieceAdds cb) (fuel : Nat) (flush : Int) (l : LL Z)
    (s : Sess) (r : Int) (l' : LL Z) (s' : Sess)
    (hr : readOldIn cb fuel flush l s = .ok (r, l', s')) : s.pieces <+: s'.pieces := by
  induction fuel generalizing flush l s with
  | zero => simp [readOldIn] at hr
  | succ fuel ih =>
    simp only [readOldIn] at hr
    split at hr
    · cases hr; exact List.prefix_refl _
    · split at hr
      · cases hr; exact List.prefix_refl _
      · split at hr
        · simp at hr
        · split at hr
          · simp at hr
          · rename_i hcb
            exact (h _ _ _ _ _ hcb).trans (ih _ _ _ hr)

theorem noTouchLoop_adds (cb : Cb Z Sess) (h : PieceAdds cb) (fuel : Nat) (flush : Int) (l : LL Z)
    (s : Sess) (r : Int) (l' : LL Z) (s' : Sess)
    (hr : noTouchLoop cb fuel flush l s = .ok (r, l', s')) : s.pieces <+: s'.pieces := by
  induction fuel generalizing flush l s with
  | zero => simp [noTouchLoop] at hr
  | succ fuel ih =>
    simp only [noTouchLoop] at hr
    split at hr
    · cases hr; exact List.prefix_refl _
    · split at hr
      · cases hr; exact List.prefix_refl _
      · split at hr
        · simp at hr
        · split at hr
          · simp at hr
          · rename_i hcb
            exact (h _ _ _ _ _ hcb).trans (ih _ _ _ hr)

theorem dirCb_adds (ok : AllocOracle) (s s' : Sess) (b : Bytes) (h : dirCb ok s b = .ok s') :
    s.pieces <+: s'.pieces := by
  simp only [dirCb] at h
  split at h
  · simp at h
  · cases h; exact List.prefix_append _ _

theorem v0Cb_adds (ok : AllocOracle) (s s' : Sess) (b : Bytes) (h : v0Cb ok s b = .ok s') :
    s.pieces <+: s'.pieces := by
  simp only [v0Cb] at h
  split at h
  · have := dirCb_adds ok _ _ _ h
    exact this
  · split at h
    · simp only [blobCb] at h
      cases h
      exact List.prefix_append _ _
    · cases h; exact List.prefix_append _ _

theorem dataCb_adds (ok : AllocOracle) : PieceAdds (dataCb (Z := Z) ok) := by
  intro l s b l' s' h
  simp only [dataCb] at h
  split at h
  · simp at h
  · obtain ⟨a, h1, h2⟩ := map_ok h
    cases h2; exact v0Cb_adds ok _ _ _ h1
  · obtain ⟨a, h1, h2⟩ := map_ok h
    cases h2; exact dirCb_adds ok _ _ _ h1
  · obtain ⟨a, h1, h2⟩ := map_ok h
    cases h2
    simp only [blobCb] at h1
    cases h1; exact List.prefix_append _ _

theorem headerCb_adds (ok : AllocOracle) (F : Nat) : PieceAdds (headerCb (Z := Z) ok F) := by
  intro l s b l' s' h
  simp only [headerCb] at h
  split at h
  · split at h
    · split at h
      · split at h <;> simp at h
      · split at h
        · simp at h
        · rename_i hr
          cases h
          have := readOldIn_adds _ (dataCb_adds ok) _ _ _ _ _ _ _ hr
          exact this
    · cases h; exact List.prefix_refl _
  · cases h; exact List.prefix_refl _

theorem sessCb_adds (ok : AllocOracle) (F : Nat) : PieceAdds (sessCb (Z := Z) ok F) := by
  intro l s b l' s' h
  simp only [sessCb] at h
  split at h
  · exact headerCb_adds ok F _ _ _ _ _ h
  · exact dataCb_adds ok _ _ _ _ _ h

theorem sessDecompress_adds (ok : AllocOracle) (fuel : Nat) (flush : Int) (l : LL Z) (s : Sess)
    (d : Bytes) (r : Int) (l' : LL Z) (s' : Sess)
    (h : sessDecompress ok fuel flush l s d = .ok (r, l', s')) : s.pieces <+: s'.pieces := by
  simp only [sessDecompress] at h
  split at h
  · exact readOldIn_adds _ (sessCb_adds ok fuel) _ _ _ _ _ _ _ h
  · exact noTouchLoop_adds _ (sessCb_adds ok fuel) _ _ _ _ _ _ _ h

theorem hlLoop_adds (os : Os) (ok : AllocOracle) (fuel : Nat) (out : Bytes) (n : Nat) (rounds : Nat) :
    ∀ (i total : Nat) (inp : Input) (l : LL Z) (s : Sess) (h : HL) (r : Extracted),
    hlLoop os ok fuel out n rounds i total inp l s h = .ok r → s.pieces <+: r.pieces := by
  induction rounds with
  | zero => intro i total inp l s h r hr; simp [hlLoop] at hr
  | succ rounds ih =>
    intro i total inp l s h r hr
    simp only [hlLoop] at hr
    split at hr
    · cases hr; exact List.prefix_refl _
    · split at hr
      · cases hr; exact List.prefix_refl _
      · split at hr
        · simp at hr
        · rename_i hs
          have h1 := sessDecompress_adds _ _ _ _ _ _ _ _ _ hs
          split at hr
          · simp at hr
          · split at hr
            · exact h1.trans (ih _ _ _ _ _ _ _ hr)
            · cases hr; exact h1

/-- A buffer of content ends where the plaintext of the first 512 KiB of the archive ends. -/
theorem extract_first (C : InflateOK Z plain) (hnil : plain [] = []) (hF : C.Final)
    (ok : AllocOracle) (hdr item : Bytes) (hh : hdr.length = 128) (hi : item.length = 40) (os : Os)
    (out : Bytes) (w : World) (n : Nat) (data : Bytes)
    (hlen : 524288 ≤ (allowed n 0 data).length)
    (hO : Open plain ((allowed n 0 data).take 524288))
    (hP : C.Prompt ((allowed n 0 data).take 524288))
    (hv : hdrVersion ((plain ((allowed n 0 data).take 524288)).take 128) = 0)
    (hk : hdrKind ((plain ((allowed n 0 data).take 524288)).take 128) = CT_DIRECTORY)
    (h128 : 128 < (plain ((allowed n 0 data).take 524288)).length) :
    ∃ n0, ∀ fuel r, n0 ≤ fuel → extract Z os ok fuel hdr item out n ⟨data, false⟩ w = .ok r →
      ∃ k, (r.pieces.take k).flatten = (plain ((allowed n 0 data).take 524288)).drop 128 := by
  have hc : DEF_CHUNK_SIZE = 524288 := rfl
  have hu32 : U32 = 4294967296 := rfl
  have hu : uInt DEF_CHUNK_SIZE = 524288 := uInt_of_lt (by decide)
  have D0 := SInv.create C ok hdr item hh DEF_CHUNK_SIZE DEF_CHUNK_SIZE
    ⟨by omega, by rw [hu]; exact Nat.le_refl _⟩
  have hext : ∀ fuel, extract Z os ok fuel hdr item out n ⟨data, false⟩ w =
      hlLoop os ok fuel out n fuel 0 0 ⟨data, false⟩ (Sess.create Z hdr item DEF_CHUNK_SIZE).1
        (Sess.create Z hdr item DEF_CHUNK_SIZE).2 (HL.init w) := fun _ => rfl
  generalize Sess.create Z hdr item DEF_CHUNK_SIZE = c at D0 hext
  have hns : nextSize n 0 = 524288 ∧ 524288 ≤ data.length ∧
      (allowed n 0 data).take 524288 = data.take 524288 := by
    simp only [allowed, Nat.sub_zero] at hlen ⊢
    simp only [nextSize, hc]
    by_cases hn : n > 0
    · rw [if_pos hn] at hlen ⊢
      rw [List.length_take] at hlen
      refine ⟨?_, by omega, ?_⟩
      · rw [if_pos hn]
        split <;> omega
      · rw [if_pos hn, List.take_take, Nat.min_eq_left (by omega)]
    · rw [if_neg hn] at hlen ⊢
      exact ⟨rfl, hlen, by rw [if_neg hn]⟩
  obtain ⟨a1, a2, a3⟩ := hns
  rw [a3] at hO hP hv hk h128 ⊢
  have hbl : (data.take 524288).length = 524288 := by rw [List.length_take]; omega
  obtain ⟨n1, ⟨ret, l, s, S, hcall⟩ | ⟨h, b1, b2, b3, _⟩⟩ := sess_call C ok item hi DEF_CHUNK_SIZE
    c.1 c.2 [] D0 (hlFlush (0 + 1)) (hlFlush_soft _) (data.take 524288) (by omega)
  rotate_left
  · rw [hnil, List.prefix_nil] at b3
    rw [b3] at b1; simp at b1
  rw [List.nil_append] at S
  obtain ⟨P, p1, p2, p3⟩ := S.archive hi
  have hcodes : ∀ r ∈ l.rets, r = Z_OK := S.codes hF hO (by
    intro h h1 h2
    rw [← hv]
    obtain ⟨v, hv⟩ := h2
    rw [← hv, List.take_left' h1])
  have hPp : P = plain (data.take 524288) := by
    rcases p3 hcodes (.inr hP) (.inl (by intro h; rw [h] at hbl; simp at hbl)) with h | ⟨h, h'⟩
    · exact h
    · exfalso
      obtain ⟨v, hv'⟩ := p1
      apply h'
      rw [← hv, ← hv', List.take_append_of_le_length h]
  rw [← hPp] at hv hk h128 ⊢
  have hpc : s.pieces.flatten = P.drop 128 := by
    generalize s.pieces = pcs at p2
    generalize s.log = lg at p2
    cases p2 with
    | short h => omega
    | version _ h => exact absurd hv h
    | empty h => omega
    | unknown _ _ h => exact absurd hk h
    | file h1 h2 h3 =>
      rw [List.take_left' h1] at hk
      rw [hk] at h3; exact absurd h3 (by decide)
    | dir h1 => rw [List.drop_left' h1]
  refine ⟨n1 + 1, fun fuel r hf hr => ?_⟩
  rw [hext] at hr
  obtain ⟨f, rfl⟩ : ∃ f, fuel = f + 1 := ⟨fuel - 1, by omega⟩
  rw [hlLoop] at hr
  simp only [a1, show ¬ (524288 < 1) by decide, if_false, hcall (f + 1) (by omega),
    show ¬ (data.length < 524288) by omega, decide_false, Bool.false_and, Bool.false_eq_true] at hr
  have : s.pieces <+: r.pieces := by
    split at hr
    · simp at hr
    · split at hr
      · exact hlLoop_adds _ _ _ _ _ _ _ _ _ _ _ _ _ hr
      · cases hr; exact List.prefix_refl _
  obtain ⟨v, hv⟩ := this
  exact ⟨s.pieces.length, by rw [← hv, List.take_left' rfl]; exact hpc⟩

end Zwt
