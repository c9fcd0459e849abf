import Verif.Proofs.RoundRun

/-! Extraction of an archive that is read at once. -/

namespace Zwt

variable {Z : Inflater} {plain : Bytes → Bytes}

/-- What the extraction returns after its only call on the session. -/
def endOf (l : LL Z) (s : Sess) (read : Nat) : Run HL → Run Extracted
  | .error e => .error e
  | .ok h => .ok ⟨h.ret, h.w, read, h.hasError, l.rets, l.availOut, s.pieces⟩

theorem extract_single (C : InflateOK Z plain) (ok : AllocOracle) (hdr item : Bytes)
    (hh : hdr.length = 128) (hi : item.length = 40) (os : Os) (out : Bytes) (w : World) (n : Nat)
    (data : Bytes) (hlen : (allowed n 0 data).length < 524288) :
    ∃ (l : LL Z) (s : Sess) (n0 : Nat), SInv C ok item DEF_CHUNK_SIZE l s (allowed n 0 data) ∧
      ((plain (allowed n 0 data)).length < 128 + 524288 →
        s.pieces = [] ∨ s.pieces = [(plain (allowed n 0 data)).drop 128]) ∧
      ∀ fuel, n0 ≤ fuel → extract Z os ok fuel hdr item out n ⟨data, false⟩ w =
        endOf l s (allowed n 0 data).length (hlEvents os out (HL.init w) s.log) := by
  have hc : DEF_CHUNK_SIZE = 524288 := rfl
  have hu32 : U32 = 4294967296 := rfl
  have hu : uInt DEF_CHUNK_SIZE = 524288 := uInt_of_lt (by decide)
  have D0 := SInv.create C ok hdr item hh DEF_CHUNK_SIZE DEF_CHUNK_SIZE
    ⟨by omega, by rw [hu]; exact Nat.le_refl _⟩
  have hin : (Sess.create Z hdr item DEF_CHUNK_SIZE).2.isInited = false := rfl
  have htmp : uInt (Sess.create Z hdr item DEF_CHUNK_SIZE).2.tmpSize = 524288 := by
    show uInt (uInt DEF_CHUNK_SIZE) = _
    rw [uInt_idem, hu]
  have hlog0 : (Sess.create Z hdr item DEF_CHUNK_SIZE).2.log.length = 0 := rfl
  have hext : ∀ fuel, extract Z os ok fuel hdr item out n ⟨data, false⟩ w =
      hlLoop os ok fuel out n fuel 0 0 ⟨data, false⟩ (Sess.create Z hdr item DEF_CHUNK_SIZE).1
        (Sess.create Z hdr item DEF_CHUNK_SIZE).2 (HL.init w) := fun _ => rfl
  generalize Sess.create Z hdr item DEF_CHUNK_SIZE = c at D0 hin htmp hlog0 hext
  have H : HPh C item DEF_CHUNK_SIZE c.1 c.2 [] := by
    cases D0 with
    | header H => exact H
    | data h ds D => rw [(D.flags hi).1] at hin; simp at hin
    | bad h D => rw [D.inited] at hin; simp at hin
  have hpiece : data.take (nextSize n 0) = allowed n 0 data := by
    simp only [nextSize, allowed, hc] at hlen ⊢
    by_cases hn : n > 0
    · rw [if_pos hn, if_pos hn, if_pos hn, Nat.sub_zero]
      rw [if_pos hn, Nat.sub_zero, List.length_take] at hlen
      split
      · rfl
      · rw [List.take_of_length_le (by omega), List.take_of_length_le (by omega)]
    · rw [if_neg hn, if_neg hn]
      rw [if_neg hn] at hlen
      exact List.take_of_length_le (by omega)
  have hz : ¬ nextSize n 0 < 1 := by
    simp only [nextSize, hc]
    split <;> (try split) <;> (try split) <;> omega
  have hend : ¬ data.length < nextSize n 0 → nextSize n (0 + (allowed n 0 data).length) < 1 := by
    intro hns
    simp only [nextSize, allowed, hc] at hlen hns ⊢
    by_cases hn : n > 0
    · simp only [if_pos hn, Nat.sub_zero] at hlen hns ⊢
      rw [List.length_take] at hlen ⊢
      split at hns
      · rw [if_neg (by omega)]; omega
      · omega
    · simp only [if_neg hn] at hlen hns; omega
  obtain ⟨ret, l, s, n1, g1, gs, g2⟩ := header_call C ok item hi DEF_CHUNK_SIZE c.1 c.2 [] H
    (allowed n 0 data) (by omega) (hlFlush 1) (hlFlush_soft 1)
  rw [List.nil_append] at g1 gs
  rw [htmp] at gs
  refine ⟨l, s, n1 + 2, g1, gs, ?_⟩
  intro fuel hf
  rw [hext]
  obtain ⟨f, hff⟩ : ∃ f, fuel = f + 2 := ⟨fuel - 2, by omega⟩
  have hcall := g2 fuel (by omega)
  rw [show hlLoop os ok fuel out n fuel 0 0 ⟨data, false⟩ c.1 c.2 (HL.init w) =
    hlLoop os ok fuel out n (f + 2) 0 0 ⟨data, false⟩ c.1 c.2 (HL.init w) by rw [← hff]]
  rw [hlLoop, if_neg hz]
  simp only [Bool.and_false, hpiece, Nat.zero_add, hcall, hlog0, List.drop_zero]
  cases hx : hlEvents os out (HL.init w) s.log with
  | error e => simp [endOf]
  | ok h =>
    simp only [endOf]
    by_cases hsh : data.length < nextSize n 0
    · simp [hsh]
    · cases he : h.hasError with
      | true => simp [he]
      | false =>
        have := hend hsh
        rw [Nat.zero_add] at this
        simp [hsh, he, hlLoop, this]

theorem Pad.length_le {p : Bytes} (h : Pad p) : p.length ≤ 8 := by
  obtain ⟨k, _, h, rfl⟩ := h
  simpa using h

theorem Encodes.bulk {f : Forest} {t : Bytes} (h : Encodes f t) : t.length ≤ f.bulk := by
  induction h with
  | nil => simp [Forest.bulk]
  | file h1 _ _ _ _ _ _ p q _ ih =>
    have := p.length_le; have := q.length_le
    simp only [Forest.bulk, List.length_append]; omega
  | link h1 _ _ _ _ _ _ p q _ ih =>
    have := p.length_le; have := q.length_le
    simp only [Forest.bulk, List.length_append]; omega
  | dir h1 _ _ _ _ p _ h2 _ _ ih ih' =>
    have := p.length_le
    simp only [Forest.bulk, List.length_append]; omega

/-- An archive of a tree in one buffer: no link target is cut. -/
theorem Encodes.linksWhole {f : Forest} {t : Bytes} (h : Encodes f t) (ok : AllocOracle)
    (hok : ∀ k n, ok k n = true) {pieces : List Bytes} (hp : pieces = [] ∨ pieces = [t]) :
    LinksWhole ok pieces := by
  have hnil : specParse ok 0 [] = ⟨[], .inItem []⟩ := specParse_short _ _ _ (by simp)
  rcases hp with rfl | rfl
  · refine ⟨fun n hn => by simp at hn, fun n hn g => ?_⟩
    simp [hnil]
  · refine ⟨fun n hn => ?_, fun n hn g hg => ?_⟩
    · have : n = 0 := by simpa using hn
      subst this
      rintro ⟨g, m, h1, _⟩
      simp [hnil] at h1
    · by_cases h0 : n = 0
      · subst h0; simp [hnil] at hg
      · have : n = 1 := by simp at hn; omega
        subst this
        simp only [List.take_succ_cons, List.take_zero, List.flatten_cons, List.flatten_nil,
          List.append_nil] at hg
        have := h.link_end ok hok 0 _ (List.dropLast_prefix t) g 1 hg
        by_cases ht : t = []
        · subst ht; simp at this
        · have hl : 0 < t.length := List.length_pos_iff.mpr ht
          rw [List.length_dropLast, List.getElem?_eq_none (by omega)] at this
          simp at this

end Zwt
