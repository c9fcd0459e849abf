import Verif.Proofs.HLSmall
import Verif.Proofs.WalkRun
import Verif.Spec.WalkSample
import Verif.Spec.HLSample

/-! Extraction of archives of single files, used for C40 and C105. -/

namespace Zwt

variable {Z : Inflater} {plain : Bytes → Bytes}

/-- Extraction of the archive of a file that is not empty, of whatever making. -/
theorem extract_file_content (C : InflateOK Z plain) (hnil : plain [] = []) {content : Bytes}
    (hc : content ≠ []) {junk : Bytes} (hj : junk.length = 120) (ok : AllocOracle) (hdr item : Bytes)
    (hh : hdr.length = 128) (hi : item.length = 40) (os : Os) (hq : os.quiet) (out : Bytes)
    (w : World) (l : Loc) (ho : (sysOpen os w out 0o666 true).1 = some l) (size : Nat) (data : Bytes)
    (harc : plain (allowed size 0 data) = headerBytes 0 2 junk ++ content) :
    ∃ n0 r, (∀ fuel, n0 ≤ fuel → extract Z os ok fuel hdr item out size ⟨data, false⟩ w = .ok r) ∧
      (C.Final → Open plain (allowed size 0 data) → ∀ c ∈ r.codes, c = Z_OK) ∧
      ((∀ c ∈ r.codes, c = Z_OK) → 0 < r.room ∨ C.Prompt (allowed size 0 data) →
        r.ret = CT_FILE ∧ r.w.cwd = w.cwd ∧
        locate os w true out = some l ∧ ∃ m, r.w.fs = w.fs.put l (.file m content) ∧
          ∀ x, w.fs l = some x → ∃ c, x = .file m c) := by
  obtain ⟨n0, X, h1, h2, h3⟩ := extract_ends C ok hdr item hh hi os out w size ⟨data, false⟩
  obtain ⟨e1, e2, e3⟩ := C02_header_roundtrip 0 2 junk hj (by decide) (by decide)
  have e1' : (headerBytes 0 2 junk).length = 128 := e1
  have htk : (headerBytes 0 2 junk ++ content).take 128 = headerBytes 0 2 junk := by
    rw [List.take_left' e1']
  have key : ∀ {P pieces log}, P <+: headerBytes 0 2 junk ++ content →
      ArchiveLog ok DEF_CHUNK_SIZE P pieces log →
      (log = [] ∧ P ≠ headerBytes 0 2 junk ++ content) ∨
        ∃ ds : List Bytes, log = .flStart :: ds.map .flRead ∧ P.drop 128 = ds.flatten := by
    intro P pieces log hP hA
    have hdr' : 128 ≤ P.length → P.take 128 = headerBytes 0 2 junk := by
      intro h
      rw [(take_header hP h).1, htk]
    cases hA with
    | short h => exact .inl ⟨rfl, fun hh => by rw [hh] at h; simp at h; omega⟩
    | version h1 h2 => rw [hdr' h1] at h2; exact absurd e2 h2
    | empty h1 h2 =>
      refine .inl ⟨rfl, fun hh => ?_⟩
      rw [hh, List.length_append, e1'] at h1
      exact hc (List.length_eq_zero_iff.mp (by omega))
    | unknown h1 h2 h3 h4 => rw [hdr' h1] at h4; exact absurd e3 h4
    | file h1 h2 h3 h4 h5 => exact .inr ⟨_, rfl, by rw [List.drop_left' h1]⟩
    | dir h1 h2 h3 h4 =>
      have := hdr' (by rw [List.length_append]; omega)
      rw [List.take_left' h1] at this
      rw [this, e3] at h3
      exact absurd h3 (by decide)
  cases hX : X with
  | error e =>
    exfalso
    cases h3 e hX with
    | callback a b c =>
      rw [harc] at a
      rcases key a b with ⟨rfl, _⟩ | ⟨ds, rfl, _⟩
      · cases c
      · obtain ⟨h', m, g, _⟩ := file_good os hq out w l ds ho
        rw [g] at c; cases c
    | version a b => rw [harc, htk] at b; exact b e2
  | ok r =>
    refine ⟨n0, r, fun fuel hf => by rw [h1 fuel hf, hX], ?_⟩
    refine ⟨fun hF hT => ?_, fun hcod hroom => ?_⟩
    · obtain ⟨m0, hm⟩ := extract_codes C hF ok hdr item hh hi os out w size ⟨data, false⟩
        hT
        (by show hdrVersion ((plain (allowed size 0 data)).take 128) = 0; rw [harc, htk]; exact e2)
      exact hm (max n0 m0) r (by omega) (by rw [h1 _ (by omega), hX])
    obtain ⟨P, log, h, Dn⟩ := h2 r hX
    have hpre := Dn.pre
    rw [harc] at hpre
    have hne : allowed size 0 data ≠ [] := by
      intro h
      rw [h, hnil] at harc
      have := congrArg List.length harc
      simp only [List.length_append, List.length_nil] at this
      omega
    have hfull : r.hasError = false → P = headerBytes 0 2 junk ++ content := by
      intro he
      rcases Dn.full rfl he hcod hroom
        (.inl hne) with h | ⟨h, h'⟩
      · rw [h, harc]
      · rw [(take_header hpre h).1, htk] at h'
        exact absurd e2 h'
    have hret : r.ret = h.ret := by
      rcases Dn.ret with h | h
      · exact h
      · simp at h
    have hrun := Dn.run
    rcases key hpre Dn.arch with ⟨rfl, hP⟩ | ⟨ds, rfl, hds⟩
    · cases hrun
      exact absurd (hfull Dn.error) hP
    · obtain ⟨h', m, g1, g2, g3, g4, g5, g6, g7⟩ := file_good os hq out w l ds ho
      rw [hrun] at g1
      cases g1
      have hP := hfull (Dn.error.trans g3)
      rw [hP, List.drop_left' e1'] at hds
      rw [hret, Dn.world]
      exact ⟨g2, g4, g5, m, by rw [g6, hds], g7⟩

end Zwt
