import Verif.Proofs.FileArchive
import Verif.Proofs.WinKeep
import Verif.Proofs.WinRun
import Verif.Proofs.Win

/-! Extraction of archives of single files on Windows, used for C106. -/

namespace Zwt

variable {Z : Inflater} {plain : Bytes → Bytes}

theorem winFlReads_good (win : Win) (hq : win.quiet) (out : Bytes) (l : Loc) (ro : Bool)
    (ds : List Bytes) : ∀ (h : HLW) (c : Bytes), h.w.fs l = some (.file ro c) →
    h.fpOut = some ⟨l, c.length⟩ →
    ∃ h', winEvents win out h (ds.map .flRead) = .ok h' ∧
      h' = { h with w := h'.w, fpOut := some ⟨l, (c ++ ds.flatten).length⟩ } ∧
      h'.w.cwd = h.w.cwd ∧ h'.w.fs = h.w.fs.put l (.file ro (c ++ ds.flatten)) := by
  induction ds with
  | nil =>
    intro h c hc hfd
    refine ⟨h, rfl, ?_, rfl, ?_⟩
    · simp [← hfd]
    · funext x
      simp only [WFS.put, List.flatten_nil, List.append_nil]
      split
      · rename_i hx; rw [hx, hc]
      · rfl
  | cons d ds ih =>
    intro h c hc hfd
    have hw : winWrite win h.w ⟨l, c.length⟩ d =
        (⟨l, (c ++ d).length⟩, (h.w.put l (.file ro (c ++ d))).tick) := by
      simp only [winWrite, hq.1, Bool.false_eq_true, if_false, hc,
        List.take_of_length_le (hq.2.1 h.w.calls d.length), pwrite_end, List.length_append]
    obtain ⟨h', g1, g2, g3, g4⟩ := ih
      { h with w := (h.w.put l (.file ro (c ++ d))).tick, fpOut := some ⟨l, (c ++ d).length⟩ }
      (c ++ d) (by simp [WWorld.tick, WWorld.put, WFS.put]) rfl
    refine ⟨h', ?_, ?_, g3, ?_⟩
    · simp only [List.map_cons, winEvents, winEvent, winFileData, hfd, hw]
      exact g1
    · rw [g2]; simp
    · rw [g4]
      simp only [WWorld.tick, WWorld.put, WFS.put_put, List.flatten_cons, List.append_assoc]

/-- `_fsopen` with mode "wb" that succeeds: a new file, or an existing one emptied. -/
theorem winOpen_trunc {win : Win} {w w' : WWorld} {p : Bytes} {l : Loc}
    (h : winOpen win w p false true = (some l, w')) :
    winLocate win w.cwd p = some l ∧ w'.cwd = w.cwd ∧ w'.fs = w.fs.put l (.file false []) ∧
      ∀ x, w.fs l = some x → ∃ c, x = .file false c := by
  unfold winOpen at h
  split at h
  · cases h
  · split at h
    · cases h
    · rename_i l' hl
      split at h
      · rename_i ro' c hf
        split at h
        · cases h
        · rename_i hro
          simp only [if_true, Prod.mk.injEq, Option.some.injEq] at h
          obtain ⟨rfl, rfl⟩ := h
          have hro : ro' = false := by simpa using hro
          subst hro
          refine ⟨hl, rfl, rfl, fun x hx => ?_⟩
          rw [hf] at hx; cases hx; exact ⟨c, rfl⟩
      · cases h
      · rename_i hf
        split at h
        · simp only [Prod.mk.injEq, Option.some.injEq] at h
          obtain ⟨rfl, rfl⟩ := h
          refine ⟨hl, rfl, rfl, fun x hx => ?_⟩
          rw [hf] at hx; cases hx
        · cases h

theorem win_file_good (win : Win) (hq : win.quiet) (out : Bytes) (w : WWorld) (l : Loc) (ds : List Bytes)
    (ho : (winOpen win w out false true).1 = some l) :
    ∃ h', winEvents win out (HLW.init w) (.flStart :: ds.map .flRead) = .ok h' ∧
      h'.ret = CT_FILE ∧ h'.hasError = false ∧ h'.w.cwd = w.cwd ∧ winLocate win w.cwd out = some l ∧
      h'.w.fs = w.fs.put l (.file false ds.flatten) ∧
      (∀ x, w.fs l = some x → ∃ c, x = .file false c) := by
  cases hs : winOpen win w out false true with
  | mk ol w' =>
    rw [hs] at ho
    cases ho
    obtain ⟨h1, h2, h3, h4⟩ := winOpen_trunc hs
    obtain ⟨h', g1, g2, g3, g4⟩ := winFlReads_good win hq out l false ds
      { HLW.init w with w := w', fpOut := some ⟨l, 0⟩, ret := CT_FILE } [] (by
        show w'.fs l = _
        rw [h3]; simp [WFS.put]) rfl
    refine ⟨h', ?_, ?_, ?_, g3.trans h2, h1, ?_, h4⟩
    · simp only [winEvents, winEvent, winFileStart, HLW.init, hs]
      exact g1
    · rw [g2]
    · rw [g2]; rfl
    · rw [g4]
      show w'.fs.put _ _ = _
      rw [h3, WFS.put_put, List.nil_append]

/-- `fwrite` at the end of a file. -/
theorem winWrite_any (win : Win) (w : WWorld) (l : Loc) (ro : Bool) (c d : Bytes)
    (h : w.fs l = some (.file ro c)) :
    ∃ e w', e <+: d ∧ winWrite win w ⟨l, c.length⟩ d = (⟨l, (c ++ e).length⟩, w') ∧ w'.cwd = w.cwd ∧
      w'.fs = w.fs.put l (.file ro (c ++ e)) := by
  simp only [winWrite]
  split
  · refine ⟨[], w.tick, List.nil_prefix, by rw [List.append_nil], rfl, ?_⟩
    funext x
    simp only [WFS.put, List.append_nil]
    split
    · rename_i hx; rw [hx]; exact h
    · rfl
  · rw [h]
    refine ⟨d.take (win.accepts w.calls d.length),
      (w.put l (.file ro (c ++ d.take (win.accepts w.calls d.length)))).tick, List.take_prefix _ _, ?_,
      rfl, rfl⟩
    simp only [List.length_append, pwrite_end]

theorem winFlReads_any (win : Win) (out : Bytes) (l : Loc) (ro : Bool) (ds : List Bytes) :
    ∀ (h : HLW) (c : Bytes), h.w.fs l = some (.file ro c) → h.fpOut = some ⟨l, c.length⟩ →
    ∃ h' e, e.Sublist ds.flatten ∧ winEvents win out h (ds.map .flRead) = .ok h' ∧
      h' = { h with w := h'.w, fpOut := some ⟨l, (c ++ e).length⟩ } ∧
      h'.w.cwd = h.w.cwd ∧ h'.w.fs = h.w.fs.put l (.file ro (c ++ e)) := by
  induction ds with
  | nil =>
    intro h c hc hfd
    refine ⟨h, [], List.nil_sublist _, rfl, ?_, rfl, ?_⟩
    · simp [← hfd]
    · funext x
      simp only [WFS.put, List.append_nil]
      split
      · rename_i hx; rw [hx, hc]
      · rfl
  | cons d ds ih =>
    intro h c hc hfd
    obtain ⟨e, w', w1, w2, w3, w4⟩ := winWrite_any win h.w l ro c d hc
    obtain ⟨h', e', g0, g1, g2, g3, g4⟩ := ih
      { h with w := w', fpOut := some ⟨l, (c ++ e).length⟩ }
      (c ++ e) (by show w'.fs l = _; rw [w4]; simp [WFS.put]) rfl
    refine ⟨h', e ++ e', ?_, ?_, ?_, ?_, ?_⟩
    · rw [List.flatten_cons]
      exact w1.sublist.append g0
    · simp only [List.map_cons, winEvents, winEvent, winFileData, hfd, w2]
      exact g1
    · rw [g2]; simp
    · exact g3.trans w3
    · rw [g4]
      show w'.fs.put _ _ = _
      rw [w4, WFS.put_put, List.append_assoc]

/-- The callbacks of a file archive on an unreliable drive. -/
theorem win_file_any (win : Win) (out : Bytes) (w : WWorld) (l : Loc) (ds : List Bytes)
    (ho : (winOpen win w out false true).1 = some l) :
    ∃ h' e, winEvents win out (HLW.init w) (.flStart :: ds.map .flRead) = .ok h' ∧
      e.Sublist ds.flatten ∧ h'.ret = CT_FILE ∧ h'.w.cwd = w.cwd ∧ winLocate win w.cwd out = some l ∧
      h'.w.fs = w.fs.put l (.file false e) ∧ (∀ x, w.fs l = some x → ∃ c, x = .file false c) := by
  cases hs : winOpen win w out false true with
  | mk ol w' =>
    rw [hs] at ho
    cases ho
    obtain ⟨h1, h2, h3, h4⟩ := winOpen_trunc hs
    obtain ⟨h', e, g0, g1, g2, g3, g4⟩ := winFlReads_any win out l false ds
      { HLW.init w with w := w', fpOut := some ⟨l, 0⟩, ret := CT_FILE } [] (by
        show w'.fs l = _
        rw [h3]; simp [WFS.put]) rfl
    refine ⟨h', e, ?_, g0, ?_, g3.trans h2, h1, ?_, h4⟩
    · simp only [winEvents, winEvent, winFileStart, HLW.init, hs]
      exact g1
    · rw [g2]
    · rw [g4]
      show w'.fs.put _ _ = _
      rw [h3, WFS.put_put, List.nil_append]

/-- The callbacks of a file archive whose output file cannot be opened. -/
theorem win_file_bad (win : Win) (out : Bytes) (w : WWorld) (d : Bytes) (ds : List Bytes)
    (ho : (winOpen win w out false true).1 = none) :
    winEvents win out (HLW.init w) (.flStart :: (d :: ds).map .flRead) = .error .nullDeref := by
  cases hs : winOpen win w out false true with
  | mk ol w' =>
    rw [hs] at ho
    cases ho
    simp only [winEvents, winEvent, winFileStart, HLW.init, hs, List.map_cons, winFileData]

/-- What the callbacks of an archive of a file are. -/
theorem file_archive_log {content junk : Bytes} (hc : content ≠ []) (hj : junk.length = 120)
    {ok : AllocOracle} {B : Nat} {P : Bytes} {pieces : List Bytes} {log : List Ev}
    (hP : P <+: headerBytes 0 2 junk ++ content) (hA : ArchiveLog ok B P pieces log) :
    (log = [] ∧ P ≠ headerBytes 0 2 junk ++ content) ∨
      ∃ ds : List Bytes, ds ≠ [] ∧ log = .flStart :: ds.map .flRead ∧ P.drop 128 = ds.flatten := by
  obtain ⟨e1, e2, e3⟩ := C02_header_roundtrip 0 2 junk hj (by decide) (by decide)
  have e1' : (headerBytes 0 2 junk).length = 128 := e1
  have hdr' : 128 ≤ P.length → P.take 128 = headerBytes 0 2 junk := by
    intro h
    rw [(take_header hP h).1, List.take_left' e1']
  cases hA with
  | short h => exact .inl ⟨rfl, fun hh => by rw [hh] at h; simp at h; omega⟩
  | version h1 h2 => rw [hdr' h1] at h2; exact absurd e2 h2
  | empty h1 h2 =>
    refine .inl ⟨rfl, fun hh => ?_⟩
    rw [hh, List.length_append, e1'] at h1
    exact hc (List.length_eq_zero_iff.mp (by omega))
  | unknown h1 h2 h3 h4 => rw [hdr' h1] at h4; exact absurd e3 h4
  | file h1 h2 h3 h4 h5 => exact .inr ⟨_, h4, rfl, by rw [List.drop_left' h1]⟩
  | dir h1 h2 h3 h4 =>
    have := hdr' (by rw [List.length_append]; omega)
    rw [List.take_left' h1] at this
    rw [this, e3] at h3
    exact absurd h3 (by decide)

/-- Extraction of the archive of a file that is not empty, of whatever making. -/
theorem winExtract_file_content (C : InflateOK Z plain) (hnil : plain [] = []) {content : Bytes}
    (hc : content ≠ []) {junk : Bytes} (hj : junk.length = 120) (ok : AllocOracle) (hdr item : Bytes)
    (hh : hdr.length = 128) (hi : item.length = 40) (win : Win) (hq : win.quiet) (out : Bytes)
    (w : WWorld) (l : Loc) (ho : (winOpen win w out false true).1 = some l) (size : Nat) (data : Bytes)
    (harc : plain (allowed size 0 data) = headerBytes 0 2 junk ++ content) :
    ∃ n0 r, (∀ fuel, n0 ≤ fuel → winExtract Z win ok fuel hdr item out size ⟨data, false⟩ w = .ok r) ∧
      (C.Final → Open plain (allowed size 0 data) → ∀ c ∈ r.codes, c = Z_OK) ∧
      ((∀ c ∈ r.codes, c = Z_OK) → 0 < r.room ∨ C.Prompt (allowed size 0 data) →
        r.ret = CT_FILE ∧ r.w.cwd = w.cwd ∧ winLocate win w.cwd out = some l ∧
        r.w.fs = w.fs.put l (.file false content) ∧ ∀ x, w.fs l = some x → ∃ c, x = .file false c) := by
  obtain ⟨n0, X, h1, h2, h3⟩ := winExtract_ends C ok hdr item hh hi win out w size ⟨data, false⟩
  obtain ⟨e1, e2, e3⟩ := C02_header_roundtrip 0 2 junk hj (by decide) (by decide)
  have e1' : (headerBytes 0 2 junk).length = 128 := e1
  have htk : (headerBytes 0 2 junk ++ content).take 128 = headerBytes 0 2 junk := by
    rw [List.take_left' e1']
  cases hX : X with
  | error e =>
    exfalso
    cases h3 e hX with
    | callback a b c =>
      rw [harc] at a
      rcases file_archive_log hc hj a b with ⟨rfl, _⟩ | ⟨ds, _, rfl, _⟩
      · cases c
      · obtain ⟨h', g, _⟩ := win_file_good win hq out w l ds ho
        rw [g] at c; cases c
    | version a b => rw [harc, htk] at b; exact b e2
  | ok r =>
    refine ⟨n0, r, fun fuel hf => by rw [h1 fuel hf, hX], ?_⟩
    refine ⟨fun hF hT => ?_, fun hcod hroom => ?_⟩
    · obtain ⟨m0, hm⟩ := winExtract_codes C hF ok hdr item hh hi win out w size ⟨data, false⟩ hT
        (by show hdrVersion ((plain (allowed size 0 data)).take 128) = 0; rw [harc, htk]; exact e2)
      exact hm (max n0 m0) r (by omega) (by rw [h1 _ (by omega), hX])
    obtain ⟨P, log, h, Dn⟩ := h2 r hX
    have hpre := Dn.pre
    rw [harc] at hpre
    have hne : allowed size 0 data ≠ [] := by
      intro h
      rw [h, hnil] at harc
      have := congrArg List.length harc
      simp only [List.length_append, List.length_nil] at this
      omega
    have hfull : r.hasError = false → P = headerBytes 0 2 junk ++ content := by
      intro he
      rcases Dn.full rfl he hcod hroom (.inl hne) with h | ⟨h, h'⟩
      · rw [h, harc]
      · rw [(take_header hpre h).1, htk] at h'
        exact absurd e2 h'
    have hret : r.ret = h.ret := by
      rcases Dn.ret with h | h
      · exact h
      · simp at h
    have hrun := Dn.run
    rcases file_archive_log hc hj hpre Dn.arch with ⟨rfl, hP⟩ | ⟨ds, _, rfl, hds⟩
    · cases hrun
      exact absurd (hfull Dn.error) hP
    · obtain ⟨h', g1, g2, g3, g4, g5, g6, g7⟩ := win_file_good win hq out w l ds ho
      rw [hrun] at g1
      cases g1
      have hP := hfull (Dn.error.trans g3)
      rw [hP, List.drop_left' e1'] at hds
      rw [hret, Dn.world]
      exact ⟨g2, g4, g5, by rw [g6, hds], g7⟩

end Zwt
