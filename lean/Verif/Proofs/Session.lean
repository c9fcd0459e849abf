import Verif.Model.Session
import Verif.Proofs.LLDecompress
import Verif.Proofs.DirFeed

/-! Lemmas about the archive decompress session. -/

namespace Zwt

variable {Z : Inflater} {plain : Bytes → Bytes}

/-! ### The data phase -/

/-- `dataCb` as a total function on the session. -/
def dataStep (ok : AllocOracle) (s : Sess) (b : Bytes) : Sess :=
  match s.cb with
  | .hdr => s
  | .v0 => (v0Cb ok s b).toOption.getD s
  | .dir => (dirCb ok s b).toOption.getD s
  | .blob => (blobCb s b).toOption.getD s

/-- Data-phase invariant: never faults. -/
def DataK (s : Sess) : Prop :=
  s.cb ≠ .hdr ∧ (s.cb = .dir → Inv s.d) ∧ (s.cb = .v0 → s.d.item.length = 40)

theorem dirData_ok (ok : AllocOracle) {d : DirSt} (h : Inv d) (b : Bytes) :
    ∃ d' evs, dirData ok (depthFor b.length) d b = .ok (d', evs) ∧ Inv d' := by
  obtain ⟨d', evs, h1, h2, _⟩ := dirFeed_good ok [b] d h
  simp only [dirFeed] at h1
  split at h1
  · cases h1
  · rename_i d1 e1 heq
    cases h1
    exact ⟨_, _, heq, h2⟩

theorem v0Reset_inv {d : DirSt} (h : d.item.length = 40) : Inv (v0Reset d) := by
  constructor
  · simp [v0Reset, itemBytes, leEnc_length, h]
  · intro _; simp [v0Reset, StInv, ITEM_SIZE]

theorem dirCb_ok (ok : AllocOracle) {s : Sess} (h : Inv s.d) (b : Bytes) :
    ∃ d' evs, dirData ok (depthFor b.length) s.d b = .ok (d', evs) ∧ Inv d' ∧
      dirCb ok s b = .ok { s with d := d', log := s.log ++ evs, pieces := s.pieces ++ [b] } := by
  obtain ⟨d', evs, h1, h2⟩ := dirData_ok ok h b
  exact ⟨d', evs, h1, h2, by simp [dirCb, h1]⟩

theorem dataCb_folds (ok : AllocOracle) :
    Folds (Z := Z) (dataCb ok) (dataStep ok) DataK := by
  intro l s b hK
  obtain ⟨h1, h2, h3⟩ := hK
  cases hc : s.cb with
  | hdr => exact absurd hc h1
  | dir =>
    obtain ⟨d', evs, _, g2, g3⟩ := dirCb_ok ok (h2 hc) b
    constructor
    · simp [dataCb, dataStep, hc, g3, Except.map, Except.toOption]
    · simp [dataStep, hc, g3, Except.toOption, DataK, g2]
  | blob => exact ⟨by simp [dataCb, dataStep, hc, blobCb, Except.map, Except.toOption],
      by simp [dataStep, hc, blobCb, Except.toOption, DataK]⟩
  | v0 =>
    have hi := h3 hc
    by_cases hk : hdrKind s.hdr = CT_DIRECTORY
    · obtain ⟨d', evs, _, g2, g3⟩ := dirCb_ok ok
        (s := { s with d := v0Reset s.d, log := s.log ++ [.drStart], cb := .dir })
        (v0Reset_inv hi) b
      constructor
      · simp [dataCb, dataStep, hc, v0Cb, hk, g3, Except.map, Except.toOption]
      · simp [dataStep, hc, v0Cb, hk, g3, Except.toOption, DataK, g2]
    · by_cases hk2 : hdrKind s.hdr = CT_FILE ∨ hdrKind s.hdr = CT_BLOB
      · constructor
        · simp [dataCb, dataStep, hc, v0Cb, hk, hk2, blobCb, Except.map, Except.toOption]
        · simp [dataStep, hc, v0Cb, hk, hk2, blobCb, Except.toOption, DataK]
      · constructor
        · simp [dataCb, dataStep, hc, v0Cb, hk, hk2, Except.map, Except.toOption]
        · simp [dataStep, hc, v0Cb, hk, hk2, Except.toOption, DataK, hi]

/-- In the data phase the session callback is `dataCb`. -/
theorem sessCb_folds (ok : AllocOracle) (F : Nat) :
    Folds (Z := Z) (sessCb ok F) (dataStep ok) DataK := by
  intro l s b hK
  have h := dataCb_folds (Z := Z) ok l s b hK
  refine ⟨?_, h.2⟩
  rw [← h.1]
  have := hK.1
  unfold sessCb
  cases hc : s.cb <;> simp_all

/-- Session state when the data phase begins. -/
def startSess (s : Sess) (h : Bytes) : Sess :=
  { s with hdr := h, isInited := true, d := { s.d with hasError := false }, cb := .v0,
           ownBuf := false }

/-- User callbacks after the output buffers `ds` were handed to the data callback. -/
def dataLog (ok : AllocOracle) (junk h : Bytes) : List Bytes → List Ev
  | [] => []
  | d :: ds =>
    if hdrKind h = CT_DIRECTORY then
      match dirFeed ok (dirInit junk) (d :: ds) with
      | .ok (_, evs) => .drStart :: evs
      | .error _ => []
    else if hdrKind h = CT_FILE ∨ hdrKind h = CT_BLOB then .flStart :: (d :: ds).map .flRead
    else []

/-- Fields that the data callbacks do not touch. -/
theorem dataStep_frame (ok : AllocOracle) (s : Sess) (b : Bytes) (hK : DataK s) :
    (dataStep ok s b).hdr = s.hdr ∧ (dataStep ok s b).isInited = s.isInited ∧
      (dataStep ok s b).ownBuf = s.ownBuf := by
  obtain ⟨h1, h2, h3⟩ := hK
  cases hc : s.cb with
  | hdr => exact absurd hc h1
  | dir =>
    obtain ⟨d', evs, _, _, g3⟩ := dirCb_ok ok (h2 hc) b
    simp [dataStep, hc, g3, Except.toOption]
  | blob => simp [dataStep, hc, blobCb, Except.toOption]
  | v0 =>
    have hi := h3 hc
    by_cases hk : hdrKind s.hdr = CT_DIRECTORY
    · obtain ⟨d', evs, _, _, g3⟩ := dirCb_ok ok
        (s := { s with d := v0Reset s.d, log := s.log ++ [.drStart], cb := .dir })
        (v0Reset_inv hi) b
      simp [dataStep, hc, v0Cb, hk, g3, Except.toOption]
    · by_cases hk2 : hdrKind s.hdr = CT_FILE ∨ hdrKind s.hdr = CT_BLOB
      · simp [dataStep, hc, v0Cb, hk, hk2, blobCb, Except.toOption]
      · simp [dataStep, hc, v0Cb, hk, hk2, Except.toOption]

theorem foldl_frame (ok : AllocOracle) (ds : List Bytes) (s : Sess) (hK : DataK s) :
    (ds.foldl (dataStep ok) s).hdr = s.hdr ∧
      (ds.foldl (dataStep ok) s).isInited = s.isInited ∧
      (ds.foldl (dataStep ok) s).ownBuf = s.ownBuf ∧ DataK (ds.foldl (dataStep ok) s) := by
  induction ds generalizing s with
  | nil => exact ⟨rfl, rfl, rfl, hK⟩
  | cons b ds ih =>
    have f := dataStep_frame ok s b hK
    have k := ih (dataStep ok s b) (dataCb_folds (Z := ⟨Unit, (), fun _ _ _ _ => ⟨0, (), 0, []⟩⟩)
      ok ⟨(), [], 0, [], 0, 0, []⟩ s b hK).2
    simp only [List.foldl_cons]
    exact ⟨k.1.trans f.1, k.2.1.trans f.2.1, k.2.2.1.trans f.2.2, k.2.2.2⟩

theorem foldl_dir (ok : AllocOracle) (ds : List Bytes) (s : Sess) (hc : s.cb = .dir)
    (hi : Inv s.d) : ∃ d' evs, dirFeed ok s.d ds = .ok (d', evs) ∧
      ds.foldl (dataStep ok) s =
        { s with d := d', log := s.log ++ evs, pieces := s.pieces ++ ds } := by
  induction ds generalizing s with
  | nil => exact ⟨s.d, [], rfl, by simp⟩
  | cons b ds ih =>
    obtain ⟨d', evs, g1, g2, g3⟩ := dirCb_ok ok hi b
    have hs : dataStep ok s b =
        { s with d := d', log := s.log ++ evs, pieces := s.pieces ++ [b] } := by
      simp [dataStep, hc, g3, Except.toOption]
    obtain ⟨d2, e2, k1, k2⟩ := ih (dataStep ok s b) (by rw [hs]; exact hc) (by rw [hs]; exact g2)
    rw [hs] at k1 k2
    refine ⟨d2, evs ++ e2, ?_, ?_⟩
    · simp only [dirFeed, g1]
      simp only at k1
      simp [k1]
    · simp only [List.foldl_cons, hs, k2, List.append_assoc, List.singleton_append]

theorem foldl_blob (ok : AllocOracle) (ds : List Bytes) (s : Sess) (hc : s.cb = .blob) :
    (ds.foldl (dataStep ok) s).log = s.log ++ ds.map .flRead := by
  induction ds generalizing s with
  | nil => simp
  | cons b ds ih =>
    have hs : dataStep ok s b =
        { s with log := s.log ++ [.flRead b], pieces := s.pieces ++ [b] } := by
      simp [dataStep, hc, blobCb, Except.toOption]
    simp only [List.foldl_cons, hs]
    rw [ih { s with log := s.log ++ [.flRead b], pieces := s.pieces ++ [b] } hc]; simp

theorem foldl_other (ok : AllocOracle) (ds : List Bytes) (s : Sess) (hc : s.cb = .v0)
    (h1 : hdrKind s.hdr ≠ CT_DIRECTORY) (h2 : ¬ (hdrKind s.hdr = CT_FILE ∨ hdrKind s.hdr = CT_BLOB)) :
    (ds.foldl (dataStep ok) s).log = s.log := by
  induction ds generalizing s with
  | nil => simp
  | cons b ds ih =>
    have hs : dataStep ok s b =
        { s with d := { s.d with hasError := true }, pieces := s.pieces ++ [b] } := by
      simp [dataStep, hc, v0Cb, h1, h2, Except.toOption]
    simp only [List.foldl_cons, hs]
    rw [ih { s with d := { s.d with hasError := true }, pieces := s.pieces ++ [b] } hc h1 h2]

theorem dataStep_pieces (ok : AllocOracle) (s : Sess) (b : Bytes) (hK : DataK s) :
    (dataStep ok s b).pieces = s.pieces ++ [b] := by
  obtain ⟨h1, h2, h3⟩ := hK
  cases hc : s.cb with
  | hdr => exact absurd hc h1
  | dir =>
    obtain ⟨d', evs, _, _, g3⟩ := dirCb_ok ok (h2 hc) b
    simp [dataStep, hc, g3, Except.toOption]
  | blob => simp [dataStep, hc, blobCb, Except.toOption]
  | v0 =>
    have hi := h3 hc
    by_cases hk : hdrKind s.hdr = CT_DIRECTORY
    · obtain ⟨d', evs, _, _, g3⟩ := dirCb_ok ok
        (s := { s with d := v0Reset s.d, log := s.log ++ [.drStart], cb := .dir })
        (v0Reset_inv hi) b
      simp [dataStep, hc, v0Cb, hk, g3, Except.toOption]
    · by_cases hk2 : hdrKind s.hdr = CT_FILE ∨ hdrKind s.hdr = CT_BLOB
      · simp [dataStep, hc, v0Cb, hk, hk2, blobCb, Except.toOption]
      · simp [dataStep, hc, v0Cb, hk, hk2, Except.toOption]

theorem foldl_pieces (ok : AllocOracle) (ds : List Bytes) (s : Sess) (hK : DataK s) :
    (ds.foldl (dataStep ok) s).pieces = s.pieces ++ ds := by
  induction ds generalizing s with
  | nil => simp
  | cons b ds ih =>
    have k := ih (dataStep ok s b) (dataCb_folds (Z := ⟨Unit, (), fun _ _ _ _ => ⟨0, (), 0, []⟩⟩)
      ok ⟨(), [], 0, [], 0, 0, []⟩ s b hK).2
    rw [List.foldl_cons, k, dataStep_pieces ok s b hK, List.append_assoc, List.singleton_append]

/-- The data phase from its beginning. -/
theorem startSess_log (ok : AllocOracle) (s : Sess) (h : Bytes) (hi : s.d.item.length = 40)
    (hn : s.d.name = none) (hr : s.d.reallocs = 0) (hl : s.log = []) (ds : List Bytes) :
    (ds.foldl (dataStep ok) (startSess s h)).log = dataLog ok (s.d.item.drop 29) h ds := by
  cases ds with
  | nil => simp [dataLog, startSess, hl]
  | cons b ds =>
    by_cases hk : hdrKind h = CT_DIRECTORY
    · have hd : v0Reset (startSess s h).d = dirInit (s.d.item.drop 29) := by
        simp [v0Reset, startSess, dirInit, hn, hr]
      let s1 : Sess := { startSess s h with
        d := dirInit (s.d.item.drop 29), log := [.drStart], cb := .dir }
      have hfst : dataStep ok (startSess s h) b = dataStep ok s1 b := by
        have : v0Cb ok (startSess s h) b = dirCb ok s1 b := by
          have hk' : hdrKind (startSess s h).hdr = CT_DIRECTORY := hk
          rw [v0Cb, if_pos hk', hd]
          simp [s1, startSess, hl]
        simp only [dataStep]
        have hc : (startSess s h).cb = .v0 := rfl
        have hc1 : s1.cb = .dir := rfl
        rw [hc, hc1]
        simp only [this]
        obtain ⟨d', evs, _, _, g3⟩ := dirCb_ok (s := s1) ok
          (dirInit_inv _ (by simp [hi])) b
        simp [g3, Except.toOption]
      obtain ⟨d', evs, k1, k2⟩ := foldl_dir ok (b :: ds) s1 rfl (dirInit_inv _ (by simp [hi]))
      rw [List.foldl_cons, hfst, ← List.foldl_cons (f := dataStep ok), k2]
      have k1 : dirFeed ok (dirInit (s.d.item.drop 29)) (b :: ds) = .ok (d', evs) := k1
      simp [dataLog, hk, k1, s1]
    · by_cases hk2 : hdrKind h = CT_FILE ∨ hdrKind h = CT_BLOB
      · let s1 : Sess := { startSess s h with
          log := [.flStart, .flRead b], cb := .blob, pieces := s.pieces ++ [b] }
        have hfst : dataStep ok (startSess s h) b = s1 := by
          have hk' : hdrKind (startSess s h).hdr ≠ CT_DIRECTORY := hk
          have hk2' : hdrKind (startSess s h).hdr = CT_FILE ∨ hdrKind (startSess s h).hdr = CT_BLOB := hk2
          have hc : (startSess s h).cb = .v0 := rfl
          simp only [dataStep, hc, v0Cb, if_neg hk', if_pos hk2', blobCb, Except.toOption,
            Option.getD_some]
          simp [s1, startSess, hl]
        rw [List.foldl_cons, hfst, foldl_blob ok ds s1 rfl]
        simp [dataLog, hk, hk2, s1]
      · rw [foldl_other ok _ _ rfl hk hk2]
        simp [dataLog, hk, hk2, startSess, hl]

end Zwt
