import Verif.Proofs.HLKeep

/-! The end of an extraction in terms of the archive. -/

namespace Zwt

variable {Z : Inflater} {plain : Bytes → Bytes}

/-- An extraction that ended with `r`: `P` is the plaintext seen, `log` the callbacks made, `h` the
state they led to; `lim` is the part of the input that may be read. -/
structure Done (C : InflateOK Z plain) (ok : AllocOracle) (os : Os) (out : Bytes) (w : World)
    (lim : Bytes) (err : Bool) (short : Prop) (r : Extracted) (P : Bytes) (log : List Ev) (h : HL) :
    Prop where
  pre : P <+: plain lim
  arch : ArchiveLog ok DEF_CHUNK_SIZE P r.pieces log
  run : hlEvents os out (HL.init w) log = .ok h
  world : r.w = h.w
  error : r.hasError = h.hasError
  ret : r.ret = h.ret ∨ (r.ret = CT_NONE ∧ err = true ∧ short)
  noErr : r.hasError = false → err = true → short → r.ret = CT_NONE
  full : err = false → r.hasError = false → (∀ c ∈ r.codes, c = Z_OK) →
    0 < r.room ∨ C.Prompt lim → (lim ≠ [] ∨ 128 ≤ P.length) →
    P = plain lim ∨ (128 ≤ P.length ∧ hdrVersion (P.take 128) ≠ 0)

/-- An extraction that ended with a fault. -/
inductive Broken (plain : Bytes → Bytes) (ok : AllocOracle) (os : Os) (out : Bytes) (w : World)
    (lim : Bytes) (e : Fault) : Prop
  /-- in a callback -/
  | callback {P : Bytes} {pieces : List Bytes} {log : List Ev} : P <+: plain lim →
      ArchiveLog ok DEF_CHUNK_SIZE P pieces log →
      hlEvents os out (HL.init w) log = .error e → Broken plain ok os out w lim e
  /-- an archive of another version -/
  | version : 128 ≤ (plain lim).length → hdrVersion ((plain lim).take 128) ≠ 0 → e = .assertFail →
      Broken plain ok os out w lim e

/-- A stream that can be continued, of an archive of version 0, is accepted throughout. -/
theorem SInv.codes {C : InflateOK Z plain} {ok : AllocOracle} {item0 : Bytes} {B : Nat} {l : LL Z}
    {s : Sess} {given : Bytes} (D : SInv C ok item0 B l s given) (hF : C.Final)
    (hO : Open plain given)
    (hv : ∀ h : Bytes, h.length = 128 → h <+: plain given → hdrVersion h = 0) :
    ∀ r ∈ l.rets, r = Z_OK := by
  cases D with
  | header D => exact (D.fine hF hO).2
  | data h ds D => exact (D.fine hF hO).2
  | bad h D => exact absurd (hv h D.hLen D.pre) D.version

theorem extract_codes (C : InflateOK Z plain) (hF : C.Final) (ok : AllocOracle) (hdr item : Bytes)
    (hh : hdr.length = 128) (hi : item.length = 40) (os : Os) (out : Bytes) (w : World) (n : Nat)
    (inp : Input) (hO : Open plain (allowed n 0 inp.data))
    (hv : hdrVersion ((plain (allowed n 0 inp.data)).take 128) = 0) :
    ∃ n0, ∀ fuel r, n0 ≤ fuel → extract Z os ok fuel hdr item out n inp w = .ok r →
      ∀ c ∈ r.codes, c = Z_OK := by
  obtain ⟨n0, X, hX, hrun⟩ := extract_end C ok hdr item hh hi os out w n inp
  refine ⟨n0, fun fuel r hf hr => ?_⟩
  rw [hrun fuel hf] at hr
  subst hr
  have key : ∀ {l : LL Z} {s : Sess} {g : Bytes}, SInv C ok item DEF_CHUNK_SIZE l s ([] ++ g) →
      g <+: allowed n 0 inp.data → ∀ c ∈ l.rets, c = Z_OK := by
    intro l s g D hp
    rw [List.nil_append] at D
    obtain ⟨t, ht⟩ := hp
    rw [← ht] at hO hv
    refine D.codes hF (hO.left C) ?_
    intro h h1 h2
    obtain ⟨u, hu⟩ := h2.trans (C.mono g t)
    rwa [← hu, List.take_left' h1] at hv
  cases hX with
  | stop hS _ hp => exact key hS hp
  | readErr hS _ hp => exact key hS hp

theorem extract_ends (C : InflateOK Z plain) (ok : AllocOracle) (hdr item : Bytes)
    (hh : hdr.length = 128) (hi : item.length = 40) (os : Os) (out : Bytes) (w : World) (n : Nat)
    (inp : Input) :
    ∃ n0 X, (∀ fuel, n0 ≤ fuel → extract Z os ok fuel hdr item out n inp w = X) ∧
      (∀ r, X = .ok r → ∃ P log h, Done C ok os out w (allowed n 0 inp.data) inp.err
        (n = 0 ∨ inp.data.length < n) r P log h) ∧
      ∀ e, X = .error e → Broken plain ok os out w (allowed n 0 inp.data) e := by
  obtain ⟨n0, X, hX, hrun⟩ := extract_end C ok hdr item hh hi os out w n inp
  refine ⟨n0, X, hrun, ?_, ?_⟩
  · intro r hr
    subst hr
    cases hX with
    | @stop l s g h hS hev hp hf hsh =>
      rw [List.nil_append] at hS
      obtain ⟨P, p1, p2, p3⟩ := hS.archive hi
      obtain ⟨t, ht⟩ := hp
      refine ⟨P, s.log, h, ?_, p2, hev, rfl, rfl, .inl rfl,
        fun h1 h2 h3 => absurd h3 (hsh h1 h2), ?_⟩
      · rw [← ht]; exact p1.trans (C.mono _ _)
      · intro _ he hc hr hne
        have := hf he
        subst this
        exact p3 hc hr hne
    | @readErr l s g h hS hev hp he herr hsh =>
      rw [List.nil_append] at hS
      obtain ⟨P, p1, p2, p3⟩ := hS.archive hi
      obtain ⟨t, ht⟩ := hp
      refine ⟨P, s.log, h, ?_, p2, hev, rfl, he.symm, .inr ⟨rfl, herr, hsh⟩,
        fun _ _ _ => rfl, ?_⟩
      · rw [← ht]; exact p1.trans (C.mono _ _)
      · intro hf; rw [hf] at herr; simp at herr
  · intro e he
    subst he
    cases hX with
    | @fault l s g e hS hev hp =>
      rw [List.nil_append] at hS
      obtain ⟨P, p1, p2, _⟩ := hS.archive hi
      obtain ⟨t, ht⟩ := hp
      refine .callback (P := P) ?_ p2 hev
      rw [← ht]; exact p1.trans (C.mono _ _)
    | @version hd h1 h2 h3 =>
      rw [List.nil_append] at h3
      obtain ⟨t, ht⟩ := h3
      refine .version ?_ ?_ rfl
      · rw [← ht, List.length_append]; omega
      · rw [← ht, List.take_left' h1]; exact h2

/-- The header of a prefix. -/
theorem take_header {P Q : Bytes} (h : P <+: Q) (hl : 128 ≤ P.length) :
    P.take 128 = Q.take 128 ∧ 128 ≤ Q.length := by
  obtain ⟨t, rfl⟩ := h
  exact ⟨by rw [List.take_append_of_le_length hl], by rw [List.length_append]; omega⟩

theorem proto_inner (evs : List Ev) : ∀ (p : Proto), (p.run evs).isSome → ∀ e ∈ evs, e.inner := by
  induction evs with
  | nil => intro p _ e he; simp at he
  | cons x xs ih =>
    intro p h e he
    simp only [Proto.run] at h
    cases hs : p.step x with
    | none => rw [hs] at h; simp at h
    | some p' =>
      rw [hs] at h
      rcases List.mem_cons.mp he with rfl | he
      · cases e with
        | flStart => cases p <;> simp [Proto.step] at hs
        | drStart => cases p <;> simp [Proto.step] at hs
        | _ => trivial
      · exact ih p' h e he

/-- What the callbacks of an archive look like. -/
inductive LogKind (P : Bytes) : List Ev → Prop
  | none : LogKind P []
  | file {ds : List Bytes} : 128 ≤ P.length → hdrVersion (P.take 128) = 0 →
      (hdrKind (P.take 128) = CT_FILE ∨ hdrKind (P.take 128) = CT_BLOB) → ds ≠ [] →
      P.drop 128 = ds.flatten → LogKind P (.flStart :: ds.map .flRead)
  | dir {evs : List Ev} : 128 ≤ P.length → hdrVersion (P.take 128) = 0 →
      hdrKind (P.take 128) = CT_DIRECTORY → (Proto.idle.run evs).isSome → LogKind P (.drStart :: evs)

theorem ArchiveLog.kind {ok : AllocOracle} {B : Nat} {P : Bytes} {pieces : List Bytes}
    {log : List Ev} (h : ArchiveLog ok B P pieces log) : LogKind P log := by
  cases h with
  | short => exact .none
  | version => exact .none
  | empty => exact .none
  | unknown => exact .none
  | file h1 h2 h3 h4 h5 =>
    refine .file (by rw [List.length_append]; omega) ?_ ?_ h4 ?_
    · rw [List.take_left' h1]; exact h2
    · rw [List.take_left' h1]; exact h3
    · rw [List.drop_left' h1]
  | dir h1 h2 h3 h4 h5 _ _ _ _ h6 =>
    refine .dir (by rw [List.length_append]; omega) ?_ ?_ h6
    · rw [List.take_left' h1]; exact h2
    · rw [List.take_left' h1]; exact h3

/-- The state after the callbacks of a directory archive. -/
theorem dirStart_ret (os : Os) (out : Bytes) (w : World) (evs : List Ev) (h : HL)
    (hp : (Proto.idle.run evs).isSome) (hr : hlEvents os out (HL.init w) (.drStart :: evs) = .ok h) :
    h.ret = (hlDirStart os out (HL.init w)).ret := by
  simp only [hlEvents, hlEvent] at hr
  exact (hlEvents_keeps os out evs _ h hr).2.1 (proto_inner evs .idle hp)

theorem hlDirStart_ret' (os : Os) (out : Bytes) (h : HL) :
    (hlDirStart os out h).ret = h.ret ∨
      ((hlDirStart os out h).ret = CT_DIRECTORY ∧ (mkdirRecurse os BASE_DIR_MODE out h.w).1 = 0) := by
  simp only [hlDirStart]
  generalize mkdirRecurse os BASE_DIR_MODE out h.w = x
  obtain ⟨r, w'⟩ := x
  simp only
  split
  · left; rfl
  · rename_i h
    split
    · left; rfl
    · right; exact ⟨rfl, by simpa using h⟩

theorem hlDirStart_ret (os : Os) (out : Bytes) (w : World) :
    (hlDirStart os out (HL.init w)).ret = CT_NONE ∨
      ((hlDirStart os out (HL.init w)).ret = CT_DIRECTORY ∧
        (mkdirRecurse os BASE_DIR_MODE out w).1 = 0) := hlDirStart_ret' os out (HL.init w)

theorem flStart_ret (os : Os) (out : Bytes) (w : World) (ds : List Bytes) (h : HL)
    (hr : hlEvents os out (HL.init w) (.flStart :: ds.map .flRead) = .ok h) :
    h.ret = (hlFileStart os out (HL.init w)).ret := by
  simp only [hlEvents, hlEvent] at hr
  refine (hlEvents_keeps os out _ _ h hr).2.1 ?_
  intro e he
  obtain ⟨d, _, rfl⟩ := List.mem_map.mp he
  trivial

theorem hlFileStart_ret (os : Os) (out : Bytes) (w : World) :
    ((hlFileStart os out (HL.init w)).ret = CT_NONE ∧ (sysOpen os w out FOPEN_MODE true).1 = none) ∨
      ((hlFileStart os out (HL.init w)).ret = CT_FILE ∧
        (sysOpen os w out FOPEN_MODE true).1 ≠ none) := by
  simp only [hlFileStart, HL.init]
  generalize sysOpen os w out FOPEN_MODE true = x
  obtain ⟨r, w'⟩ := x
  cases r with
  | none => left; exact ⟨rfl, rfl⟩
  | some l => right; exact ⟨rfl, by simp⟩

/-- `fopen` with mode "wb" that succeeds leaves an empty file. -/
theorem open_trunc (os : Os) (w w' : World) (p : Bytes) (mode : Nat) (l : Loc)
    (h : sysOpen os w p mode true = (some l, w')) :
    ∃ m, w'.fs = w.fs.put l (.file m []) ∧ w'.cwd = w.cwd ∧ locate os w true p = some l ∧
      (∀ n, w.fs l = some n → ∃ c, n = .file m c) := by
  simp only [sysOpen] at h
  split at h
  · cases h
  · split at h
    · cases h
    · rename_i l' hl
      split at h
      · rename_i m c hf
        split at h
        · cases h
        · simp only [if_true] at h
          cases h
          refine ⟨m, rfl, rfl, hl, ?_⟩
          intro n hn; rw [hf] at hn; cases hn; exact ⟨c, rfl⟩
      · cases h
      · rename_i hnone
        split at h
        · cases h
        · simp only [addNode] at h
          split at h
          · cases h
          · rename_i w2 hw2
            cases h
            split at hw2
            · cases hw2
              refine ⟨_, rfl, rfl, hl, ?_⟩
              intro n hn; rw [hnone] at hn; simp at hn
            · simp at hw2

theorem flReads_good (os : Os) (hq : os.quiet) (out : Bytes) (l : Loc) (m : Nat) (ds : List Bytes) :
    ∀ (h : HL) (c : Bytes), h.w.fs l = some (.file m c) → h.fpOut = some ⟨l, c.length⟩ →
    ∃ h', hlEvents os out h (ds.map .flRead) = .ok h' ∧
      h' = { h with w := h'.w, fpOut := some ⟨l, (c ++ ds.flatten).length⟩ } ∧
      h'.w.cwd = h.w.cwd ∧ h'.w.fs = h.w.fs.put l (.file m (c ++ ds.flatten)) := by
  induction ds with
  | nil =>
    intro h c hc hfd
    refine ⟨h, rfl, ?_, rfl, ?_⟩
    · simp [← hfd]
    · funext x
      simp only [FS.put, List.flatten_nil, List.append_nil]
      split
      · rename_i hx; rw [hx, hc]
      · rfl
  | cons d ds ih =>
    intro h c hc hfd
    have hw := write_end os hq h.w l m c d hc
    obtain ⟨h', g1, g2, g3, g4⟩ := ih
      { h with w := (h.w.put l (.file m (c ++ d))).tick, fpOut := some ⟨l, (c ++ d).length⟩ }
      (c ++ d) (by simp [World.tick, World.put, FS.put]) rfl
    refine ⟨h', ?_, ?_, g3, ?_⟩
    · simp only [List.map_cons, hlEvents, hlEvent, hlFileData, hfd, hw]
      exact g1
    · rw [g2]; simp
    · rw [g4]
      simp only [World.tick, World.put, FS.put_put, List.flatten_cons, List.append_assoc]

/-- A write on an unreliable disk appends a beginning of the data. -/
theorem write_any (os : Os) (w : World) (l : Loc) (m : Nat) (c d : Bytes)
    (h : w.fs l = some (.file m c)) :
    ∃ e w', e <+: d ∧ sysWrite os w ⟨l, c.length⟩ d = (⟨l, (c ++ e).length⟩, w') ∧
      w'.cwd = w.cwd ∧ w'.fs = w.fs.put l (.file m (c ++ e)) := by
  simp only [sysWrite]
  split
  · refine ⟨[], w.tick, List.nil_prefix, by rw [List.append_nil], rfl, ?_⟩
    funext x
    simp only [FS.put, List.append_nil, World.tick]
    split
    · rename_i hx; rw [hx, h]
    · rfl
  · rw [h]
    refine ⟨d.take (os.accepts w.calls d.length),
      (w.put l (.file m (c ++ d.take (os.accepts w.calls d.length)))).tick, List.take_prefix _ _, ?_,
      rfl, rfl⟩
    simp only [List.length_append, pwrite_end]

theorem flReads_any (os : Os) (out : Bytes) (l : Loc) (m : Nat) (ds : List Bytes) :
    ∀ (h : HL) (c : Bytes), h.w.fs l = some (.file m c) → h.fpOut = some ⟨l, c.length⟩ →
    ∃ h' e, e.Sublist ds.flatten ∧ hlEvents os out h (ds.map .flRead) = .ok h' ∧
      h' = { h with w := h'.w, fpOut := some ⟨l, (c ++ e).length⟩ } ∧
      h'.w.cwd = h.w.cwd ∧ h'.w.fs = h.w.fs.put l (.file m (c ++ e)) := by
  induction ds with
  | nil =>
    intro h c hc hfd
    refine ⟨h, [], List.nil_sublist _, rfl, ?_, rfl, ?_⟩
    · simp [← hfd]
    · funext x
      simp only [FS.put, List.append_nil]
      split
      · rename_i hx; rw [hx, hc]
      · rfl
  | cons d ds ih =>
    intro h c hc hfd
    obtain ⟨e, w', w1, w2, w3, w4⟩ := write_any os h.w l m c d hc
    obtain ⟨h', e', g0, g1, g2, g3, g4⟩ := ih
      { h with w := w', fpOut := some ⟨l, (c ++ e).length⟩ }
      (c ++ e) (by show w'.fs l = _; rw [w4]; exact FS.put_same ..) rfl
    refine ⟨h', e ++ e', ?_, ?_, ?_, ?_, ?_⟩
    · rw [List.flatten_cons]
      exact w1.sublist.append g0
    · simp only [List.map_cons, hlEvents, hlEvent, hlFileData, hfd, w2]
      exact g1
    · rw [g2]; simp
    · exact g3.trans w3
    · rw [g4]
      show w'.fs.put _ _ = _
      rw [w4, FS.put_put, List.append_assoc]

/-- The callbacks of a file archive on an unreliable disk: nothing but bytes of the payload, in their
order. -/
theorem file_any (os : Os) (out : Bytes) (w : World) (l : Loc) (ds : List Bytes)
    (ho : (sysOpen os w out FOPEN_MODE true).1 = some l) :
    ∃ h' m e, hlEvents os out (HL.init w) (.flStart :: ds.map .flRead) = .ok h' ∧
      e.Sublist ds.flatten ∧ h'.ret = CT_FILE ∧ h'.w.cwd = w.cwd ∧ locate os w true out = some l ∧
      h'.w.fs = w.fs.put l (.file m e) ∧ (∀ n, w.fs l = some n → ∃ c, n = .file m c) := by
  cases hs : sysOpen os w out FOPEN_MODE true with
  | mk ol w' =>
    rw [hs] at ho
    cases ho
    obtain ⟨m, h1, h2, h3, h4⟩ := open_trunc os w w' out _ l hs
    obtain ⟨h', e, g0, g1, g2, g3, g4⟩ := flReads_any os out l m ds
      { HL.init w with w := w', fpOut := some ⟨l, 0⟩, ret := CT_FILE } [] (by
        show w'.fs l = _
        rw [h1, FS.put_same]) rfl
    refine ⟨h', m, e, ?_, g0, ?_, g3.trans h2, h3, ?_, h4⟩
    · simp only [hlEvents, hlEvent, hlFileStart, HL.init, hs]
      exact g1
    · rw [g2]
    · rw [g4]
      show w'.fs.put _ _ = _
      rw [h1, FS.put_put, List.nil_append]

/-- The callbacks of a file archive: the output file holds the payload. -/
theorem file_good (os : Os) (hq : os.quiet) (out : Bytes) (w : World) (l : Loc) (ds : List Bytes)
    (ho : (sysOpen os w out FOPEN_MODE true).1 = some l) :
    ∃ h' m, hlEvents os out (HL.init w) (.flStart :: ds.map .flRead) = .ok h' ∧
      h'.ret = CT_FILE ∧ h'.hasError = false ∧ h'.w.cwd = w.cwd ∧ locate os w true out = some l ∧
      h'.w.fs = w.fs.put l (.file m ds.flatten) ∧ (∀ n, w.fs l = some n → ∃ c, n = .file m c) := by
  cases hs : sysOpen os w out FOPEN_MODE true with
  | mk ol w' =>
    rw [hs] at ho
    cases ho
    obtain ⟨m, h1, h2, h3, h4⟩ := open_trunc os w w' out _ l hs
    obtain ⟨h', g1, g2, g3, g4⟩ := flReads_good os hq out l m ds
      { HL.init w with w := w', fpOut := some ⟨l, 0⟩, ret := CT_FILE } [] (by
        show w'.fs l = _
        rw [h1, FS.put_same]) rfl
    refine ⟨h', m, ?_, ?_, ?_, g3.trans h2, h3, ?_, h4⟩
    · simp only [hlEvents, hlEvent, hlFileStart, HL.init, hs]
      exact g1
    · rw [g2]
    · rw [g2]; rfl
    · rw [g4]
      show w'.fs.put _ _ = _
      rw [h1, FS.put_put, List.nil_append]

/-- The callbacks of a file archive whose output file cannot be opened. -/
theorem file_bad (os : Os) (out : Bytes) (w : World) (d : Bytes) (ds : List Bytes)
    (ho : (sysOpen os w out FOPEN_MODE true).1 = none) :
    hlEvents os out (HL.init w) (.flStart :: (d :: ds).map .flRead) = .error .nullDeref := by
  cases hs : sysOpen os w out FOPEN_MODE true with
  | mk ol w' =>
    rw [hs] at ho
    cases ho
    simp only [hlEvents, hlEvent, hlFileStart, HL.init, hs, List.map_cons, hlFileData]

end Zwt
