import Verif.Proofs.LLTest

/-! The second test program: its loop. -/

namespace Zwt

variable {Z : Inflater} {plain : Bytes → Bytes}

/-- How the loop ends, in terms of the session's callback history; `given` has been passed to the
session before, `data` is left. -/
inductive LtLoopEnd (C : InflateOK Z plain) (ok : AllocOracle) (item0 : Bytes) (os : Os)
    (out : Bytes) (w : World) (given data : Bytes) (err : Bool) : Run LTEnd → Prop
  | stop {l : LL Z} {s : Sess} {g : Bytes} {h : LT} :
      SInv C ok item0 LT_CHUNK l s (given ++ g) →
      ltEvents os out (LT.init w) s.log = .ok h → g <+: data →
      (h.hasError = false → err = false → g = data) →
      LtLoopEnd C ok item0 os out w given data err (.ok ⟨h, l.rets, l.availOut, s.pieces⟩)
  | fault {l : LL Z} {s : Sess} {g : Bytes} {e : Fault} :
      SInv C ok item0 LT_CHUNK l s (given ++ g) →
      ltEvents os out (LT.init w) s.log = .error e → g <+: data →
      LtLoopEnd C ok item0 os out w given data err (.error e)
  | version {hd : Bytes} : hd.length = 128 → hdrVersion hd ≠ 0 → hd <+: plain (given ++ data) →
      LtLoopEnd C ok item0 os out w given data err (.error .assertFail)

theorem LtLoopEnd.more {C : InflateOK Z plain} {ok : AllocOracle} {item0 : Bytes} {os : Os}
    {out : Bytes} {w : World} {given piece data : Bytes} {err : Bool} {X : Run LTEnd}
    (h : LtLoopEnd C ok item0 os out w (given ++ piece) data err X) :
    LtLoopEnd C ok item0 os out w given (piece ++ data) err X := by
  cases h with
  | stop a b c d =>
    rw [List.append_assoc] at a
    exact .stop a b (by simpa using c) (fun x y => by rw [d x y])
  | fault a b c =>
    rw [List.append_assoc] at a
    exact .fault a b (by simpa using c)
  | version a b c =>
    rw [List.append_assoc] at c
    exact .version a b c

theorem ltLoop_end (C : InflateOK Z plain) (ok : AllocOracle) (item0 : Bytes)
    (hi : item0.length = 40) (os : Os) (out : Bytes) (w : World) (err : Bool) (k : Nat) :
    ∀ (data : Bytes), data.length = k → ∀ (i : Nat) (l : LL Z) (s : Sess) (given : Bytes) (h : LT),
    SInv C ok item0 LT_CHUNK l s given → ltEvents os out (LT.init w) s.log = .ok h →
    ∃ n0 X, LtLoopEnd C ok item0 os out w given data err X ∧
      ∀ fuel rounds, n0 ≤ fuel → n0 ≤ rounds →
        ltLoop os ok fuel out rounds i ⟨data, err⟩ l s h = X := by
  have hu32 : U32 = 4294967296 := rfl
  induction k using Nat.strongRecOn with
  | ind k ih =>
    intro data hk i l s given h D hev
    by_cases hstop : (decide (data.length < LT_CHUNK) && err) = true
    · refine ⟨1, _, .stop (g := []) (by rw [List.append_nil]; exact D) hev List.nil_prefix ?_, ?_⟩
      · simp only [Bool.and_eq_true] at hstop
        intro _ he; rw [he] at hstop; exact absurd hstop.2 (by simp)
      · intro fuel rounds _ hr
        obtain ⟨f, rfl⟩ : ∃ f, rounds = f + 1 := ⟨rounds - 1, by omega⟩
        simp only [ltLoop, if_pos hstop]
    · generalize hpc : data.take LT_CHUNK = piece
      generalize hrs : data.drop LT_CHUNK = left
      have hdata : data = piece ++ left := by rw [← hpc, ← hrs, List.take_append_drop]
      have hpl : piece.length ≤ 4096 := by
        rw [← hpc, List.length_take]; exact Nat.min_le_left _ _
      have hlen : left.length = data.length - 4096 := by
        rw [← hrs, List.length_drop]; rfl
      obtain ⟨n1, ⟨ret, l', s', g1, g2⟩ | ⟨hd, h1, h2, h3, h4⟩⟩ :=
        sess_call C ok item0 hi _ l s given D _ (hlFlush_soft (i + 1)) piece (by omega)
      · obtain ⟨new, hnew⟩ := sessDecompress_grows ok n1 _ l s piece _ _ _ (g2 n1 (Nat.le_refl _))
        have hdrop : s'.log.drop s.log.length = new := by rw [← hnew]; simp
        have hall : ltEvents os out (LT.init w) s'.log = ltEvents os out h new := by
          rw [← hnew, ltEvents_append, hev]
        cases hx : ltEvents os out h new with
        | error e =>
          refine ⟨n1 + 1, .error e, .fault g1 (by rw [hall]; exact hx)
            (by rw [hdata]; exact List.prefix_append _ _), ?_⟩
          intro fuel rounds hf hr
          obtain ⟨f, rfl⟩ : ∃ f, rounds = f + 1 := ⟨rounds - 1, by omega⟩
          simp only [ltLoop, if_neg hstop, hpc, g2 fuel (by omega), hdrop, hx]
        | ok h' =>
          by_cases hgo : (!decide (data.length < LT_CHUNK) && !h'.hasError) = true
          · have hge : ¬ data.length < 4096 := by
              simp only [Bool.and_eq_true, Bool.not_eq_true', decide_eq_false_iff_not] at hgo
              exact hgo.1
            obtain ⟨n2, X, hX, hrun⟩ := ih left.length (by omega) _ rfl (i + 1) l' s' (given ++ piece)
              h' g1 (by rw [hall]; exact hx)
            refine ⟨max n1 n2 + 1, X, by rw [hdata]; exact hX.more, ?_⟩
            intro fuel rounds hf hr
            obtain ⟨f, rfl⟩ : ∃ f, rounds = f + 1 := ⟨rounds - 1, by omega⟩
            simp only [ltLoop, if_neg hstop, hpc, hrs, g2 fuel (by omega), hdrop, hx, if_pos hgo]
            exact hrun fuel f (by omega) (by omega)
          · refine ⟨n1 + 1, _, .stop g1 (by rw [hall]; exact hx)
              (by rw [hdata]; exact List.prefix_append _ _) ?_, ?_⟩
            · intro he _
              rw [he] at hgo
              simp only [Bool.not_false, Bool.and_true, Bool.not_eq_true', decide_eq_false_iff_not,
                Decidable.not_not] at hgo
              have : LT_CHUNK = 4096 := rfl
              rw [hdata, List.length_eq_zero_iff.mp (by omega : left.length = 0), List.append_nil]
            · intro fuel rounds hf hr
              obtain ⟨f, rfl⟩ : ∃ f, rounds = f + 1 := ⟨rounds - 1, by omega⟩
              simp only [ltLoop, if_neg hstop, hpc, g2 fuel (by omega), hdrop, hx, if_neg hgo]
      · refine ⟨n1 + 1, .error .assertFail, .version h1 h2 (h3.trans (C.mono _ _)), ?_⟩
        intro fuel rounds hf hr
        obtain ⟨f, rfl⟩ : ∃ f, rounds = f + 1 := ⟨rounds - 1, by omega⟩
        simp only [ltLoop, if_neg hstop, hpc, h4 fuel (by omega)]

theorem ltExtract_end (C : InflateOK Z plain) (ok : AllocOracle) (hdr item : Bytes)
    (hh : hdr.length = 128) (hi : item.length = 40) (os : Os) (out : Bytes) (w : World) (inp : Input) :
    ∃ n0 X, LtLoopEnd C ok item os out w [] inp.data inp.err X ∧
      ∀ fuel, n0 ≤ fuel → ltExtract Z os ok fuel hdr item out inp w = X := by
  have hu : uInt LT_CHUNK = 4096 := uInt_of_lt (by decide)
  obtain ⟨n0, X, hX, hrun⟩ := ltLoop_end C ok item hi os out w inp.err _ inp.data rfl 0
    (Sess.create Z hdr item LT_CHUNK).1 (Sess.create Z hdr item LT_CHUNK).2 []
    (LT.init w) (SInv.create C ok hdr item hh _ _ ⟨by omega, by rw [hu]; exact Nat.le_refl _⟩) rfl
  exact ⟨n0, X, hX, fun fuel hf => hrun fuel fuel hf hf⟩

/-- What is known after a run that ended. -/
structure LtDone (C : InflateOK Z plain) (ok : AllocOracle) (os : Os) (out : Bytes) (w : World)
    (inp : Input) (r : LTEnd) (P : Bytes) (log : List Ev) : Prop where
  pre : P <+: plain inp.data
  arch : ArchiveLog ok LT_CHUNK P r.pieces log
  run : ltEvents os out (LT.init w) log = .ok r.st
  codes : C.Final → Open plain inp.data → hdrVersion ((plain inp.data).take 128) = 0 →
    ∀ c ∈ r.codes, c = Z_OK
  full : inp.err = false → r.st.hasError = false → (∀ c ∈ r.codes, c = Z_OK) →
    0 < r.room ∨ C.Prompt inp.data → inp.data ≠ [] →
    P = plain inp.data ∨ 128 ≤ P.length ∧ hdrVersion (P.take 128) ≠ 0

theorem ltExtract_ends (C : InflateOK Z plain) (ok : AllocOracle) (hdr item : Bytes)
    (hh : hdr.length = 128) (hi : item.length = 40) (os : Os) (out : Bytes) (w : World) (inp : Input) :
    ∃ n0 X, (∀ fuel, n0 ≤ fuel → ltExtract Z os ok fuel hdr item out inp w = X) ∧
      (∀ r, X = .ok r → ∃ P log, LtDone C ok os out w inp r P log) ∧
      ∀ e, X = .error e → (∃ P pieces log, P <+: plain inp.data ∧ ArchiveLog ok LT_CHUNK P pieces log ∧
          ltEvents os out (LT.init w) log = .error e) ∨
        (128 ≤ (plain inp.data).length ∧ hdrVersion ((plain inp.data).take 128) ≠ 0) := by
  obtain ⟨n0, X, hX, hrun⟩ := ltExtract_end C ok hdr item hh hi os out w inp
  refine ⟨n0, X, hrun, ?_, ?_⟩
  · intro r hr
    subst hr
    cases hX with
    | @stop l s g h hS hev hp hf =>
      rw [List.nil_append] at hS
      obtain ⟨P, p1, p2, p3⟩ := hS.archive hi
      obtain ⟨t, ht⟩ := hp
      refine ⟨P, s.log, by rw [← ht]; exact p1.trans (C.mono _ _), p2, hev, ?_, ?_⟩
      · intro hF hO hv
        rw [← ht] at hO hv
        refine hS.codes hF (hO.left C) ?_
        intro h h1 h2
        obtain ⟨u, hu⟩ := h2.trans (C.mono g t)
        rwa [← hu, List.take_left' h1] at hv
      · intro he1 he2 hc hr hne
        have := hf he2 he1
        subst this
        exact p3 hc hr (.inl hne)
  · intro e he
    subst he
    cases hX with
    | @fault l s g e hS hev hp =>
      rw [List.nil_append] at hS
      obtain ⟨P, p1, p2, _⟩ := hS.archive hi
      obtain ⟨t, ht⟩ := hp
      exact .inl ⟨P, _, _, by rw [← ht]; exact p1.trans (C.mono _ _), p2, hev⟩
    | @version hd h1 h2 h3 =>
      rw [List.nil_append] at h3
      obtain ⟨u, hu⟩ := h3
      refine .inr ⟨by rw [← hu, List.length_append]; omega, ?_⟩
      rw [← hu, List.take_left' h1]; exact h2

/-! ### Archives of directories -/

theorem Relinked.delinked {f g : Forest} (h : Relinked f g) : g.delinked = f.delinked := by
  induction h with
  | nil => rfl
  | file _ ih => simp only [Forest.delinked, ih]
  | link _ _ _ ih => simp only [Forest.delinked, ih]
  | dir _ _ ih1 ih2 => simp only [Forest.delinked, ih1, ih2]

theorem Relinked.links {f g : Forest} (h : Relinked f g) : g.links = f.links := by
  induction h with
  | nil => rfl
  | file _ ih => simp only [Forest.links, ih]
  | link _ _ _ ih => simp only [Forest.links, ih]
  | dir _ _ ih1 ih2 => simp only [Forest.links, ih1, ih2]

theorem Relinked.within {f g : Forest} (h : Relinked f g) (m : Nat) : ∀ k, f.within m k →
    g.within m k := by
  induction h with
  | nil => exact fun _ h => h
  | file _ ih => exact fun k h => ⟨h.1, ih k h.2⟩
  | link _ _ _ ih => exact fun k h => ⟨h.1, ih k h.2⟩
  | dir _ _ ih1 ih2 => exact fun k h => ⟨ih1 _ h.1, ih2 k h.2⟩

/-- Extraction of (the archive of) a tree. -/
theorem ltExtract_tree (C : InflateOK Z plain) (hnil : plain [] = []) (ok : AllocOracle)
    (hok : ∀ k n, ok k n = true) (hdr item : Bytes) (hh : hdr.length = 128) (hi : item.length = 40)
    (os : Os) (hq : os.quiet) (w : World) (ht : w.fs.tree) (pre : Bytes)
    (h0 : 0 ∉ pre) (d : Loc) (hd : InDir os w pre d) (ho : OpenDir os w.fs d) (n : Bytes)
    (hn : PlainName n) (hnew : w.fs (d ++ [n]) = none) (hen : Enterable os (dirMode os 0o775))
    {f : Forest} (hf : f.proper) (hfe : f.enterable os) (hwi : f.within 4094 (pre ++ n).length)
    (hfn : f ≠ .nil) {junk t : Bytes} (hj : junk.length = 120) (he : Encodes f t) (inp : Input)
    (hin : inp.err = false) (harc : plain inp.data = headerBytes 0 1 junk ++ t) :
    ∃ n0 r, (∀ fuel, n0 ≤ fuel → ltExtract Z os ok fuel hdr item (pre ++ n) inp w = .ok r) ∧
      r.st.hasError = false ∧
      (C.Final → Open plain inp.data → ∀ c ∈ r.codes, c = Z_OK) ∧
      ((∀ c ∈ r.codes, c = Z_OK) → 0 < r.room ∨ C.Prompt inp.data →
        r.st.w.cwd = w.cwd ∧ Landed os w.fs r.st.w.fs d n [] f.delinked ∧
          r.st.lost + r.st.held = f.links) := by
  obtain ⟨n0, X, h1, h2, h3⟩ := ltExtract_ends C ok hdr item hh hi os (pre ++ n) w inp
  have e2 := C02_header_roundtrip 0 1 junk hj (by decide) (by decide)
  have hl128 : (headerBytes 0 1 junk).length = 128 := e2.1
  have hver : hdrVersion ((headerBytes 0 1 junk ++ t).take 128) = 0 := by
    rw [List.take_left' hl128]; exact e2.2.1
  have htne : t ≠ [] := by
    intro h
    cases he with
    | nil => exact hfn rfl
    | file h1 => have := congrArg List.length h; simp [h1] at this
    | link h1 => have := congrArg List.length h; simp [h1] at this
    | dir h1 => have := congrArg List.length h; simp [h1] at this
  have fresh : ∀ (g : Forest), Relinked f g → ∀ evs rest, EvsOf g (evs.map Ev.closed ++ rest) →
      ∃ h', ltEvents os (pre ++ n) (LT.init w) (.drStart :: evs) = .ok h' ∧
      h'.hasError = false ∧
      (rest = [] → h'.w.cwd = w.cwd ∧ Landed os w.fs h'.w.fs d n [] f.delinked ∧
        h'.lost + h'.held = f.links) := by
    intro g hg evs rest hev
    obtain ⟨h', g1, g2, g3⟩ := ltTree_fresh os hq w ht pre h0 d hd ho n hn hnew hen (hg.proper hf)
      (hg.enterable os hfe) (hg.within _ _ hwi) hev
    rw [hg.delinked, hg.links] at g3
    refine ⟨h', ?_, g2, g3⟩
    rw [← ltEvents_closed]
    exact g1
  cases hX : X with
  | error e =>
    exfalso
    rcases h3 e hX with ⟨P, pieces, log, a, b, c⟩ | ⟨_, b⟩
    · rw [harc] at a
      rcases log_relinked hj he ok hok hf a b with ⟨rfl, _⟩ | ⟨g, evs, rest, k1, _, rfl, hev, _⟩
      · cases c
      · obtain ⟨h', g1, _⟩ := fresh g k1 evs rest hev
        rw [g1] at c; cases c
    · rw [harc] at b; exact b hver
  | ok r =>
    obtain ⟨P, log, Dn⟩ := h2 r hX
    have hpre := Dn.pre
    rw [harc] at hpre
    have hcodes : C.Final → Open plain inp.data → ∀ c ∈ r.codes, c = Z_OK :=
      fun hF hO => Dn.codes hF hO (by rw [harc]; exact hver)
    have hfull : r.st.hasError = false → (∀ c ∈ r.codes, c = Z_OK) →
        0 < r.room ∨ C.Prompt inp.data → P = headerBytes 0 1 junk ++ t := by
      intro h1 h2 h3
      have hne : inp.data ≠ [] := by
        intro h
        rw [h, hnil] at harc
        have := congrArg List.length harc
        simp only [List.length_append, List.length_nil] at this
        omega
      rcases Dn.full hin h1 h2 h3 hne with h | ⟨h, h'⟩
      · rw [h, harc]
      · rw [(take_header hpre h).1] at h'
        exact absurd hver h'
    refine ⟨n0, r, fun fuel hf => by rw [h1 fuel hf, hX], ?_⟩
    have hrun := Dn.run
    rcases log_relinked hj he ok hok hf hpre Dn.arch with ⟨rfl, hemp⟩ |
      ⟨g, evs, rest, k1, _, rfl, hev, hrest⟩
    · have herr : r.st.hasError = false := by rw [← Except.ok.inj hrun]; rfl
      exact ⟨herr, hcodes, fun a b => absurd (hemp (hfull herr a b)) htne⟩
    · obtain ⟨h', g1, g2, g3⟩ := fresh g k1 evs rest hev
      rw [hrun] at g1
      cases g1
      exact ⟨g2, hcodes, fun a b => g3 (hrest (hfull g2 a b))⟩

/-! ### Archives of files -/

/-- The callback history for an archive of a file. -/
theorem log_file {junk content : Bytes} (hj : junk.length = 120) (hc : content ≠ [])
    (ok : AllocOracle) {P : Bytes} {pieces : List Bytes} {log : List Ev} {B : Nat}
    (hP : P <+: headerBytes 0 2 junk ++ content) (hA : ArchiveLog ok B P pieces log) :
    (log = [] ∧ P ≠ headerBytes 0 2 junk ++ content) ∨
      ∃ ds : List Bytes, log = .flStart :: ds.map .flRead ∧ P.drop 128 = ds.flatten := by
  obtain ⟨e1, e2, e3⟩ := C02_header_roundtrip 0 2 junk hj (by decide) (by decide)
  have e1' : (headerBytes 0 2 junk).length = 128 := e1
  have hdr' : 128 ≤ P.length → P.take 128 = headerBytes 0 2 junk := by
    intro h
    rw [(take_header hP h).1, List.take_left' e1']
  cases hA with
  | short h => exact .inl ⟨rfl, fun hh => by rw [hh] at h; simp at h; omega⟩
  | version h1 h2 => rw [hdr' h1] at h2; exact absurd e2 h2
  | empty h1 h2 =>
    refine .inl ⟨rfl, fun hh => ?_⟩
    rw [hh, List.length_append, e1'] at h1
    exact hc (List.length_eq_zero_iff.mp (by omega))
  | unknown h1 h2 h3 h4 => rw [hdr' h1] at h4; exact absurd e3 h4
  | file h1 h2 h3 h4 h5 => exact .inr ⟨_, rfl, by rw [List.drop_left' h1]⟩
  | dir h1 h2 h3 h4 =>
    have := hdr' (by rw [List.length_append]; omega)
    rw [List.take_left' h1] at this
    rw [this, e3] at h3
    exact absurd h3 (by decide)

theorem ltFlReads_good (os : Os) (hq : os.quiet) (out : Bytes) (l : Loc) (m : Nat) (ds : List Bytes) :
    ∀ (h : LT) (c : Bytes), h.w.fs l = some (.file m c) → h.fpOut = some ⟨l, c.length⟩ →
    ∃ h', ltEvents os out h (ds.map .flRead) = .ok h' ∧ h'.hasError = h.hasError ∧
      h'.w.cwd = h.w.cwd ∧ h'.w.fs = h.w.fs.put l (.file m (c ++ ds.flatten)) := by
  induction ds with
  | nil =>
    intro h c hc _
    refine ⟨h, rfl, rfl, rfl, ?_⟩
    funext x
    simp only [FS.put, List.flatten_nil, List.append_nil]
    split
    · rename_i hx; rw [hx, hc]
    · rfl
  | cons d ds ih =>
    intro h c hc hfd
    have hw := write_end os hq h.w l m c d hc
    obtain ⟨h', g1, g2, g3, g4⟩ := ih
      { h with w := (h.w.put l (.file m (c ++ d))).tick, fpOut := some ⟨l, (c ++ d).length⟩ }
      (c ++ d) (by simp [World.tick, World.put, FS.put]) rfl
    refine ⟨h', ?_, g2, g3, ?_⟩
    · simp only [List.map_cons, ltEvents, ltEvent, ltFileData, hfd, hw]
      exact g1
    · rw [g4]
      simp only [World.tick, World.put, FS.put_put, List.flatten_cons, List.append_assoc]

theorem ltFile_good (os : Os) (hq : os.quiet) (out : Bytes) (w : World) (l : Loc) (ds : List Bytes)
    (ho : (sysOpen os w out FOPEN_MODE true).1 = some l) :
    ∃ h' m, ltEvents os out (LT.init w) (.flStart :: ds.map .flRead) = .ok h' ∧
      h'.hasError = false ∧ h'.w.cwd = w.cwd ∧
      h'.w.fs = w.fs.put l (.file m ds.flatten) ∧ (∀ n, w.fs l = some n → ∃ c, n = .file m c) := by
  cases hs : sysOpen os w out FOPEN_MODE true with
  | mk ol w' =>
    rw [hs] at ho
    cases ho
    obtain ⟨m, h1, h2, h3, h4⟩ := open_trunc os w w' out _ l hs
    obtain ⟨h', g1, g2, g3, g4⟩ := ltFlReads_good os hq out l m ds
      { LT.init w with w := w', fpOut := some ⟨l, 0⟩ } [] (by
        show w'.fs l = _
        rw [h1, FS.put_same]) rfl
    refine ⟨h', m, ?_, g2, g3.trans h2, ?_, h4⟩
    · simp only [ltEvents, ltEvent, ltFileStart, LT.init, hs]
      exact g1
    · rw [g4]
      show w'.fs.put _ _ = _
      rw [h1, FS.put_put, List.nil_append]

/-- Extraction of (the archive of) a file. -/
theorem ltExtract_file (C : InflateOK Z plain) (hnil : plain [] = []) (ok : AllocOracle)
    (hdr item : Bytes) (hh : hdr.length = 128) (hi : item.length = 40) (os : Os) (hq : os.quiet)
    (w : World) (out : Bytes) (l : Loc) (ho : (sysOpen os w out FOPEN_MODE true).1 = some l)
    {junk content : Bytes} (hj : junk.length = 120) (hc : content ≠ []) (inp : Input)
    (hin : inp.err = false) (harc : plain inp.data = headerBytes 0 2 junk ++ content) :
    ∃ n0 r, (∀ fuel, n0 ≤ fuel → ltExtract Z os ok fuel hdr item out inp w = .ok r) ∧
      (C.Final → Open plain inp.data → ∀ c ∈ r.codes, c = Z_OK) ∧
      ((∀ c ∈ r.codes, c = Z_OK) → 0 < r.room ∨ C.Prompt inp.data →
        r.st.w.cwd = w.cwd ∧ ∃ m, r.st.w.fs = w.fs.put l (.file m content) ∧
          ∀ n, w.fs l = some n → ∃ c, n = .file m c) := by
  obtain ⟨n0, X, h1, h2, h3⟩ := ltExtract_ends C ok hdr item hh hi os out w inp
  obtain ⟨e1, e2, e3⟩ := C02_header_roundtrip 0 2 junk hj (by decide) (by decide)
  have e1' : (headerBytes 0 2 junk).length = 128 := e1
  have hver : hdrVersion ((headerBytes 0 2 junk ++ content).take 128) = 0 := by
    rw [List.take_left' e1']; exact e2
  cases hX : X with
  | error e =>
    exfalso
    rcases h3 e hX with ⟨P, pieces, log, a, b, c⟩ | ⟨_, b⟩
    · rw [harc] at a
      rcases log_file hj hc ok a b with ⟨rfl, _⟩ | ⟨ds, rfl, _⟩
      · cases c
      · obtain ⟨h', m, g, _⟩ := ltFile_good os hq out w l ds ho
        rw [g] at c; cases c
    · rw [harc] at b; exact b hver
  | ok r =>
    obtain ⟨P, log, Dn⟩ := h2 r hX
    have hpre := Dn.pre
    rw [harc] at hpre
    refine ⟨n0, r, fun fuel hf => by rw [h1 fuel hf, hX],
      fun hF hO => Dn.codes hF hO (by rw [harc]; exact hver), fun hcod hroom => ?_⟩
    have hne : inp.data ≠ [] := by
      intro h
      rw [h, hnil] at harc
      have := congrArg List.length harc
      simp only [List.length_append, List.length_nil] at this
      omega
    have hfull : r.st.hasError = false → P = headerBytes 0 2 junk ++ content := by
      intro he
      rcases Dn.full hin he hcod hroom hne with h | ⟨h, h'⟩
      · rw [h, harc]
      · rw [(take_header hpre h).1] at h'
        exact absurd hver h'
    have hrun := Dn.run
    rcases log_file hj hc ok hpre Dn.arch with ⟨rfl, hP⟩ | ⟨ds, rfl, hds⟩
    · have : r.st.hasError = false := by rw [← Except.ok.inj hrun]; rfl
      exact absurd (hfull this) hP
    · obtain ⟨h', m, g1, g2, g3, g4, g5⟩ := ltFile_good os hq out w l ds ho
      rw [hrun] at g1
      cases g1
      have hP := hfull g2
      rw [hP, List.drop_left' e1'] at hds
      exact ⟨g3, m, by rw [g4, hds], g5⟩

end Zwt
