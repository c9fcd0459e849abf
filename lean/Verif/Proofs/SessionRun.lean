import Verif.Proofs.Session

/-! Invariant of the archive decompress session over a history of calls. -/

namespace Zwt

variable {Z : Inflater} {plain : Bytes → Bytes}

theorem Open.left (C : InflateOK Z plain) {c x : Bytes} (h : Open plain (c ++ x)) : Open plain c := by
  obtain ⟨y, hy⟩ := h
  refine ⟨x ++ y, fun he => hy ?_⟩
  rw [← List.append_assoc] at he
  have h1 := (C.mono c x).length_le
  have h2 := C.mono (c ++ x) y
  exact (h2.eq_of_length (by have := h2.length_le; rw [he] at this ⊢; omega)).symm

/-- So far `inflate` has accepted everything. -/
def Fine (C : InflateOK Z plain) (l : LL Z) (given : Bytes) : Prop :=
  C.Final → Open plain given → ¬ C.Dead l.z ∧ ∀ r ∈ l.rets, r = Z_OK

/-- Header phase: fewer than 128 plaintext bytes so far, or the stream is dead. -/
structure HPh (C : InflateOK Z plain) (item0 : Bytes) (B : Nat) (l : LL Z) (s : Sess)
    (given : Bytes) : Prop where
  cb : s.cb = .hdr
  inited : s.isInited = false
  own : s.ownBuf = true
  hdrLen : s.hdr.length = 128
  log : s.log = [] ∧ s.pieces = []
  item : s.d.item = item0
  name : s.d.name = none
  reallocs : s.d.reallocs = 0
  bufSize : l.bufSize = 128
  tmp : 0 < uInt s.tmpSize ∧ uInt s.tmpSize ≤ B
  deadRet : C.Dead l.z → ∃ r ∈ l.rets, r ≠ Z_OK
  st : ∃ c p, C.Rep l.z c p ∧ (¬ C.Dead l.z → c = given ∧ l.acc = p ∧
    l.availOut = 128 - p.length ∧ p.length < 128 ∧ l.totalOut = p.length ∧
    (given ≠ [] → p = plain given))
  fine : Fine C l given

/-- Data phase: header `h`, output buffers `ds` handed to the data callback. -/
structure DPh (C : InflateOK Z plain) (ok : AllocOracle) (item0 : Bytes) (B : Nat) (l : LL Z)
    (s : Sess) (given h : Bytes) (ds : List Bytes) : Prop where
  start : ∃ s0 : Sess, s0.d.item = item0 ∧ s0.d.name = none ∧ s0.d.reallocs = 0 ∧
    (s0.log = [] ∧ s0.pieces = []) ∧
    s = ds.foldl (dataStep ok) (startSess s0 h)
  hLen : h.length = 128
  version : hdrVersion h = 0
  bufSize : 0 < l.bufSize ∧ l.bufSize ≤ B
  pieces : ∀ b ∈ ds, b.length ≤ B
  pre : h ++ ds.flatten <+: plain given
  st : ∃ c p, C.Rep l.z c p ∧ (¬ C.Dead l.z → c = given ∧ h ++ ds.flatten = p)
  full : (∀ r ∈ l.rets, r = Z_OK) → 0 < l.availOut ∨ C.Prompt given → h ++ ds.flatten = plain given
  fine : Fine C l given

/-- The archive has a version other than 0 (header `h`). -/
structure BPh (C : InflateOK Z plain) (B : Nat) (l : LL Z) (s : Sess) (given h : Bytes) : Prop where
  cb : s.cb = .hdr
  inited : s.isInited = true
  log : s.log = []
  cur : hdrVersion s.hdr ≠ 0
  tot : 128 ≤ l.totalOut
  hLen : h.length = 128
  version : hdrVersion h ≠ 0
  pre : h <+: plain given
  st : ∃ c p, C.Rep l.z c p

/-- The three phases. -/
inductive SInv (C : InflateOK Z plain) (ok : AllocOracle) (item0 : Bytes) (B : Nat) (l : LL Z)
    (s : Sess) (given : Bytes) : Prop
  | header : HPh C item0 B l s given → SInv C ok item0 B l s given
  | data (h : Bytes) (ds : List Bytes) : DPh C ok item0 B l s given h ds →
      SInv C ok item0 B l s given
  | bad (h : Bytes) : BPh C B l s given h → SInv C ok item0 B l s given

theorem startSess_K (s : Sess) (h : Bytes) (hi : s.d.item.length = 40) : DataK (startSess s h) :=
  ⟨by simp [startSess], by simp [startSess], fun _ => hi⟩

theorem DPh.K {C : InflateOK Z plain} {ok : AllocOracle} {item0 : Bytes} {B : Nat} {l : LL Z}
    {s : Sess} {given h : Bytes} {ds : List Bytes} (hi : item0.length = 40)
    (D : DPh C ok item0 B l s given h ds) : DataK s := by
  obtain ⟨s0, h1, _, _, _, rfl⟩ := D.start
  exact (foldl_frame ok ds _ (startSess_K s0 h (by rw [h1]; exact hi))).2.2.2

theorem DPh.flags {C : InflateOK Z plain} {ok : AllocOracle} {item0 : Bytes} {B : Nat} {l : LL Z}
    {s : Sess} {given h : Bytes} {ds : List Bytes} (hi : item0.length = 40)
    (D : DPh C ok item0 B l s given h ds) :
    s.isInited = true ∧ s.ownBuf = false ∧ s.hdr = h := by
  obtain ⟨s0, h1, _, _, _, rfl⟩ := D.start
  have := foldl_frame ok ds _ (startSess_K s0 h (by rw [h1]; exact hi))
  exact ⟨this.2.1, this.2.2.1, this.1⟩

/-- A data-phase loop run (used for later calls and for the run nested in the header callback). -/
theorem data_loop (C : InflateOK Z plain) (ok : AllocOracle) (item0 : Bytes) (hi : item0.length = 40)
    (B : Nat) (l : LL Z) (s0 : Sess) (h1 : s0.d.item = item0) (h2 : s0.d.name = none)
    (h3 : s0.d.reallocs = 0) (h4 : s0.log = [] ∧ s0.pieces = []) (h : Bytes) (ds : List Bytes)
    (hLen : h.length = 128) (hv : hdrVersion h = 0) (hb : 0 < l.bufSize ∧ l.bufSize ≤ B)
    (hp : ∀ b ∈ ds, b.length ≤ B) (c : Bytes)
    (hr : C.Rep l.z c (h ++ ds.flatten))
    (hfull : l.inp = [] → (∀ r ∈ l.rets, r = Z_OK) → 0 < l.availOut ∨ C.Prompt c →
      h ++ ds.flatten = plain c) (hfine : Fine C l (c ++ l.inp)) :
    ∃ ret l' s' n0 ds', DPh C ok item0 B l' s' (c ++ l.inp) h ds' ∧
      (ret = Z_OK → l'.inp = []) ∧ (ret ≠ Z_OK → C.Dead l'.z) ∧
      ((plain (c ++ l.inp)).length < (h ++ ds.flatten).length + l.bufSize →
        ds' = ds ∨ ds' = ds ++ [(plain (c ++ l.inp)).drop (h ++ ds.flatten).length]) ∧
      (∀ fuel, n0 ≤ fuel → ∀ cb : Cb Z Sess, Folds cb (dataStep ok) DataK →
        readOldIn cb fuel Z_NO_FLUSH l (ds.foldl (dataStep ok) (startSess s0 h)) =
          .ok (ret, l', s')) := by
  obtain ⟨ret, l', new, n0, hout, hrun⟩ := readOldIn_pieces C Z_NO_FLUSH l c _ hr
  have hK := (foldl_frame ok ds _ (startSess_K s0 h (by rw [h1]; exact hi))).2.2.2
  obtain ⟨used, p', e1, e2, e3, e4, e5, e6⟩ := hout.rep
  have hfl : h ++ (ds ++ new).flatten = (h ++ ds.flatten) ++ new.flatten := by simp
  refine ⟨ret, l', (ds ++ new).foldl (dataStep ok) (startSess s0 h), n0, ds ++ new, ?_,
    fun h => (e5 h).2, ?_, ?_, ?_⟩
  · refine ⟨⟨s0, h1, h2, h3, h4, rfl⟩, hLen, hv, by rw [hout.bufSize]; exact hb, ?_, ?_, ?_, ?_, ?_⟩
    · intro b hbm
      rcases List.mem_append.mp hbm with h | h
      · exact hp b h
      · exact Nat.le_trans (hout.small b h) hb.2
    · rw [hfl, e1]
      refine (e4.trans (C.sound e2)).trans ?_
      rw [← List.append_assoc]; exact C.mono _ _
    · refine ⟨_, _, e2, fun hal => ?_⟩
      by_cases h0 : ret = Z_OK
      · obtain ⟨k1, k2⟩ := e5 h0
        rw [k2, List.append_nil] at e1
        exact ⟨by rw [e1], by rw [hfl, k1]⟩
      · rcases e6 rfl h0 with h | h
        · exact absurd h hal
        · omega
    · intro hok hroom
      rw [hfl]
      by_cases hin : l.inp = []
      · obtain ⟨_, n2, n3⟩ := hout.nodata hin
        subst n2
        rw [n3, hin]
        rw [hin, List.append_nil] at hroom
        simpa using hfull hin hok hroom
      · obtain ⟨nw, n1, _, n3⟩ := hout.rets
        by_cases h0 : ret = Z_OK
        · exact hout.room h0 hin rfl hroom
        · obtain ⟨tl, ht⟩ := n3 h0
          exact absurd (hok ret (by rw [n1, ht]; simp)) h0
    · intro hF hO
      obtain ⟨f1, f2⟩ := hfine hF hO
      by_cases h0 : ret = Z_OK
      · refine ⟨?_, ?_⟩
        · by_cases hin : l.inp = []
          · rw [(hout.nodata hin).2.1]; exact f1
          · exact hout.alive h0 hin
        · obtain ⟨nw, n1, n2, _⟩ := hout.rets
          intro r hr
          rw [n1] at hr
          rcases List.mem_append.mp hr with h | h
          · exact n2 h0 r h
          · exact f2 r h
      · exfalso
        rw [e1, ← List.append_assoc] at hO
        rcases e6 rfl h0 with h | h
        · exact hF _ _ _ e2 h (hO.left C)
        · omega
  · intro h0
    rcases e6 rfl h0 with h | h
    · exact h
    · omega
  · intro hsm
    rcases hout.one rfl hsm with h | h
    · left; rw [h, List.append_nil]
    · right; rw [h]
  · intro fuel hf cb hcb
    rw [hrun cb _ _ hcb _ hK fuel hf, List.foldl_append]

/-- One call in the data phase. -/
theorem data_call (C : InflateOK Z plain) (ok : AllocOracle) (item0 : Bytes) (hi : item0.length = 40)
    (B : Nat) (l : LL Z) (s : Sess) (given h : Bytes) (ds : List Bytes)
    (D : DPh C ok item0 B l s given h ds) (d : Bytes) (hd : d.length < U32) :
    ∃ ret l' s' n0 ds', DPh C ok item0 B l' s' (given ++ d) h ds' ∧
      (∀ fuel, n0 ≤ fuel → ∀ flush, sessDecompress ok fuel flush l s d = .ok (ret, l', s')) := by
  have hfeed : (l.feed d).inp = d := by simp only [LL.feed]; exact take_uInt hd
  obtain ⟨hin, _, _⟩ := D.flags hi
  have hK := D.K hi
  by_cases hdd : d = []
  · refine ⟨0, l.feed d, s, 1, ds, ?_, ?_⟩
    · rw [hdd, List.append_nil]
      exact ⟨D.start, D.hLen, D.version, D.bufSize, D.pieces, D.pre, D.st, D.full, D.fine⟩
    · intro fuel hf flush
      obtain ⟨f, rfl⟩ : ∃ f, fuel = f + 1 := ⟨fuel - 1, by omega⟩
      have hn : (l.feed d).inp = [] := by rw [hfeed, hdd]
      simp only [sessDecompress, hin, if_true, llDecompress, readOldIn, if_pos hn]
  · obtain ⟨c, p, hr, hal⟩ := D.st
    by_cases hdead : C.Dead l.z
    · obtain ⟨ret, l', k1, k2, k3, k4, k5, _, c', p', k6⟩ := readOldIn_dead C Z_NO_FLUSH (l.feed d)
        c p hr hdead (by rw [hfeed]; exact hdd)
      refine ⟨ret, l', s, 1, ds, ?_, ?_⟩
      · refine ⟨D.start, D.hLen, D.version, by rw [k4]; exact D.bufSize, D.pieces,
          D.pre.trans (C.mono _ _), ⟨c', p', k6, fun h => absurd k3 h⟩, ?_,
          fun hF hO => absurd hdead (D.fine hF (hO.left C)).1⟩
        intro hok _
        exact absurd (hok ret (by rw [k5]; simp)) k2
      · intro fuel hf flush
        simp only [sessDecompress, hin, if_true, llDecompress]
        exact k1 _ _ _ hf
    · obtain ⟨hc, hp⟩ := hal hdead
      subst hc hp
      obtain ⟨s0, a1, a2, a3, a4, a5⟩ := D.start
      have hn : (l.feed d).inp ≠ [] := by rw [hfeed]; exact hdd
      obtain ⟨ret, l', s', n0, ds', g1, _, _, _, g4⟩ := data_loop C ok item0 hi B (l.feed d) s0 a1 a2 a3
        a4 h ds D.hLen D.version D.bufSize D.pieces c hr (fun h => absurd h hn)
        (fun hF hO => D.fine hF (hO.left C))
      refine ⟨ret, l', s', n0, ds', by rw [hfeed] at g1; exact g1, ?_⟩
      intro fuel hf flush
      simp only [sessDecompress, hin, if_true, llDecompress]
      rw [a5]
      exact g4 fuel hf _ (sessCb_folds ok fuel)

/-- The header callback on an archive of another version, as a function. -/
def badStep (s : Sess) (b : Bytes) : Run Sess :=
  if hdrVersion (s.seenHdr b) = 0 then .error .assertFail
  else .ok { s with hdr := s.seenHdr b, isInited := true,
                    d := { s.d with hasError := false } }

def BadK (s : Sess) : Prop :=
  s.cb = .hdr ∧ hdrVersion s.hdr ≠ 0 ∧ s.log = [] ∧ s.isInited = true

theorem badStep_K (s s' : Sess) (b : Bytes) (hK : BadK s) (h : badStep s b = .ok s') : BadK s' := by
  obtain ⟨k1, k2, k3, k4⟩ := hK
  simp only [badStep] at h
  split at h
  · cases h
  · rename_i hv
    cases h
    exact ⟨k1, hv, k3, rfl⟩

theorem badStep_fault (s : Sess) (b : Bytes) (e : Fault) (h : badStep s b = .error e) :
    e = .assertFail := by
  simp only [badStep] at h
  split at h
  · cases h; rfl
  · cases h

theorem sessCb_bad (ok : AllocOracle) (F : Nat) (l : LL Z) (s : Sess) (b : Bytes) (hK : BadK s)
    (ht : 128 + b.length ≤ l.totalOut) : sessCb ok F l s b = (badStep s b).map (l, ·) := by
  obtain ⟨k1, k2, k3, k4⟩ := hK
  have h1 : l.totalOut ≥ MAIN_HEADER_SIZE := by
    show 128 ≤ l.totalOut
    omega
  simp only [sessCb, k1, headerCb, badStep, if_pos h1]
  split
  · rename_i hv
    have hb : b ≠ [] := by
      intro h; subst h
      apply k2
      have : s.seenHdr [] = s.hdr := by simp [Sess.seenHdr]
      rw [← this]; exact hv
    have hb' : 0 < b.length := List.length_pos_iff.mpr hb
    have h2 : (l.setBuffer s.tmpSize).totalOut > MAIN_HEADER_SIZE := by
      show l.totalOut > 128
      omega
    have h3 : ¬ b.length > (l.setBuffer s.tmpSize).totalOut - MAIN_HEADER_SIZE := by
      show ¬ b.length > l.totalOut - 128
      omega
    rw [if_pos h2, if_neg h3]
    rfl
  · rfl

theorem foldlM_bad (bs : List Bytes) (s : Sess) (hK : BadK s) :
    (∃ s', bs.foldlM badStep s = .ok s' ∧ BadK s') ∨ bs.foldlM badStep s = .error .assertFail := by
  induction bs generalizing s with
  | nil => exact .inl ⟨s, rfl, hK⟩
  | cons b bs ih =>
    cases h : badStep s b with
    | error e =>
      right
      rw [badStep_fault s b e h] at h
      simp [List.foldlM, h, bind, Except.bind]
    | ok s1 =>
      have := ih s1 (badStep_K s s1 b hK h)
      simpa [List.foldlM, h, bind, Except.bind] using this

/-- One call after a header with another version. -/
theorem bad_call (C : InflateOK Z plain) (ok : AllocOracle) (B : Nat) (l : LL Z) (s : Sess)
    (given h : Bytes) (D : BPh C B l s given h) (d : Bytes) :
    ∃ n0, (∃ ret l' s', BPh C B l' s' (given ++ d) h ∧
      (∀ fuel, n0 ≤ fuel → ∀ flush, sessDecompress ok fuel flush l s d = .ok (ret, l', s'))) ∨
      (∀ fuel, n0 ≤ fuel → ∀ flush, sessDecompress ok fuel flush l s d = .error .assertFail) := by
  obtain ⟨c, p, hr⟩ := D.st
  obtain ⟨ret, l', new, n0, hout, hrun⟩ := readOldIn_pieces C Z_NO_FLUSH (l.feed d) c p hr
  obtain ⟨used, p', _, e2, _⟩ := hout.rep
  have hrec := fun fuel hf => hrun recordCb _ _ recordCb_folds [] trivial fuel hf
  have hK : BadK s := ⟨D.cb, D.cur, D.log, D.inited⟩
  have hsim := fun fuel hf => readOldIn_sim (sessCb ok fuel) badStep 128 BadK
    (fun l u b hu => sessCb_bad ok fuel l u b hu) (fun u b u' => badStep_K u u' b) fuel Z_NO_FLUSH
    (l.feed d) l' [] _ ret D.tot (hrec fuel hf)
  have hpc : new.foldl (fun u b => u ++ [b]) [] = new := by rw [foldl_record]; rfl
  have heq : ∀ fuel, n0 ≤ fuel → 128 ≤ l'.totalOut ∧
      readOldIn (sessCb ok fuel) fuel Z_NO_FLUSH (l.feed d) s =
        (new.foldlM badStep s).map (ret, l', ·) := by
    intro fuel hf
    obtain ⟨pieces, k1, k2, k3⟩ := hsim fuel hf
    rw [hpc, List.nil_append] at k1
    subst k1
    exact ⟨k2, k3 s hK⟩
  refine ⟨n0, ?_⟩
  rcases foldlM_bad new s hK with ⟨s', g1, g2⟩ | g1
  · left
    refine ⟨ret, l', s', ⟨g2.1, g2.2.2.2, g2.2.2.1, g2.2.1, (heq n0 (Nat.le_refl _)).1, D.hLen,
      D.version, D.pre.trans (C.mono _ _), _, _, e2⟩, ?_⟩
    intro fuel hf flush
    simp only [sessDecompress, D.inited, if_true, llDecompress]
    exact ((heq fuel hf).2).trans (by rw [g1]; rfl)
  · right
    intro fuel hf flush
    simp only [sessDecompress, D.inited, if_true, llDecompress]
    exact ((heq fuel hf).2).trans (by rw [g1]; rfl)

/-- The header-phase loop on a live stream. -/
theorem header_loop (C : InflateOK Z plain) (ok : AllocOracle) (item0 : Bytes)
    (hi : item0.length = 40) (B : Nat) : ∀ (k m : Nat) (flush : Int) (l : LL Z) (s : Sess) (c p : Bytes),
    SoftFlush flush →
    l.inp.length = k → (plain c).length - p.length = m →
    s.cb = .hdr → s.isInited = false → s.ownBuf = true → s.hdr.length = 128 → s.log = [] ∧ s.pieces = [] →
    s.d.item = item0 → s.d.name = none → s.d.reallocs = 0 → l.bufSize = 128 →
    0 < uInt s.tmpSize ∧ uInt s.tmpSize ≤ B →
    C.Rep l.z c p → ¬ C.Dead l.z → l.acc = p → l.availOut = 128 - p.length → p.length < 128 →
    l.totalOut = p.length → (l.inp = [] → c ≠ [] → p = plain c) →
    Fine C l (c ++ l.inp) →
    ∃ ret l' s' n0, SInv C ok item0 B l' s' (c ++ l.inp) ∧
      ((plain (c ++ l.inp)).length < 128 + uInt s.tmpSize →
        s'.pieces = [] ∨ s'.pieces = [(plain (c ++ l.inp)).drop 128]) ∧
      ∀ F fuel, n0 ≤ F → n0 ≤ fuel →
        noTouchLoop (sessCb ok F) fuel flush l s = .ok (ret, l', s') := by
  intro k
  induction k using Nat.strongRecOn with
  | _ k ihk =>
    intro m
    induction m using Nat.strongRecOn with
    | _ m ihm =>
      intro flush l s c p hsoft hk hm s1 s2 s3 s4 s5 s6 s7 s8 lb hut hr hal hacc hav hpl htot hful hfine
      by_cases hin : l.inp = []
      · refine ⟨0, l, s, 1, ?_, fun _ => .inl s5.2, ?_⟩
        · rw [hin, List.append_nil]
          exact .header ⟨s1, s2, s3, s4, s5, s6, s7, s8, lb, hut, fun h => absurd h hal,
            ⟨c, p, hr, fun _ => ⟨rfl, hacc, hav, hpl, htot, hful hin⟩⟩,
            by rw [hin, List.append_nil] at hfine; exact hfine⟩
        · intro F fuel _ hf
          obtain ⟨f, rfl⟩ : ∃ f, fuel = f + 1 := ⟨fuel - 1, by omega⟩
          simp [noTouchLoop, hin]
      · have hav0 : ¬ (l.inp = [] ∨ l.availOut = 0) := by
          rintro (h | h)
          · exact hin h
          · omega
        let r := Z.run l.z flush l.inp l.availOut
        let l1 : LL Z := l.after r
        have hinf : l.inflate flush = (r.ret, l1) := rfl
        have hbd := C.bounds hr flush l.inp l.availOut
        have hbo : r.out.length ≤ l.availOut := hbd.2
        have hbc : r.consumed ≤ l.inp.length := hbd.1
        have hst : C.Rep l1.z (c ++ l.inp.take r.consumed) (p ++ r.out) :=
          C.step hr flush l.inp l.availOut
        have hl1i : l1.inp = l.inp.drop r.consumed := rfl
        have hl1acc : l1.acc = p ++ r.out := by show l.acc ++ r.out = _; rw [hacc]
        have hl1av : l1.availOut = l.availOut - r.out.length := rfl
        have hl1tot : l1.totalOut = (p ++ r.out).length := by
          show l.totalOut + r.out.length = _
          rw [htot, List.length_append]
        have hl1b : l1.bufSize = 128 := lb
        have hused : l.inp = l.inp.take r.consumed ++ l1.inp := (List.take_append_drop _ _).symm
        have hlen1 : (p ++ r.out).length = p.length + r.out.length := List.length_append
        by_cases hret : r.ret = Z_OK
        · have hal1 : ¬ C.Dead l1.z := C.okAlive hr flush l.inp l.availOut hret
          have hfine1 : Fine C l1 ((c ++ l.inp.take r.consumed) ++ l1.inp) := by
            rw [List.append_assoc, ← hused]
            intro hF hO
            refine ⟨hal1, ?_⟩
            intro x hx
            rcases List.mem_cons.mp (show x ∈ r.ret :: l.rets from hx) with h | h
            · rw [h]; exact hret
            · exact (hfine hF hO).2 x h
          have hhand : l1.handed = .ok (p ++ r.out) := by
            have : l1.acc.length + l1.availOut = l1.bufSize := by
              rw [hl1acc, hl1av, hl1b, hlen1]; omega
            rw [LL.handed, if_pos this, hl1acc]
          have hsh : ∀ b : Bytes, s.seenHdr b = b ++ s.hdr.drop b.length := by
            intro b; simp [Sess.seenHdr, s3]
          by_cases hfull : (p ++ r.out).length < 128
          · -- header still incomplete
            let sN : Sess := { s with hdr := s.seenHdr (p ++ r.out) }
            have hcb : ∀ F, sessCb ok F l1 s (p ++ r.out) = .ok (l1, sN) := by
              intro F
              have : ¬ l1.totalOut ≥ MAIN_HEADER_SIZE := by
                rw [hl1tot]; show ¬ _ ≥ 128; omega
              simp only [sessCb, s1, headerCb, if_neg this]
              simp only [sN, s1]
            have hNlen : sN.hdr.length = 128 := by
              show (s.seenHdr (p ++ r.out)).length = 128
              rw [hsh, List.length_append, List.length_drop, s4]; omega
            have hnext : ∃ ret l' s' n0, SInv C ok item0 B l' s'
                ((c ++ l.inp.take r.consumed) ++ l1.inp) ∧
                ((plain ((c ++ l.inp.take r.consumed) ++ l1.inp)).length < 128 + uInt s.tmpSize →
                  s'.pieces = [] ∨
                    s'.pieces = [(plain ((c ++ l.inp.take r.consumed) ++ l1.inp)).drop 128]) ∧
                ∀ F fuel, n0 ≤ F → n0 ≤ fuel →
                  noTouchLoop (sessCb ok F) fuel Z_NO_FLUSH l1 sN = .ok (ret, l', s') := by
              have hfulN : l1.inp = [] → c ++ l.inp.take r.consumed ≠ [] →
                  p ++ r.out = plain (c ++ l.inp.take r.consumed) := by
                intro h0 _
                have hlt : r.out.length < l.availOut := by omega
                have := (C.complete hr flush l.inp l.availOut hsoft hret hlt).2
                rw [h0, List.append_nil] at hused
                rw [← hused]; exact this
              by_cases h0 : r.consumed = 0
              · have hout : r.out ≠ [] := by
                  rcases C.progress hr flush l.inp l.availOut hret with h | h
                  · exact absurd (show 0 < r.consumed from h) (by omega)
                  · exact h
                have hlen : 0 < r.out.length := List.length_pos_iff.mpr hout
                have hpre := (C.sound hst).length_le
                rw [h0, List.take_zero, List.append_nil, hlen1] at hpre
                refine ihm ((plain c).length - (p ++ r.out).length) (by omega) Z_NO_FLUSH l1 sN
                  (c ++ l.inp.take r.consumed) (p ++ r.out) (.inl rfl) (by rw [hl1i, h0, List.drop_zero, hk])
                  (by rw [h0, List.take_zero, List.append_nil]) s1 s2 s3 hNlen s5 s6 s7 s8 hl1b
                  hut hst hal1 hl1acc (by rw [hl1av]; omega) hfull hl1tot hfulN hfine1
              · have hlen : 0 < l.inp.length := List.length_pos_iff.mpr hin
                exact ihk l1.inp.length (by rw [hl1i, List.length_drop]; omega) _ Z_NO_FLUSH l1 sN
                  (c ++ l.inp.take r.consumed) (p ++ r.out) (.inl rfl) rfl rfl s1 s2 s3 hNlen s5 s6 s7 s8 hl1b
                  hut hst hal1 hl1acc (by rw [hl1av]; omega) hfull hl1tot hfulN hfine1
            obtain ⟨ret, l', s', n0, g1, gs, g2⟩ := hnext
            refine ⟨ret, l', s', n0 + 1, ?_, ?_, ?_⟩
            · rw [List.append_assoc, ← hused] at g1; exact g1
            · rw [List.append_assoc, ← hused] at gs; exact gs
            · intro F fuel hF hf
              obtain ⟨f, rfl⟩ : ∃ f, fuel = f + 1 := ⟨fuel - 1, by omega⟩
              simp only [noTouchLoop, if_neg hav0, hinf, hret]
              rw [if_neg (by simp), hhand]
              simp only [hcb F]
              exact g2 F f (by omega) (by omega)
          · -- header complete
            have hl128 : (p ++ r.out).length = 128 := by omega
            have hav1 : l1.availOut = 0 := by rw [hl1av]; omega
            have hseen : s.seenHdr (p ++ r.out) = p ++ r.out := by
              rw [hsh, hl128, List.drop_of_length_le (by omega), List.append_nil]
            have htge : l1.totalOut ≥ MAIN_HEADER_SIZE := by
              rw [hl1tot]; show _ ≥ 128; omega
            have hprefix : p ++ r.out <+: plain (c ++ l.inp) := by
              refine (C.sound hst).trans ?_
              have := C.mono (c ++ l.inp.take r.consumed) l1.inp
              rwa [List.append_assoc, ← hused] at this
            by_cases hv : hdrVersion (p ++ r.out) = 0
            · -- version 0: the data phase begins
              let l2 : LL Z := l1.setBuffer s.tmpSize
              have hl2i : l2.inp = l1.inp := rfl
              have htng : ¬ l2.totalOut > MAIN_HEADER_SIZE := by
                show ¬ l1.totalOut > 128
                rw [hl1tot]; omega
              obtain ⟨ret, l3, s3', n0, ds', g1, g2, g3, gs, g4⟩ := data_loop C ok item0 hi B l2 s s6 s7
                s8 s5 (p ++ r.out) [] hl128 hv hut (by simp) (c ++ l.inp.take r.consumed)
                (by rw [List.flatten_nil, List.append_nil]; exact hst) (by
                  intro h0 _ h
                  rw [List.flatten_nil, List.append_nil]
                  rcases h with h | h
                  · have : 0 < l1.availOut := h
                    omega
                  · rw [hl2i] at h0
                    rw [h0, List.append_nil] at hused
                    rw [← hused] at h ⊢
                    refine h _ _ _ _ _ _ hr hsoft hin rfl hret ?_
                    have := congrArg List.length hused
                    rw [List.length_take] at this
                    show r.consumed = _
                    omega) hfine1
              rw [hl2i, List.append_assoc, ← hused] at g1 gs
              have hpc : s3'.pieces = ds' := by
                obtain ⟨s0, b1, _, _, b4, b5⟩ := g1.start
                rw [b5, foldl_pieces ok ds' _ ⟨by simp [startSess], by simp [startSess],
                  by intro _; simp [startSess, b1, hi]⟩]
                simp [startSess, b4.2]
              have hone : (plain (c ++ l.inp)).length < 128 + uInt s.tmpSize →
                  s3'.pieces = [] ∨ s3'.pieces = [(plain (c ++ l.inp)).drop 128] := by
                intro hsm
                have := gs (by
                  rw [List.flatten_nil, List.append_nil, hl128]
                  exact hsm)
                rwa [List.flatten_nil, List.append_nil, hl128, ← hpc, List.nil_append] at this
              have hcb : ∀ F, n0 ≤ F → sessCb ok F l1 s (p ++ r.out) = .ok (l3, s3') := by
                intro F hF
                have hrd := g4 F hF (dataCb ok) (dataCb_folds ok)
                rw [List.foldl_nil] at hrd
                simp only [sessCb, s1, headerCb, if_pos htge, hseen, if_pos hv]
                rw [if_neg htng]
                have hrd' : readOldIn (dataCb ok) F Z_NO_FLUSH (l1.setBuffer s.tmpSize)
                    (startSess s (p ++ r.out)) = .ok (ret, l3, s3') := hrd
                simp only [startSess] at hrd'
                rw [hrd']
              by_cases hstop : l3.inp = [] ∨ l3.availOut = 0
              · refine ⟨0, l3, s3', n0 + 2, .data _ ds' g1, hone, ?_⟩
                intro F fuel hF hf
                obtain ⟨f, rfl⟩ : ∃ f, fuel = f + 2 := ⟨fuel - 2, by omega⟩
                simp only [noTouchLoop, if_neg hav0, hinf, hret]
                rw [if_neg (by simp), hhand]
                simp only [hcb F (by omega), if_pos hstop]
              · have hdead : C.Dead l3.z := by
                  by_cases h0 : ret = Z_OK
                  · exact absurd (.inl (g2 h0)) hstop
                  · exact g3 h0
                have hd := C.dead hdead Z_NO_FLUSH l3.inp l3.availOut
                let r3 := Z.run l3.z Z_NO_FLUSH l3.inp l3.availOut
                have hinf3 : l3.inflate Z_NO_FLUSH = (r3.ret, l3.after r3) := rfl
                obtain ⟨c3, p3, hr3, _⟩ := g1.st
                refine ⟨r3.ret, l3.after r3, s3', n0 + 2, .data (p ++ r.out) ds' ?_, hone, ?_⟩
                · refine ⟨g1.start, g1.hLen, g1.version, g1.bufSize, g1.pieces, g1.pre,
                    ⟨_, _, C.step hr3 Z_NO_FLUSH l3.inp l3.availOut, fun h => absurd hd.2.2 h⟩, ?_,
                    fun hF hO => absurd hdead (g1.fine hF hO).1⟩
                  intro hok _
                  exact absurd (hok r3.ret (by show r3.ret ∈ r3.ret :: l3.rets; simp)) hd.1
                · intro F fuel hF hf
                  obtain ⟨f, rfl⟩ : ∃ f, fuel = f + 2 := ⟨fuel - 2, by omega⟩
                  have hr3r : r3.ret ≠ Z_OK := hd.1
                  simp only [noTouchLoop, if_neg hav0, hinf, hret]
                  rw [if_neg (by simp), hhand]
                  simp only [hcb F (by omega), if_neg hstop, hinf3, if_pos hr3r]
            · -- another version
              let sN : Sess := { s with hdr := p ++ r.out, isInited := true,
                                        d := { s.d with hasError := false } }
              have hcb : ∀ F, sessCb ok F l1 s (p ++ r.out) = .ok (l1, sN) := by
                intro F
                simp only [sessCb, s1, headerCb, if_pos htge, hseen, if_neg hv]
                simp only [sN, s1]
              have hstop : l1.inp = [] ∨ l1.availOut = 0 := .inr hav1
              refine ⟨0, l1, sN, 2, .bad (p ++ r.out) ⟨s1, rfl, s5.1, hv, by rw [hl1tot]; omega,
                hl128, hv, hprefix, _, _, hst⟩, fun _ => .inl s5.2, ?_⟩
              intro F fuel hF hf
              obtain ⟨f, rfl⟩ : ∃ f, fuel = f + 2 := ⟨fuel - 2, by omega⟩
              simp only [noTouchLoop, if_neg hav0, hinf, hret]
              rw [if_neg (by simp), hhand]
              simp only [hcb F, if_pos hstop]
        · -- zlib error
          have hdead : C.Dead l1.z := by
            rcases C.fail hr flush l.inp l.availOut hsoft hin hret with h | h
            · exact h
            · omega
          refine ⟨r.ret, l1, s, 1, .header ⟨s1, s2, s3, s4, s5, s6, s7, s8, lb, hut,
            fun _ => ⟨r.ret, by show r.ret ∈ r.ret :: l.rets; simp, hret⟩,
            ⟨_, _, hst, fun h => absurd hdead h⟩, fun hF hO => ?_⟩, fun _ => .inl s5.2, ?_⟩
          · rw [hused, ← List.append_assoc] at hO
            exact absurd (hO.left C) (hF _ _ _ hst hdead)
          intro F fuel _ hf
          obtain ⟨f, rfl⟩ : ∃ f, fuel = f + 1 := ⟨fuel - 1, by omega⟩
          simp only [noTouchLoop, if_neg hav0, hinf, if_pos hret]

/-- One call in the header phase. -/
theorem header_call (C : InflateOK Z plain) (ok : AllocOracle) (item0 : Bytes)
    (hi : item0.length = 40) (B : Nat) (l : LL Z) (s : Sess) (given : Bytes)
    (D : HPh C item0 B l s given) (d : Bytes) (hd : d.length < U32) (flush : Int)
    (hsoft : SoftFlush flush) :
    ∃ ret l' s' n0, SInv C ok item0 B l' s' (given ++ d) ∧
      ((plain (given ++ d)).length < 128 + uInt s.tmpSize →
        s'.pieces = [] ∨ s'.pieces = [(plain (given ++ d)).drop 128]) ∧
      (∀ fuel, n0 ≤ fuel → sessDecompress ok fuel flush l s d = .ok (ret, l', s')) := by
  have hfeed : (l.feed d).inp = d := by simp only [LL.feed]; exact take_uInt hd
  have hstart : ∀ fuel, sessDecompress ok fuel flush l s d =
      noTouchLoop (sessCb ok fuel) fuel flush (l.feed d) s := by
    intro fuel; simp [sessDecompress, D.inited, llDecompressNoTouch]
  obtain ⟨c, p, hr, hal⟩ := D.st
  by_cases hdead : C.Dead l.z
  · by_cases hstop : (l.feed d).inp = [] ∨ (l.feed d).availOut = 0
    · refine ⟨0, l.feed d, s, 1, .header ⟨D.cb, D.inited, D.own, D.hdrLen, D.log, D.item, D.name,
        D.reallocs, D.bufSize, D.tmp, D.deadRet, ⟨c, p, hr, fun h => absurd hdead h⟩,
        fun hF hO => absurd hdead (D.fine hF (hO.left C)).1⟩, fun _ => .inl D.log.2, ?_⟩
      intro fuel hf
      obtain ⟨f, rfl⟩ : ∃ f, fuel = f + 1 := ⟨fuel - 1, by omega⟩
      rw [hstart, noTouchLoop, if_pos hstop]
    · let r := Z.run l.z flush (l.feed d).inp l.availOut
      have hinf : (l.feed d).inflate flush = (r.ret, (l.feed d).after r) := rfl
      have hd' := C.dead hdead flush (l.feed d).inp l.availOut
      refine ⟨r.ret, (l.feed d).after r, s, 1, .header ⟨D.cb, D.inited, D.own, D.hdrLen, D.log,
        D.item, D.name, D.reallocs, D.bufSize, D.tmp,
        fun _ => ⟨r.ret, by show r.ret ∈ r.ret :: l.rets; simp, hd'.1⟩,
        ⟨_, _, C.step hr flush (l.feed d).inp l.availOut, fun h => absurd hd'.2.2 h⟩,
        fun hF hO => absurd hdead (D.fine hF (hO.left C)).1⟩, fun _ => .inl D.log.2, ?_⟩
      intro fuel hf
      obtain ⟨f, rfl⟩ : ∃ f, fuel = f + 1 := ⟨fuel - 1, by omega⟩
      have : r.ret ≠ Z_OK := hd'.1
      simp only [hstart, noTouchLoop, if_neg hstop, hinf, if_pos this]
  · obtain ⟨hc, a1, a2, a3, a4, a5⟩ := hal hdead
    subst hc
    obtain ⟨ret, l', s', n0, g1, gs, g2⟩ := header_loop C ok item0 hi B _ _ flush (l.feed d) s c p hsoft rfl rfl
      D.cb D.inited D.own D.hdrLen D.log D.item D.name D.reallocs D.bufSize D.tmp hr hdead a1 a2 a3
      a4 (fun _ => a5) (fun hF hO => D.fine hF (hO.left C))
    refine ⟨ret, l', s', n0, by rw [hfeed] at g1; exact g1, by rw [hfeed] at gs; exact gs, ?_⟩
    intro fuel hf
    rw [hstart]
    exact g2 fuel fuel hf hf

/-- The compressed bytes a history supplies. -/
def SOp.data : SOp → Bytes
  | .setBuffer _ => []
  | .decompress _ d => d

/-- Buffers positive and at most `B`, no hard flush request, inputs below 4 GiB. -/
def SOp.sane (B : Nat) : SOp → Prop
  | .setBuffer size => 0 < uInt size ∧ uInt size ≤ B
  | .decompress flush d => SoftFlush flush ∧ d.length < U32

theorem uInt_idem (n : Nat) : uInt (uInt n) = uInt n := uInt_of_lt (uInt_lt n)

theorem SInv.setBuffer {C : InflateOK Z plain} {ok : AllocOracle} {item0 : Bytes} {B : Nat}
    (hi : item0.length = 40) {l : LL Z} {s : Sess} {given : Bytes}
    (D : SInv C ok item0 B l s given) (size : Nat) (hs : 0 < uInt size ∧ uInt size ≤ B) :
    SInv C ok item0 B (Sess.setBuffer l s size).1 (Sess.setBuffer l s size).2 given := by
  cases D with
  | header D =>
    have : Sess.setBuffer l s size = (l, { s with tmpSize := uInt size }) := by
      simp [Sess.setBuffer, D.inited]
    rw [this]
    exact .header ⟨D.cb, D.inited, D.own, D.hdrLen, D.log, D.item, D.name, D.reallocs, D.bufSize,
      by simp only [uInt_idem]; exact hs, D.deadRet, D.st, D.fine⟩
  | data h ds D =>
    obtain ⟨f1, f2, _⟩ := D.flags hi
    have hs' : { s with ownBuf := false } = s := by cases s; simp_all
    have : Sess.setBuffer l s size = (l.setBuffer size, s) := by
      rw [Sess.setBuffer, if_pos f1, hs']
    rw [this]
    exact .data h ds ⟨D.start, D.hLen, D.version, hs, D.pieces, D.pre, D.st, D.full, D.fine⟩
  | bad h D =>
    have : Sess.setBuffer l s size = (l.setBuffer size, { s with ownBuf := false }) := by
      simp [Sess.setBuffer, D.inited]
    rw [this]
    exact .bad h ⟨D.cb, D.inited, D.log, D.cur, D.tot, D.hLen, D.version, D.pre, D.st⟩

/-- A history of calls. -/
theorem sessRun_good (C : InflateOK Z plain) (ok : AllocOracle) (item0 : Bytes)
    (hi : item0.length = 40) (B : Nat) (ops : List SOp) (hops : ∀ op ∈ ops, op.sane B) (l : LL Z)
    (s : Sess) (given : Bytes) (D : SInv C ok item0 B l s given) :
    ∃ n0, (∃ rets l' s', SInv C ok item0 B l' s' (given ++ (ops.map SOp.data).flatten) ∧
      ∀ fuel, n0 ≤ fuel → sessRun ok fuel ops l s = .ok (rets, l', s')) ∨
      (∃ h, h.length = 128 ∧ hdrVersion h ≠ 0 ∧
        h <+: plain (given ++ (ops.map SOp.data).flatten) ∧
        ∀ fuel, n0 ≤ fuel → sessRun ok fuel ops l s = .error .assertFail) := by
  induction ops generalizing l s given with
  | nil => exact ⟨0, .inl ⟨[], l, s, by simpa using D, fun _ _ => rfl⟩⟩
  | cons op ops ih =>
    have hops' : ∀ op ∈ ops, op.sane B := fun o ho => hops o (List.mem_cons_of_mem _ ho)
    have hop := hops op List.mem_cons_self
    cases op with
    | setBuffer size =>
      obtain ⟨n0, h⟩ := ih hops' _ _ given (D.setBuffer hi size hop)
      refine ⟨n0, ?_⟩
      simpa [SOp.data, sessRun] using h
    | decompress flush d =>
      obtain ⟨hfl, hd⟩ := hop
      have hcall : ∃ n1, (∃ ret l' s', SInv C ok item0 B l' s' (given ++ d) ∧
          (∀ fuel, n1 ≤ fuel → sessDecompress ok fuel flush l s d = .ok (ret, l', s'))) ∨
          (∃ h, h.length = 128 ∧ hdrVersion h ≠ 0 ∧ h <+: plain given ∧
          ∀ fuel, n1 ≤ fuel → sessDecompress ok fuel flush l s d = .error .assertFail) := by
        cases D with
        | header D =>
          obtain ⟨ret, l', s', n1, g1, _, g2⟩ := header_call C ok item0 hi B l s given D d hd flush hfl
          exact ⟨n1, .inl ⟨ret, l', s', g1, g2⟩⟩
        | data h ds D =>
          obtain ⟨ret, l', s', n1, ds', g1, g2⟩ := data_call C ok item0 hi B l s given h ds D d hd
          exact ⟨n1, .inl ⟨ret, l', s', .data h ds' g1, fun f hf => g2 f hf _⟩⟩
        | bad h D =>
          obtain ⟨n1, ⟨ret, l', s', g1, g2⟩ | g⟩ := bad_call C ok B l s given h D d
          · exact ⟨n1, .inl ⟨ret, l', s', .bad h g1, fun f hf => g2 f hf _⟩⟩
          · exact ⟨n1, .inr ⟨h, D.hLen, D.version, D.pre, fun f hf => g f hf _⟩⟩
      obtain ⟨n1, ⟨ret, l1, s1, g1, g2⟩ | ⟨h, h1, h2, h3, h4⟩⟩ := hcall
      · obtain ⟨n0, h⟩ := ih hops' l1 s1 _ g1
        have hdat : given ++ d ++ (ops.map SOp.data).flatten =
            given ++ ((SOp.decompress flush d :: ops).map SOp.data).flatten := by
          simp [SOp.data]
        rw [hdat] at h
        refine ⟨max n0 n1, ?_⟩
        rcases h with ⟨rets, l', s', k1, k2⟩ | ⟨h, k1, k2, k3, k4⟩
        · refine .inl ⟨ret :: rets, l', s', k1, fun f hf => ?_⟩
          simp only [sessRun, g2 f (by omega), k2 f (by omega)]
        · refine .inr ⟨h, k1, k2, k3, fun f hf => ?_⟩
          simp only [sessRun, g2 f (by omega), k4 f (by omega)]
      · refine ⟨n1, .inr ⟨h, h1, h2, h3.trans (C.mono _ _), fun f hf => ?_⟩⟩
        simp only [sessRun, h4 f hf]

/-- A fresh session. -/
theorem SInv.create (C : InflateOK Z plain) (ok : AllocOracle) (hdr item : Bytes)
    (hh : hdr.length = 128) (B bufSize : Nat) (hb : 0 < uInt bufSize ∧ uInt bufSize ≤ B) :
    SInv C ok item B (Sess.create Z hdr item bufSize).1 (Sess.create Z hdr item bufSize).2 [] := by
  have h128 : uInt MAIN_HEADER_SIZE = 128 := uInt_of_lt (by decide)
  refine .header ⟨rfl, rfl, rfl, hh, ⟨rfl, rfl⟩, rfl, rfl, rfl, h128, ?_, fun h => absurd h C.alive,
    ⟨[], [], C.init, fun _ => ⟨rfl, rfl, ?_, by simp, rfl, by simp⟩⟩,
    fun _ _ => ⟨C.alive, fun r hr => by simp [Sess.create, LL.create, LL.setBuffer, LL.setup] at hr⟩⟩
  · simp only [Sess.create, uInt_idem]; exact hb
  · exact h128

end Zwt
