import Verif.Proofs.Merge
import Verif.Proofs.FirstBlock
import Verif.Proofs.HLGrow

/-! Extraction of a large archive ends at the first 512 KiB if a directory occurs twice there. -/

namespace Zwt

variable {Z : Inflater} {plain : Bytes → Bytes}

/-- If a callback of the first 512 KiB has an error, extraction ends there. -/
theorem extract_stop (C : InflateOK Z plain) (hnil : plain [] = []) (ok : AllocOracle)
    (hdr item : Bytes) (hh : hdr.length = 128) (hi : item.length = 40) (os : Os)
    (out : Bytes) (w : World) (n : Nat) (data : Bytes)
    (hlen : 524288 ≤ (allowed n 0 data).length) :
    ∃ (l : LL Z) (s : Sess) (n0 : Nat),
      SInv C ok item DEF_CHUNK_SIZE l s ((allowed n 0 data).take 524288) ∧
      ∀ fuel, n0 ≤ fuel → ∀ h, hlEvents os out (HL.init w) s.log = .ok h → h.hasError = true →
        extract Z os ok fuel hdr item out n ⟨data, false⟩ w =
          .ok ⟨h.ret, h.w, 524288, true, l.rets, l.availOut, s.pieces⟩ := by
  have hc : DEF_CHUNK_SIZE = 524288 := rfl
  have hu32 : U32 = 4294967296 := rfl
  have hu : uInt DEF_CHUNK_SIZE = 524288 := uInt_of_lt (by decide)
  have D0 := SInv.create C ok hdr item hh DEF_CHUNK_SIZE DEF_CHUNK_SIZE
    ⟨by omega, by rw [hu]; exact Nat.le_refl _⟩
  have hlog0 : (Sess.create Z hdr item DEF_CHUNK_SIZE).2.log.length = 0 := rfl
  have hext : ∀ fuel, extract Z os ok fuel hdr item out n ⟨data, false⟩ w =
      hlLoop os ok fuel out n fuel 0 0 ⟨data, false⟩ (Sess.create Z hdr item DEF_CHUNK_SIZE).1
        (Sess.create Z hdr item DEF_CHUNK_SIZE).2 (HL.init w) := fun _ => rfl
  generalize Sess.create Z hdr item DEF_CHUNK_SIZE = c at D0 hext hlog0
  have hns : nextSize n 0 = 524288 ∧ 524288 ≤ data.length ∧
      (allowed n 0 data).take 524288 = data.take 524288 := by
    simp only [allowed, Nat.sub_zero] at hlen ⊢
    simp only [nextSize, hc]
    by_cases hn : n > 0
    · rw [if_pos hn] at hlen ⊢
      rw [List.length_take] at hlen
      refine ⟨?_, by omega, ?_⟩
      · rw [if_pos hn]
        split <;> omega
      · rw [if_pos hn, List.take_take, Nat.min_eq_left (by omega)]
    · rw [if_neg hn] at hlen ⊢
      exact ⟨rfl, hlen, by rw [if_neg hn]⟩
  obtain ⟨a1, a2, a3⟩ := hns
  rw [a3]
  have hbl : (data.take 524288).length = 524288 := by rw [List.length_take]; omega
  obtain ⟨n1, ⟨ret, l, s, S, hcall⟩ | ⟨h, b1, b2, b3, _⟩⟩ := sess_call C ok item hi DEF_CHUNK_SIZE
    c.1 c.2 [] D0 (hlFlush (0 + 1)) (hlFlush_soft _) (data.take 524288) (by omega)
  rotate_left
  · rw [hnil, List.prefix_nil] at b3
    rw [b3] at b1; simp at b1
  rw [List.nil_append] at S
  refine ⟨l, s, n1 + 1, S, fun fuel hf h hev herr => ?_⟩
  rw [hext]
  obtain ⟨f, rfl⟩ : ∃ f, fuel = f + 1 := ⟨fuel - 1, by omega⟩
  rw [hlLoop]
  simp only [a1, show ¬ (524288 < 1) by decide, if_false, hcall (f + 1) (by omega),
    show ¬ (data.length < 524288) by omega, decide_false, Bool.false_eq_true, hlog0,
    List.drop_zero, hev, herr, Bool.not_true, Bool.and_false, hbl, Nat.zero_add]

theorem EvsOf.append {g v : Forest} : ∀ {es : List Ev}, EvsOf (g ++ v) es →
    ∃ e1 e2, es = e1 ++ e2 ∧ EvsOf g e1 ∧ EvsOf v e2 := by
  induction g with
  | nil => intro es h; exact ⟨[], es, rfl, .nil, h⟩
  | file n m c r ih =>
    intro es h
    replace h : EvsOf (.file n m c (r ++ v)) es := h
    cases h with
    | file h1 h2 h3 h4 h5 h6 =>
      obtain ⟨e1, e2, rfl, a, b⟩ := ih h6
      exact ⟨_, e2, by simp, .file h1 h2 h3 h4 h5 a, b⟩
  | link n m t r ih =>
    intro es h
    replace h : EvsOf (.link n m t (r ++ v)) es := h
    cases h with
    | link h1 h2 h3 h4 =>
      obtain ⟨e1, e2, rfl, a, b⟩ := ih h4
      exact ⟨_, e2, by simp, .link h1 h2 h3 a, b⟩
  | dir n m s r _ ih =>
    intro es h
    replace h : EvsOf (.dir n m s (r ++ v)) es := h
    cases h with
    | dir h1 h2 h3 h4 h5 =>
      obtain ⟨e1, e2, rfl, a, b⟩ := ih h5
      exact ⟨_, e2, by simp, .dir h1 h2 h3 h4 a, b⟩
  | other n r ih =>
    intro es h
    replace h : EvsOf (.other n (r ++ v)) es := h
    cases h
  | bad n r ih =>
    intro es h
    replace h : EvsOf (.bad n (r ++ v)) es := h
    cases h

theorem EvsOf.count {f : Forest} {es : List Ev} (h : EvsOf f es) :
    (atoms es).length = f.shapes.length := by
  have hr : ∀ ds : List Bytes, (atoms (ds.map Ev.fileRead)).length = ds.flatten.length := by
    intro ds
    induction ds with
    | nil => rfl
    | cons d ds ih =>
      rw [List.map_cons, atoms_cons, List.length_append, ih]
      simp [Ev.atoms]
  have ha : ∀ a b : List Ev, atoms (a ++ b) = atoms a ++ atoms b := by
    intro a b; simp [atoms]
  induction h with
  | nil => rfl
  | file _ _ _ h4 _ _ ih =>
    rw [atoms_cons, ha, atoms_cons, List.length_append, List.length_append, List.length_append, hr, ih,
      h4]
    simp [Ev.atoms, Forest.shapes]
    omega
  | link _ _ _ _ ih =>
    rw [atoms_cons, atoms_cons, List.length_append, List.length_append, ih]
    simp [Ev.atoms, Forest.shapes]
    omega
  | dir _ _ _ _ _ ihs ih =>
    rw [atoms_cons, ha, atoms_cons, List.length_append, List.length_append, List.length_append, ihs,
      ih]
    simp [Ev.atoms, Forest.shapes]
    omega

/-- At most two callbacks are missing at the end of a prefix. -/
theorem ArchiveLog.count {ok : AllocOracle} {B : Nat} {P : Bytes} {pieces : List Bytes}
    {evs : List Ev} (h : ArchiveLog ok B P pieces (.drStart :: evs)) :
    (specParse ok 0 (P.drop 128)).atoms.length ≤ (atoms evs).length + 2 := by
  cases h with
  | @dir hd _ _ owed h1 h2 h3 h4 h5 h6 h7 h8 =>
    rw [List.drop_left' h1, ← h8.length_eq, List.length_append]
    omega

/-- The callbacks made for a prefix of the archive of `g ++ v` that goes on for three callbacks
after `g` include those of `g`. -/
theorem log_front {junk t1 t2 : Bytes} {g v : Forest} (hj : junk.length = 120) (he : Encodes g t1)
    (he2 : Encodes v t2) (ok : AllocOracle) (hok : ∀ k n, ok k n = true) (hf : (g ++ v).wellNamed)
    {P : Bytes} {pieces : List Bytes} {log : List Ev} {B : Nat}
    (hP : P <+: headerBytes 0 1 junk ++ (t1 ++ t2)) (h : ArchiveLog ok B P pieces log)
    (hl : (g ++ v).noLinks) {q : Bytes} (hq : headerBytes 0 1 junk ++ (t1 ++ q) <+: P)
    (h3 : ∀ k, 3 ≤ (specParse ok k q).atoms.length) :
    ∃ e1 more rest, log = .drStart :: (e1 ++ more) ∧ EvsOf g e1 ∧
      EvsOf (g ++ v) (e1 ++ more ++ rest) := by
  obtain ⟨e1, e2, e3⟩ := C02_header_roundtrip 0 1 junk hj (by decide) (by decide)
  have e1' : (headerBytes 0 1 junk).length = 128 := e1
  obtain ⟨k', as, p1, p2, _⟩ := he.parse ok hok 0
  have hqa : as.length + 3 ≤ (specParse ok 0 (t1 ++ q)).atoms.length := by
    rw [p1]
    simp only [Parsed.after, List.length_append]
    have := h3 k'
    omega
  have hqP : (specParse ok 0 (t1 ++ q)).atoms.length ≤ (specParse ok 0 (P.drop 128)).atoms.length := by
    obtain ⟨u, rfl⟩ := hq
    rw [List.append_assoc, List.drop_left' e1']
    exact (specParse_prefix ok 0 (t1 ++ q) u).length_le
  have hlen := hq.length_le
  rw [List.length_append, e1'] at hlen
  rcases log_tree hj (he.append he2) ok hok hf hP h (.inl hl) with ⟨rfl, hemp⟩ | ⟨evs, rest, rfl, hev, _⟩
  · exfalso
    have hdr : P.take 128 = headerBytes 0 1 junk := by
      obtain ⟨u, rfl⟩ := hq
      rw [List.append_assoc, List.take_left' e1']
    cases h with
    | short h => omega
    | version h1 h2 => rw [hdr] at h2; exact h2 e2
    | empty h1 h2 =>
      rw [specParse_short _ _ (P.drop 128) (by rw [List.length_drop]; omega)] at hqP
      simp only [List.length_nil] at hqP; omega
    | unknown h1 h2 h3 => rw [hdr] at h3; exact h3 e3
  · obtain ⟨f1, f2, hsp, ef, _⟩ := hev.append
    have hc := h.count
    have hf1 := ef.count
    have has := congrArg List.length p2
    rw [List.length_map] at has
    rcases List.append_eq_append_iff.mp hsp with ⟨u, hu, _⟩ | ⟨u, hu, _⟩
    · exfalso
      rw [hu] at hf1
      simp only [atoms, List.flatMap_append, List.length_append] at hf1 hc
      omega
    · subst hu
      exact ⟨f1, u, rest, rfl, ef, hev⟩

/-- The tree `g ++ v` is in an archive, `g` has a directory twice, and what the first 512 KiB of the
archive stand for goes on for three callbacks after `g`: extraction reads no more than these 512 KiB,
and reports success. -/
theorem extract_merge_stop (C : InflateOK Z plain) (hnil : plain [] = []) (hF : C.Final)
    (ok : AllocOracle) (hok : ∀ k n, ok k n = true) (hdr item : Bytes) (hh : hdr.length = 128)
    (hi : item.length = 40) (os : Os) (hq : os.quiet) (w : World) (ht : w.fs.tree) (pre : Bytes)
    (h0 : 0 ∉ pre) (d : Loc) (hd : InDir os w pre d) (ho : OpenDir os w.fs d) (n : Bytes)
    (ns : List Bytes) (hn : ∀ x ∈ n :: ns, PlainName x) (hnew : w.fs (d ++ [n]) = none)
    (hen : Enterable os (dirMode os 0o775)) (hlen : ns.length ≤ 61) {g v : Forest}
    (hg : g.wellNamed) (hf : (g ++ v).wellNamed) (hgw : OnlyDirsTwice (g.spots os []))
    (htw : OnlyDirsTwice ((g ++ v).spots os [])) (hge : g.enterable os)
    (hfe : (g ++ v).enterable os) (hgl : g.noLinks) (hl : (g ++ v).noLinks)
    (htwice : ¬ (g.spots os []).Pairwise fun a b => a.1 ≠ b.1)
    {junk t1 t2 q : Bytes} (hj : junk.length = 120) (he : Encodes g t1) (he2 : Encodes v t2)
    (size : Nat) (data : Bytes) (hbig : 524288 ≤ (allowed size 0 data).length)
    (hO : Open plain ((allowed size 0 data).take 524288))
    (hP : C.Prompt ((allowed size 0 data).take 524288))
    (h1 : plain ((allowed size 0 data).take 524288) <+: headerBytes 0 1 junk ++ (t1 ++ t2))
    (h2 : headerBytes 0 1 junk ++ (t1 ++ q) <+: plain ((allowed size 0 data).take 524288))
    (h3 : ∀ k, 3 ≤ (specParse ok k q).atoms.length) :
    ∃ n0 r, (∀ fuel, n0 ≤ fuel → extract Z os ok fuel hdr item (pre ++ joinNames (n :: ns)) size
        ⟨data, false⟩ w = .ok r) ∧ r.ret = CT_DIRECTORY ∧ r.read = 524288 ∧
      (∀ c ∈ r.codes, c = Z_OK) ∧
      ∀ l m c, w.fs l = none → r.w.fs l = some (.file m c) →
        c.length + 128 ≤ (plain ((allowed size 0 data).take 524288)).length := by
  obtain ⟨l, s, n0, S, hrun⟩ := extract_stop C hnil ok hdr item hh hi os (pre ++ joinNames (n :: ns))
    w size data hbig
  obtain ⟨e1, e2, e3⟩ := C02_header_roundtrip 0 1 junk hj (by decide) (by decide)
  have e1' : (headerBytes 0 1 junk).length = 128 := e1
  have hv : ∀ h : Bytes, h.length = 128 → h <+: plain ((allowed size 0 data).take 524288) →
      hdrVersion h = 0 := by
    intro h hl hpre
    obtain ⟨u, hu⟩ := hpre.trans h1
    have := congrArg (List.take 128) hu
    rw [List.take_left' hl, List.take_left' e1'] at this
    rw [this]; exact e2
  have hcodes := S.codes hF hO hv
  obtain ⟨P, p1, p2, p3⟩ := S.archive hi
  have hPe : P = plain ((allowed size 0 data).take 524288) := by
    rcases p3 hcodes (.inr hP) (.inl (fun h => by
      have := congrArg List.length h
      rw [List.length_take, List.length_nil] at this
      omega)) with h | ⟨h, h'⟩
    · exact h
    · refine absurd (hv (P.take 128) ?_ ((List.take_prefix _ _).trans p1)) h'
      rw [List.length_take]; omega
  rw [← hPe] at h1 h2 ⊢
  obtain ⟨ea, more, rest, hlog, hea, hall⟩ := log_front hj he he2 ok hok hf h1 p2 hl h2 h3
  obtain ⟨ha, a1, _, a3, _⟩ := tree_fresh_merge os hq w ht pre h0 d hd ho n ns hn hnew hen hlen hg hgw
    hge (.inl hgl) (evs := ea) (rest := []) (by rw [List.append_nil]; exact hea)
  obtain ⟨hb, b1, b2, _, _⟩ := tree_fresh_merge os hq w ht pre h0 d hd ho n ns hn hnew hen hlen hf htw
    hfe (.inl hl) hall
  have herra : ha.hasError = true := by
    cases h : ha.hasError with
    | true => rfl
    | false => exact absurd (a3 rfl h) htwice
  have herr : hb.hasError = true := by
    have b1' := b1
    rw [← List.cons_append, hlEvents_append, a1] at b1'
    exact (hlEvents_keeps os _ more ha hb b1').2.2.1 herra
  refine ⟨n0, _, fun fuel hfu => hrun fuel hfu hb (by rw [hlog]; exact b1) herr, b2, rfl, hcodes, ?_⟩
  intro l m c hnone hsome
  obtain ⟨s1, _⟩ := p2.sums
  have s1 := s1 (by rw [hlog]; simp)
  obtain ⟨k, k1, k2⟩ := hlEvents_run os true (pre ++ joinNames (n :: ns)) s.log 0 (HL.init w) hb
    (fun _ => rfl) ⟨by simp [HL.init], by simp [HL.init]⟩ (by rw [hlog]; exact b1)
  have hw : c.length ≤ 0 + evBytes s.log := (k2.added hnone hsome).1
  omega

end Zwt
