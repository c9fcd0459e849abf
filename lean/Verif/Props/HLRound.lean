import Verif.Proofs.HLSmall
import Verif.Proofs.WalkRun
import Verif.Spec.WalkSample
import Verif.Spec.HLSample
import Verif.Proofs.FileArchive

/-! C39: from a directory to an archive and back.  C40: the same for a single file. -/

namespace Zwt

variable {Z : Inflater} {D : Deflater} {plain : Bytes → Bytes} {σ : Type}

/-! ### C39 -/

theorem askFilter_cases (flt : Filter σ) (dir : Bytes) (e : Entry) (fs : σ) (skip take : σ → Sel σ)
    (Q : Forest → Prop) (h0 : Q .nil) (h1 : ∀ fs, Q (skip fs).forest) (h2 : ∀ fs, Q (take fs).forest) :
    Q (askFilter flt dir e fs skip take).forest := by
  unfold askFilter
  simp only
  split
  · exact h2 _
  · split
    · exact h0
    · exact h1 _

/-- What a filter selects from a proper tree is a proper tree. -/
theorem select_proper (flt : Filter σ) (f : Forest) : ∀ (dir : Bytes) (fs : σ),
    (∀ n ∈ (select flt dir f fs).forest.names, n ∈ f.names) ∧
    (f.proper → (select flt dir f fs).forest.proper) := by
  have nilCase : ∀ g : Forest, (∀ x ∈ Forest.nil.names, x ∈ g.names) ∧
      (g.proper → Forest.nil.proper) := fun g => ⟨by simp [Forest.names], fun _ => trivial⟩
  induction f with
  | nil => intro dir fs; exact ⟨fun n h => h, id⟩
  | file n m c r ih =>
    intro dir fs
    rw [select]
    refine askFilter_cases flt dir _ fs _ _ (fun g => (∀ x ∈ g.names, x ∈ (Forest.file n m c r).names) ∧
      ((Forest.file n m c r).proper → g.proper)) (nilCase _) ?_ ?_
    · intro fs
      obtain ⟨i1, i2⟩ := ih dir fs
      exact ⟨fun x hx => List.mem_cons_of_mem _ (i1 x hx), fun h => i2 h.2.2⟩
    · intro fs
      obtain ⟨i1, i2⟩ := ih dir fs
      refine ⟨fun x hx => ?_, fun h => ⟨h.1, fun hn => h.2.1 (i1 _ hn), i2 h.2.2⟩⟩
      rcases List.mem_cons.mp hx with rfl | hx
      · exact List.mem_cons_self
      · exact List.mem_cons_of_mem _ (i1 x hx)
  | link n m t r ih =>
    intro dir fs
    rw [select]
    refine askFilter_cases flt dir _ fs _ _ (fun g => (∀ x ∈ g.names, x ∈ (Forest.link n m t r).names) ∧
      ((Forest.link n m t r).proper → g.proper)) (nilCase _) ?_ ?_
    · intro fs
      obtain ⟨i1, i2⟩ := ih dir fs
      exact ⟨fun x hx => List.mem_cons_of_mem _ (i1 x hx), fun h => i2 h.2.2.2.2⟩
    · intro fs
      obtain ⟨i1, i2⟩ := ih dir fs
      refine ⟨fun x hx => ?_,
        fun h => ⟨h.1, fun hn => h.2.1 (i1 _ hn), h.2.2.1, h.2.2.2.1, i2 h.2.2.2.2⟩⟩
      rcases List.mem_cons.mp hx with rfl | hx
      · exact List.mem_cons_self
      · exact List.mem_cons_of_mem _ (i1 x hx)
  | dir n m s r ihs ih =>
    intro dir fs
    rw [select]
    refine askFilter_cases flt dir _ fs _ _ (fun g => (∀ x ∈ g.names, x ∈ (Forest.dir n m s r).names) ∧
      ((Forest.dir n m s r).proper → g.proper)) (nilCase _) ?_ ?_
    · intro fs
      obtain ⟨i1, i2⟩ := ih dir fs
      exact ⟨fun x hx => List.mem_cons_of_mem _ (i1 x hx), fun h => i2 h.2.2.2⟩
    · intro fs
      obtain ⟨_, j2⟩ := ihs (pathOf dir n) fs
      generalize select flt (pathOf dir n) s fs = a at j2 ⊢
      unfold Sel.close
      split
      · obtain ⟨i1, i2⟩ := ih dir a.fs
        refine ⟨fun x hx => ?_, fun h => ⟨h.1, fun hn => h.2.1 (i1 _ hn), j2 h.2.2.1, i2 h.2.2.2⟩⟩
        rcases List.mem_cons.mp hx with rfl | hx
        · exact List.mem_cons_self
        · exact List.mem_cons_of_mem _ (i1 x hx)
      · refine ⟨?_, fun h => ⟨h.1, by simp [Forest.names], j2 h.2.2.1, trivial⟩⟩
        intro x hx
        rw [List.mem_singleton.mp hx]
        exact List.mem_cons_self
  | other n r ih =>
    intro dir fs
    rw [select]
    exact askFilter_cases flt dir _ fs _ _ (fun g => (∀ x ∈ g.names, x ∈ r.names) ∧
      (r.proper → g.proper)) (nilCase _) (ih dir) (ih dir)
  | bad n r ih =>
    intro dir fs
    rw [select]
    exact askFilter_cases flt dir _ fs _ _ (fun g => (∀ x ∈ g.names, x ∈ r.names) ∧
      (r.proper → g.proper)) (nilCase _) (ih dir) (fun _ => nilCase _)

/-- Extraction of (the archive of) a tree. -/
theorem extract_tree (C : InflateOK Z plain) (hnil : plain [] = []) (ok : AllocOracle)
    (hok : ∀ k n, ok k n = true) (hdr item : Bytes) (hh : hdr.length = 128) (hi : item.length = 40)
    (os : Os) (hq : os.quiet) (w : World) (ht : w.fs.tree) (pre : Bytes)
    (h0 : 0 ∉ pre) (d : Loc) (hd : InDir os w pre d) (ho : OpenDir os w.fs d) (n : Bytes)
    (ns : List Bytes) (hn : ∀ x ∈ n :: ns, PlainName x) (hnew : w.fs (d ++ [n]) = none)
    (hen : Enterable os (dirMode os 0o775)) (hlen : ns.length ≤ 61) {f : Forest} (hf : f.proper)
    (hfe : f.enterable os) (hfn : f ≠ .nil) {junk t : Bytes} (hj : junk.length = 120)
    (he : Encodes f t) (size : Nat) (inp : Input) (hin : inp.err = false)
    (harc : plain (allowed size 0 inp.data) = headerBytes 0 1 junk ++ t) :
    ∃ n0 X, (∀ fuel, n0 ≤ fuel →
        extract Z os ok fuel hdr item (pre ++ joinNames (n :: ns)) size inp w = X) ∧
      (f.noLinks → ∃ r, X = .ok r) ∧
      ∀ r, X = .ok r → (f.noLinks ∨ CwdOk os w.fs w.cwd ∧ LinksWhole ok r.pieces) →
        r.hasError = false ∧
        (C.Final → Open plain (allowed size 0 inp.data) → ∀ c ∈ r.codes, c = Z_OK) ∧
        ((∀ c ∈ r.codes, c = Z_OK) → 0 < r.room ∨ C.Prompt (allowed size 0 inp.data) →
          r.ret = CT_DIRECTORY ∧ r.w.cwd = w.cwd ∧ Landed os w.fs r.w.fs d n ns f) := by
  obtain ⟨n0, X, h1, h2, h3⟩ :=
    extract_ends C ok hdr item hh hi os (pre ++ joinNames (n :: ns)) w size inp
  have e2 := C02_header_roundtrip 0 1 junk hj (by decide) (by decide)
  have hl128 : (headerBytes 0 1 junk).length = 128 := e2.1
  have hver : hdrVersion ((headerBytes 0 1 junk ++ t).take 128) = 0 := by
    rw [List.take_left' hl128]; exact e2.2.1
  have htne : t ≠ [] := by
    intro h
    cases he with
    | nil => exact hfn rfl
    | file h1 => have := congrArg List.length h; simp [h1] at this
    | link h1 => have := congrArg List.length h; simp [h1] at this
    | dir h1 => have := congrArg List.length h; simp [h1] at this
  have fresh := fun hcw evs rest he => tree_fresh os hq w ht pre h0 d hd ho n ns hn hnew hen hlen hf hfe
    (evs := evs) (rest := rest) hcw he
  have hcodes : ∀ r, X = .ok r → C.Final → Open plain (allowed size 0 inp.data) →
      ∀ c ∈ r.codes, c = Z_OK := by
    intro r hr hF hO
    obtain ⟨m0, hm⟩ := extract_codes C hF ok hdr item hh hi os (pre ++ joinNames (n :: ns)) w size inp
      hO (by rw [harc]; exact hver)
    exact hm (max n0 m0) r (by omega) (by rw [h1 _ (by omega), hr])
  refine ⟨n0, X, h1, ?_, ?_⟩
  · intro hfl
    cases hX : X with
    | ok r => exact ⟨r, rfl⟩
    | error e =>
      cases h3 e hX with
      | callback a b c =>
        rw [harc] at a
        rcases log_tree hj he ok hok hf.wellNamed a b (.inl hfl) with ⟨rfl, _⟩ | ⟨evs, rest, rfl, hev, _⟩
        · cases c
        · obtain ⟨h', g1, _⟩ := fresh (.inl hfl) evs rest hev
          rw [g1] at c; cases c
      | version a b => rw [harc] at b; exact absurd hver b
  · intro r hr hlk
    obtain ⟨P, log, h, Dn⟩ := h2 r hr
    have hpre := Dn.pre
    rw [harc] at hpre
    have hlog := log_tree hj he ok hok hf.wellNamed hpre Dn.arch
      (by rcases hlk with h | h; exact .inl h; exact .inr h.2)
    have hcw : f.noLinks ∨ CwdOk os w.fs w.cwd := by
      rcases hlk with h | h; exact .inl h; exact .inr h.1
    have hrun := Dn.run
    have hret : r.ret = h.ret := by
      rcases Dn.ret with h | h
      · exact h
      · rw [hin] at h; simp at h
    have hfull : r.hasError = false → (∀ c ∈ r.codes, c = Z_OK) →
        0 < r.room ∨ C.Prompt (allowed size 0 inp.data) → P = headerBytes 0 1 junk ++ t := by
      intro h1 h2 h3
      have hne : allowed size 0 inp.data ≠ [] := by
        intro h
        rw [h, hnil] at harc
        have := congrArg List.length harc
        simp only [List.length_append, List.length_nil] at this
        omega
      rcases Dn.full hin h1 h2 h3 (.inl hne) with h | ⟨h, h'⟩
      · rw [h, harc]
      · rw [(take_header hpre h).1] at h'
        exact absurd hver h'
    rcases hlog with ⟨rfl, hemp⟩ | ⟨evs, rest, rfl, hev, hrest⟩
    · cases hrun
      have herr : r.hasError = false := Dn.error
      exact ⟨herr, hcodes r hr, fun a b => absurd (hemp (hfull herr a b)) htne⟩
    · obtain ⟨h', g1, g2, g3⟩ := fresh hcw evs rest hev
      rw [hrun] at g1
      cases g1
      have herr : r.hasError = false := Dn.error.trans g2
      refine ⟨herr, hcodes r hr, fun a b => ?_⟩
      obtain ⟨k1, k2, k3⟩ := g3 (hrest (hfull herr a b))
      rw [hret, Dn.world]
      exact ⟨k1, k2, k3⟩

/-- C39, what holds without links: let a directory be compressed (with a filter) and its archive be
extracted to a path whose directories do not exist yet.  Then there is no undefined behaviour, and if
the decompressor accepts the archive (which it does if it gives up only on streams that have ended or
are defective) and has room left at its end (or withholds nothing there), the tree selected by the filter is what is on the disk
there — every file with its content and mode (less the umask), every directory with its mode — and
nothing else has changed.
Missing: an empty selection (see `C39_empty_directory_false`); directories whose mode does not let
their owner add entries (see `C39_read_only_directory_false`); archives whose last output piece fills the 512 KiB buffer (see
C08). -/
theorem C39_round_trip_partial (CD : DeflateOK D plain) (C : InflateOK Z plain)
    -- compression
    (env : Env) (henv : env.ok) (flt : Filter σ) {dir : Bytes} {es : List Entry} {f : Forest}
    (hl : env.list dir = some es) (hm : Mirror env dir es f) (fs : σ) (level : Int) (z : D.τ)
    (hz : D.init level = some z) (junk : Bytes) (hj : junk.length = 120)
    (hst : (select flt dir f fs).status ≠ .failed) (hne : (select flt dir f fs).forest ≠ .nil)
    -- extraction
    (ok : AllocOracle) (hok : ∀ k n, ok k n = true) (hdr item : Bytes) (hh : hdr.length = 128)
    (hi : item.length = 40) (os : Os) (hq : os.quiet) (w : World) (ht : w.fs.tree) (pre : Bytes)
    (h0 : 0 ∉ pre) (d : Loc) (hd : InDir os w pre d) (ho : OpenDir os w.fs d) (n : Bytes)
    (ns : List Bytes) (hn : ∀ x ∈ n :: ns, PlainName x) (hnew : w.fs (d ++ [n]) = none)
    (hen : Enterable os (dirMode os 0o775)) (hlen : ns.length ≤ 61) (hf : f.proper)
    (hfe : (select flt dir f fs).forest.enterable os) (hnl : (select flt dir f fs).forest.noLinks) :
    ∃ n1 log b, (∀ fuel, n1 ≤ fuel →
        compressDir D env flt fuel .plain dir fs level junk = .ok (0, log)) ∧
      log.getLast? = some b ∧
      ∀ size data, allowed size 0 data = log.flatten → b.length < 524288 →
        ∃ n0 r, (∀ fuel, n0 ≤ fuel → extract Z os ok fuel hdr item (pre ++ joinNames (n :: ns)) size
            ⟨data, false⟩ w = .ok r) ∧
          (C.Final → CD.Fits → ∀ c ∈ r.codes, c = Z_OK) ∧
          ((∀ c ∈ r.codes, c = Z_OK) → 0 < r.room ∨ C.Prompt log.flatten → r.ret = CT_DIRECTORY ∧ r.w.cwd = w.cwd ∧
            Landed os w.fs r.w.fs d n ns (select flt dir f fs).forest) := by
  obtain ⟨n1, log, g, rfl, c1, copen, t, c2, _, b, c3, c4⟩ :=
    compressDir_good CD env henv flt .plain trivial hl hm fs level z hz junk hj hst
  refine ⟨n1, log, b, c1, c3, ?_⟩
  intro size data hal hb
  have c2' : Encodes (select flt dir f fs).forest t := c2
  obtain ⟨_, s2⟩ := select_proper flt f dir fs
  obtain ⟨n0, X, x1, x2, x3⟩ := extract_tree C (CD.plain_nil hz) ok hok hdr item hh hi os hq w ht pre h0 d hd ho n ns
    hn hnew hen hlen (s2 hf) hfe hne hj c2' size ⟨data, false⟩ rfl (by
      show plain (allowed size 0 data) = _
      rw [hal]; exact c4 hb)
  obtain ⟨r, hr⟩ := x2 hnl
  refine ⟨n0, r, fun fuel hfu => by rw [x1 fuel hfu, hr], ?_⟩
  obtain ⟨_, y1, y2⟩ := x3 r hr (.inl hnl)
  exact ⟨fun hF hT => y1 hF (by show Open plain (allowed size 0 data); rw [hal]; exact copen hT),
    fun a b => y2 a (by show _ ∨ C.Prompt (allowed size 0 data); rw [hal]; exact b)⟩

/-- C39, what holds with links: as `C39_round_trip_partial`, links with their targets included, for
runs without undefined behaviour in which no buffer given to the decompressor's user ends inside a
link target or with its last byte.
Missing, besides what is missing there: the other runs (see C19 for what goes wrong). -/
theorem C39_round_trip_links_partial (CD : DeflateOK D plain) (C : InflateOK Z plain)
    -- compression
    (env : Env) (henv : env.ok) (flt : Filter σ) {dir : Bytes} {es : List Entry} {f : Forest}
    (hl : env.list dir = some es) (hm : Mirror env dir es f) (fs : σ) (level : Int) (z : D.τ)
    (hz : D.init level = some z) (junk : Bytes) (hj : junk.length = 120)
    (hst : (select flt dir f fs).status ≠ .failed) (hne : (select flt dir f fs).forest ≠ .nil)
    -- extraction
    (ok : AllocOracle) (hok : ∀ k n, ok k n = true) (hdr item : Bytes) (hh : hdr.length = 128)
    (hi : item.length = 40) (os : Os) (hq : os.quiet) (w : World) (ht : w.fs.tree) (pre : Bytes)
    (h0 : 0 ∉ pre) (d : Loc) (hd : InDir os w pre d) (ho : OpenDir os w.fs d) (n : Bytes)
    (ns : List Bytes) (hn : ∀ x ∈ n :: ns, PlainName x) (hnew : w.fs (d ++ [n]) = none)
    (hen : Enterable os (dirMode os 0o775)) (hlen : ns.length ≤ 61) (hf : f.proper)
    (hfe : (select flt dir f fs).forest.enterable os) (hcwd : CwdOk os w.fs w.cwd) :
    ∃ n1 log b, (∀ fuel, n1 ≤ fuel →
        compressDir D env flt fuel .plain dir fs level junk = .ok (0, log)) ∧
      log.getLast? = some b ∧
      ∀ size data, allowed size 0 data = log.flatten → b.length < 524288 →
        ∃ n0 X, (∀ fuel, n0 ≤ fuel → extract Z os ok fuel hdr item (pre ++ joinNames (n :: ns)) size
            ⟨data, false⟩ w = X) ∧
          ∀ r, X = .ok r → LinksWhole ok r.pieces →
            (C.Final → CD.Fits → ∀ c ∈ r.codes, c = Z_OK) ∧
            ((∀ c ∈ r.codes, c = Z_OK) → 0 < r.room ∨ C.Prompt log.flatten → r.ret = CT_DIRECTORY ∧ r.w.cwd = w.cwd ∧
            Landed os w.fs r.w.fs d n ns (select flt dir f fs).forest) := by
  obtain ⟨n1, log, g, rfl, c1, copen, t, c2, _, b, c3, c4⟩ :=
    compressDir_good CD env henv flt .plain trivial hl hm fs level z hz junk hj hst
  refine ⟨n1, log, b, c1, c3, ?_⟩
  intro size data hal hb
  have c2' : Encodes (select flt dir f fs).forest t := c2
  obtain ⟨_, s2⟩ := select_proper flt f dir fs
  obtain ⟨n0, X, x1, x2, x3⟩ := extract_tree C (CD.plain_nil hz) ok hok hdr item hh hi os hq w ht pre h0 d hd ho n ns
    hn hnew hen hlen (s2 hf) hfe hne hj c2' size ⟨data, false⟩ rfl (by
      show plain (allowed size 0 data) = _
      rw [hal]; exact c4 hb)
  refine ⟨n0, X, x1, fun r hr hw => ?_⟩
  obtain ⟨_, y1, y2⟩ := x3 r hr (.inr ⟨hcwd, hw⟩)
  exact ⟨fun hF hT => y1 hF (by show Open plain (allowed size 0 data); rw [hal]; exact copen hT),
    fun a b => y2 a (by show _ ∨ C.Prompt (allowed size 0 data); rw [hal]; exact b)⟩

/-- Extraction of the archive of a small tree, which is read at once. -/
theorem extract_small (C : InflateOK Z plain) (hnil : plain [] = []) (ok : AllocOracle)
    (hok : ∀ k n, ok k n = true) (hdr item : Bytes) (hh : hdr.length = 128) (hi : item.length = 40)
    (os : Os) (hq : os.quiet) (w : World) (ht : w.fs.tree) (pre : Bytes)
    (h0 : 0 ∉ pre) (d : Loc) (hd : InDir os w pre d) (ho : OpenDir os w.fs d) (n : Bytes)
    (ns : List Bytes) (hn : ∀ x ∈ n :: ns, PlainName x) (hnew : w.fs (d ++ [n]) = none)
    (hen : Enterable os (dirMode os 0o775)) (hlen : ns.length ≤ 61) {f : Forest} (hf : f.proper)
    (hfe : f.enterable os) (hfn : f ≠ .nil) {junk t : Bytes} (hj : junk.length = 120)
    (he : Encodes f t) (size : Nat) (data : Bytes) (hcwd : CwdOk os w.fs w.cwd)
    (hsm : f.bulk < 524288) (hdl : (allowed size 0 data).length < 524288)
    (harc : plain (allowed size 0 data) = headerBytes 0 1 junk ++ t) :
    ∃ n0 r, (∀ fuel, n0 ≤ fuel →
        extract Z os ok fuel hdr item (pre ++ joinNames (n :: ns)) size ⟨data, false⟩ w = .ok r) ∧
      (C.Final → Open plain (allowed size 0 data) → ∀ c ∈ r.codes, c = Z_OK) ∧
      ((∀ c ∈ r.codes, c = Z_OK) → 0 < r.room ∨ C.Prompt (allowed size 0 data) →
        r.ret = CT_DIRECTORY ∧ r.w.cwd = w.cwd ∧ Landed os w.fs r.w.fs d n ns f) := by
  obtain ⟨n0, X, h1, _, h3⟩ := extract_tree C hnil ok hok hdr item hh hi os hq w ht pre h0 d hd ho n ns
    hn hnew hen hlen hf hfe hfn hj he size ⟨data, false⟩ rfl harc
  obtain ⟨l, s, n1, S, hp, hrun⟩ := extract_single C ok hdr item hh hi os
    (pre ++ joinNames (n :: ns)) w size data hdl
  have hl128 : (headerBytes 0 1 junk).length = 128 :=
    (C02_header_roundtrip 0 1 junk hj (by decide) (by decide)).1
  have hpc : s.pieces = [] ∨ s.pieces = [t] := by
    have := he.bulk
    have := hp (by rw [harc, List.length_append, hl128]; omega)
    rwa [harc, List.drop_left' hl128] at this
  have hw := he.linksWhole ok hok hpc
  obtain ⟨P, p1, p2, _⟩ := S.archive hi
  rw [harc] at p1
  have hev : ∃ h, hlEvents os (pre ++ joinNames (n :: ns)) (HL.init w) s.log = .ok h := by
    rcases log_tree hj he ok hok hf.wellNamed p1 p2 (.inr hw) with ⟨hl, _⟩ | ⟨evs, rest, hl, hev, _⟩
    · exact ⟨_, by rw [hl]; rfl⟩
    · obtain ⟨h', g1, _⟩ := tree_fresh os hq w ht pre h0 d hd ho n ns hn hnew hen hlen hf hfe
        (.inr hcwd) hev
      exact ⟨h', by rw [hl]; exact g1⟩
  obtain ⟨h, hev⟩ := hev
  have hX : X = endOf l s (allowed size 0 data).length (.ok h) := by
    rw [← h1 (max n0 n1) (by omega), ← hev]
    exact hrun _ (by omega)
  obtain ⟨_, y1, y2⟩ := h3 _ hX (.inr ⟨hcwd, hw⟩)
  exact ⟨n0, _, fun fuel hf => by rw [h1 fuel hf, hX]; rfl, y1, y2⟩

/-- C39, small trees: as `C39_round_trip_partial`, for trees with links too, provided that tree and
archive are below 512 KiB (in the archive an entry takes up to 56 bytes, a directory 88, besides its
name and content).  There is no undefined behaviour, and the tree arrives with all its links.
Missing: an empty selection, and directories to which their owner cannot add entries. -/
theorem C39_round_trip_small_partial (CD : DeflateOK D plain) (C : InflateOK Z plain)
    -- compression
    (env : Env) (henv : env.ok) (flt : Filter σ) {dir : Bytes} {es : List Entry} {f : Forest}
    (hl : env.list dir = some es) (hm : Mirror env dir es f) (fs : σ) (level : Int) (z : D.τ)
    (hz : D.init level = some z) (junk : Bytes) (hj : junk.length = 120)
    (hst : (select flt dir f fs).status ≠ .failed) (hne : (select flt dir f fs).forest ≠ .nil)
    -- extraction
    (ok : AllocOracle) (hok : ∀ k n, ok k n = true) (hdr item : Bytes) (hh : hdr.length = 128)
    (hi : item.length = 40) (os : Os) (hq : os.quiet) (w : World) (ht : w.fs.tree) (pre : Bytes)
    (h0 : 0 ∉ pre) (d : Loc) (hd : InDir os w pre d) (ho : OpenDir os w.fs d) (n : Bytes)
    (ns : List Bytes) (hn : ∀ x ∈ n :: ns, PlainName x) (hnew : w.fs (d ++ [n]) = none)
    (hen : Enterable os (dirMode os 0o775)) (hlen : ns.length ≤ 61) (hf : f.proper)
    (hfe : (select flt dir f fs).forest.enterable os) (hcwd : CwdOk os w.fs w.cwd)
    (hsm : (select flt dir f fs).forest.bulk < 524288) :
    ∃ n1 log, (∀ fuel, n1 ≤ fuel →
        compressDir D env flt fuel .plain dir fs level junk = .ok (0, log)) ∧
      (log.flatten.length < 524288 → ∀ size data, allowed size 0 data = log.flatten →
        ∃ n0 r, (∀ fuel, n0 ≤ fuel → extract Z os ok fuel hdr item (pre ++ joinNames (n :: ns)) size
            ⟨data, false⟩ w = .ok r) ∧
          (C.Final → CD.Fits → ∀ c ∈ r.codes, c = Z_OK) ∧
          ((∀ c ∈ r.codes, c = Z_OK) → 0 < r.room ∨ C.Prompt log.flatten →
            r.ret = CT_DIRECTORY ∧ r.w.cwd = w.cwd ∧
            Landed os w.fs r.w.fs d n ns (select flt dir f fs).forest)) := by
  obtain ⟨n1, log, g, rfl, c1, copen, t, c2, _, b, c3, c4⟩ :=
    compressDir_good CD env henv flt .plain trivial hl hm fs level z hz junk hj hst
  refine ⟨n1, log, c1, ?_⟩
  intro hdl size data hal
  have hb : b.length < 524288 := by
    have hmem : b ∈ log := List.mem_of_getLast? c3
    have := (List.sublist_flatten_of_mem hmem).length_le
    omega
  have c2' : Encodes (select flt dir f fs).forest t := c2
  obtain ⟨_, s2⟩ := select_proper flt f dir fs
  have := extract_small C (CD.plain_nil hz) ok hok hdr item hh hi os hq w ht pre h0 d hd ho n ns
    hn hnew hen hlen (s2 hf) hfe hne hj c2' size data hcwd hsm (by rw [hal]; exact hdl)
    (by rw [hal]; exact c4 hb)
  rw [hal] at this
  obtain ⟨n0, r, a1, a2, a3⟩ := this
  exact ⟨n0, r, a1, fun hF hT => a2 hF (copen hT), a3⟩

open HLSample in
/-- Example: the directory `r` of the sample file system, without its link and its unreadable file,
extracted to `o/p`; the hypotheses of `C39_round_trip_partial` about codecs, source and target. -/
example : ∃ (_ : DeflateOK queueD id) (_ : InflateOK copyI id), sampleEnv.ok ∧
    Mirror sampleEnv [114] ((sampleEnv.list [114]).getD []) sampleForest ∧
    (queueD.init 6).isSome ∧
    (select (keepFilter fun _ e => e.name ≠ [117] && e.name ≠ [108]) [114] sampleForest ()).status =
      .done ∧
    (select (keepFilter fun _ e => e.name ≠ [117] && e.name ≠ [108]) [114] sampleForest ()).forest =
      .file [97] 0o640 [1, 2] (.dir [100] 0o755 (.file [98] 0o600 [] .nil) .nil) ∧
    sampleForest.proper ∧
    (Forest.file [97] 0o640 [1, 2] (.dir [100] 0o755 (.file [98] 0o600 [] .nil) .nil)).enterable os ∧
    (Forest.file [97] 0o640 [1, 2] (.dir [100] 0o755 (.file [98] 0o600 [] .nil) .nil)).noLinks ∧
    os.quiet ∧ (world []).fs.tree ∧ InDir os (world []) [] [[104], [119]] ∧
    OpenDir os (world []).fs [[104], [119]] ∧ (∀ x ∈ [[111], [112]], PlainName x) ∧
    (world []).fs [[104], [119], [111]] = none ∧ Enterable os (dirMode os 0o775) ∧
    CwdOk os (world []).fs (world []).cwd := by
  refine ⟨queueDOK, copyIOK, fun _ => by simp [sampleEnv], sampleMirror, by decide, by decide, by decide,
    ?_, ⟨.inr (by decide), trivial, trivial⟩, ⟨trivial, trivial⟩, os_quiet, world_tree, .rel,
    ⟨0o755, by decide +kernel, .inr (by decide)⟩, by decide +kernel, by decide +kernel,
    .inr (by decide), by decide +kernel, by decide +kernel, ?_⟩
  · simp only [sampleForest, Forest.proper]
    decide +kernel
  · intro l hl
    have : l = [] ∨ l = [[104]] ∨ l = [[104], [119]] := by
      obtain ⟨t, ht⟩ := hl
      have ht' : l ++ t = [[104], [119]] := ht
      match l with
      | [] => exact .inl rfl
      | [a] => simp at ht'; exact .inr (.inl (by rw [ht'.1]))
      | [a, b] => simp at ht'; exact .inr (.inr (by rw [ht'.1, ht'.2.1]))
      | a :: b :: c :: l => simp at ht'
    rcases this with rfl | rfl | rfl <;> decide +kernel

open HLSample in
/-- Example: further hypotheses of `C39_round_trip_small_partial`. -/
example : 0 < sampleForest.bulk ∧ sampleForest.bulk < 524288 ∧ copyIOK.Prompt [1, 2, 3] :=
  ⟨by decide, by decide, copyIOK_prompt _⟩

open HLSample in
/-- Example: a whole run with a link; the archive comes in one buffer, which does not end with a
link target. -/
example : (match run os (dirArc (.link [108] 0o777 [116] .nil)) [111] (world []) with
    | .ok r => decide (r.ret = CT_DIRECTORY ∧ r.pieces = [encode (.link [108] 0o777 [116] .nil)] ∧
        r.codes.all (· == Z_OK) ∧ 0 < r.room ∧
        r.w.fs [[104], [119], [111], [108]] = some (.link [116]))
    | .error _ => false) = true := by decide +kernel

open HLSample in
/-- C39 is false for an empty directory: its archive extracts to nothing, reported as 'none'. -/
theorem C39_empty_directory_false :
    ¬ ∀ (Z : Inflater) (plain : Bytes → Bytes) (_ : InflateOK Z plain) (junk t : Bytes) (f : Forest)
      (fuel : Nat) (w : World) (n : Bytes) (r : Extracted), junk.length = 120 → Encodes f t →
      f.proper → w.fs.tree → OpenDir os w.fs w.cwd → PlainName n → w.fs (w.cwd ++ [n]) = none →
      ∀ arc, plain arc = headerBytes 0 1 junk ++ t →
      extract Z os (fun _ _ => true) fuel hdrMem itemMem n 0 ⟨arc, false⟩ w = .ok r →
      (∀ c ∈ r.codes, c = Z_OK) → r.ret = CT_DIRECTORY := by
  intro h
  have key : (match run os (dirArc .nil) [111] (world []) with
      | .ok r => decide (r.ret = CT_NONE ∧ ∀ c ∈ r.codes, c = Z_OK)
      | .error _ => false) = true := by decide +kernel
  cases hr : run os (dirArc .nil) [111] (world []) with
  | error e => rw [hr] at key; simp at key
  | ok r =>
    rw [hr] at key
    simp only [decide_eq_true_eq] at key
    have := h copyI id copyIOK (List.replicate 120 0xEE) [] .nil _ _ _ r List.length_replicate .nil trivial
      world_tree ⟨0o755, by decide +kernel, .inr (by decide)⟩ (by decide) (by decide +kernel)
      (dirArc .nil) rfl hr key.2
    rw [key.1] at this
    exact absurd this (by decide)

open HLSample in
/-- C39 is false for read-only directories (mode 0555) and an ordinary user: the directory arrives,
the file in it does not, and success is reported. -/
theorem C39_read_only_directory_false :
    view [[[104], [119], [111], [100]], [[104], [119], [111], [100], [97]]] (run os
      (dirArc (.dir [100] 0o555 (.file [97] 0o640 [7] .nil) .nil)) [111] (world [])) =
      .done CT_DIRECTORY [[104], [119]] [some (.dir 0o555), none] := by decide +kernel

/-! ### C40 -/

/-- C40, what holds: let a non-empty file be compressed and its archive be extracted to a path that
can be opened for writing.  Then there is no undefined behaviour, and if the decompressor accepts the
archive (which it does if it gives up only on streams that have ended or are defective) and has room
left at its end (or withholds nothing there), 'file' is returned, the file there has the content of
the original, and nothing else has changed.
Missing: the empty file (see `C40_empty_file_false`); archives whose last output piece fills the
512 KiB buffer (see C08). -/
theorem C40_round_trip_partial (CD : DeflateOK D plain) (C : InflateOK Z plain)
    (content : Bytes) (hc : content ≠ []) (level : Int) (z : D.τ) (hz : D.init level = some z)
    (junk : Bytes) (hj : junk.length = 120) (ok : AllocOracle) (hdr item : Bytes)
    (hh : hdr.length = 128) (hi : item.length = 40) (os : Os) (hq : os.quiet) (out : Bytes)
    (w : World) (l : Loc) (ho : (sysOpen os w out 0o666 true).1 = some l) :
    ∃ n1 log b, (∀ fuel, n1 ≤ fuel → compressFile D fuel content false level junk = .ok (0, log)) ∧
      log.getLast? = some b ∧
      ∀ size data, allowed size 0 data = log.flatten → b.length < 524288 →
        ∃ n0 r, (∀ fuel, n0 ≤ fuel →
            extract Z os ok fuel hdr item out size ⟨data, false⟩ w = .ok r) ∧
          (C.Final → CD.Fits → ∀ c ∈ r.codes, c = Z_OK) ∧
          ((∀ c ∈ r.codes, c = Z_OK) → 0 < r.room ∨ C.Prompt log.flatten → r.ret = CT_FILE ∧ r.w.cwd = w.cwd ∧
            locate os w true out = some l ∧ ∃ m, r.w.fs = w.fs.put l (.file m content) ∧
              ∀ x, w.fs l = some x → ∃ c, x = .file m c) := by
  obtain ⟨f1, f2, f3⟩ := readFile_ok content false
  obtain ⟨s0, s, n1, rets, c1, copen, _, b, c2, c3⟩ := session_writes_good CD CT_FILE level z hz junk hj
    (readFile content false).1 f3
  refine ⟨n1, s.log, b, ?_, c2, ?_⟩
  · intro fuel hf
    simp only [compressFile, (c1 fuel hf).1, (c1 fuel hf).2, f1]
    rfl
  intro size data hal hb
  have harc : plain (allowed size 0 data) = headerBytes 0 2 junk ++ content := by
    rw [hal, c3 hb, f2 rfl]; rfl
  obtain ⟨n0, r, r1, r2, r3⟩ := extract_file_content C (CD.plain_nil hz) hc hj ok hdr item hh hi os hq out w
    l ho size data harc
  rw [hal] at r2 r3
  exact ⟨n0, r, r1, fun hF hT => r2 hF (copen hT), r3⟩

open HLSample in
/-- Example: an existing file is replaced, a new one is created. -/
example : ∃ (_ : DeflateOK queueD id) (_ : InflateOK copyI id), (queueD.init 6).isSome ∧ os.quiet ∧
    (sysOpen os (world []) [111] 0o666 true).1 = some [[104], [119], [111]] ∧
    (sysOpen os (world [([[104], [119], [111]], .file 0o600 [9])]) [111] 0o666 true).1 =
      some [[104], [119], [111]] :=
  ⟨queueDOK, copyIOK, by decide, os_quiet, by decide +kernel, by decide +kernel⟩

open HLSample in
/-- C40 is false for the empty file: nothing is created and 'none' is returned. -/
theorem C40_empty_file_false :
    ¬ ∀ (D : Deflater) (Z : Inflater) (plain : Bytes → Bytes) (_ : DeflateOK D plain)
      (_ : InflateOK Z plain) (content junk : Bytes) (fuel fuel' : Nat) (w : World) (out : Bytes)
      (log : List Bytes) (r : Extracted), junk.length = 120 →
      (sysOpen os w out 0o666 true).1 ≠ none →
      compressFile D fuel content false 6 junk = .ok (0, log) →
      extract Z os (fun _ _ => true) fuel' hdrMem itemMem out 0 ⟨log.flatten, false⟩ w = .ok r →
      (∀ c ∈ r.codes, c = Z_OK) → r.ret = CT_FILE := by
  intro h
  have hrf : readFile [] false = ([[]], false) := by rw [readFile]; simp [DEF_CHUNK_SIZE]
  have key : (match compressFile queueD 5 [] false 6 (List.replicate 120 0xEE) with
      | .ok (c, log) => decide (c = 0) && (match run os log.flatten [111] (world []) with
        | .ok r => decide (r.ret = CT_NONE ∧ ∀ c ∈ r.codes, c = Z_OK)
        | .error _ => false)
      | .error _ => false) = true := by
    simp only [compressFile, hrf]
    decide +kernel
  cases hc : compressFile queueD 5 [] false 6 (List.replicate 120 0xEE) with
  | error e => rw [hc] at key; simp at key
  | ok x =>
    obtain ⟨c, log⟩ := x
    rw [hc] at key
    simp only [Bool.and_eq_true, decide_eq_true_eq] at key
    obtain ⟨rfl, key⟩ := key
    cases hr : run os log.flatten [111] (world []) with
    | error e => rw [hr] at key; simp at key
    | ok r =>
      rw [hr] at key
      simp only [decide_eq_true_eq] at key
      have := h queueD copyI id queueDOK copyIOK [] (List.replicate 120 0xEE) 5 _ _ [111] log r
        List.length_replicate (by decide +kernel) hc hr key.2
      rw [key.1] at this
      exact absurd this (by decide)

end Zwt
