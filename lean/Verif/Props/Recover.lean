import Verif.Proofs.BegunRun
import Verif.Proofs.Sample
import Verif.Props.Accept

/-! C120: what is in the beginning of an archive can be recovered. -/

namespace Zwt

variable {Z : Inflater} {D : Deflater} {plain : Bytes → Bytes}

/-- C120: let a directory without links be compressed, and what there is of its archive — all of it or a
beginning — be extracted to a new directory.  There is no undefined behaviour; the decompressor accepts what
there is (if it gives up only on streams that have ended or are defective), and if it has room left at the end
(or withholds nothing there), then every file with content whose record is in the plaintext that there is
stands in the new directory, with all its content and its mode (less the umask), whatever follows the record
and however deep in directories the plaintext ends.  If the plaintext ends with a record, empty files and
directories stand there too. -/
theorem C120_recovered (CD : DeflateOK D plain) (C : InflateOK Z plain)
    -- compression
    (env : Env) (henv : env.ok) (flt : Filter σ) {dir : Bytes} {es : List Entry} {f : Forest}
    (hl : env.list dir = some es) (hm : Mirror env dir es f) (fs : σ) (level : Int) (z : D.τ)
    (hz : D.init level = some z) (junk : Bytes) (hj : junk.length = 120)
    (hst : (select flt dir f fs).status ≠ .failed)
    -- extraction
    (ok : AllocOracle) (hok : ∀ k n, ok k n = true) (hdr item : Bytes) (hh : hdr.length = 128)
    (hi : item.length = 40) (os : Os) (hq : os.quiet) (w : World) (ht : w.fs.tree) (pre : Bytes)
    (h0 : 0 ∉ pre) (d : Loc) (hd : InDir os w pre d) (ho : OpenDir os w.fs d) (n : Bytes)
    (ns : List Bytes) (hn : ∀ x ∈ n :: ns, PlainName x) (hnew : w.fs (d ++ [n]) = none)
    (hen : Enterable os (dirMode os 0o775)) (hlen : ns.length ≤ 61) (hf : f.proper)
    (hfe : (select flt dir f fs).forest.enterable os) (hnl : (select flt dir f fs).forest.noLinks) :
    ∃ n1 log t b, (∀ fuel, n1 ≤ fuel →
        compressDir D env flt fuel .plain dir fs level junk = .ok (0, log)) ∧
      Encodes (select flt dir f fs).forest t ∧ plain log.flatten <+: headerBytes 0 1 junk ++ t ∧
      log.getLast? = some b ∧ (b.length < 524288 → plain log.flatten = headerBytes 0 1 junk ++ t) ∧
      ∀ size data, allowed size 0 data <+: log.flatten →
        ∃ n0 r, (∀ fuel, n0 ≤ fuel → extract Z os ok fuel hdr item (pre ++ joinNames (n :: ns)) size
            ⟨data, false⟩ w = .ok r) ∧
          r.hasError = false ∧ (C.Final → CD.Fits → ∀ c ∈ r.codes, c = Z_OK) ∧
          ((∀ c ∈ r.codes, c = Z_OK) → 0 < r.room ∨ C.Prompt (allowed size 0 data) →
            ∀ g t1 t2, Begun (select flt dir f fs).forest g t1 t2 → t1 ++ t2 = t →
              headerBytes 0 1 junk ++ t1 <+: plain (allowed size 0 data) →
              (∀ q m c, g.lookup os q = some (.file m c) → c ≠ [] →
                r.w.fs (d ++ n :: ns ++ q) = some (.file m c)) ∧
              (plain (allowed size 0 data) = headerBytes 0 1 junk ++ t1 → ∀ q a, g.lookup os q = some a →
                r.w.fs (d ++ n :: ns ++ q) = some a)) := by
  obtain ⟨n1, log, g0, rfl, c1, copen, t, c2, cpre, b, c3, c4⟩ :=
    compressDir_good CD env henv flt .plain trivial hl hm fs level z hz junk hj hst
  have c2' : Encodes (select flt dir f fs).forest t := c2
  refine ⟨n1, log, t, b, c1, c2', cpre, c3, c4, ?_⟩
  intro size data hal
  have hF : (select flt dir f fs).forest.proper := (select_proper flt f dir fs).2 hf
  have harc : plain (allowed size 0 data) <+: headerBytes 0 1 junk ++ t := by
    obtain ⟨y, hy⟩ := hal
    refine List.IsPrefix.trans ?_ cpre
    rw [← hy]
    exact C.mono _ y
  have hnil := CD.plain_nil hz
  obtain ⟨e1, e2, e3⟩ := C02_header_roundtrip 0 1 junk hj (by decide) (by decide)
  have e1' : (headerBytes 0 1 junk).length = 128 := e1
  have hver : ∀ P : Bytes, P <+: headerBytes 0 1 junk ++ t → 128 ≤ P.length → hdrVersion (P.take 128) = 0 := by
    intro P hP h
    rw [(take_header hP h).1, List.take_left' e1']; exact e2
  have fresh := fun evs rest he => tree_fresh os hq w ht pre h0 d hd ho n ns hn hnew hen hlen hF hfe
    (evs := evs) (rest := rest) (.inl hnl) he
  obtain ⟨n0, X, h1, h2, h3⟩ :=
    extract_ends C ok hdr item hh hi os (pre ++ joinNames (n :: ns)) w size ⟨data, false⟩
  cases hX : X with
  | error e =>
    exfalso
    cases h3 e hX with
    | callback a b c =>
      rcases log_tree_any hj c2' ok hF hnl (a.trans harc) b with rfl | ⟨evs, rest, rfl, hev⟩
      · cases c
      · obtain ⟨h', g1, _⟩ := fresh evs rest hev
        rw [g1] at c; cases c
    | version a b => exact b (hver _ harc a)
  | ok r =>
    obtain ⟨P, lg, h, Dn⟩ := h2 r hX
    have hP := Dn.pre.trans harc
    have herr : r.hasError = false := by
      rw [Dn.error]
      have hrun := Dn.run
      rcases log_tree_any hj c2' ok hF hnl hP Dn.arch with hlg | ⟨evs, rest, hlg, hev⟩
      · rw [hlg] at hrun; cases hrun; rfl
      · obtain ⟨h', g1, g2, _⟩ := fresh evs rest hev
        rw [hlg, g1] at hrun
        cases hrun
        exact g2
    refine ⟨n0, r, fun fuel hfu => by rw [h1 fuel hfu, hX], herr, ?_, ?_⟩
    · intro hFin hFit
      have hO : Open plain (allowed size 0 data) := by
        obtain ⟨y, hy⟩ := hal
        have := copen hFit
        rw [← hy] at this
        exact this.left C
      obtain ⟨m0, hm0⟩ := extract_codes_any C hFin ok hdr item hh hi os (pre ++ joinNames (n :: ns)) w size
        ⟨data, false⟩ hO (hver _ harc)
      exact hm0 (max n0 m0) r (by omega) (by rw [h1 _ (by omega), hX])
    · intro hc hroom g t1 t2 hb htt hpre
      have hne : allowed size 0 data ≠ [] := by
        intro h
        rw [h, hnil] at hpre
        have := hpre.length_le
        simp only [List.length_append, List.length_nil] at this
        omega
      have hfull : P = plain (allowed size 0 data) := by
        rcases Dn.full rfl herr hc hroom (.inl hne) with h | ⟨h, h'⟩
        · exact h
        · exact absurd (hver P hP h) h'
      subst htt
      rw [← hfull] at hpre ⊢
      have hrun := Dn.run
      rw [Dn.world]
      rcases log_begun hj hb ok hok hF hnl hP hpre Dn.arch with ⟨_, rfl⟩ | ⟨ea, eb, rest, more, hlg, k1, k2, k3, k4⟩
      · exact ⟨fun q m c h => by (cases h), fun _ q a h => by (cases h)⟩
      · obtain ⟨h', g1, _, g2, g3⟩ := begun_run os hq w ht pre h0 d hd ho n ns hn hnew hen hlen hb hF hfe hnl
          k1 k2 k3
        rw [hlg, g1] at hrun
        cases hrun
        exact ⟨g2, fun hex => g3 (k4 hex)⟩

open HLSample in
/-- Example: the directory of the sample, without its link, extracted to `o/p`. -/
example := C120_recovered queueDOK copyIOK sampleEnv (fun _ => by simp [sampleEnv])
  (keepFilter fun _ e => e.name ≠ [117] ∧ e.ty ≠ .symlink) (dir := [114]) rfl sampleMirror () 6 [] rfl
  (List.replicate 120 0) List.length_replicate (by decide) (fun _ _ => true) (fun _ _ => rfl) hdrMem itemMem
  List.length_replicate List.length_replicate os os_quiet (world []) world_tree [] (by decide) [[104], [119]] .rel
  ⟨0o755, by decide +kernel, .inr (by decide)⟩ [111] [[112]] (by decide +kernel) (by decide +kernel)
  (.inr (by decide)) (by decide) (by simp only [sampleForest, Forest.proper]; decide +kernel)
  ⟨.inr (by decide), trivial, trivial⟩ ⟨trivial, trivial⟩

/-- C120, single files: let a file be compressed, and a beginning of its archive be extracted to a path that
can be opened for writing.  If the plaintext that there is goes beyond the header (128 bytes), then there is no
undefined behaviour, and as before, if the decompressor accepts it and has room left (or withholds nothing), the
file there has as much of the original as the plaintext has, and nothing else has changed. -/
theorem C120_recovered_file (CD : DeflateOK D plain) (C : InflateOK Z plain)
    (content : Bytes) (level : Int) (z : D.τ) (hz : D.init level = some z)
    (junk : Bytes) (hj : junk.length = 120) (ok : AllocOracle) (hdr item : Bytes)
    (hh : hdr.length = 128) (hi : item.length = 40) (os : Os) (hq : os.quiet) (out : Bytes)
    (w : World) (l : Loc) (ho : (sysOpen os w out 0o666 true).1 = some l) :
    ∃ n1 log b, (∀ fuel, n1 ≤ fuel → compressFile D fuel content false level junk = .ok (0, log)) ∧
      log.getLast? = some b ∧ (b.length < 524288 → plain log.flatten = headerBytes 0 2 junk ++ content) ∧
      ∀ size data, allowed size 0 data <+: log.flatten → 128 < (plain (allowed size 0 data)).length →
        ∃ n0 r, (∀ fuel, n0 ≤ fuel →
            extract Z os ok fuel hdr item out size ⟨data, false⟩ w = .ok r) ∧
          (C.Final → CD.Fits → ∀ c ∈ r.codes, c = Z_OK) ∧
          ((∀ c ∈ r.codes, c = Z_OK) → 0 < r.room ∨ C.Prompt (allowed size 0 data) →
            r.ret = CT_FILE ∧ r.w.cwd = w.cwd ∧ locate os w true out = some l ∧
            ∃ m, r.w.fs = w.fs.put l (.file m (content.take ((plain (allowed size 0 data)).length - 128))) ∧
              ∀ x, w.fs l = some x → ∃ c, x = .file m c) := by
  obtain ⟨f1, f2, f3⟩ := readFile_ok content false
  obtain ⟨s0, s, n1, rets, c1, copen, cpre, b, c2, c3⟩ := session_writes_good CD CT_FILE level z hz junk hj
    (readFile content false).1 f3
  refine ⟨n1, s.log, b, ?_, c2, fun hb => by rw [c3 hb, f2 rfl]; rfl, ?_⟩
  · intro fuel hf
    simp only [compressFile, (c1 fuel hf).1, (c1 fuel hf).2, f1]
    rfl
  intro size data hal hlen
  rw [f2 rfl] at cpre
  have hpre : plain (allowed size 0 data) <+: headerBytes 0 2 junk ++ content := by
    obtain ⟨y, hy⟩ := hal
    refine List.IsPrefix.trans ?_ cpre
    rw [← hy]
    exact C.mono _ y
  have hl128 : (headerBytes 0 2 junk).length = 128 :=
    (C02_header_roundtrip 0 2 junk hj (by decide) (by decide)).1
  have harc : plain (allowed size 0 data) =
      headerBytes 0 2 junk ++ content.take ((plain (allowed size 0 data)).length - 128) := by
    have h := List.prefix_iff_eq_take.mp hpre
    rw [List.take_append, List.take_of_length_le (by omega), hl128] at h
    exact h
  have hc : content.take ((plain (allowed size 0 data)).length - 128) ≠ [] := by
    intro h
    rw [h, List.append_nil] at harc
    rw [harc] at hlen
    omega
  obtain ⟨n0, r, r1, r2, r3⟩ := extract_file_content C (CD.plain_nil hz) hc hj ok hdr item hh hi os hq out w
    l ho size data harc
  refine ⟨n0, r, r1, fun hF hT => r2 hF ?_, r3⟩
  obtain ⟨y, hy⟩ := hal
  have := copen hT
  rw [← hy] at this
  exact this.left C

open HLSample in
/-- Example: an existing file is replaced. -/
example := C120_recovered_file queueDOK copyIOK [5, 6, 7] 6 [] rfl (List.replicate 120 0) List.length_replicate
  (fun _ _ => true) hdrMem itemMem List.length_replicate List.length_replicate os os_quiet [111]
  (world [([[104], [119], [111]], .file 0o600 [9])]) [[104], [119], [111]] (by decide +kernel)

open HLSample in
/-- Of an archive of three bytes, the header and two. -/
example : (match run os ((fileArc [5, 6, 7]).take 130) [111] (world [([[104], [119], [111]], .file 0o600 [9])]) with
    | .ok r => decide (r.ret = CT_FILE ∧ r.w.fs [[104], [119], [111]] = some (.file 0o600 [5, 6]))
    | .error _ => false) = true := by decide +kernel

/-- A directory `d` with the files `a` and `b`, and a file `c`. -/
def recoverTree : Forest := .dir [100] 0o755 (.file [97] 0o640 [7, 8] (.file [98] 0o640 [9] .nil)) (.file [99] 0o600 [1] .nil)

open HLSample in
/-- Example: the encoding of `recoverTree`, cut after the record of `d/a`. -/
theorem recoverTree_cut : Begun recoverTree (.dir [100] 0o755 (.file [97] 0o640 [7, 8] .nil) .nil)
    (item 1 0 1 0o755 ++ [100] ++ pad 1 ++ (item 0 2 1 0o640 ++ [97] ++ pad 1 ++ [7, 8] ++ pad 2 ++ []))
    (encode (.file [98] 0o640 [9] .nil) ++ item 2 0 0 0 ++ encode (.file [99] 0o600 [1] .nil)) := by
  refine .inside (by decide +kernel) (by decide +kernel) (by decide +kernel) (by decide +kernel)
    (by decide +kernel) ⟨7, by decide, by decide, by decide⟩ (.file (by decide +kernel) (by decide +kernel) (by decide +kernel)
      (by decide +kernel) (by decide +kernel) (by decide +kernel) (by decide +kernel) ⟨7, by decide, by decide, by decide⟩
      ⟨6, by decide, by decide, by decide⟩ (.here (encodes _ (by decide +kernel)))) (by decide +kernel) (by decide +kernel)
    (encodes _ (by decide +kernel))

open HLSample in
/-- With that record `d/a` is there; without the last byte of its content it is not whole; of what follows, the
content counts. -/
example :
    let at' : Nat → List (Option Node) := fun k => match run os ((dirArc recoverTree).take (128 + k)) [111] (world []) with
      | .ok r => [[[100]], [[100], [97]], [[100], [98]], [[99]]].map fun q => r.w.fs ([[104], [119], [111]] ++ q)
      | .error _ => []
    (encode recoverTree).length = 256 ∧
    at' 97 = [some (.dir 0o755), some (.file 0o640 [7]), none, none] ∧
    at' 104 = [some (.dir 0o755), some (.file 0o640 [7, 8]), none, none] ∧
    at' 153 = [some (.dir 0o755), some (.file 0o640 [7, 8]), some (.file 0o640 [9]), none] := by
  decide +kernel

end Zwt
