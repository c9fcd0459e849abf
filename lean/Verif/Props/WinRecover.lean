import Verif.Proofs.WinBegun
import Verif.Proofs.WinFile
import Verif.Props.WinBeginning
import Verif.Props.WinUnix
import Verif.Props.Recover

/-! C120 on Windows. -/

namespace Zwt

section
variable {plain : Bytes → Bytes} {D : Deflater} {Z : Inflater}

/-- What a run on Windows makes of the beginning of an archive. -/
theorem winExtract_begun (C : InflateOK Z plain) (hnil : plain [] = []) (ok : AllocOracle)
    (hok : ∀ k n, ok k n = true) (hdr item : Bytes) (hh : hdr.length = 128) (hi : item.length = 40)
    (win : Win) (hq : win.quiet) (w : WWorld) (out : Bytes) (top : Loc) (ns : List Bytes)
    (hw : WFresh win w out top ns) {f : Forest} (hf : f.proper) (hfw : f.winOk win) (hnl : f.noLinks)
    {junk t : Bytes} (hj : junk.length = 120) (he : Encodes f t) (size : Nat) (data : Bytes)
    (harc : plain (allowed size 0 data) <+: headerBytes 0 1 junk ++ t) :
    ∃ n0 r, (∀ fuel, n0 ≤ fuel → winExtract Z win ok fuel hdr item out size ⟨data, false⟩ w = .ok r) ∧
      r.hasError = false ∧
      (C.Final → Open plain (allowed size 0 data) → 128 ≤ (plain (allowed size 0 data)).length →
        ∀ c ∈ r.codes, c = Z_OK) ∧
      ((∀ c ∈ r.codes, c = Z_OK) → 0 < r.room ∨ C.Prompt (allowed size 0 data) →
        ∀ g t1 t2, Begun f g t1 t2 → t1 ++ t2 = t →
          headerBytes 0 1 junk ++ t1 <+: plain (allowed size 0 data) →
          (∀ x ro c, (x, .file ro c) ∈ g.winSpots win (top ++ ns.map win.same) → c ≠ [] →
            r.w.fs x = some (.file ro c)) ∧
          (plain (allowed size 0 data) = headerBytes 0 1 junk ++ t1 →
            ∀ s ∈ g.winSpots win (top ++ ns.map win.same), r.w.fs s.1 = some s.2)) := by
  obtain ⟨e1, e2, e3⟩ := C02_header_roundtrip 0 1 junk hj (by decide) (by decide)
  have e1' : (headerBytes 0 1 junk).length = 128 := e1
  have hver : ∀ P : Bytes, P <+: headerBytes 0 1 junk ++ t → 128 ≤ P.length → hdrVersion (P.take 128) = 0 := by
    intro P hP h
    rw [(take_header hP h).1, List.take_left' e1']; exact e2
  obtain ⟨n0, X, h1, h2, h3⟩ := winExtract_ends C ok hdr item hh hi win out w size ⟨data, false⟩
  cases hX : X with
  | error e =>
    exfalso
    cases h3 e hX with
    | callback a b c =>
      rcases log_tree_any hj he ok hf hnl (a.trans harc) b with rfl | ⟨evs, rest, rfl, hev⟩
      · cases c
      · obtain ⟨h', g1, _⟩ := fresh_win win hq w out top ns hw hfw hev
        rw [g1] at c; cases c
    | version a b => exact b (hver _ harc a)
  | ok r =>
    obtain ⟨P, lg, h, Dn⟩ := h2 r hX
    have hP := Dn.pre.trans harc
    have herr : r.hasError = false := by
      rw [Dn.error]
      have hrun := Dn.run
      rcases log_tree_any hj he ok hf hnl hP Dn.arch with hlg | ⟨evs, rest, hlg, hev⟩
      · rw [hlg] at hrun; cases hrun; rfl
      · obtain ⟨h', g1, g2, _⟩ := fresh_win win hq w out top ns hw hfw hev
        rw [hlg, g1] at hrun
        cases hrun
        exact g2
    refine ⟨n0, r, fun fuel hfu => by rw [h1 fuel hfu, hX], herr, ?_, ?_⟩
    · intro hFin hO hlen
      obtain ⟨m0, hm0⟩ := winExtract_codes C hFin ok hdr item hh hi win out w size ⟨data, false⟩ hO
        (hver _ harc hlen)
      exact hm0 (max n0 m0) r (by omega) (by rw [h1 _ (by omega), hX])
    · intro hc hroom g t1 t2 hb htt hpre
      have hne : allowed size 0 data ≠ [] := by
        intro h
        rw [h, hnil] at hpre
        have := hpre.length_le
        simp only [List.length_append, List.length_nil] at this
        omega
      have hfull : P = plain (allowed size 0 data) := by
        rcases Dn.full rfl herr hc hroom (.inl hne) with h | ⟨h, h'⟩
        · exact h
        · exact absurd (hver P hP h) h'
      subst htt
      rw [← hfull] at hpre ⊢
      have hrun := Dn.run
      rw [Dn.world]
      rcases log_begun hj hb ok hok hf hnl hP hpre Dn.arch with ⟨_, rfl⟩ | ⟨ea, eb, rest, more, hlg, k1, k2, k3, k4⟩
      · exact ⟨fun x ro c h => by (cases h), fun _ s h => by (cases h)⟩
      · obtain ⟨h', g1, _, g2, g3⟩ := begun_run_win win hq w out top ns hw hb hfw k1 k2 k3
        rw [hlg, g1] at hrun
        cases hrun
        exact ⟨g2, fun hex => g3 (k4 hex)⟩

/-- C120, from Unix to Windows: let a directory be compressed on Unix, without links, and a beginning of its
archive be extracted to a new directory of a Windows drive, which accepts the names.  As on Unix, every file
with content whose record is in the plaintext that there is stands in the new directory with all its content,
protected against writing as its mode says; if the plaintext ends with a record, empty files and directories
stand there too. -/
theorem C120_to_windows {σ : Type} (CD : DeflateOK D plain) (C : InflateOK Z plain)
    -- compression
    (env : Env) (henv : env.ok) (flt : Filter σ) {dir : Bytes} {es : List Entry} {f : Forest}
    (hl : env.list dir = some es) (hm : Mirror env dir es f) (fs : σ) (level : Int) (z : D.τ)
    (hz : D.init level = some z) (junk : Bytes) (hj : junk.length = 120)
    (hst : (select flt dir f fs).status ≠ .failed)
    -- extraction
    (ok : AllocOracle) (hok : ∀ k n, ok k n = true) (hdr item : Bytes) (hh : hdr.length = 128)
    (hi : item.length = 40) (win : Win) (hq : win.quiet) (w : WWorld) (out : Bytes) (top : Loc)
    (ns : List Bytes) (hw : WFresh win w out top ns) (hf : f.proper)
    (hfw : (select flt dir f fs).forest.winOk win) (hnl : (select flt dir f fs).forest.noLinks) :
    ∃ n1 log t b, (∀ fuel, n1 ≤ fuel →
        compressDir D env flt fuel .plain dir fs level junk = .ok (0, log)) ∧
      Encodes (select flt dir f fs).forest t ∧ plain log.flatten <+: headerBytes 0 1 junk ++ t ∧
      log.getLast? = some b ∧ (b.length < 524288 → plain log.flatten = headerBytes 0 1 junk ++ t) ∧
      ∀ size data, allowed size 0 data <+: log.flatten →
        ∃ n0 r, (∀ fuel, n0 ≤ fuel → winExtract Z win ok fuel hdr item out size ⟨data, false⟩ w = .ok r) ∧
          r.hasError = false ∧
          (C.Final → CD.Fits → 128 ≤ (plain (allowed size 0 data)).length → ∀ c ∈ r.codes, c = Z_OK) ∧
          ((∀ c ∈ r.codes, c = Z_OK) → 0 < r.room ∨ C.Prompt (allowed size 0 data) →
            ∀ g t1 t2, Begun (select flt dir f fs).forest g t1 t2 → t1 ++ t2 = t →
              headerBytes 0 1 junk ++ t1 <+: plain (allowed size 0 data) →
              (∀ x ro c, (x, .file ro c) ∈ g.winSpots win (top ++ ns.map win.same) → c ≠ [] →
                r.w.fs x = some (.file ro c)) ∧
              (plain (allowed size 0 data) = headerBytes 0 1 junk ++ t1 →
                ∀ s ∈ g.winSpots win (top ++ ns.map win.same), r.w.fs s.1 = some s.2)) := by
  obtain ⟨n1, log, g0, rfl, c1, copen, t, c2, cpre, b, c3, c4⟩ :=
    compressDir_good CD env henv flt .plain trivial hl hm fs level z hz junk hj hst
  refine ⟨n1, log, t, b, c1, c2, cpre, c3, c4, ?_⟩
  intro size data hal
  obtain ⟨y, hy⟩ := hal
  obtain ⟨n0, r, r1, r2, r3, r4⟩ := winExtract_begun C (CD.plain_nil hz) ok hok hdr item hh hi win hq w out top ns hw
    ((select_proper flt f dir fs).2 hf) hfw hnl hj c2 size data (by
      refine List.IsPrefix.trans ?_ cpre
      rw [← hy]
      exact C.mono _ y)
  refine ⟨n0, r, r1, r2, fun hF hT => r3 hF ?_, r4⟩
  have := copen hT
  rw [← hy] at this
  exact this.left C

/-- C120 on Windows: a directory of a Windows drive is archived, and a beginning of the archive is extracted to
a new directory of a Windows drive.  `f` is what is in the directory (but for links).  Every file with content
whose record is in the plaintext that there is stands in the new directory as it is in the source; if the
plaintext ends with a record, empty files and directories stand there too. -/
theorem C120_windows (CD : DeflateOK D plain) (C : InflateOK Z plain) (win : Win) (hq : win.quiet)
    -- compression
    (w : WWorld) (ht : w.fs.tree) (env : Env) (henv : env.ok) (H : WShows win w env) (p : Bytes) (l : Loc)
    (A : WArchivable win w env p l) (level : Int) (z : D.τ)
    (hz : D.init level = some z) (junk : Bytes) (hj : junk.length = 120)
    -- extraction
    (ok : AllocOracle) (hok : ∀ k n, ok k n = true) (hdr item : Bytes) (hh : hdr.length = 128)
    (hi : item.length = 40) (w' : WWorld) (out : Bytes) (top : Loc) (ns : List Bytes)
    (hw : WFresh win w' out top ns) :
    ∃ n1 log f t b, (∀ fuel, n1 ≤ fuel →
        winCompressDir D env acceptAll fuel .plain p () level junk = .ok (0, log)) ∧
      (∀ q node, q ≠ [] → ((q, node) ∈ f.winSpots win [] ↔ w.fs (l ++ q) = some node)) ∧
      Encodes f t ∧ plain log.flatten <+: headerBytes 0 1 junk ++ t ∧
      log.getLast? = some b ∧ (b.length < 524288 → plain log.flatten = headerBytes 0 1 junk ++ t) ∧
      ∀ size data, allowed size 0 data <+: log.flatten →
        ∃ n0 r, (∀ fuel, n0 ≤ fuel → winExtract Z win ok fuel hdr item out size ⟨data, false⟩ w' = .ok r) ∧
          r.hasError = false ∧
          (C.Final → CD.Fits → 128 ≤ (plain (allowed size 0 data)).length → ∀ c ∈ r.codes, c = Z_OK) ∧
          ((∀ c ∈ r.codes, c = Z_OK) → 0 < r.room ∨ C.Prompt (allowed size 0 data) →
            ∀ g t1 t2, Begun f g t1 t2 → t1 ++ t2 = t →
              headerBytes 0 1 junk ++ t1 <+: plain (allowed size 0 data) →
              (∀ q ro c, (q, .file ro c) ∈ g.winSpots win [] → c ≠ [] →
                w.fs (l ++ q) = some (.file ro c) ∧
                r.w.fs (top ++ ns.map win.same ++ q) = some (.file ro c)) ∧
              (plain (allowed size 0 data) = headerBytes 0 1 junk ++ t1 →
                ∀ q node, (q, node) ∈ g.winSpots win [] →
                  w.fs (l ++ q) = some node ∧ r.w.fs (top ++ ns.map win.same ++ q) = some node)) := by
  have he : env.sameFiles env.anyLinks := ⟨rfl, rfl, rfl, rfl⟩
  have H' : WShows win w env.anyLinks := ⟨H.list, H.stat, H.open'⟩
  have A' : WArchivable win w env.anyLinks p l := ⟨A.leads, A.isDir, A.files, A.top, A.short⟩
  obtain ⟨es, f, h1, h2, h3, h4, h5, h6, h7⟩ := A'.mirror ht H' fun _ => ⟨rfl, rfl⟩
  have hfl : Filter.noLinks acceptAll = keepFilter noLink := noLinks_all
  have hrd := f.pure_readable noLink h4 p
  have hpr : (f.prune noLink p).proper := by
    rw [← (select_prune noLink f p hrd).2]; exact (select_proper (keepFilter noLink) f p ()).2 h3
  obtain ⟨p1, _, p3, p4⟩ := f.prune_noLink win p
  obtain ⟨s1, s2⟩ := select_prune noLink f p hrd
  obtain ⟨n1, log, g0, rfl, d1, dopen, t, d2, d3, b, d4, d5⟩ := compressDir_good CD env.anyLinks henv
    (keepFilter noLink) .plain trivial h1 h2 () level z hz junk hj (by rw [s1]; decide)
  rw [s2] at d2
  replace d2 : Encodes (f.prune noLink p) t := d2
  have hx : ∀ q node, q ≠ [] → ((q, node) ∈ (f.prune noLink p).winSpots win [] ↔ w.fs (l ++ q) = some node) := by
    intro q node hq
    rw [p1]; simpa using h7 [] q node hq
  refine ⟨n1, log, f.prune noLink p, t, b, fun fuel hfu => ?_, hx, d2, d3, d4, d5, fun size data hal => ?_⟩
  · rw [C110_no_links D he acceptAll fuel (fn := .plain) (by intro xs h; cases h), hfl]
    exact d1 fuel hfu
  · obtain ⟨y, hy⟩ := hal
    obtain ⟨n0, r, r1, r2, r3, r4⟩ := winExtract_begun C (CD.plain_nil hz) ok hok hdr item hh hi win hq w' out top ns hw
      hpr (p3 h5) (f.prune_links p) hj d2 size data (by
        refine List.IsPrefix.trans ?_ d3
        rw [← hy]
        exact C.mono _ y)
    refine ⟨n0, r, r1, r2, fun hF hT => r3 hF ?_, fun hc hroom g t1 t2 hb htt hpre => ?_⟩
    · have := dopen hT
      rw [← hy] at this
      exact this.left C
    obtain ⟨s1, s2⟩ := r4 hc hroom g t1 t2 hb htt hpre
    have hsrc : ∀ q node, (q, node) ∈ g.winSpots win [] → w.fs (l ++ q) = some node := by
      intro q node hm
      have hm' := hb.winSpots win _ _ hm
      refine (hx q node ?_).mp hm'
      obtain ⟨q', a, c⟩ := h6 [] _ (p1 [] ▸ hm')
      have c' : q = q' := by simpa using c
      rw [c']; exact a
    have hput : ∀ q node, (q, node) ∈ g.winSpots win [] →
        (top ++ ns.map win.same ++ q, node) ∈ g.winSpots win (top ++ ns.map win.same) := by
      intro q node hm
      rw [← List.append_nil (top ++ ns.map win.same), Forest.winSpots_shift]
      exact List.mem_map.mpr ⟨_, hm, by simp⟩
    exact ⟨fun q ro c hm hc => ⟨hsrc _ _ hm, s1 _ _ _ (hput _ _ hm) hc⟩,
      fun hex q node hm => ⟨hsrc _ _ hm, s2 hex _ (hput _ _ hm)⟩⟩

/-- C120 on Windows, single files: of a beginning of the archive of a file that goes beyond the header, extraction
makes a file with as much of the original as the plaintext has. -/
theorem C120_windows_file (CD : DeflateOK D plain) (C : InflateOK Z plain)
    (content : Bytes) (level : Int) (z : D.τ) (hz : D.init level = some z)
    (junk : Bytes) (hj : junk.length = 120) (ok : AllocOracle) (hdr item : Bytes)
    (hh : hdr.length = 128) (hi : item.length = 40) (win : Win) (hq : win.quiet) (out : Bytes)
    (w : WWorld) (l : Loc) (ho : (winOpen win w out false true).1 = some l) :
    ∃ n1 log b, (∀ fuel, n1 ≤ fuel → compressFile D fuel content false level junk = .ok (0, log)) ∧
      log.getLast? = some b ∧ (b.length < 524288 → plain log.flatten = headerBytes 0 2 junk ++ content) ∧
      ∀ size data, allowed size 0 data <+: log.flatten → 128 < (plain (allowed size 0 data)).length →
        ∃ n0 r, (∀ fuel, n0 ≤ fuel →
            winExtract Z win ok fuel hdr item out size ⟨data, false⟩ w = .ok r) ∧
          (C.Final → CD.Fits → ∀ c ∈ r.codes, c = Z_OK) ∧
          ((∀ c ∈ r.codes, c = Z_OK) → 0 < r.room ∨ C.Prompt (allowed size 0 data) →
            r.ret = CT_FILE ∧ r.w.cwd = w.cwd ∧ winLocate win w.cwd out = some l ∧
            r.w.fs = w.fs.put l (.file false (content.take ((plain (allowed size 0 data)).length - 128))) ∧
              ∀ x, w.fs l = some x → ∃ c, x = .file false c) := by
  obtain ⟨f1, f2, f3⟩ := readFile_ok content false
  obtain ⟨s0, s, n1, rets, c1, copen, cpre, b, c2, c3⟩ := session_writes_good CD CT_FILE level z hz junk hj
    (readFile content false).1 f3
  refine ⟨n1, s.log, b, ?_, c2, fun hb => by rw [c3 hb, f2 rfl]; rfl, ?_⟩
  · intro fuel hf
    simp only [compressFile, (c1 fuel hf).1, (c1 fuel hf).2, f1]
    rfl
  intro size data hal hlen
  rw [f2 rfl] at cpre
  have hpre : plain (allowed size 0 data) <+: headerBytes 0 2 junk ++ content := by
    obtain ⟨y, hy⟩ := hal
    refine List.IsPrefix.trans ?_ cpre
    rw [← hy]
    exact C.mono _ y
  have hl128 : (headerBytes 0 2 junk).length = 128 :=
    (C02_header_roundtrip 0 2 junk hj (by decide) (by decide)).1
  have harc : plain (allowed size 0 data) =
      headerBytes 0 2 junk ++ content.take ((plain (allowed size 0 data)).length - 128) := by
    have h := List.prefix_iff_eq_take.mp hpre
    rw [List.take_append, List.take_of_length_le (by omega), hl128] at h
    exact h
  have hc : content.take ((plain (allowed size 0 data)).length - 128) ≠ [] := by
    intro h
    rw [h, List.append_nil] at harc
    rw [harc] at hlen
    omega
  obtain ⟨n0, r, r1, r2, r3⟩ := winExtract_file_content C (CD.plain_nil hz) hc hj ok hdr item hh hi win hq out w
    l ho size data harc
  refine ⟨n0, r, r1, fun hF hT => r2 hF ?_, r3⟩
  obtain ⟨y, hy⟩ := hal
  have := copen hT
  rw [← hy] at this
  exact this.left C

end

open WinSample HLSample in
/-- Example: the directory `s` with the file `R` and the directory `d` with the file `f`, extracted to `o/p`. -/
example := C120_windows queueDOK copyIOK win win_quiet source source_tree sourceEnv
  (fun _ => by simp [sourceEnv]) source_shows [115] [[99], [115]] source_archivable 6 [] rfl (List.replicate 120 0)
  List.length_replicate (fun _ _ => true) (fun _ _ => rfl) hdrMem itemMem List.length_replicate List.length_replicate
  drive [111, 47, 112] [[99], [111]] [[112]]
  ⟨⟨[111], by decide, by decide, by simp +decide [winLocate, winWalk, winSplit, winBase, win, drive]⟩,
    by simp +decide [WinName, PlainName, win], by decide, by decide, by decide +kernel, fun q => by
    simp only [drive]
    rw [if_neg (by simp), if_neg (by simp)]⟩

open WinSample HLSample in
/-- Example: the directory of the sample without its link, to the directory `o`. -/
example := C120_to_windows queueDOK copyIOK sampleEnv (fun _ => by simp [sampleEnv])
  (keepFilter fun _ e => e.name ≠ [117] ∧ e.ty ≠ .symlink) (dir := [114]) rfl sampleMirror () 6 [] rfl
  (List.replicate 120 0xEE) List.length_replicate (by decide) (fun _ _ => true) (fun _ _ => rfl) hdrMem itemMem
  List.length_replicate List.length_replicate win win_quiet drive [111] [[99], [111]] []
  ⟨⟨[111], by decide, by decide, by decide +kernel⟩, by simp, by decide, by decide, by decide +kernel, fun q => by
    simp only [drive]
    rw [if_neg (by simp), if_neg (by simp)]⟩
  (by simp +decide [Forest.proper, PlainName, sampleForest])
  (by rw [show (select (keepFilter fun _ e => e.name ≠ [117] ∧ e.ty ≠ .symlink) [114] sampleForest ()).forest =
      .file [97] 0o640 [1, 2] (.dir [100] 0o755 (.file [98] 0o600 [] .nil) .nil) by decide]
      simp +decide [Forest.winOk, WinName, PlainName, win, Forest.winNames, Win.same])
  ⟨trivial, trivial⟩

open WinSample HLSample in
/-- Example: a file archive, to the file `o`. -/
example := C120_windows_file queueDOK copyIOK [5, 6, 7] 6 [] rfl (List.replicate 120 0) List.length_replicate
  (fun _ _ => true) hdrMem itemMem List.length_replicate List.length_replicate win win_quiet [111]
  drive [[99], [111]] (by decide +kernel)

open WinSample HLSample in
/-- With the record of `d/a` the file is there; without the last byte of its content it is not whole; of what
follows, the content counts.  (`recoverTree_cut` is a cut after that record.) -/
example :
    let at' : Nat → List (Option WNode) := fun k =>
      nodesAt [[[99], [111], [100]], [[99], [111], [100], [97]], [[99], [111], [100], [98]], [[99], [111], [99]]]
        (winExtract copyI win (fun _ _ => true) 9 hdrMem itemMem [111] 0 ⟨(dirArc recoverTree).take (128 + k), false⟩ drive)
    at' 97 = [some .dir, some (.file false [7]), none, none] ∧
    at' 104 = [some .dir, some (.file false [7, 8]), none, none] ∧
    at' 153 = [some .dir, some (.file false [7, 8]), some (.file false [9]), none] := by
  decide +kernel

end Zwt
