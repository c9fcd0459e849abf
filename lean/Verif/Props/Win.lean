import Verif.Proofs.WinMkdir
import Verif.Proofs.WinConfine
import Verif.Props.HLRelink
import Verif.Props.HLConfine
import Verif.Spec.WinSample

/-! C100: an archive made on Unix, extracted on Windows.  C101: what extraction on Windows can change.
C102: removal of the extraction directory on Windows. -/

namespace Zwt

variable {Z : Inflater} {D : Deflater} {plain : Bytes → Bytes} {σ : Type}

/-- Extraction on Windows of (the archive of) any tree. -/
theorem winExtract_tree (C : InflateOK Z plain) (hnil : plain [] = []) (ok : AllocOracle)
    (hok : ∀ k n, ok k n = true) (hdr item : Bytes) (hh : hdr.length = 128) (hi : item.length = 40)
    (win : Win) (hq : win.quiet) (w : WWorld) (out : Bytes) (top : Loc)
    (ns : List Bytes) (hw : WFresh win w out top ns)
    {f : Forest} (hf : f.proper) (hfw : f.winOk win) (hfn : f ≠ .nil) {junk t : Bytes}
    (hj : junk.length = 120) (he : Encodes f t) (size : Nat) (inp : Input) (hin : inp.err = false)
    (harc : plain (allowed size 0 inp.data) = headerBytes 0 1 junk ++ t) :
    ∃ n0 r, (∀ fuel, n0 ≤ fuel → winExtract Z win ok fuel hdr item out size inp w = .ok r) ∧
      r.hasError = false ∧
      (C.Final → Open plain (allowed size 0 inp.data) → ∀ c ∈ r.codes, c = Z_OK) ∧
      ((∀ c ∈ r.codes, c = Z_OK) → 0 < r.room ∨ C.Prompt (allowed size 0 inp.data) →
        r.ret = CT_DIRECTORY ∧ r.w.cwd = w.cwd ∧
        WLanded win w.fs r.w.fs top (top ++ ns.map win.same) f) := by
  obtain ⟨n0, X, h1, h2, h3⟩ := winExtract_ends C ok hdr item hh hi win out w size inp
  have e2 := C02_header_roundtrip 0 1 junk hj (by decide) (by decide)
  have hl128 : (headerBytes 0 1 junk).length = 128 := e2.1
  have hver : hdrVersion ((headerBytes 0 1 junk ++ t).take 128) = 0 := by
    rw [List.take_left' hl128]; exact e2.2.1
  have htne : t ≠ [] := by
    intro h
    cases he with
    | nil => exact hfn rfl
    | file h1 => have := congrArg List.length h; simp [h1] at this
    | link h1 => have := congrArg List.length h; simp [h1] at this
    | dir h1 => have := congrArg List.length h; simp [h1] at this
  have fresh : ∀ g, Relinked f g → ∀ evs rest, EvsOf g (evs.map Ev.closed ++ rest) →
      ∃ h', winEvents win out (HLW.init w) (.drStart :: evs) = .ok h' ∧ h'.hasError = false ∧
        (rest = [] → h'.ret = CT_DIRECTORY ∧ h'.w.cwd = w.cwd ∧
          WLanded win w.fs h'.w.fs top (top ++ ns.map win.same) f) := by
    intro g hg evs rest hev
    obtain ⟨_, gok, gsp⟩ := hg.winOk win
    obtain ⟨h', a, a', a''⟩ := fresh_win win hq w out top ns hw (gok hfw) hev
    refine ⟨h', ?_, a', fun hr => ?_⟩
    · rw [← winEvents_closed]; exact a
    · have := a'' hr
      simpa only [WLanded, gsp] using this
  cases hX : X with
  | error e =>
    exfalso
    cases h3 e hX with
    | callback a b c =>
      rw [harc] at a
      rcases log_relinked hj he ok hok hf a b with ⟨rfl, _⟩ | ⟨g, evs, rest, k1, _, rfl, hev, _⟩
      · cases c
      · obtain ⟨h', g1, _⟩ := fresh g k1 evs rest hev
        rw [g1] at c; cases c
    | version a b => rw [harc] at b; exact absurd hver b
  | ok r =>
    subst hX
    obtain ⟨P, log, h, Dn⟩ := h2 r rfl
    have hcodes : C.Final → Open plain (allowed size 0 inp.data) → ∀ c ∈ r.codes, c = Z_OK := by
      intro hF hO
      obtain ⟨m0, hm⟩ := winExtract_codes C hF ok hdr item hh hi win out w size inp hO
        (by rw [harc]; exact hver)
      exact hm (max n0 m0) r (by omega) (h1 _ (by omega))
    have hpre := Dn.pre
    rw [harc] at hpre
    have hrun := Dn.run
    have hret : r.ret = h.ret := by
      rcases Dn.ret with h | h
      · exact h
      · rw [hin] at h; simp at h
    have hfull : r.hasError = false → (∀ c ∈ r.codes, c = Z_OK) →
        0 < r.room ∨ C.Prompt (allowed size 0 inp.data) → P = headerBytes 0 1 junk ++ t := by
      intro h1 h2 h3
      have hne : allowed size 0 inp.data ≠ [] := by
        intro h
        rw [h, hnil] at harc
        have := congrArg List.length harc
        simp only [List.length_append, List.length_nil] at this
        omega
      rcases Dn.full hin h1 h2 h3 (.inl hne) with h | ⟨h, h'⟩
      · rw [h, harc]
      · rw [(take_header hpre h).1] at h'
        exact absurd hver h'
    refine ⟨n0, r, h1, ?_⟩
    rcases log_relinked hj he ok hok hf hpre Dn.arch with ⟨rfl, hemp⟩ |
      ⟨g, evs, rest, k1, _, rfl, hev, hrest⟩
    · cases hrun
      have herr : r.hasError = false := Dn.error
      exact ⟨herr, hcodes, fun a b => absurd (hemp (hfull herr a b)) htne⟩
    · obtain ⟨h', g1, g2, g3⟩ := fresh g k1 evs rest hev
      rw [g1] at hrun
      cases hrun
      have herr : r.hasError = false := Dn.error.trans g2
      refine ⟨herr, hcodes, fun a b => ?_⟩
      rw [hret, Dn.world]
      exact g3 (hrest (hfull herr a b))

/-- C100, without links and for names that Windows accepts and can tell apart: the archive of a
directory, made on Unix, is extracted on Windows into a new directory without undefined behaviour and
without a reported error, and if the codec delivers everything, all files and directories of the tree
are there, files with their content, read-only if the owner could not write them.  The output directory
and up to 61 directories above it are made; nothing else changes.
Missing: links, which are left out while success is reported (`C100_links_false`), and names that
differ only in case (`C100_case_false`); an empty selection (nothing is extracted), and failures of the
operating system. -/
theorem C100_windows_partial (CD : DeflateOK D plain) (C : InflateOK Z plain)
    -- compression
    (env : Env) (henv : env.ok) (flt : Filter σ) {dir : Bytes} {es : List Entry} {f : Forest}
    (hl : env.list dir = some es) (hm : Mirror env dir es f) (fs : σ) (level : Int) (z : D.τ)
    (hz : D.init level = some z) (junk : Bytes) (hj : junk.length = 120)
    (hst : (select flt dir f fs).status ≠ .failed) (hne : (select flt dir f fs).forest ≠ .nil)
    -- extraction
    (ok : AllocOracle) (hok : ∀ k n, ok k n = true) (hdr item : Bytes) (hh : hdr.length = 128)
    (hi : item.length = 40) (win : Win) (hq : win.quiet) (w : WWorld) (out : Bytes) (top : Loc)
    (ns : List Bytes) (hw : WFresh win w out top ns) (hf : f.proper)
    (hfw : (select flt dir f fs).forest.winOk win) :
    ∃ n1 log last, (∀ fuel, n1 ≤ fuel →
        compressDir D env flt fuel .plain dir fs level junk = .ok (0, log)) ∧
      log.getLast? = some last ∧
      ∀ size data, allowed size 0 data = log.flatten → last.length < 524288 →
        ∃ n0 r, (∀ fuel, n0 ≤ fuel →
            winExtract Z win ok fuel hdr item out size ⟨data, false⟩ w = .ok r) ∧
          r.hasError = false ∧
          (C.Final → CD.Fits → ∀ c ∈ r.codes, c = Z_OK) ∧
          ((∀ c ∈ r.codes, c = Z_OK) → 0 < r.room ∨ C.Prompt log.flatten →
            r.ret = CT_DIRECTORY ∧ r.w.cwd = w.cwd ∧
            WLanded win w.fs r.w.fs top (top ++ ns.map win.same) (select flt dir f fs).forest) := by
  obtain ⟨n1, log, g, rfl, c1, copen, t, c2, _, last, c3, c4⟩ :=
    compressDir_good CD env henv flt .plain trivial hl hm fs level z hz junk hj hst
  refine ⟨n1, log, last, c1, c3, ?_⟩
  intro size data hal hb
  have c2' : Encodes (select flt dir f fs).forest t := c2
  obtain ⟨_, s2⟩ := select_proper flt f dir fs
  obtain ⟨n0, r, x1, x2, x3, x4⟩ := winExtract_tree C (CD.plain_nil hz) ok hok hdr item hh hi win hq w
    out top ns hw (s2 hf) hfw hne hj c2' size ⟨data, false⟩ rfl (by
      show plain (allowed size 0 data) = _
      rw [hal]; exact c4 hb)
  exact ⟨n0, r, x1, x2,
    fun hF hT => x3 hF (by show Open plain (allowed size 0 data); rw [hal]; exact copen hT),
    fun a b => x4 a (by show _ ∨ C.Prompt (allowed size 0 data); rw [hal]; exact b)⟩

open WinSample HLSample in
/-- Example: a tree with a read-only file and a link, extracted to `o\P/X/y` in the directory `c`, where
`o` exists but not `P`. -/
example : let f : Forest := .file [82] 0o444 [1, 2] (.link [114] 0o777 [116]
      (.dir [100] 0o755 (.file [82] 0o640 [] .nil) .nil))
    let w : WWorld := drive.put [[99], [111]] .dir
    WFresh win w [111, 92, 80, 47, 88, 47, 121] [[99], [111], [112]] [[88], [121]] ∧ f.proper ∧ f.winOk win ∧
    f.winSpots win [[111]] = [([[111], [114]], .file true [1, 2]), ([[111], [100]], .dir),
      ([[111], [100], [114]], .file false [])] := by
  refine ⟨⟨⟨[111, 92, 80], by decide, by decide, by decide +kernel⟩, ?_, by decide, by decide,
    by decide +kernel, fun q => ?_⟩, ?_, ?_, by decide⟩
  · simp +decide [WinName, PlainName, win]
  · simp only [drive, WWorld.put, WFS.put]
    rw [if_neg (by simp), if_neg (by simp), if_neg (by simp)]
  · simp +decide [Forest.proper, PlainName]
  · simp +decide [Forest.winOk, WinName, PlainName, win]

open WinSample HLSample in
/-- The theorem for the sample tree of Unix (with a link), extracted to `o`. -/
example := C100_windows_partial queueDOK copyIOK sampleEnv (fun _ => by simp [sampleEnv])
  (keepFilter fun _ e => e.name ≠ [117]) rfl sampleMirror () 6 [] rfl (List.replicate 120 0xEE)
  List.length_replicate (by decide) (by decide) (fun _ _ => true) (fun _ _ => rfl) hdrMem itemMem
  List.length_replicate List.length_replicate win win_quiet drive [111] [[99], [111]] []
  ⟨⟨[111], by decide, by decide, by decide +kernel⟩, by simp, by decide, by decide, by decide +kernel, fun q => by
    simp only [drive]
    rw [if_neg (by simp), if_neg (by simp)]⟩
  (by simp +decide [Forest.proper, PlainName, sampleForest])
  (by rw [show (select (keepFilter fun _ e => e.name ≠ [117]) [114] sampleForest ()).forest =
      .file [97] 0o640 [1, 2] (.dir [100] 0o755 (.file [98] 0o600 [] .nil) (.link [108] 0o777 [116] .nil))
      by decide]
      simp +decide [Forest.winOk, WinName, PlainName, win, Forest.winNames, Win.same])

open WinSample HLSample in
/-- An absolute path: `/o/p`, with the current directory `c`, is not in `c`. -/
example : WFresh win drive [47, 111, 47, 112] [[111]] [[112]] :=
  ⟨⟨[47, 111], by decide, by decide, by decide +kernel⟩, by simp +decide [WinName, PlainName, win],
    by decide, by decide, by decide +kernel, fun q => by
      simp only [drive]
      rw [if_neg (by simp), if_neg (by simp)]⟩

namespace WinSample

theorem flat_ok (es : List Entry) (c : Bytes → Bytes) : (flat es c).ok := fun _ => by simp [flat]

/-- A file `a` and a link `l`. -/
def linkEnv : Env := flat [⟨[97], .file⟩, ⟨[108], .symlink⟩] fun _ => [1, 2, 3]
/-- Files `a` and `A`. -/
def caseEnv : Env := flat [⟨[97], .file⟩, ⟨[65], .file⟩] fun n => if n = [97] then [1, 2, 3] else [9]
/-- A file named `..\x`. -/
def backEnv : Env := flat [⟨[46, 46, 92, 120], .file⟩] fun _ => [9]

theorem linkMirror : Mirror linkEnv [114] ((linkEnv.list [114]).getD [])
    (.file [97] 0o644 [1, 2, 3] (.link [108] 0o777 [116] .nil)) := by
  refine .file (sample_fits ?_ ?_ ?_) ?_ ?_ (.link (sample_fits ?_ ?_ ?_) ?_ ?_ ?_ .nil)
  all_goals first | decide | rfl

theorem caseMirror : Mirror caseEnv [114] ((caseEnv.list [114]).getD [])
    (.file [97] 0o644 [1, 2, 3] (.file [65] 0o644 [9] .nil)) := by
  refine .file (sample_fits ?_ ?_ ?_) ?_ ?_ (.file (sample_fits ?_ ?_ ?_) ?_ ?_ .nil)
  all_goals first | decide | rfl

theorem backMirror : Mirror backEnv [114] ((backEnv.list [114]).getD [])
    (.file [46, 46, 92, 120] 0o644 [9] .nil) := by
  refine .file (sample_fits ?_ ?_ ?_) ?_ ?_ .nil
  all_goals first | decide | rfl

end WinSample

open WinSample HLSample in
/-- C100 is false for links: success is reported and there is nothing in their place. -/
theorem C100_links_false :
    ¬ ∀ (env : Env) (f : Forest) (r : WExtracted), env.ok →
      Mirror env [114] ((env.list [114]).getD []) f → f.proper → f.winOk win →
      both env = .ok r → r.ret = CT_DIRECTORY → r.hasError = false →
      ∀ n, f.lookup os [n] ≠ none → r.w.fs [[99], [111], win.same n] ≠ none := by
  intro h
  have key : view [[[99], [111], [108]]] (both linkEnv) = .done CT_DIRECTORY false [none] := by
    decide +kernel
  obtain ⟨r, h1, h2, h3, h4⟩ := view_done key
  refine h linkEnv _ r (flat_ok _ _) linkMirror (by simp +decide [Forest.proper, PlainName])
    (by simp +decide [Forest.winOk, WinName, PlainName, win, Forest.winNames, Win.same]) h1 h2 h3 [108]
    (by decide) ?_
  have : win.same [108] = [108] := by decide
  rw [this]
  simpa using h4

open WinSample HLSample in
/-- C100 is false for names that differ in case only: success is reported, and the one file that is
there has the content of neither. -/
theorem C100_case_false :
    ¬ ∀ (env : Env) (f : Forest) (r : WExtracted), env.ok →
      Mirror env [114] ((env.list [114]).getD []) f → f.proper → f.noLinks →
      (∀ n ∈ f.names, WinName win n) →
      both env = .ok r → r.ret = CT_DIRECTORY → r.hasError = false →
      ∀ n m c, f.lookup os [n] = some (.file m c) →
        ∃ n' m' c', win.same n' = win.same n ∧ f.lookup os [n'] = some (.file m' c') ∧
          r.w.fs [[99], [111], win.same n] = some (.file (m' &&& 0o200 == 0) c') := by
  intro h
  have key : view [[[99], [111], [97]]] (both caseEnv) =
      .done CT_DIRECTORY false [some (.file false [9, 2, 3])] := by
    decide +kernel
  obtain ⟨r, h1, h2, h3, h4⟩ := view_done key
  obtain ⟨n', m', c', -, g2, g3⟩ := h caseEnv _ r (flat_ok _ _) caseMirror
    (by simp +decide [Forest.proper, PlainName]) (by simp [Forest.noLinks])
    (by simp +decide [Forest.names, WinName, PlainName, win]) h1 h2 h3 [97] _ _ rfl
  have : win.same [97] = [97] := by decide
  rw [this] at g3
  simp only [List.map_cons, List.map_nil, List.cons.injEq, and_true] at h4
  rw [h4] at g3
  simp only [Option.some.injEq, WNode.file.injEq] at g3
  obtain ⟨-, rfl⟩ := g3
  simp only [Forest.lookup] at g2
  split at g2
  · simp at g2
  · split at g2
    · simp at g2
    · simp at g2

/-! ### C101 -/

/-- The callbacks of a directory archive with names of one component, after the creation of the output
directory. -/
theorem win_confined_log {win : Win} {w : WWorld} {out : Bytes} {b : Loc} (B : WBase win w out b)
    (hpar : w.fs b.dropLast = some .dir) (hmem : ∀ k, win.noMem k = false)
    (hmk : (winMkdir win out w).1 = 0) (ok : AllocOracle) (Q : Bytes)
    (hs : ∀ a ∈ (specParse ok 0 (Q.drop 128)).atoms, WinSafe a)
    (hb : balance 0 (specParse ok 0 (Q.drop 128)).atoms ≠ none)
    (hk : hdrKind (Q.take 128) = CT_DIRECTORY) (P : Bytes) (hP : P <+: Q) (pieces : List Bytes)
    (log : List Ev) (size : Nat) (hlog : ArchiveLog ok size P pieces log) :
    ∃ h', winEvents win out (HLW.init w) log = .ok h' ∧
      (∀ x, ¬ b <+: x → h'.w.fs x = w.fs x) ∧ h'.w.cwd = w.cwd := by
  cases hlog with
  | short => exact ⟨_, rfl, fun _ _ => rfl, rfl⟩
  | version => exact ⟨_, rfl, fun _ _ => rfl, rfl⟩
  | empty => exact ⟨_, rfl, fun _ _ => rfl, rfl⟩
  | unknown => exact ⟨_, rfl, fun _ _ => rfl, rfl⟩
  | @file h chunks a1 a2 a3 =>
    obtain ⟨t, rfl⟩ := hP
    rw [List.append_assoc, List.take_left' a1] at hk
    rw [hk] at a3
    exact absurd a3 (by decide)
  | @dir hd _ evs owed a1 a2 a3 a4 a5 a6 a7 a8 a9 a10 =>
    obtain ⟨u, hu⟩ := hP
    have hd2 : Q.drop 128 = pieces.flatten ++ u := by
      rw [← hu, List.append_assoc, List.drop_left' a1]
    rw [hd2] at hs hb
    obtain ⟨v, hv⟩ := specParse_prefix ok 0 pieces.flatten u
    rw [← hv] at hs hb
    have hs' := a8.winSafe fun x hx => hs x (List.mem_append_left _ hx)
    have hb' := balance_after hb
    rw [← a8.balance 0] at hb'
    have c1 : WConf w (winMkdir win out w).2 b := by
      have hcr : (winCreate win w.tick out).1 = 0 →
          winCreate win w.tick out = (0, (w.tick.put b .dir).tick) := by
        intro hc
        simp only [winCreate] at hc ⊢
        split at hc
        · simp at hc
        · rename_i hr
          rw [if_neg hr]
          have : winLocate win w.tick.cwd out = some b := B.loc
          rw [this] at hc ⊢
          simp only at hc ⊢
          split at hc
          · simp at hc
          · rename_i hn
            split at hc
            · rename_i hp; rw [if_pos hp]
            · simp at hc
      have h2 : (winCreate win w.tick out).1 ≠ 2 := by
        simp only [winCreate]
        split
        · simp
        · have : winLocate win w.tick.cwd out = some b := B.loc
          rw [this]
          simp only
          split
          · simp
          · rw [if_pos (by simp [winParent, WWorld.tick, hpar])]; simp
      have h012 : (winCreate win w.tick out).1 = 0 ∨ (winCreate win w.tick out).1 = 1 ∨
          (winCreate win w.tick out).1 = 2 ∨ (winCreate win w.tick out).1 = -1 := by
        simp only [winCreate]
        split
        · simp
        · split
          · simp
          · split
            · simp
            · split <;> simp
      have hraw : winMkdir win out w = winCreate win w.tick out := by
        simp only [winMkdir, hmem, Bool.false_eq_true, if_false, winMkdirRaw]
        rw [if_pos (by omega)]
      rw [hraw] at hmk ⊢
      rw [hcr hmk]
      refine WConf.tick ⟨?_, rfl, by simp [WWorld.put, WFS.put]⟩
      intro x hx
      simp only [WWorld.put, WFS.put]
      rw [if_neg (by rintro rfl; exact hx List.prefix_rfl)]
      rfl
    cases hm : winMkdir win out w with
    | mk r w1 =>
      rw [hm] at hmk c1
      have hr : r = 0 := hmk
      have I : WInside w out b
          { HLW.init w with w := w1.tick, dirPath := some out, ret := CT_DIRECTORY } .idle [] :=
        ⟨by simp [slashed], by simp, c1.tick, by simp [HLW.init], by simp⟩
      obtain ⟨h', g1, g2, _⟩ := win_inside B hmem evs _ .idle [] I a10
        (fun a ha => hs' a (List.mem_append_left _ ha)) (balance_after hb')
      refine ⟨h', ?_, g2.out, g2.cwd⟩
      simp only [winEvents, winEvent, winDirStart, HLW.init, hm, hr, hmem]
      simp only [HLW.init] at g1
      simpa using g1

/-- C101, directory archives with names of one component (links may be among the entries): if the parent
of the output directory exists and the output directory is created, extraction on Windows has no
undefined behaviour and changes nothing outside the output directory, whatever other calls the system
refuses.
Missing: names with a slash or backslash (`C101_confined_false`) and `..`, unmatched directory ends, an
output directory that cannot be created, memory running out for the path of a directory. -/
theorem C101_confined_partial (C : InflateOK Z plain) (ok : AllocOracle) (hdr item : Bytes)
    (hh : hdr.length = 128) (hi : item.length = 40) (win : Win) (hmem : ∀ k, win.noMem k = false)
    (w : WWorld) (out : Bytes) (h0 : 0 ∉ out) (b : Loc) (hloc : winLocate win w.cwd out = some b)
    (hpar : w.fs b.dropLast = some .dir) (hmk : (winMkdir win out w).1 = 0) (size : Nat) (inp : Input)
    (hk : hdrKind ((plain (allowed size 0 inp.data)).take 128) = CT_DIRECTORY)
    (hv : hdrVersion ((plain (allowed size 0 inp.data)).take 128) = 0)
    (hs : ∀ a ∈ (specParse ok 0 ((plain (allowed size 0 inp.data)).drop 128)).atoms, WinSafe a)
    (hb : balance 0 (specParse ok 0 ((plain (allowed size 0 inp.data)).drop 128)).atoms ≠ none) :
    ∃ n0 r, (∀ fuel, n0 ≤ fuel → winExtract Z win ok fuel hdr item out size inp w = .ok r) ∧
      (∀ x, ¬ b <+: x → r.w.fs x = w.fs x) ∧ r.w.cwd = w.cwd := by
  obtain ⟨n0, X, h1, h2, h3⟩ := winExtract_ends C ok hdr item hh hi win out w size inp
  have key := fun P hP pieces log => win_confined_log (win := win) ⟨h0, hloc⟩ hpar hmem hmk ok _ hs hb hk P
    hP pieces log DEF_CHUNK_SIZE
  cases hX : X with
  | error e =>
    cases h3 e hX with
    | callback a b c =>
      obtain ⟨h', g1, _⟩ := key _ a _ _ b
      rw [g1] at c; cases c
    | version a b => exact absurd hv b
  | ok r =>
    obtain ⟨P, log, h, D⟩ := h2 r hX
    obtain ⟨h', g1, g2, g3⟩ := key P D.pre _ log D.arch
    rw [D.run] at g1
    cases g1
    refine ⟨n0, r, fun f hf => by rw [h1 f hf, hX], ?_, ?_⟩
    · rw [D.world]; exact g2
    · rw [D.world]; exact g3

open WinSample HLSample in
/-- The theorem for an archive with a directory, a file and a link, while the creation of the directory is refused:
the directory `d` is not made, and nothing outside `o` changes. -/
example := C101_confined_partial copyIOK (fun _ _ => true) hdrMem itemMem List.length_replicate
  List.length_replicate { win with refuses := fun k => k == 5 } (fun _ => rfl) drive [111] (by decide)
  [[99], [111]] (by decide +kernel) (by decide +kernel) (by decide +kernel) 0
  ⟨dirArc (.dir [100] 0o755 (.file [97] 0o640 [7] .nil) (.link [108] 0o777 [116] .nil)), false⟩
  (by decide +kernel) (by decide +kernel) (by decide +kernel) (by decide +kernel)

open WinSample HLSample in
/-- That run: the error is recorded and the file is not there. -/
example : view [[[99], [111]], [[99], [111], [100]], [[99], [111], [100], [97]]] (winExtract copyI
    { win with refuses := fun k => k == 5 } (fun _ _ => true) 5 hdrMem itemMem [111] 0
    ⟨dirArc (.dir [100] 0o755 (.file [97] 0o640 [7] .nil) (.link [108] 0o777 [116] .nil)), false⟩ drive) =
    .done CT_DIRECTORY true [some .dir, none, none] := by decide +kernel

open WinSample in
/-- C101 is false even for archives this library makes: on Unix a file can be named `..\x`; extracted to
the new directory `o` on Windows, it overwrites the file `x` beside `o`. -/
theorem C101_confined_false :
    ¬ ∀ (env : Env) (f : Forest) (r : WExtracted), env.ok →
      Mirror env [114] ((env.list [114]).getD []) f → f.proper → f.noLinks → both env = .ok r →
      ∀ x, ¬ [[99], [111]] <+: x → r.w.fs x = drive.fs x := by
  intro h
  have key : view [[[99], [120]]] (both backEnv) =
      .done CT_DIRECTORY false [some (.file false [9, 5])] := by decide +kernel
  obtain ⟨r, h1, _, _, h4⟩ := view_done key
  have := h backEnv _ r (flat_ok _ _) backMirror (by simp +decide [Forest.proper, PlainName])
    (by simp [Forest.noLinks]) h1 [[99], [120]] (by decide)
  rw [List.map_cons, this, List.map_nil] at h4
  exact absurd h4 (by decide +kernel)

/-- `_fsopen` and `_sopen_s` change at most the place the path leads to. -/
theorem winOpen_only (win : Win) (w : WWorld) (p : Bytes) (ro t : Bool) :
    (winOpen win w p ro t).2.cwd = w.cwd ∧
    (∀ x, winLocate win w.cwd p ≠ some x → (winOpen win w p ro t).2.fs x = w.fs x) ∧
    ∀ l, (winOpen win w p ro t).1 = some l → winLocate win w.cwd p = some l := by
  simp only [winOpen]
  split
  · exact ⟨rfl, fun _ _ => rfl, by simp⟩
  · cases hl : winLocate win w.cwd p with
    | none => exact ⟨rfl, fun _ _ => rfl, by simp⟩
    | some l =>
      have hput : ∀ n x, some l ≠ some x → w.fs.put l n x = w.fs x := by
        intro n x hx
        simp only [WFS.put]
        rw [if_neg (fun h => hx (by rw [h]))]
      simp only
      split
      · split
        · exact ⟨rfl, fun _ _ => rfl, by simp⟩
        · split
          · exact ⟨rfl, fun x hx => hput _ x hx, by simp⟩
          · exact ⟨rfl, fun _ _ => rfl, by simp⟩
      · exact ⟨rfl, fun _ _ => rfl, by simp⟩
      · split
        · exact ⟨rfl, fun x hx => hput _ x hx, by simp⟩
        · exact ⟨rfl, fun _ _ => rfl, by simp⟩

theorem winReads_only (win : Win) (out : Bytes) (l : Loc) (ds : List Bytes) :
    ∀ (h h' : HLW), (∀ f, h.fpOut = some f → f.loc = l) →
    winEvents win out h (ds.map .flRead) = .ok h' →
    h'.w.cwd = h.w.cwd ∧ ∀ x, x ≠ l → h'.w.fs x = h.w.fs x := by
  induction ds with
  | nil => intro h h' _ hr; cases hr; exact ⟨rfl, fun _ _ => rfl⟩
  | cons d ds ih =>
    intro h h' hf hr
    simp only [List.map_cons, winEvents, winEvent, winFileData] at hr
    cases hfp : h.fpOut with
    | none => rw [hfp] at hr; cases hr
    | some f =>
      rw [hfp] at hr
      simp only at hr
      obtain ⟨g1, g2⟩ := ih _ h' (by
        intro f' hf'
        cases hf'
        have := hf f hfp
        simp only [winWrite]
        split
        · exact this
        · split <;> exact this) hr
      have hl := hf f hfp
      refine ⟨g1.trans ?_, fun x hx => (g2 x hx).trans ?_⟩
      · simp only [winWrite]
        split
        · rfl
        · split <;> rfl
      · simp only [winWrite]
        split
        · rfl
        · split
          · simp only [WWorld.tick, WWorld.put, WFS.put]
            rw [if_neg (by rw [hl]; exact hx)]
          · rfl

/-- C101, other archives: extraction changes at most the place the output path leads to, whatever the
system refuses.
Missing: directory archives, see `C101_confined_partial`. -/
theorem C101_file_archive_partial (C : InflateOK Z plain) (ok : AllocOracle) (hdr item : Bytes)
    (hh : hdr.length = 128) (hi : item.length = 40) (win : Win) (out : Bytes) (w : WWorld) (n : Nat)
    (inp : Input) (hk : hdrKind ((plain (allowed n 0 inp.data)).take 128) ≠ CT_DIRECTORY) :
    ∃ n0 X, (∀ fuel, n0 ≤ fuel → winExtract Z win ok fuel hdr item out n inp w = X) ∧
      ∀ r, X = .ok r → r.w.cwd = w.cwd ∧
        ∀ x, winLocate win w.cwd out ≠ some x → r.w.fs x = w.fs x := by
  obtain ⟨n0, X, h1, h2, _⟩ := winExtract_ends C ok hdr item hh hi win out w n inp
  refine ⟨n0, X, h1, ?_⟩
  intro r hr
  obtain ⟨P, log, h, D⟩ := h2 r hr
  have hrun := D.run
  rw [D.world]
  cases D.arch.kind with
  | none => cases hrun; exact ⟨rfl, fun _ _ => rfl⟩
  | dir a1 a2 a3 a4 =>
    rw [(take_header D.pre a1).1] at a3
    exact absurd a3 hk
  | @file ds a1 a2 a3 a4 a5 =>
    obtain ⟨o1, o2, o3⟩ := winOpen_only win w out false true
    cases hs : winOpen win w out false true with
    | mk ol w' =>
      rw [hs] at o1 o2 o3
      simp only [winEvents, winEvent, winFileStart, HLW.init, hs] at hrun
      cases ol with
      | none =>
        cases ds with
        | nil => exact absurd rfl a4
        | cons d ds => simp only [List.map_cons, winEvents, winEvent, winFileData] at hrun; cases hrun
      | some l =>
        obtain ⟨g1, g2⟩ := winReads_only win out l ds _ h (by intro f hf; cases hf; rfl) hrun
        refine ⟨g1.trans o1, fun x hx => ?_⟩
        exact (g2 x (fun e => hx (by rw [e]; exact o3 l rfl))).trans (o2 x hx)

open WinSample HLSample in
/-- Example: the output file exists already, under a name in other case, and is replaced. -/
example : hdrKind ((id (allowed 0 0 (fileArc [1, 2, 3]))).take 128) ≠ CT_DIRECTORY ∧
    view [[[99], [120]]] (winExtract copyI win (fun _ _ => true) 5 hdrMem itemMem [88] 0
      ⟨fileArc [1], false⟩ drive) = .done CT_FILE false [some (.file false [1])] := by decide +kernel

/-! ### C102 -/

theorem shPaths_nul (mem d : Bytes) (h : 0 ∉ d) : ∀ cur, cur ++ d ≠ [] →
    shPaths cur (d ++ 0 :: mem) = (shPaths [] mem).map ((cur ++ d) :: ·) := by
  induction d with
  | nil =>
    intro cur hc
    rw [List.append_nil] at hc
    simp [shPaths, hc]
  | cons c d ih =>
    intro cur _
    simp only [List.mem_cons, not_or] at h
    rw [List.cons_append, shPaths, if_neg (fun e => h.1 e.symm), ih h.2 _ (by simp)]
    simp

/-- C102, if the byte behind the terminating NUL of the name is 0: nothing outside the directory is
removed or changed; and unless the system refuses, the directory is removed with everything in it.
Missing: other memory behind the name (`C102_clear_false`). -/
theorem C102_clear_partial (win : Win) (w : WWorld) (dir : Bytes) (hne : dir ≠ []) (h0 : 0 ∉ dir)
    (rest : Bytes) (l : Loc) (hl : winLocate win w.cwd dir = some l) :
    ∃ w', winClear win w dir (0 :: rest) = .ok w' ∧ w'.cwd = w.cwd ∧
      (∀ x, ¬ l <+: x → w'.fs x = w.fs x) ∧
      (win.refuses w.calls = false → (w.fs l = none → ∀ q, w.fs (l ++ q) = none) →
        ∀ x, l <+: x → w'.fs x = none) := by
  have hp : shPaths [] (dir ++ 0 :: 0 :: rest) = some [dir] := by
    rw [shPaths_nul _ dir h0 [] (by simpa using hne)]
    rfl
  refine ⟨winDeletes win [dir] w, by rw [winClear, hp], ?_⟩
  simp only [winDeletes, winDelete, hl]
  split
  · rename_i hr
    refine ⟨rfl, fun _ _ => rfl, fun h => ?_⟩
    rw [hr] at h; cases h
  · split
    · rename_i hn
      refine ⟨rfl, fun _ _ => rfl, fun _ ht x hx => ?_⟩
      obtain ⟨q, rfl⟩ := hx
      exact ht hn q
    · refine ⟨rfl, fun x hx => ?_, fun _ _ x hx => ?_⟩
      · exact if_neg hx
      · exact if_pos hx

/-- The name of the extraction directory, `.out_dir`. -/
def outDirName : Bytes := [46, 111, 117, 116, 95, 100, 105, 114]

open WinSample in
/-- Example: `.out_dir` with a file in it, beside the file `x`. -/
example : let w := (drive.put [[99], outDirName] .dir).put [[99], outDirName, [97]] (.file true [1])
    winLocate win w.cwd outDirName = some [[99], outDirName] ∧
    (match winClear win w outDirName [0, 120, 0, 0] with
      | .ok w' => [[[99], outDirName], [[99], outDirName, [97]], [[99], [120]]].map w'.fs
      | .error _ => []) = [none, none, some (.file false [5, 5])] := by decide +kernel

open WinSample in
/-- C102 is false: the memory behind the name is taken for further paths.  If it holds `x`, the file `x`
is removed; if it holds no empty string, the call reads beyond the readable memory. -/
theorem C102_clear_false :
    (¬ ∀ (win : Win) (w w' : WWorld) (after : Bytes) (l : Loc), win.quiet →
      winLocate win w.cwd outDirName = some l → winClear win w outDirName after = .ok w' →
      ∀ x, ¬ l <+: x → w'.fs x = w.fs x) ∧
    ∀ (win : Win) (w : WWorld) (after : Bytes), 0 ∉ after →
      winClear win w outDirName after = .error .oobRead := by
  constructor
  · intro h
    have key : (match winClear win (drive.put [[99], outDirName] .dir) outDirName [120, 0, 0] with
        | .ok w' => some (w'.fs [[99], [120]])
        | .error _ => none) = some none := by decide +kernel
    cases hc : winClear win (drive.put [[99], outDirName] .dir) outDirName [120, 0, 0] with
    | error e => rw [hc] at key; cases key
    | ok w' =>
      rw [hc] at key
      have := h win (drive.put [[99], outDirName] .dir) w' [120, 0, 0] [[99], outDirName] win_quiet
        (by decide +kernel) hc [[99], [120]] (by decide)
      simp only [Option.some.injEq] at key
      rw [key] at this
      exact absurd this (by decide +kernel)
  · intro win w after h
    have : ∀ (m cur : Bytes), 0 ∉ m → shPaths cur m = none := by
      intro m
      induction m with
      | nil => intro cur _; rfl
      | cons c m ih =>
        intro cur hm
        simp only [List.mem_cons, not_or] at hm
        rw [shPaths, if_neg (fun e => hm.1 e.symm)]
        exact ih _ hm.2
    rw [winClear, shPaths_nul _ outDirName (by decide) [] (by decide), this after [] h]
    rfl

end Zwt
