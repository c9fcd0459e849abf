import Verif.Proofs.SelfWin
import Verif.Props.WinCopy

/-! C113: the self extractor on Windows. -/

namespace Zwt

section

variable {Z : Inflater} {D : Deflater} {plain : Bytes → Bytes} {win : Win}

theorem winLocate_name {n : Bytes} (h : WinName win n) (cwd : Loc) :
    winLocate win cwd n = some (cwd ++ [win.same n]) := by
  obtain ⟨⟨h1, h2, h3, h4, _⟩, h5, h6⟩ := h
  rw [winLocate, if_neg h1, winSplit_plain n h4 h5]
  have hb : winBase cwd n = cwd := by
    cases n with
    | nil => exact absurd rfl h1
    | cons c cs =>
      simp only [List.mem_cons, not_or] at h4 h5
      simp [winBase, winSep, Ne.symm h4.1, Ne.symm h5.1]
  rw [hb]
  cases hk : win.key n with
  | none => exact absurd hk h6
  | some k => simp [winWalk, h1, h2, h3, hk, Win.same]

theorem WinName.notSep {n : Bytes} (h : WinName win n) : n.getLast?.map winSep ≠ some true := by
  have := h.last [120]
  obtain ⟨⟨h1, _, _, h4, _⟩, h5, _⟩ := h
  intro e
  apply this
  cases hg : n.getLast? with
  | none => rw [hg] at e; cases e
  | some x =>
    rw [hg] at e
    rw [List.getLast?_append, List.getLast?_cons, hg]
    simpa using e

theorem winWritePieces_at (hq : win.quiet) {l : Loc} {ro : Bool} (ds : List Bytes) :
    ∀ (c : Bytes) (off : Nat) (w : WWorld), w.fs l = some (.file ro c) →
      (winWritePieces win ds ⟨l, off⟩ w).fs = w.fs.put l (.file ro (pwrites c off ds)) ∧
      (winWritePieces win ds ⟨l, off⟩ w).cwd = w.cwd := by
  induction ds with
  | nil =>
    intro c off w h
    refine ⟨?_, rfl⟩
    funext x
    simp only [winWritePieces, pwrites, WFS.put]
    split
    · rename_i e; rw [e, h]
    · rfl
  | cons d ds ih =>
    intro c off w h
    have e : winWrite win w ⟨l, off⟩ d = (⟨l, off + d.length⟩,
        (w.put l (.file ro (pwrite c off d))).tick) := by
      simp only [winWrite, hq.1, Bool.false_eq_true, if_false, h]
      rw [List.take_of_length_le (hq.2.1 _ _)]
    rw [winWritePieces, e]
    obtain ⟨i1, i2⟩ := ih (pwrite c off d) (off + d.length) ((w.put l (.file ro (pwrite c off d))).tick)
      (by simp [WWorld.put, WWorld.tick, WFS.put])
    refine ⟨?_, i2⟩
    rw [i1]
    simp only [WWorld.put, WWorld.tick, WFS.put_put, pwrites]

theorem ExePath.parts {arg0 dir n : Bytes} (h : ExePath arg0 dir n) : exeParts arg0 = (dir, n) := by
  obtain ⟨h1, h2, rfl | ⟨rfl, h3⟩⟩ := h
  · rw [exeParts, lastIndexOf_append 92 dir n h1]
    simp
  · exact exeParts_slash (by simp [h1, h3]) h2

/-- Compression with the filter of the self extractor, and extraction. -/
theorem selfWin_tree (CD : DeflateOK D plain) (C : InflateOK Z plain) (hq : win.quiet) {w : WWorld}
    (ht : w.fs.tree) {env : Env} (henv : env.ok) {p : Bytes} {l d : Loc} {exe out : Bytes}
    (H : WShowsBut win w env [l ++ [win.same exe], d ++ [win.same out]])
    (A : WArchivable win w env p l) (hx : exe ≠ out) (h1 : WSole win env p l exe l)
    (h2 : WSole win env p l out d)
    (hu : ∀ x ∈ [l ++ [win.same exe], d ++ [win.same out]], ∃ ro c, w.fs x = some (.file ro c))
    (hne : ∃ q, q ≠ [] ∧ w.fs.omit [l ++ [win.same exe], d ++ [win.same out]] (l ++ q) ≠ none) (z : D.τ)
    (hz : D.init 9 = some z) (junk : Bytes) (hj : junk.length = 120) :
    ∃ n1 log b, (∀ fuel, n1 ≤ fuel →
        winCompressDir D env (selfFilter exe out) fuel .plain p ⟨true, true⟩ 9 junk = .ok (0, log)) ∧
      log.getLast? = some b ∧ log.flatten ≠ [] ∧
      ∀ (ok : AllocOracle) (_ : ∀ k n, ok k n = true) (hdr item : Bytes) (_ : hdr.length = 128)
        (_ : item.length = 40) (w' : WWorld) (o : Bytes) (top : Loc) (ns : List Bytes)
        (_ : WFresh win w' o top ns), b.length < 524288 →
        ∃ n0 r, (∀ fuel, n0 ≤ fuel → winExtract Z win ok fuel hdr item o 0 ⟨log.flatten, false⟩ w' = .ok r) ∧
          (C.Final → CD.Fits → ∀ c ∈ r.codes, c = Z_OK) ∧
          ((∀ c ∈ r.codes, c = Z_OK) → 0 < r.room ∨ C.Prompt log.flatten →
            r.ret = CT_DIRECTORY ∧ r.w.cwd = w'.cwd ∧
            WCopyOf (w.fs.omit [l ++ [win.same exe], d ++ [win.same out]]) l w'.fs r.w.fs top
              (top ++ ns.map win.same)) := by
  have he : env.sameFiles env.anyLinks := ⟨rfl, rfl, rfl, rfl⟩
  have H' : WShowsBut win w env.anyLinks [l ++ [win.same exe], d ++ [win.same out]] :=
    ⟨H.list, H.stat, H.open', H.shut⟩
  have A' : WArchivable win w env.anyLinks p l := ⟨A.leads, A.isDir, A.files, A.top, A.short⟩
  have h1' : WSole win env.anyLinks p l exe l := h1
  have h2' : WSole win env.anyLinks p l out d := h2
  generalize hused : [l ++ [win.same exe], d ++ [win.same out]] = used at *
  obtain ⟨es1, g, m1, m2, m3, m4, m5, m6, m7⟩ := (A'.hide hu).mirror (WFS.omit_tree ht hu) H'.hide
    fun _ => ⟨rfl, rfl⟩
  obtain ⟨es, k1, k2⟩ := H'.list p l A.top A.leads A.isDir
  have hat : WAt win w env.anyLinks p l [] es :=
    ⟨by simp, by simpa [slashed] using k1, by simpa using k2, by simpa [slashed] using A.leads⟩
  have hfil : es.filter (unused win w.cwd used p) = es1 := by
    simp only [Env.hide, k1, Option.map_some, Option.some.injEq] at m1
    exact m1
  have hsp : ∀ ns es, WAt win w env.anyLinks p l ns es → ∀ e ∈ es, WinName win e.name → e.ty ≠ .dir →
      (l ++ ns.map win.same ++ [win.same e.name] ∈ used ↔ e.name = exe ∨ e.name = out) := by
    intro ns es h e he hw hty
    obtain ⟨a1, a2⟩ := h1' ns es e h.names h.list he hw hty
    obtain ⟨b1, b2⟩ := h2' ns es e h.names h.list he hw hty
    rw [← hused]
    simp only [List.mem_cons, List.not_mem_nil, or_false]
    constructor
    · rintro (hh | hh)
      · obtain ⟨x1, x2⟩ := List.append_inj' hh rfl
        exact .inl (a2 x1 (by simpa using x2))
      · obtain ⟨x1, x2⟩ := List.append_inj' hh rfl
        exact .inr (b2 x1 (by simpa using x2))
    · rintro (hh | hh)
      · exact .inl (by rw [a1 hh, hh])
      · exact .inr (by rw [b1 hh, hh])
  obtain ⟨f, F⟩ := unhide H' A' hu hsp m2 [] es es (by simp [slashed]) hat (fun _ h => h) hfil m4
  have c1 := (named_sole H' A' h1' F.mirror [] es (by simp [slashed]) hat (fun _ h => h) k2.once).1
  have c2 := (named_sole H' A' h2' F.mirror [] es (by simp [slashed]) hat (fun _ h => h) k2.once).1
  obtain ⟨s1, s2, _, _⟩ := select_selfWin hx f p ⟨true, true⟩ F.readable c1 c2
  rw [F.prune] at s2
  obtain ⟨p1, _, p3, p4⟩ := g.prune_noLink win p
  have hnil : g.prune noLink p ≠ .nil := by
    intro h
    obtain ⟨q, hq, hx⟩ := hne
    cases hn : w.fs.omit used (l ++ q) with
    | none => exact hx hn
    | some node =>
      have := (m7 [] q node hq).mpr hn
      rw [p4 h] at this
      cases this
  have hst : (select (selfFilter exe out).noLinks p f ⟨true, true⟩).status ≠ .failed := by rw [s1]; decide
  have hcomp := fun fuel => C110_no_links D he (selfFilter exe out) fuel (fn := .plain)
    (by intro xs h; cases h) p ⟨true, true⟩ 9 junk
  obtain ⟨n1, log, d1, t, d2, d3, b, e2, d5⟩ := C27_directory_archive CD env.anyLinks henv
    (selfFilter exe out).noLinks k1 F.mirror ⟨true, true⟩ 9 z hz junk hj hst
  have hlog : log.flatten ≠ [] := by
    intro h
    by_cases hb : b.length < 524288
    · have := d5 hb
      rw [h, CD.plain_nil hz] at this
      have := congrArg List.length this
      rw [List.length_append, (C02_header_roundtrip 0 1 junk hj (by decide) (by decide)).1] at this
      simp [MAIN_HEADER_SIZE] at this
      omega
    · have := (List.sublist_flatten_of_mem (List.mem_of_getLast? e2)).length_le
      rw [h, List.length_nil] at this
      omega
  refine ⟨n1, log, b, fun fuel hf => by rw [hcomp]; exact d1 fuel hf, e2, hlog, ?_⟩
  intro ok hok hdr item hh hi w' o top ns hw hb
  obtain ⟨n2, log', b', y1, y2, y3⟩ := C100_windows_partial CD C env.anyLinks henv
    (selfFilter exe out).noLinks k1 F.mirror ⟨true, true⟩ 9 z hz junk hj hst (by rw [s2]; exact hnil) ok hok
    hdr item hh hi win hq w' o top ns hw (F.proper m3) (by rw [s2]; exact p3 m5)
  have e1 := y1 (max n1 n2) (by omega)
  rw [d1 (max n1 n2) (by omega)] at e1
  cases e1
  rw [e2] at y2
  cases y2
  obtain ⟨n0, r, x1, _, x3, x4⟩ := y3 0 log.flatten rfl hb
  refine ⟨n0, r, x1, x3, fun a b => ?_⟩
  obtain ⟨z1, z2, z3⟩ := x4 a b
  rw [s2] at z3
  refine ⟨z1, z2, WLanded.copy hw z3 (fun b => ?_) fun b q => ?_⟩
  · rw [p1]; exact m6 b
  · rw [p1]; exact m7 b q

theorem WFS.put_same (fs : WFS) (l : Loc) (n : WNode) : fs.put l n l = some n := by simp [WFS.put]

theorem winOpenRead_file (hq : win.quiet) {w : WWorld} {path : Bytes} {l : Loc} {ro : Bool} {c : Bytes}
    (hs : path.getLast?.map winSep ≠ some true) (hl : winLocate win w.cwd path = some l)
    (hf : w.fs l = some (.file ro c)) :
    winOpenRead win w path = (some l, w.tick) ∧ winContent w.tick l = c := by
  simp [winOpenRead, winContent, hq.1, hs, hl, hf, WWorld.tick]

/-- Clearing the extraction directory. -/
theorem winClear_out (hq : win.quiet) {w : WWorld} (hn : WinName win OUT_FOLDER) {after rest : Bytes}
    (ha : after = 0 :: rest) :
    ∃ w', winClear win w OUT_FOLDER after = .ok w' ∧ w'.cwd = w.cwd ∧
      (w.fs.tree → w'.fs = w.fs.without (w.cwd ++ [win.same OUT_FOLDER])) := by
  obtain ⟨w', h1, h2, h3, h4⟩ := C102_clear_partial win w OUT_FOLDER hn.1.1 (by decide +kernel) rest _
    (winLocate_name hn w.cwd)
  refine ⟨w', by rw [ha]; exact h1, h2, fun ht => ?_⟩
  funext x
  simp only [WFS.without]
  split
  · rename_i hx
    refine h4 (hq.1 _) (fun hn q => ?_) x hx
    by_cases hq : q = []
    · subst hq; simpa using hn
    · exact ht.below (by rw [hn]; simp) hq
  · rename_i hx
    exact h3 x hx

theorem WFS.without_tree {fs : WFS} (ht : fs.tree) (l : Loc) : (fs.without l).tree := by
  intro x k n h
  simp only [WFS.without] at h ⊢
  split at h
  · cases h
  · rename_i hx
    rw [if_neg (fun h' => hx (h'.trans (List.prefix_append _ _)))]
    exact ht x k n h

/-- Packing, up to the archive. -/
theorem selfWin_pack (D : Deflater) (Z : Inflater) (hq : win.quiet) {w : WWorld}
    (env : SelfWinEnv) (ndebug : Bool) {arg0 : Bytes} (hlen : arg0.length < 4191) {le : Loc} {ro : Bool}
    {exe exe' : Bytes} (hs : arg0.getLast?.map winSep ≠ some true)
    (hexe : winLocate win w.cwd arg0 = some le) (hfile : w.fs le = some (.file ro exe))
    (hsize : exe.length ≤ maxExe ndebug) (ho : WinName win OUT_FILE) (hcwd : w.fs w.cwd = some .dir)
    (hout : w.fs (w.cwd ++ [win.same OUT_FILE]) = none ∨
      ∃ c, w.fs (w.cwd ++ [win.same OUT_FILE]) = some (.file false c))
    (hicon : ∀ v : WWorld, v.cwd = w.cwd →
      v.fs = w.fs.put (w.cwd ++ [win.same OUT_FILE]) (.file false exe) →
      ∃ v', env.icon v = .ok v' ∧ v'.cwd = w.cwd ∧
        v'.fs = w.fs.put (w.cwd ++ [win.same OUT_FILE]) (.file false exe')) :
    ∃ wb : WWorld, wb.cwd = w.cwd ∧ wb.fs = w.fs.put (w.cwd ++ [win.same OUT_FILE]) (.file false exe') ∧
      ∀ ret log, ∃ w2 : WWorld, w2.cwd = w.cwd ∧
        w2.fs = w.fs.put (w.cwd ++ [win.same OUT_FILE])
          (.file false (pwrite exe' (maxExe ndebug) log.flatten)) ∧
        ∀ fuel, winCompressDir D (env.see wb) (selfFilter (exeParts arg0).2 OUT_FILE) fuel .plain
            (exeParts arg0).1 ⟨true, true⟩ 9 env.junk = .ok (ret, log) →
          selfWinMain D Z win fuel env ndebug arg0 w = .ok (ret, w2) := by
  obtain ⟨r1, r2⟩ := winOpenRead_file hq hs hexe hfile
  have hloc := winLocate_name ho w.cwd
  generalize hlo : w.cwd ++ [win.same OUT_FILE] = lo at *
  have o1 : winOpen win w.tick OUT_FILE false true = (some lo, (w.tick.put lo (.file false [])).tick) := by
    rcases hout with h | ⟨c, h⟩
    · have := winOpen_new win hq w.tick OUT_FILE w.cwd (win.same OUT_FILE) false true
        (by rw [hlo]; exact hloc) hcwd ho.notSep (by rw [hlo]; exact h)
      rwa [hlo] at this
    · have hs := ho.notSep
      simp only [winOpen, hq.1, hs, WWorld.tick, hloc, h]
      simp
  generalize hwa : (w.tick.put lo (.file false [])).tick = wa at *
  have hwafs : wa.fs = w.fs.put lo (.file false []) := by rw [← hwa]; rfl
  have hwac : wa.cwd = w.cwd := by rw [← hwa]; rfl
  obtain ⟨c1, c2⟩ := winWritePieces_at hq (ro := false) (blocks exe.length exe) [] 0 wa
    (by rw [hwafs, WFS.put_same])
  obtain ⟨wb, i1, i2, i3⟩ := hicon (winWritePieces win (blocks exe.length exe) ⟨lo, 0⟩ wa)
    (by rw [c2, hwac]) (by rw [c1, hwafs, WFS.put_put, copy_eq])
  have o2 : winOpenWrite win wb OUT_FILE = (some lo, wb.tick) := by
    have hs := ho.notSep
    have hf : wb.fs lo = some (.file false exe') := by rw [i3, WFS.put_same]
    simp only [winOpenWrite, hq.1, hs, i2, hloc, hf]
    simp
  refine ⟨wb.tick, i2, i3, fun ret log => ?_⟩
  obtain ⟨p1, p2⟩ := winWritePieces_at hq (ro := false) log exe' (maxExe ndebug) wb.tick
    (by show wb.fs lo = _; rw [i3, WFS.put_same])
  rw [pwrites_eq] at p1
  refine ⟨winWritePieces win log ⟨lo, maxExe ndebug⟩ wb.tick, by rw [p2]; exact i2, ?_, fun fuel k1 => ?_⟩
  · rw [p1]
    show wb.fs.put _ _ = _
    rw [i3, WFS.put_put]
  · rw [selfWinMain, if_neg (by simp only [VC_BUFFER_SIZE]; omega), r1]
    simp only [r2]
    rw [if_neg (by omega), selfWinPack, o1]
    simp only [i1, o2, k1]

/-- C113, what holds: on Windows, the program `dir\n`, which is small enough, also with its icon, is
started and packs its directory: it exits with 0 and stores, in the working directory, `__out.exe`, which
is the program with its icon, zeros up to the limit, and the archive; nothing else changes.  When that
file is started, anywhere but in `.out_dir`, it exits with 0 after it has removed `.out_dir` from the working directory, has
put there a copy of everything in the source directory but the program and the output file, and has
started `.out_dir\maind.exe`; if that is not possible or fails, it has also started `.out_dir\main.exe`,
otherwise it has removed `.out_dir` again.  The program and the output file are in use while they are
packed and cannot be opened.
Missing: what C110 misses; other spellings of the name of the program and paths with both kinds of
slashes (false, below); other files with the name of the program or of the output file; programs beyond
the limit; paths of 4191 bytes; an archive whose last output piece fills the buffer; a name of the
extraction directory that is not followed by a second NUL in memory (C102). -/
theorem C113_copy_partial (CD : DeflateOK D plain) (C : InflateOK Z plain) (hfin : C.Final)
    (hfit : CD.Fits) (hq : win.quiet) (ho : WinName win (strB "__out.exe"))
    (hd : WinName win (strB ".out_dir")) {w : WWorld} (ht : w.fs.tree) (env : SelfWinEnv)
    (hj : env.junk.length = 120) (z : D.τ) (hz : D.init 9 = some z) (ndebug : Bool)
    -- the program
    {arg0 dir n : Bytes} (harg : ExePath arg0 dir n) (hlen : arg0.length < 4191) (hn : WinName win n)
    {l : Loc} {ro : Bool} {exe : Bytes} (hexe : winLocate win w.cwd arg0 = some (l ++ [win.same n]))
    (hfile : w.fs (l ++ [win.same n]) = some (.file ro exe))
    (hno : win.same n ≠ win.same (strB "__out.exe"))
    (hsize : exe.length ≤ if ndebug then 524288 else 2097152)
    -- the output file, and its icon
    (hcwd : w.fs w.cwd = some .dir)
    (hout : w.fs (w.cwd ++ [win.same (strB "__out.exe")]) = none ∨
      ∃ c, w.fs (w.cwd ++ [win.same (strB "__out.exe")]) = some (.file false c))
    {exe' : Bytes} (hicon : ∀ v : WWorld, v.cwd = w.cwd →
      v.fs = w.fs.put (w.cwd ++ [win.same (strB "__out.exe")]) (.file false exe) →
      ∃ v', env.icon v = .ok v' ∧ v'.cwd = w.cwd ∧
        v'.fs = w.fs.put (w.cwd ++ [win.same (strB "__out.exe")]) (.file false exe'))
    (hsize' : exe'.length ≤ if ndebug then 524288 else 2097152)
    -- the directory, with the copy of the program
    (hne : ∃ q, q ≠ [] ∧ w.fs.omit [l ++ [win.same n], w.cwd ++ [win.same (strB "__out.exe")]] (l ++ q) ≠ none)
    (hA : ∀ v : WWorld, v.cwd = w.cwd →
      v.fs = w.fs.put (w.cwd ++ [win.same (strB "__out.exe")]) (.file false exe') →
      WArchivable win v (env.see v) dir l ∧ (env.see v).ok ∧
      WShowsBut win v (env.see v) [l ++ [win.same n], w.cwd ++ [win.same (strB "__out.exe")]] ∧
      WSole win (env.see v) dir l n l ∧ WSole win (env.see v) dir l (strB "__out.exe") w.cwd) :
    ∃ (n1 : Nat) (log : List Bytes) (b packed : Bytes) (w2 : WWorld), (∀ fuel, n1 ≤ fuel →
        selfWinMain D Z win fuel env ndebug arg0 w = .ok (0, w2)) ∧
      log.getLast? = some b ∧ w2.cwd = w.cwd ∧
      w2.fs = w.fs.put (w.cwd ++ [win.same (strB "__out.exe")]) (.file false packed) ∧
      packed = exe' ++ List.replicate ((if ndebug then 524288 else 2097152) - exe'.length) 0 ++ log.flatten ∧
      (b.length < 524288 → C.Prompt log.flatten →
        ∀ (w' : WWorld) (_ : w'.fs.tree) (_ : w'.fs w'.cwd = some .dir) (env' : SelfWinEnv)
          (_ : env'.hdr.length = 128) (_ : env'.item.length = 40) (_ : ∀ k n, env'.ok k n = true)
          (_ : ∀ prog v, (env'.start prog v).2.cwd = v.cwd) (_ : env'.after.head? = some 0)
          (a : Bytes) (la : Loc) (ro' : Bool) (_ : a.length < 4191)
          (_ : a.getLast?.map winSep ≠ some true) (_ : winLocate win w'.cwd a = some la)
          (_ : w'.fs la = some (.file ro' packed)) (_ : ¬ w'.cwd ++ [win.same (strB ".out_dir")] <+: la),
        ∃ (n0 : Nat) (w3 w4 w5 : WWorld), w3.cwd = w'.cwd ∧
          WCopyOf (w.fs.omit [l ++ [win.same n], w.cwd ++ [win.same (strB "__out.exe")]]) l
            (w'.fs.without (w'.cwd ++ [win.same (strB ".out_dir")])) w3.fs
            (w'.cwd ++ [win.same (strB ".out_dir")]) (w'.cwd ++ [win.same (strB ".out_dir")]) ∧
          w4 = (env'.start (strB ".out_dir\\maind.exe") w3).2 ∧
          (if (env'.start (strB ".out_dir\\maind.exe") w3).1 = some 0
            then w5.cwd = w'.cwd ∧
              (w4.fs.tree → w5.fs = w4.fs.without (w'.cwd ++ [win.same (strB ".out_dir")]))
            else w5 = (env'.start (strB ".out_dir\\main.exe") w4).2) ∧
          ∀ fuel, n0 ≤ fuel → selfWinMain D Z win fuel env' ndebug a w' = .ok (0, w5)) := by
  have ho : WinName win OUT_FILE := ho
  have hd : WinName win OUT_FOLDER := hd
  have hmax : (if ndebug then 524288 else 2097152) = maxExe ndebug := rfl
  rw [hmax] at hsize hsize'
  simp only [hmax]
  have hof : strB "__out.exe" = OUT_FILE := rfl
  have hod : strB ".out_dir" = OUT_FOLDER := rfl
  rw [hof] at hno hout hicon hne hA
  simp only [hof, hod]
  have hs : arg0.getLast?.map winSep ≠ some true := by
    rcases harg.2.2 with h | ⟨h, _⟩
    · have := hn.last dir
      rw [h]
      rw [List.getLast?_append, List.getLast?_cons] at this ⊢
      cases hg : n.getLast? with
      | none => exact absurd (List.getLast?_eq_none_iff.mp hg) hn.1.1
      | some x => rw [hg] at this; exact this
    · rw [h]; exact hn.last dir
  obtain ⟨wb, hwbc, hwbfs, hrun⟩ := selfWin_pack D Z hq env ndebug hlen hs hexe hfile hsize ho hcwd hout
    hicon
  obtain ⟨A, hE, H, S1, S2⟩ := hA wb hwbc hwbfs
  have hne1 : l ++ [win.same n] ≠ w.cwd ++ [win.same OUT_FILE] := by
    intro h
    exact hno (by simpa using (List.append_inj' h rfl).2)
  have htb : wb.fs.tree := by
    intro x k nd hx
    rw [hwbfs] at hx ⊢
    simp only [WFS.put] at hx ⊢
    have hup : w.fs x = some .dir := by
      by_cases e : x ++ [k] = w.cwd ++ [win.same OUT_FILE]
      · rw [(List.append_inj' e rfl).1]; exact hcwd
      · rw [if_neg e] at hx; exact ht x k nd hx
    rw [if_neg]
    · exact hup
    · intro e
      rw [e] at hup
      rcases hout with h | ⟨c, h⟩ <;> rw [h] at hup <;> cases hup
  have homit : wb.fs.omit [l ++ [win.same n], w.cwd ++ [win.same OUT_FILE]] =
      w.fs.omit [l ++ [win.same n], w.cwd ++ [win.same OUT_FILE]] := by
    funext x
    simp only [WFS.omit, hwbfs]
    split
    · rfl
    · rename_i hx
      simp only [List.mem_cons, List.not_mem_nil, or_false, not_or] at hx
      rw [WFS.put, if_neg hx.2]
  have hu : ∀ x ∈ [l ++ [win.same n], w.cwd ++ [win.same OUT_FILE]], ∃ ro c,
      wb.fs x = some (.file ro c) := by
    intro x hx
    simp only [List.mem_cons, List.not_mem_nil, or_false] at hx
    rw [hwbfs]
    rcases hx with rfl | rfl
    · exact ⟨ro, exe, by rw [WFS.put, if_neg hne1]; exact hfile⟩
    · exact ⟨false, exe', WFS.put_same _ _ _⟩
  obtain ⟨n1, log, b, k1, k2, k3, k4⟩ := selfWin_tree CD C hq htb hE H A
    (fun e => hno (by rw [e])) S1 S2 hu (by rw [homit]; exact hne) z hz env.junk hj
  obtain ⟨w2, p2, p1, p3⟩ := hrun 0 log
  rw [pwrite_far _ _ _ k3 hsize'] at p1
  refine ⟨n1, log, b, _, w2, fun fuel hf => p3 fuel (by rw [harg.parts]; exact k1 fuel hf), k2, p2, p1, rfl,
    ?_⟩
  intro hb hpr w' ht' hcw' env' hh hi hok hst haf a la ro' hal has hloc hpk _
  obtain ⟨rest, hrest⟩ : ∃ rest, env'.after = 0 :: rest := by
    cases h : env'.after with
    | nil => rw [h] at haf; cases haf
    | cons c cs => rw [h] at haf; cases haf; exact ⟨cs, rfl⟩
  obtain ⟨r1, r2⟩ := winOpenRead_file hq has hloc hpk
  obtain ⟨v, v1, v2, v3⟩ := winClear_out (w := w'.tick.tick) hq hd hrest
  have v2 : v.cwd = w'.cwd := v2
  have v3 : v.fs = w'.fs.without (w'.cwd ++ [win.same OUT_FOLDER]) := v3 ht'
  have hfresh : WFresh win v OUT_FOLDER (w'.cwd ++ [win.same OUT_FOLDER]) [] := by
    refine ⟨⟨OUT_FOLDER, by simp, by decide +kernel, by rw [v2]; exact winLocate_name hd _⟩, by simp,
      by decide, by simp, ?_, fun q => ?_⟩
    · rw [v3, List.dropLast_concat, WFS.without, if_neg, hcw']
      intro h
      have := h.length_le
      simp at this
      omega
    · rw [v3, WFS.without, if_pos (List.prefix_append _ _)]
  obtain ⟨n0, r, x1, x2, x3⟩ := k4 env'.ok hok env'.hdr env'.item hh hi v OUT_FOLDER _ [] hfresh hb
  obtain ⟨f1, f2, f3⟩ := x3 (x2 hfin hfit) (.inr hpr)
  rw [homit, v3, List.map_nil, List.append_nil] at f3
  rw [v2] at f2
  have g1 : strB ".out_dir\\maind.exe" = WIN_FIRST_PROG := by decide +kernel
  have g2 : strB ".out_dir\\main.exe" = winSecondProg := by decide +kernel
  rw [g1, g2]
  obtain ⟨u, u1, u2, u3⟩ := winClear_out (w := (env'.start WIN_FIRST_PROG r.w).2) hq hd hrest
  have hstc := hst WIN_FIRST_PROG r.w
  refine ⟨n0, r.w, (env'.start WIN_FIRST_PROG r.w).2,
    if (env'.start WIN_FIRST_PROG r.w).1 = some 0 then u
      else (env'.start winSecondProg (env'.start WIN_FIRST_PROG r.w).2).2, f2, f3, rfl, ?_, fun fuel hf => ?_⟩
  · split
    · refine ⟨by rw [u2, hstc, f2], fun h => ?_⟩
      rw [u3 h, hstc, f2]
    · rfl
  · rw [selfWinMain, if_neg (by simp only [VC_BUFFER_SIZE]; omega), r1]
    simp only [r2]
    have hlen1 : (exe' ++ List.replicate (maxExe ndebug - exe'.length) (0 : UInt8)).length = maxExe ndebug := by
      simp; omega
    have hpos : 0 < log.flatten.length := List.length_pos_iff.2 k3
    rw [if_pos (by rw [List.length_append, hlen1]; omega), List.drop_left' hlen1, selfWinRun]
    simp only [hq.2.2, Bool.false_eq_true, if_false, v1, x1 fuel hf, f1, ne_eq, not_true_eq_false]
    rw [selfWinEnd]
    by_cases h0 : (env'.start WIN_FIRST_PROG r.w).1 = some 0
    · simp only [h0, Option.getD_some, ne_eq, not_true_eq_false, if_false, if_true, u1]
    · rw [if_neg h0, if_pos]
      cases h : (env'.start WIN_FIRST_PROG r.w).1 with
      | none => simp
      | some k => rw [h] at h0; simpa using h0

end

/-! ### A drive -/

namespace WinSample

/-- Working directory `c`; in it the program `p`, and a directory `d` with a protected file `R`. -/
def progs : WWorld where
  fs l := if l = [] ∨ l = [[99]] ∨ l = [[99], [100]] then some .dir
    else if l = [[99], [112]] then some (.file false [7, 8])
    else if l = [[99], [100], [114]] then some (.file true [1, 2]) else none
  cwd := [[99]]
  calls := 0

/-- With the output file. -/
def progsAfter : WFS := progs.fs.put [[99], strB "__out.exe"] (.file false [7, 8, 9])

/-- The entries of the directories; there is also a link `L` in `c`. -/
def progEntries (l : Loc) : List Entry :=
  if l = [] then [⟨[99], .dir⟩]
  else if l = [[99]] then [⟨[46], .dir⟩, ⟨[46, 46], .dir⟩, ⟨[112], .file⟩, ⟨strB "__out.exe", .file⟩,
    ⟨[100], .dir⟩, ⟨[76], .symlink⟩]
  else [⟨[46], .dir⟩, ⟨[46, 46], .dir⟩, ⟨[82], .file⟩]

/-- What the compression function sees of it: the program and the output file cannot be opened. -/
def progEnv : Env where
  list p := match winLocate win [[99]] p with
    | none => none
    | some l => if progsAfter l = some .dir then some (progEntries l) else none
  statMode _ := 0o40777
  fopen p := match winLocate win [[99]] p with
    | none => none
    | some l => if l ∈ [[[99], [112]], [[99], strB "__out.exe"]] then none else match progsAfter l with
      | some (.file ro c) => some ⟨some (0o100000 ||| if ro then 0o444 else 0o666, c.length), c, false⟩
      | _ => none
  lstat _ := (0, 0)
  readlink _ := none
  itemMem _ := List.replicate 40 170
  linkMem _ := []

/-- A run: setting the icon adds a byte, the first program fails. -/
def selfEnv : SelfWinEnv where
  ok _ _ := true
  junk := List.replicate 120 0xEE
  hdr := HLSample.hdrMem
  item := HLSample.itemMem
  see _ := progEnv
  after := [0, 120, 0, 0]
  icon w := .ok (w.put (w.cwd ++ [strB "__out.exe"]) (.file false [7, 8, 9]))
  start _ w := (some 3, w)

theorem out_same : win.same (strB "__out.exe") = strB "__out.exe" := by decide +kernel

theorem progs_places {l : Loc} (h : progsAfter l ≠ none) :
    l = [] ∨ l = [[99]] ∨ l = [[99], [100]] ∨ l = [[99], [112]] ∨ l = [[99], [100], [114]] ∨
      l = [[99], strB "__out.exe"] := by
  simp only [progsAfter, WFS.put, progs] at h
  split at h
  · rename_i h'; simp [h']
  · split at h
    · rename_i h'; rcases h' with h' | h' | h' <;> simp [h']
    · split at h
      · rename_i h'; simp [h']
      · split at h
        · rename_i h'; simp [h']
        · exact absurd rfl h

theorem progs_dir {l : Loc} (h : progsAfter l = some .dir) :
    l = [] ∨ l = [[99]] ∨ l = [[99], [100]] := by
  rcases progs_places (l := l) (by rw [h]; simp) with rfl | rfl | rfl | rfl | rfl | rfl
  · simp
  · simp
  · simp
  · exact absurd h (by decide +kernel)
  · exact absurd h (by decide +kernel)
  · exact absurd h (by decide +kernel)

theorem progs_tree : progs.fs.tree := by
  intro l k n h
  have hx : ∀ x, progs.fs x ≠ none → x = [] ∨ x = [[99]] ∨ x = [[99], [100]] ∨ x = [[99], [112]] ∨
      x = [[99], [100], [114]] := by
    intro x h
    simp only [progs] at h
    split at h
    · rename_i h'; rcases h' with h' | h' | h' <;> simp [h']
    · split at h
      · rename_i h'; simp [h']
      · split at h
        · rename_i h'; simp [h']
        · exact absurd rfl h
  have hx := hx (l ++ [k]) (by rw [h]; simp)
  have e : (l ++ [k]).dropLast = l := by simp
  rw [← e]
  generalize l ++ [k] = x at hx h
  rcases hx with rfl | rfl | rfl | rfl | rfl <;> decide +kernel

theorem winName_of {n : Bytes} (h : PlainName n) (h1 : 92 ∉ n) (h2 : win.key n ≠ none) : WinName win n :=
  ⟨h, h1, h2⟩

theorem progs_apart (es : List Entry)
    (h : ∀ e ∈ es, ∀ e' ∈ es, win.same e.name = win.same e'.name → e.name = e'.name) :
    ∀ e ∈ es, ∀ e' ∈ es, WinName win e.name → WinName win e'.name →
      win.same e.name = win.same e'.name → e.name = e'.name :=
  fun e he e' he' _ _ => h e he e' he'

theorem progs_lists {l : Loc} (h : progsAfter l = some .dir) : WLists win progsAfter l (progEntries l) := by
  rcases progs_dir h with rfl | rfl | rfl
  · refine ⟨by decide, progs_apart _ (by decide +kernel), ?_, ?_⟩
    · intro e he
      simp only [progEntries, if_true, List.mem_singleton] at he
      subst he
      exact .inr (.inr ⟨winName_of (by decide) (by decide) (by decide), .inr ⟨.dir, by decide +kernel, rfl⟩⟩)
    · intro k n hk
      have := progs_places (by rw [hk]; simp)
      simp at this
      subst this
      exact ⟨_, List.mem_singleton.2 rfl, winName_of (by decide) (by decide) (by decide), by decide⟩
  · refine ⟨by decide +kernel, progs_apart _ (by decide +kernel), ?_, ?_⟩
    · intro e he
      simp only [progEntries, List.cons_ne_self, if_false, if_true, List.mem_cons, List.not_mem_nil, or_false,
        reduceCtorEq] at he
      rcases he with rfl | rfl | rfl | rfl | rfl | rfl
      · exact .inl rfl
      · exact .inr (.inl rfl)
      · exact .inr (.inr ⟨winName_of (by decide) (by decide) (by decide), .inr ⟨.file false [7, 8], by decide +kernel, rfl⟩⟩)
      · exact .inr (.inr ⟨winName_of (by decide +kernel) (by decide +kernel) (by decide +kernel),
          .inr ⟨.file false [7, 8, 9], by decide +kernel, rfl⟩⟩)
      · exact .inr (.inr ⟨winName_of (by decide) (by decide) (by decide), .inr ⟨.dir, by decide +kernel, rfl⟩⟩)
      · exact .inr (.inr ⟨winName_of (by decide) (by decide) (by decide), .inl ⟨rfl, by decide +kernel⟩⟩)
    · intro k n hk
      have := progs_places (by rw [hk]; simp)
      simp at this
      rcases this with rfl | rfl | rfl
      · exact ⟨⟨[100], .dir⟩, by decide +kernel, winName_of (by decide) (by decide) (by decide), by decide⟩
      · exact ⟨⟨[112], .file⟩, by decide +kernel, winName_of (by decide) (by decide) (by decide), by decide⟩
      · exact ⟨⟨strB "__out.exe", .file⟩, by decide +kernel,
          winName_of (by decide +kernel) (by decide +kernel) (by decide +kernel), by decide +kernel⟩
  · refine ⟨by decide, progs_apart _ (by decide +kernel), ?_, ?_⟩
    · intro e he
      simp [progEntries] at he
      rcases he with rfl | rfl | rfl
      · exact .inl rfl
      · exact .inr (.inl rfl)
      · exact .inr (.inr ⟨winName_of (by decide) (by decide) (by decide),
          .inr ⟨.file true [1, 2], by decide +kernel, rfl⟩⟩)
    · intro k n hk
      have := progs_places (by rw [hk]; simp)
      simp at this
      subst this
      exact ⟨⟨[82], .file⟩, by decide +kernel, winName_of (by decide) (by decide) (by decide), by decide⟩

theorem progs_shows {v : WWorld} (hc : v.cwd = [[99]]) (hf : v.fs = progsAfter) :
    WShowsBut win v progEnv [[[99], [112]], [[99], strB "__out.exe"]] where
  list p l _ hp hl := by
    rw [hc] at hp
    rw [hf] at hl ⊢
    exact ⟨progEntries l, by simp only [progEnv, hp, hl, if_true], progs_lists hl⟩
  stat _ _ _ _ _ := by simp only [progEnv]; decide
  open' p l ro c _ hp hl _ hu := by
    rw [hc] at hp
    rw [hf] at hl
    simp only [progEnv, hp, hl, if_neg hu]
  shut p l _ hp hu := by
    rw [hc] at hp
    simp only [progEnv, hp, if_pos hu]

/-- The directories listed below `.`. -/
theorem progs_listed {ns : List Bytes} {es : List Entry} (hn : ∀ y ∈ ns, WinName win y)
    (hl : progEnv.list ([46] ++ (ns.map (47 :: ·)).flatten) = some es) :
    (ns = [] ∧ es = progEntries [[99]]) ∨
      ∃ x, ns = [x] ∧ x.length = 1 ∧ win.same x = [100] ∧ es = progEntries [[99], [100]] := by
  have hloc := winLocate_extend win [[99]] ns [46] [[99]] hn (by decide +kernel)
  rw [extendPath_eq] at hloc
  simp only [progEnv, hloc] at hl
  split at hl
  · rename_i hd
    cases hl
    rcases progs_dir hd with h | h | h
    · simp at h
    · simp at h
      subst h
      exact .inl ⟨rfl, rfl⟩
    · simp only [List.cons_append, List.nil_append, List.cons.injEq, true_and] at h
      match ns, h with
      | [], h => simp at h
      | _ :: _ :: _, h => simp at h
      | [x], h =>
        simp only [List.map_cons, List.map_nil, List.cons.injEq, and_true] at h
        have hx := (hn x (by simp)).2.2
        refine .inr ⟨x, rfl, ?_, h, by simp [h]⟩
        have : (win.same x).length = x.length := by
          simp only [win] at hx
          simp only [Win.same, win]
          split at hx
          · exact absurd rfl hx
          · rename_i hc; rw [if_neg hc]; simp
        rw [← this, h]
        rfl
  · cases hl

theorem progs_archivable {v : WWorld} (hc : v.cwd = [[99]]) (hf : v.fs = progsAfter) :
    WArchivable win v progEnv [46] [[99]] where
  leads := by rw [hc]; decide +kernel
  isDir := by rw [hf]; decide +kernel
  files q ro c h := by
    rw [hf] at h
    rcases progs_places (by rw [h]; simp) with e | e | e | e | e | e <;> rw [e] at h
    · exact absurd h (by simp [progsAfter, WFS.put, progs])
    · exact absurd h (by simp [progsAfter, WFS.put, progs])
    · exact absurd h (by simp +decide [progsAfter, WFS.put, progs])
    · have : progsAfter [[99], [112]] = some (.file false [7, 8]) := by decide +kernel
      rw [this] at h; cases h; decide
    · have : progsAfter [[99], [100], [114]] = some (.file true [1, 2]) := by decide +kernel
      rw [this] at h; cases h; decide
    · have : progsAfter [[99], strB "__out.exe"] = some (.file false [7, 8, 9]) := by decide +kernel
      rw [this] at h; cases h; decide
  top := by decide
  short ns es e hn hl he _ := by
    have hent : ∀ l, ∀ e ∈ progEntries l, e.name.length ≤ 9 := by
      have h9 : (strB "__out.exe").length = 9 := by decide +kernel
      intro l
      simp only [progEntries]
      split
      · simp
      · split
        · simp [h9]
        · simp
    rcases progs_listed hn hl with ⟨rfl, rfl⟩ | ⟨x, rfl, hx, _, rfl⟩
    · have := hent _ e he
      simp; omega
    · have := hent _ e he
      simp [hx]; omega

theorem progs_sole_exe : WSole win progEnv [46] [[99]] [112] [[99]] := by
  intro ns es e hn hl he _ hty
  rcases progs_listed hn hl with ⟨rfl, rfl⟩ | ⟨x, rfl, hx, hs, rfl⟩
  · exact ⟨fun _ => by simp, fun _ => (by decide +kernel : ∀ e ∈ progEntries [[99]],
      win.same e.name = win.same ([112]) → e.name = [112]) e he⟩
  · exact ⟨fun h => absurd h ((by decide +kernel : ∀ e ∈ progEntries [[99], [100]], e.name ≠ [112]) e he),
      fun h => by simp at h⟩

theorem progs_sole_out : WSole win progEnv [46] [[99]] (strB "__out.exe") [[99]] := by
  intro ns es e hn hl he _ hty
  rcases progs_listed hn hl with ⟨rfl, rfl⟩ | ⟨x, rfl, hx, hs, rfl⟩
  · exact ⟨fun _ => by simp, fun _ => (by decide +kernel : ∀ e ∈ progEntries [[99]],
      win.same e.name = win.same (strB "__out.exe") → e.name = strB "__out.exe") e he⟩
  · exact ⟨fun h => absurd h ((by decide +kernel : ∀ e ∈ progEntries [[99], [100]], e.name ≠ strB "__out.exe") e he),
      fun h => by simp at h⟩

end WinSample

open WinSample HLSample in
/-- The theorem for this program, started as `.\p`. -/
example := C113_copy_partial (arg0 := [46, 92, 112]) (dir := [46]) (n := [112]) (l := [[99]]) (ro := false)
  (exe := [7, 8]) (exe' := [7, 8, 9]) queueDOK copyIOK copyIOK_final queueDOK_fits win_quiet
  (winName_of (by decide +kernel) (by decide +kernel) (by decide +kernel))
  (winName_of (by decide +kernel) (by decide +kernel) (by decide +kernel)) progs_tree selfEnv
  List.length_replicate [] rfl true ⟨by decide, by decide, .inl rfl⟩ (by decide)
  (winName_of (by decide) (by decide) (by decide)) (by decide +kernel) (by decide +kernel)
  (by decide +kernel) (by decide) (by decide +kernel) (.inl (by decide +kernel))
  (fun v h1 h2 => by
    refine ⟨_, rfl, h1, ?_⟩
    show v.fs.put (v.cwd ++ _) _ = _
    rw [h1, h2, out_same]
    exact WFS.put_put _ _ _ _)
  (by decide) ⟨[[100]], by simp, by decide +kernel⟩
  (fun v h1 h2 => by
    rw [out_same] at h2 ⊢
    exact ⟨progs_archivable h1 h2, fun _ => by simp [selfEnv, progEnv], progs_shows h1 h2, progs_sole_exe,
      progs_sole_out⟩)

/-! ### Other paths -/

open WinSample in
/-- Started as `.\P`, the same program does not pack: it does not recognise itself among the entries of the
directory, and cannot read itself, because it has opened itself with `_SH_DENYRW`. -/
theorem C113_spelling_false :
    winLocate win progs.cwd [46, 92, 80] = some [[99], [112]] ∧
    ExePath [46, 92, 80] [46] [80] ∧ WinName win [80] ∧
    ((selfWinMain queueD copyI win 100 selfEnv true [46, 92, 80] progs).toOption.map Prod.fst = some 2) ∧
    ((selfWinMain queueD copyI win 100 selfEnv true [46, 92, 112] progs).toOption.map Prod.fst = some 0) :=
  ⟨by decide +kernel, ⟨by decide, by decide, .inl rfl⟩, winName_of (by decide) (by decide) (by decide),
    by decide +kernel, by decide +kernel⟩

namespace WinSample

/-- The drive as seen by the program `R`. -/
def rEnv : Env := { progEnv with
  fopen := fun p => match winLocate win [[99]] p with
    | none => none
    | some l => if l ∈ [[[99], [100], [114]], [[99], strB "__out.exe"]] then none else match progsAfter l with
      | some (.file ro c) => some ⟨some (0o100000 ||| if ro then 0o444 else 0o666, c.length), c, false⟩
      | _ => none }

end WinSample

open WinSample in
/-- Started as `.\d/R`, a program in `d` does not pack either: the path is cut at the backslash, so the
directory of `d` is compressed, where nothing is called `d/R`. -/
theorem C113_mixed_false :
    winLocate win progs.cwd [46, 92, 100, 47, 82] = some [[99], [100], [114]] ∧
    ((selfWinMain queueD copyI win 100 { selfEnv with see := fun _ => rEnv } true [46, 92, 100, 47, 82]
      progs).toOption.map Prod.fst = some 2) ∧
    ((selfWinMain queueD copyI win 100 { selfEnv with see := fun _ => rEnv } true [46, 92, 100, 92, 82]
      progs).toOption.map Prod.fst = some 0) :=
  ⟨by decide +kernel, by decide +kernel, by decide +kernel⟩

end Zwt
