import Verif.Proofs.HLTest
import Verif.Props.Copy
import Verif.Props.Accept

/-! C82: the program that archives and extracts. -/

namespace Zwt

variable {Z : Inflater} {D : Deflater} {plain : Bytes → Bytes}

theorem keptAt_congr {keep : Bytes → Entry → Bool} {fs fs' : FS} (q : List Bytes) : ∀ (p : Bytes) (l : Loc),
    (∀ q, fs' (l ++ q) = fs (l ++ q)) → (KeptAt keep fs' p l q ↔ KeptAt keep fs p l q) := by
  induction q with
  | nil => intro p l _; exact Iff.rfl
  | cons x q ih =>
    intro p l h
    simp only [KeptAt]
    rw [h [x], ih (p ++ 47 :: x) (l ++ [x]) (fun q => by
      have := h (x :: q)
      simpa using this)]

theorem CopyOf.source {os : Os} {src src' : FS} {p : Bytes} {l : Loc} {keep : Bytes → Entry → Bool}
    {fs fs' : FS} {d : Loc} {n : Bytes} {ns : List Bytes} (hs : ∀ q, src' (l ++ q) = src (l ++ q))
    (h : CopyOf os src' p l keep fs fs' d n ns) : CopyOf os src p l keep fs fs' d n ns := by
  obtain ⟨h1, h2, h3, h4⟩ := h
  refine ⟨h1, fun x q hk => ?_, fun x q hk => ?_, h4⟩
  · rw [← hs]; exact h2 x q ((keptAt_congr _ p l hs).2 hk)
  · exact h3 x q (fun hk' => hk ((keptAt_congr _ p l hs).1 hk'))

theorem hlTestFilter_eq : hlTestFilter = keepFilter (fun _ _ => true) := by
  funext _ d e; rfl

theorem hlTestMain_a (D : Deflater) (Z : Inflater) (os : Os) (fuel : Nat) (env : HlTestEnv)
    (p a : Bytes) (more : List Bytes) (w : World) :
    hlTestMain D Z os fuel env ([97] :: p :: a :: more) w = hlTestFile D os fuel env.junk p a w := rfl

theorem hlTestMain_b (D : Deflater) (Z : Inflater) (os : Os) (fuel : Nat) (env : HlTestEnv)
    (p a : Bytes) (more : List Bytes) (w : World) :
    hlTestMain D Z os fuel env ([98] :: p :: a :: more) w =
      hlTestExtract Z os env.ok fuel env.hdr env.item p a w := rfl

theorem hlTestMain_c (D : Deflater) (Z : Inflater) (os : Os) (fuel : Nat) (env : HlTestEnv)
    (p a : Bytes) (more : List Bytes) (w : World) :
    hlTestMain D Z os fuel env ([99] :: p :: a :: more) w =
      hlTestDir D os fuel env.junk env.see .plain p a w := rfl

theorem inDir_mono {os : Os} {w w' : World} (hk : Keeps w.fs w'.fs) (hc : w'.cwd = w.cwd) {pre : Bytes}
    {d : Loc} (h : InDir os w pre d) {m : Nat} (hd : w.fs d = some (.dir m)) : InDir os w' pre d := by
  cases h with
  | rel => rw [← hc]; exact .rel
  | abs => exact .abs
  | @path p d hl =>
    refine .path ?_
    have hp : p ≠ [] := by
      intro h; subst h; simp [locate] at hl
    rw [locate, if_neg hp] at hl ⊢
    obtain ⟨k, hk'⟩ := resolve_walks os w.fs d m hd _ _ _ hl
    rw [hc]
    exact (hk'.mono hk).resolve_end

/-- C82 for directories: `c DIR ARCHIVE`, then `b ARCHIVE OUT`, copies the directory: both runs exit
with 0, the first changes only the archive, and the second makes in the new directory a copy of the
source and changes nothing else.
Missing: what C79 misses; archives that lie in their own source; a last output piece of 512 KiB. -/
theorem C82_copy_directory_partial (CD : DeflateOK D plain) (C : InflateOK Z plain) (hfin : C.Final)
    (hfit : CD.Fits) {os : Os} (hq : os.quiet) {w : World} (ht : w.fs.tree) (env : HlTestEnv)
    (hj : env.junk.length = 120) (hh : env.hdr.length = 128) (hi : env.item.length = 40)
    (hok : ∀ k n, env.ok k n = true) (z : D.τ) (hz : D.init 9 = some z)
    -- the source, and the archive outside
    {p : Bytes} {l : Loc} (A : Archivable os w p l) (hne : ∃ x, w.fs (l ++ [x]) ≠ none) {a : Bytes}
    {la : Loc} (ha : OutFile os w a la) (hout : ¬ l <+: la)
    (hsee : Shows os (sysOpen os w a 0o666 true).2 (env.see (sysOpen os w a 0o666 true).2))
    (henv : (env.see (sysOpen os w a 0o666 true).2).ok)
    -- the target
    {pre : Bytes} (h0 : 0 ∉ pre) {d : Loc} (hd : InDir os w pre d) (ho : OpenDir os w.fs d) {n : Bytes}
    {ns : List Bytes} (hn : ∀ x ∈ n :: ns, PlainName x) (hnew : w.fs (d ++ [n]) = none)
    (hla : la ≠ d ++ [n]) (hen : Enterable os (dirMode os 0o775)) (hlen : ns.length ≤ 61)
    (hfe : ∀ q m, q ≠ [] → w.fs (l ++ q) = some (.dir m) → Enterable os (dirMode os m))
    (hnl : (∀ q t, w.fs (l ++ q) ≠ some (.link t)) ∨ CwdOk os w.fs w.cwd ∧ SmallDir w.fs l)
    (more more' : List Bytes) :
    ∃ (n1 : Nat) (log : List Bytes) (b : Bytes) (w2 : World), (∀ fuel, n1 ≤ fuel →
        hlTestMain D Z os fuel env ([99] :: p :: a :: more) w = .ok (0, w2)) ∧
      log.getLast? = some b ∧ w2.cwd = w.cwd ∧ Stored w.fs w2.fs la log.flatten ∧
      (b.length < 524288 → C.Prompt log.flatten →
        (∀ q t, w.fs (l ++ q) ≠ some (.link t)) ∨ log.flatten.length < 524288 →
        ∃ n0 w3, (∀ fuel, n0 ≤ fuel → hlTestMain D Z os fuel env
            ([98] :: a :: (pre ++ joinNames (n :: ns)) :: more') w2 = .ok (0, w3)) ∧
          w3.cwd = w.cwd ∧ CopyOf os w.fs p l (fun _ _ => true) w2.fs w3.fs d n ns) := by
  obtain ⟨m, o1, o2, o3⟩ := ha.open' hq
  have o1' : sysOpen os w a 0o666 true = (some la, (w.put la (.file m [])).tick) := o1
  simp only [o1'] at hsee henv
  generalize hw1 : (w.put la (.file m [])).tick = w1 at *
  have hw1fs : w1.fs = w.fs.put la (.file m []) := by rw [← hw1]; rfl
  have hw1c : w1.cwd = w.cwd := by rw [← hw1]; rfl
  have hk1 : Keeps w.fs w1.fs := by rw [hw1fs]; exact keeps_store o3
  have hsame : ∀ c q, (w.fs.put la (.file m c)) (l ++ q) = w.fs (l ++ q) := by
    intro c q
    simp only [FS.put]
    rw [if_neg]
    intro e
    exact hout ⟨q, e⟩
  have hs1 : ∀ q, w1.fs (l ++ q) = w.fs (l ++ q) := by intro q; rw [hw1fs]; exact hsame _ q
  have A1 : Archivable os w1 p l := A.beside hk1 hw1c hs1
  obtain ⟨da, na, hla2, mda, hda⟩ : ∃ da na, la = da ++ [na] ∧ ∃ mda, w.fs da = some (.dir mda) := by
    obtain ⟨_, da, na, _, e, _, _, ⟨mda, hda, _⟩, _⟩ := ha
    exact ⟨da, na, e, mda, hda⟩
  have ht1 : w1.fs.tree := by
    rw [hw1fs, hla2]
    exact tree_store ht hda (fun x hx => o3 x (by rw [hla2]; exact hx))
  -- the world after the first run
  have hput : ∀ log : List Bytes, (writePieces os log ⟨la, 0⟩ w1).fs = w.fs.put la (.file m log.flatten) ∧
      (writePieces os log ⟨la, 0⟩ w1).cwd = w.cwd := by
    intro log
    obtain ⟨e1, e2⟩ := writePieces_end hq (m := m) log [] w1 (by rw [hw1fs, FS.put_same])
    rw [List.length_nil] at e1 e2
    refine ⟨?_, by rw [e2, hw1c]⟩
    rw [e1, hw1fs, FS.put_put, List.nil_append]
  have hkept : ∃ x, KeptAt (fun _ _ => true) w1.fs p l [x] := by
    obtain ⟨x, hx⟩ := hne
    cases hx' : w.fs (l ++ [x]) with
    | none => exact absurd hx' hx
    | some node => exact ⟨x, ⟨node, by rw [hs1]; exact hx', rfl⟩, trivial⟩
  have hmain : ∀ fuel, hlTestMain D Z os fuel env ([99] :: p :: a :: more) w =
      match compressDir D (env.see w1) hlTestFilter fuel .plain p () 9 env.junk with
      | .error e => .error e
      | .ok (ret, log) => .ok (ret, writePieces os log ⟨la, 0⟩ w1) := by
    intro fuel
    rw [hlTestMain_c, hlTestDir, o1]
    rfl
  -- what C79 says for each target
  have key : ∀ w' : World, w'.fs.tree → InDir os w' pre d → OpenDir os w'.fs d →
      w'.fs (d ++ [n]) = none → CwdOk os w'.fs w'.cwd ∨ (∀ q t, w.fs (l ++ q) ≠ some (.link t)) → _ :=
    fun w' t1 t2 t3 t4 t5 => C79_copy_partial CD C ht1 henv hsee A1 (fun _ _ => true) hkept 9 z hz
      env.junk hj env.ok hok env.hdr env.item hh hi os hq w' t1 pre h0 d t2 t3 n ns hn t4 hen hlen
      (fun q mq _ hq0 hq1 => hfe q mq hq0 (by rw [← hs1]; exact hq1))
      (by
        by_cases hno : ∀ q t, w.fs (l ++ q) ≠ some (.link t)
        · left; intro q t _; rw [hs1]; exact hno q t
        · right
          refine ⟨t5.resolve_right hno, ?_⟩
          obtain ⟨_, qs, q1, q2⟩ := hnl.resolve_left hno
          refine ⟨qs, fun q hq0 hq1 => q1 q hq0 (by rw [← hs1]; exact hq1), ?_⟩
          have : (qs.map fun q => placeCost w1.fs (l ++ q)) = qs.map fun q => placeCost w.fs (l ++ q) := by
            apply List.map_congr_left
            intro q _
            simp only [placeCost, hs1]
          rw [this]; exact q2)
  have hcwd : CwdOk os w.fs w.cwd ∨ (∀ q t, w.fs (l ++ q) ≠ some (.link t)) :=
    hnl.elim .inr (fun h => .inl h.1)
  obtain ⟨n1, log, b, k1, k2, _⟩ := key w ht hd ho hnew hcwd
  obtain ⟨p1, p2⟩ := hput log
  refine ⟨n1, log, b, writePieces os log ⟨la, 0⟩ w1, fun fuel hf => ?_, k2, p2, ⟨⟨m, ?_, o3⟩, ?_⟩, ?_⟩
  · rw [hmain, hlTestFilter_eq, k1 fuel hf]
  · rw [p1, FS.put_same]
  · intro l' hl'
    rw [p1, FS.put, if_neg hl']
  intro hb hpr hsm
  generalize hw2 : writePieces os log ⟨la, 0⟩ w1 = w2 at *
  have hk2 : Keeps w.fs w2.fs := by rw [p1]; exact keeps_store o3
  have ht2 : w2.fs.tree := by
    rw [p1, hla2]
    exact tree_store ht hda (fun x hx => o3 x (by rw [hla2]; exact hx))
  have hread : InFile os w2 a la log.flatten :=
    ha.reads hk2 p2 (m := m) (by rw [p1, FS.put_same]) o2
  have hrd := hread.read hq
  obtain ⟨md, hmd, hmd'⟩ := ho
  have ho : OpenDir os w.fs d := ⟨md, hmd, hmd'⟩
  have hk3 : Keeps w.fs w2.tick.fs := hk2
  obtain ⟨n1', log', b', k1', k2', k3'⟩ := key w2.tick ht2 (inDir_mono hk3 p2 hd hmd) (ho.mono hk3)
    (by
      show w2.fs _ = none
      rw [p1, FS.put, if_neg (Ne.symm hla)]; exact hnew)
    (hcwd.imp (fun h => by
      show CwdOk os w2.fs w2.cwd
      rw [p2]; exact h.mono hk2) id)
  have e1 := k1 (max n1 n1') (by omega)
  rw [k1' (max n1 n1') (by omega)] at e1
  cases e1
  rw [k2] at k2'
  cases k2'
  obtain ⟨n0, r, r1, r2, r3⟩ := k3' 0 log.flatten rfl hb
    (hsm.imp (fun h q t _ => by rw [hs1]; exact h q t) id)
  obtain ⟨f1, f2, f3⟩ := r3 (r2 hfin hfit) (.inr hpr)
  refine ⟨n0, r.w, fun fuel hf => ?_, by rw [f2]; exact p2, ?_⟩
  · rw [hlTestMain_b, hlTestExtract, hrd]
    simp only [Option.map_some]
    have hc : contentAt w2.tick la = ⟨log.flatten, false⟩ := by
      have : w2.fs la = some (.file m log.flatten) := by rw [p1, FS.put_same]
      simp only [contentAt, World.tick, this]
    rw [hc, extractFile, r1 fuel hf]
    simp [f1, CT_DIRECTORY, CT_NONE]
  · exact f3.source hs1

/-- An output file after another file has been stored. -/
theorem OutFile.later {os : Os} {w w' : World} {a : Bytes} {l : Loc} (h : OutFile os w a l)
    (hk : Keeps w.fs w'.fs) (hc : w'.cwd = w.cwd) (hl : w'.fs l = w.fs l) : OutFile os w' a l := by
  obtain ⟨pre, d, n, h1, h2, h3, h4, ⟨m, h5, h5'⟩, h6, h7⟩ := h
  exact ⟨pre, d, n, h1, h2, h3, inDir_mono hk hc h4 h5, OpenDir.mono ⟨m, h5, h5'⟩ hk, h6, by rw [hl]; exact h7⟩

/-- C82 for files: `a FILE ARCHIVE`, then `b ARCHIVE OUT`, copies the content of the file: both runs
exit with 0, the first changes only the archive, the second only the output file.
Missing: empty files (see `C40_empty_file_false`); a last output piece of 512 KiB. -/
theorem C82_copy_file_partial (CD : DeflateOK D plain) (C : InflateOK Z plain) (hfin : C.Final)
    (hfit : CD.Fits) {os : Os} (hq : os.quiet) {w : World} (env : HlTestEnv)
    (hj : env.junk.length = 120) (hh : env.hdr.length = 128) (hi : env.item.length = 40)
    (z : D.τ) (hz : D.init 9 = some z) {p : Bytes} {li : Loc} {content : Bytes}
    (hp : InFile os w p li content) (hc : content ≠ []) {a : Bytes} {la : Loc} (ha : OutFile os w a la)
    (hne : la ≠ li) {o : Bytes} {lo : Loc} (ho : OutFile os w o lo) (hno : lo ≠ la)
    (more more' : List Bytes) :
    ∃ (n1 : Nat) (log : List Bytes) (b : Bytes) (w2 : World), (∀ fuel, n1 ≤ fuel →
        hlTestMain D Z os fuel env ([97] :: p :: a :: more) w = .ok (0, w2)) ∧
      log.getLast? = some b ∧ w2.cwd = w.cwd ∧ Stored w.fs w2.fs la log.flatten ∧
      (b.length < 524288 → C.Prompt log.flatten →
        ∃ n0 w3, (∀ fuel, n0 ≤ fuel → hlTestMain D Z os fuel env ([98] :: a :: o :: more') w2 =
            .ok (0, w3)) ∧
          w3.cwd = w.cwd ∧ Stored w2.fs w3.fs lo content) := by
  have hin := hp.read hq
  obtain ⟨hp1, hp2, mi, hp3, hp4⟩ := hp
  have ha' : OutFile os w.tick a la := ha.later (Keeps.refl _) rfl rfl
  obtain ⟨m, o1, o2, o3⟩ := ha'.open' hq
  have o3 : ∀ x, w.fs la = some x → ∃ c', x = .file m c' := o3
  generalize hw1 : (w.tick.put la (.file m [])).tick = w1 at *
  have hw1fs : w1.fs = w.fs.put la (.file m []) := by rw [← hw1]; rfl
  have hw1c : w1.cwd = w.cwd := by rw [← hw1]; rfl
  have hcont : contentAt w1 li = ⟨content, false⟩ := by
    have : w1.fs li = some (.file mi content) := by
      rw [hw1fs, FS.put, if_neg (Ne.symm hne)]; exact hp3
    simp only [contentAt, this]
  have hput : ∀ log : List Bytes, (writePieces os log ⟨la, 0⟩ w1).fs = w.fs.put la (.file m log.flatten) ∧
      (writePieces os log ⟨la, 0⟩ w1).cwd = w.cwd := by
    intro log
    obtain ⟨e1, e2⟩ := writePieces_end hq (m := m) log [] w1 (by rw [hw1fs, FS.put_same])
    rw [List.length_nil] at e1 e2
    refine ⟨?_, by rw [e2, hw1c]⟩
    rw [e1, hw1fs, FS.put_put, List.nil_append]
  have hmain : ∀ fuel, hlTestMain D Z os fuel env ([97] :: p :: a :: more) w =
      match compressFile D fuel content false 9 env.junk with
      | .error e => .error e
      | .ok (ret, log) => .ok (ret, writePieces os log ⟨la, 0⟩ w1) := by
    intro fuel
    rw [hlTestMain_a, hlTestFile, hin]
    simp only [o1, hcont]
    rfl
  have key : ∀ (w' : World) (h : (sysOpen os w' o 0o666 true).1 = some lo), _ := fun w' h =>
    C40_round_trip_partial CD C content hc 9 z hz env.junk hj env.ok env.hdr env.item hh hi os hq o w' lo h
  obtain ⟨_, oo, _, _⟩ := ho.open' hq
  obtain ⟨n1, log, b, k1, k2, _⟩ := key w (by
    have : sysOpen os w o 0o666 true = _ := oo
    rw [this])
  obtain ⟨p1, p2⟩ := hput log
  refine ⟨n1, log, b, writePieces os log ⟨la, 0⟩ w1, fun fuel hf => ?_, k2, p2, ⟨⟨m, ?_, o3⟩, ?_⟩, ?_⟩
  · rw [hmain, k1 fuel hf]
  · rw [p1, FS.put_same]
  · intro l' hl'
    rw [p1, FS.put, if_neg hl']
  intro hb hpr
  generalize hw2 : writePieces os log ⟨la, 0⟩ w1 = w2 at *
  have hk2 : Keeps w.fs w2.fs := by rw [p1]; exact keeps_store o3
  have hread : InFile os w2 a la log.flatten :=
    ha.reads hk2 p2 (m := m) (by rw [p1, FS.put_same]) o2
  have hrd := hread.read hq
  have hlo : w2.fs lo = w.fs lo := by rw [p1, FS.put, if_neg hno]
  have ho2 : OutFile os w2.tick o lo := ho.later hk2 p2 hlo
  obtain ⟨mo, oo, _, _⟩ := ho2.open' hq
  obtain ⟨n1', log', b', k1', k2', k3'⟩ := key w2.tick (by
    have : sysOpen os w2.tick o 0o666 true = _ := oo
    rw [this])
  have e1 := k1 (max n1 n1') (by omega)
  rw [k1' (max n1 n1') (by omega)] at e1
  cases e1
  rw [k2] at k2'
  cases k2'
  obtain ⟨n0, r, r1, r2, r3⟩ := k3' 0 log.flatten rfl hb
  obtain ⟨f1, f2, _, m', f4, f5⟩ := r3 (r2 hfin hfit) (.inr hpr)
  refine ⟨n0, r.w, fun fuel hf => ?_, by rw [f2]; exact p2, ⟨m', ?_, f5⟩, ?_⟩
  · rw [hlTestMain_b, hlTestExtract, hrd]
    simp only [Option.map_some]
    have hc : contentAt w2.tick la = ⟨log.flatten, false⟩ := by
      have : w2.fs la = some (.file m log.flatten) := by rw [p1, FS.put_same]
      simp only [contentAt, World.tick, this]
    rw [hc, extractFile, r1 fuel hf]
    simp [f1, CT_FILE, CT_NONE]
  · rw [f4, FS.put_same]
  · intro l' hl'
    rw [f4, FS.put, if_neg hl']
    rfl

theorem sysOpen_none {os : Os} {w : World} {p : Bytes} {m : Nat} {t : Bool}
    (h : (sysOpen os w p m t).1 = none) : (sysOpen os w p m t).2 = w.tick := by
  simp only [sysOpen] at h ⊢
  repeat' split
  all_goals first | rfl | simp_all

theorem sysOpenRead_same (os : Os) (w : World) (p : Bytes) : (sysOpenRead os w p).2 = w.tick := by
  simp only [sysOpenRead]
  repeat' split
  all_goals rfl

/-- C82, exit status: too few arguments, an unknown letter, an input file or archive that cannot be
opened for reading, and an output file that cannot be opened for writing give 1, and the disk and the
working directory are as before. -/
theorem C82_unusable (D : Deflater) (Z : Inflater) (os : Os) (fuel : Nat) (env : HlTestEnv)
    (args : List Bytes) (w : World)
    (h : args.length < 2 ∨ ∃ fn inp more, args = fn :: inp :: more ∧
      ((∀ c ∈ fn.head?, c < 97 ∨ 101 < c) ∨
        (fn.head? = some 97 ∨ fn.head? = some 98) ∧ (sysOpenRead os w inp).1 = none ∨
        fn.head? ≠ some 98 ∧ ∀ k, (sysOpen os { w with calls := w.calls + k }
          (more.head?.getD (strB "out.zlib")) 0o666 true).1 = none)) :
    ∃ w', hlTestMain D Z os fuel env args w = .ok (1, w') ∧ w'.fs = w.fs ∧ w'.cwd = w.cwd := by
  rcases h with h | ⟨fn, inp, more, rfl, h⟩
  · match args with
    | [] => exact ⟨w, rfl, rfl, rfl⟩
    | [_] => exact ⟨w, rfl, rfl, rfl⟩
    | _ :: _ :: _ => simp at h; omega
  · have hdir : ∀ fn', (sysOpen os w (more.head?.getD (strB "out.zlib")) 0o666 true).1 = none →
        hlTestDir D os fuel env.junk env.see fn' inp (more.head?.getD (strB "out.zlib")) w =
          .ok (1, w.tick) := by
      intro fn' h
      have h2 := sysOpen_none h
      rw [hlTestDir]
      have : sysOpen os w (more.head?.getD (strB "out.zlib")) FOPEN_MODE true = (none, w.tick) :=
        Prod.ext h h2
      rw [this]
    have hfile : (sysOpenRead os w inp).1 = none ∨
        (sysOpen os w.tick (more.head?.getD (strB "out.zlib")) 0o666 true).1 = none →
        ∃ w', hlTestFile D os fuel env.junk inp (more.head?.getD (strB "out.zlib")) w = .ok (1, w') ∧
          w'.fs = w.fs ∧ w'.cwd = w.cwd := by
      intro h
      rw [hlTestFile]
      cases hr : sysOpenRead os w inp with
      | mk x y =>
        have hy : y = w.tick := by
          have := sysOpenRead_same os w inp
          rw [hr] at this; exact this
        subst hy
        cases x with
        | none => exact ⟨_, rfl, rfl, rfl⟩
        | some li =>
          rw [hr] at h
          have h := h.resolve_left (by simp)
          have : sysOpen os w.tick (more.head?.getD (strB "out.zlib")) FOPEN_MODE true =
            (none, w.tick.tick) := Prod.ext h (sysOpen_none h)
          simp only [this]
          exact ⟨_, rfl, rfl, rfl⟩
    simp only [hlTestMain]
    rcases h with h | ⟨h1, h2⟩ | ⟨h1, h2⟩
    · have : ∀ c : UInt8, 97 ≤ c → c ≤ 101 → fn.head? ≠ some c := by
        intro c h1 h2 h3
        rcases h c h3 with h | h
        · exact absurd h (by simpa using h1)
        · exact absurd h (by simpa using h2)
      simp only [this 97 (by decide) (by decide), this 98 (by decide) (by decide),
        this 99 (by decide) (by decide), this 100 (by decide) (by decide),
        this 101 (by decide) (by decide), if_false]
      exact ⟨w, rfl, rfl, rfl⟩
    · rcases h1 with h1 | h1
      · rw [if_pos h1]
        exact hfile (.inl h2)
      · rw [if_neg (by rw [h1]; decide), if_pos h1, hlTestExtract, h2, sysOpenRead_same]
        exact ⟨w.tick, rfl, rfl, rfl⟩
    · split
      · exact hfile (.inr (h2 1))
      · have := h2 0
        repeat' split
        all_goals first
          | exact ⟨_, hdir _ this, rfl, rfl⟩
          | exact ⟨w, rfl, rfl, rfl⟩

/-- C82: without a third argument the output is `out.zlib`. -/
example (D : Deflater) (Z : Inflater) (os : Os) (fuel : Nat) (env : HlTestEnv)
    (fn inp : Bytes) (w : World) :
    hlTestMain D Z os fuel env [fn, inp] w =
      hlTestMain D Z os fuel env [fn, inp, [111, 117, 116, 46, 122, 108, 105, 98]] w := rfl

/-! ### Examples and witnesses -/

namespace HLTestSample
open HLSample

/-- The program with copying for compression, on the disk of C79's example; the archive is `/h/w/z`. -/
def env : HlTestEnv where
  ok := fun _ _ => true
  junk := List.replicate 120 0xEE
  hdr := hdrMem
  item := itemMem
  modes := fun _ => 0o644
  see := fun w => envOf os w ([[104], [119], [122]] :: CopySample.places CopySample.nodes)

/-- Two runs: exit statuses and some nodes in the end. -/
def both (e : HlTestEnv) (args args' : List Bytes) (w : World) (ls : List Loc) :
    Option (Int × Int × List (Option Node)) :=
  match hlTestMain queueD copyI os 9 e args w with
  | .ok (r, w) =>
    match hlTestMain queueD copyI os 9 e args' w with
    | .ok (r', w) => some (r, r', ls.map w.fs)
    | .error _ => none
  | .error _ => none

theorem both_some {e : HlTestEnv} {args args' : List Bytes} {w : World} {ls : List Loc} {r r' : Int}
    {ns : List (Option Node)} (h : both e args args' w ls = some (r, r', ns)) :
    ∃ w1 w2, hlTestMain queueD copyI os 9 e args w = .ok (r, w1) ∧
      hlTestMain queueD copyI os 9 e args' w1 = .ok (r', w2) ∧ ls.map w2.fs = ns := by
  simp only [both] at h
  split at h
  · rename_i r1 w1 h1
    split at h
    · rename_i r2 w2 h2
      simp only [Option.some.injEq, Prod.mk.injEq] at h
      obtain ⟨rfl, rfl, h3⟩ := h
      exact ⟨w1, w2, h1, h2, h3⟩
    · cases h
  · cases h

end HLTestSample

open HLSample CopySample HLTestSample in
/-- Example: `c r z` in `/h/w`, then `b z o/p`. -/
example : both env [[99], [114], [122]] [[98], [122], [111, 47, 112]] (world nodes)
    [[[104], [119], [111], [112]], [[104], [119], [111], [112], [97]],
     [[104], [119], [111], [112], [100], [98]], [[104], [119], [111], [112], [100], [107]]] =
    some (0, 0, [some (.dir 0o755), some (.file 0o640 [1, 2]), some (.file 0o600 []),
      some (.link [98])]) := by decide +kernel

namespace HLTestSample
open HLSample CopySample

theorem out_z : OutFile os (world nodes) [122] [[104], [119], [122]] :=
  ⟨[], [[104], [119]], [122], rfl, rfl, by decide, .rel, ⟨0o755, by decide +kernel, .inr (by decide)⟩,
    by decide, .inl ⟨by decide +kernel, .inr (by decide)⟩⟩

theorem shows_z : Shows os (sysOpen os (world nodes) [122] 0o666 true).2
    (env.see (sysOpen os (world nodes) [122] 0o666 true).2) := by
  obtain ⟨m, h, _, _⟩ := out_z.open' os_quiet
  have h' : sysOpen os (world nodes) [122] 0o666 true = _ := h
  rw [h']
  refine shows_envOf _ _ _ (by decide +kernel) (fun x hx => ?_)
  by_cases e : x = [[104], [119], [122]]
  · rw [e]; simp
  · refine List.mem_cons_of_mem _ (world_places nodes x ?_)
    simpa [World.put, World.tick, FS.put, e] using hx

end HLTestSample

open HLSample CopySample HLTestSample in
/-- Example: the hypotheses of `C82_copy_directory_partial` hold for that. -/
example := C82_copy_directory_partial queueDOK copyIOK copyIOK_final queueDOK_fits os_quiet tree env
  List.length_replicate List.length_replicate List.length_replicate (fun _ _ => rfl) [] rfl archivable
  ⟨[97], by rw [at_a]; simp⟩ out_z (by decide) shows_z (fun _ => by simp [env, envOf]) (pre := []) (by decide)
  (d := [[104], [119]]) .rel ⟨0o755, by decide +kernel, .inr (by decide)⟩ (n := [111]) (ns := [[112]])
  (by decide +kernel) (by decide +kernel) (by decide) (.inr (by decide)) (by decide) enters
  (.inr ⟨cwd_ok, small⟩) [] []

open HLSample CopySample HLTestSample in
/-- Example: `a r/a z`, then `b z f`; and what `C82_copy_file_partial` asks of the input. -/
example : both env [[97], [114, 47, 97], [122]] [[98], [122], [102]] (world nodes)
    [[[104], [119], [102]]] = some (0, 0, [some (.file 0o644 [1, 2])]) ∧
    InFile os (world nodes) [114, 47, 97] [[104], [119], [114], [97]] [1, 2] :=
  ⟨by decide +kernel, by decide, by decide +kernel, 0o640, by decide +kernel, .inr (by decide)⟩

open HLSample CopySample HLTestSample in
/-- Example: the hypotheses of `C82_copy_file_partial`, for a file `f` written from `z`. -/
example := C82_copy_file_partial queueDOK copyIOK copyIOK_final queueDOK_fits os_quiet (w := world nodes) env
  List.length_replicate List.length_replicate List.length_replicate [] rfl (p := [114, 47, 97])
  (li := [[104], [119], [114], [97]]) (content := [1, 2])
  ⟨by decide, by decide +kernel, 0o640, by decide +kernel, .inr (by decide)⟩ (by decide) out_z (by decide)
  (o := [102]) (lo := [[104], [119], [102]])
  ⟨[], [[104], [119]], [102], rfl, rfl, by decide, .rel, ⟨0o755, by decide +kernel, .inr (by decide)⟩,
    by decide, .inl ⟨by decide +kernel, .inr (by decide)⟩⟩ (by decide) [] []

open HLSample CopySample HLTestSample in
/-- Example: there is no file and no archive `y`.  (`c` does not notice that there is no directory `y`.) -/
example : both env [[97], [121], [122]] [[98], [121]] (world nodes) [[[104], [119], [122]]] =
    some (1, 1, [none]) ∧
    both env [[99], [121], [122]] [[97], [121]] (world nodes) [] = some (0, 1, []) := by decide +kernel

open HLSample CopySample HLTestSample in
/-- C82 is false for `d`: the mode of the extra file is uninitialised memory of the program. -/
theorem C82_extra_mode_false :
    ¬ ∀ (D : Deflater) (Z : Inflater) (plain : Bytes → Bytes) (_ : DeflateOK D plain)
      (_ : InflateOK Z plain) (fuel : Nat) (e : HlTestEnv) (modes : Nat → Nat) (p a o : Bytes)
      (w w1 w2 w1' w2' : World),
      hlTestMain D Z os fuel e [[100], p, a] w = .ok (0, w1) →
      hlTestMain D Z os fuel e [[98], a, o] w1 = .ok (0, w2) →
      hlTestMain D Z os fuel { e with modes := modes } [[100], p, a] w = .ok (0, w1') →
      hlTestMain D Z os fuel { e with modes := modes } [[98], a, o] w1' = .ok (0, w2') →
      w2'.fs = w2.fs := by
  intro h
  have k1 : both env [[100], [114], [122]] [[98], [122], [111]] (world nodes)
      [[[104], [119], [111], strB "__not_updateabe_files"]] =
      some (0, 0, [some (.file 0o644 (strB "mconfig.bconf" ++ [0]))]) := by decide +kernel
  have k2 : both { env with modes := fun _ => 0 } [[100], [114], [122]] [[98], [122], [111]] (world nodes)
      [[[104], [119], [111], strB "__not_updateabe_files"]] =
      some (0, 0, [some (.file 0 (strB "mconfig.bconf" ++ [0]))]) := by decide +kernel
  obtain ⟨w1, w2, a1, a2, a3⟩ := both_some k1
  obtain ⟨w1', w2', b1, b2, b3⟩ := both_some k2
  have := h queueD copyI id queueDOK copyIOK 9 env (fun _ => 0) [114] [122] [111] (world nodes) w1 w2 w1'
    w2' a1 a2 b1 b2
  rw [this, a3] at b3
  exact absurd b3 (by decide +kernel)

open HLSample CopySample HLTestSample in
/-- C82 is false for `e`: both runs exit with 0, but of the three extra files that an ordinary user
archives and extracts none is there, because the directories they are in are created without
permissions. -/
theorem C82_extra_files_false :
    ¬ ∀ (D : Deflater) (Z : Inflater) (plain : Bytes → Bytes) (_ : DeflateOK D plain)
      (_ : InflateOK Z plain) (fuel : Nat) (e : HlTestEnv) (p a o : Bytes) (w w1 w2 : World) (l : Loc),
      hlTestMain D Z os fuel e [[101], p, a] w = .ok (0, w1) →
      hlTestMain D Z os fuel e [[98], a, o] w1 = .ok (0, w2) → locate os w1 true o = some l →
      ∃ m, w2.fs (l ++ [strB "a", strB "b", strB "__not_updateabe_files"]) =
        some (.file m (strB "mconfig.bconf" ++ [0])) := by
  intro h
  have k1 : both env [[101], [114], [122]] [[98], [122], [111]] (world nodes)
      [[[104], [119], [111]] ++ [strB "a", strB "b", strB "__not_updateabe_files"]] =
      some (0, 0, [none]) := by decide +kernel
  have k3 : (match hlTestMain queueD copyI os 9 env [[101], [114], [122]] (world nodes) with
      | .ok (_, w) => decide (locate os w true [111] = some [[104], [119], [111]])
      | .error _ => false) = true := by decide +kernel
  obtain ⟨w1, w2, a1, a2, a3⟩ := both_some k1
  rw [a1] at k3
  obtain ⟨m, hm⟩ := h queueD copyI id queueDOK copyIOK 9 env [114] [122] [111] (world nodes) w1 w2 _
    a1 a2 (by simpa using k3)
  simp only [List.map_cons, List.map_nil, List.cons.injEq, and_true] at a3
  rw [a3] at hm
  cases hm

end Zwt
