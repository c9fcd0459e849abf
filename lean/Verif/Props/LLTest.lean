import Verif.Proofs.Sample
import Verif.Proofs.LLTestRun
import Verif.Props.HLTest

/-! C86: the second program that archives and extracts. -/

namespace Zwt

variable {Z : Inflater} {D : Deflater} {plain : Bytes → Bytes}

/-! ### From trees to disks -/

theorem delinked_lookup (os : Os) (f : Forest) : ∀ (p : List Bytes),
    ((∀ t, f.lookup os p ≠ some (.link t)) → f.delinked.lookup os p = f.lookup os p) ∧
    (∀ t, f.lookup os p = some (.link t) → ∃ m, f.delinked.lookup os p = some (.file m [])) := by
  induction f with
  | nil => intro p; exact ⟨fun _ => rfl, fun t h => by cases h⟩
  | file n m c r ih =>
    intro p
    simp only [Forest.delinked, Forest.lookup]
    split
    · exact ⟨fun _ => rfl, fun t h => by cases h⟩
    · exact ih p
  | link n m t r ih =>
    intro p
    simp only [Forest.delinked, Forest.lookup]
    split
    · exact ⟨fun h => absurd rfl (h t), fun _ _ => ⟨_, rfl⟩⟩
    · exact ih p
  | dir n m s r ihs ih =>
    intro p
    cases p with
    | nil => exact ⟨fun _ => rfl, fun t h => by cases h⟩
    | cons x xs =>
      simp only [Forest.delinked, Forest.lookup]
      split
      · split
        · exact ⟨fun _ => rfl, fun t h => by cases h⟩
        · exact ihs xs
      · exact ih _
  | other n r ih => exact ih
  | bad n r ih => exact ih

theorem prune_all (f : Forest) (h : f.pure) : ∀ d, f.prune (fun _ _ => true) d = f := by
  induction f with
  | nil => intro d; rfl
  | file n m c r ih => intro d; simp only [Forest.prune, if_true, ih h]
  | link n m t r ih => intro d; simp only [Forest.prune, if_true, ih h]
  | dir n m s r ihs ih => intro d; simp only [Forest.prune, if_true, ihs h.1, ih h.2]
  | other n r ih => exact h.elim
  | bad n r ih => exact h.elim

theorem Forest.within_of {os : Os} (max : Nat) (f : Forest) : ∀ (k : Nat), f.proper →
    (∀ q node, f.lookup os q = some node → k + ((q.map (47 :: ·)).flatten).length ≤ max) →
    f.within max k := by
  induction f with
  | nil => intro k _ _; trivial
  | file n m c r ih =>
    intro k hp h
    refine ⟨?_, ih k hp.2.2 (fun q node hq => h q node ?_)⟩
    · have := h [n] _ (by simp [lookup]; rfl)
      simp at this; omega
    · obtain ⟨x, q, rfl, hx⟩ := lookup_head hq
      rw [lookup, if_neg (by rintro ⟨⟩; exact hp.2.1 hx)]; exact hq
  | link n m c r ih =>
    intro k hp h
    refine ⟨?_, ih k hp.2.2.2.2 (fun q node hq => h q node ?_)⟩
    · have := h [n] _ (by simp [lookup]; rfl)
      simp at this; omega
    · obtain ⟨x, q, rfl, hx⟩ := lookup_head hq
      rw [lookup, if_neg (by rintro ⟨⟩; exact hp.2.1 hx)]; exact hq
  | dir n m s r ihs ih =>
    intro k hp h
    refine ⟨ihs _ hp.2.2.1 (fun q node hq => ?_), ih k hp.2.2.2 (fun q node hq => h q node ?_)⟩
    · obtain ⟨x, q, rfl, hx⟩ := lookup_head hq
      have := h (n :: x :: q) node (by simp [lookup, hq])
      simp only [List.map_cons, List.flatten_cons, List.length_append, List.length_cons] at this ⊢
      omega
    · obtain ⟨x, q, rfl, hx⟩ := lookup_head hq
      rw [lookup, if_neg (by rintro rfl; exact hp.2.1 hx)]; exact hq
  | other n r ih => exact fun k hp h => ih k hp h
  | bad n r ih => exact fun k hp h => ih k hp h

theorem linkless_of_landed {os : Os} {src : FS} {l : Loc} {f : Forest}
    (hl : ∀ x q, f.lookup os (x :: q) = (src (l ++ x :: q)).map (Node.copied os)) {fs fs' : FS} {d : Loc}
    {n : Bytes} (h : Landed os fs fs' d n [] f.delinked) : LinklessCopy os src l fs fs' d n := by
  obtain ⟨h1, h2, h3⟩ := h
  refine ⟨by simpa using h1 0 (Nat.le_refl _), fun x q hno => ?_, fun x q t ht => ?_, fun l' hl' => ?_⟩
  · have := h2 x q
    simp only [List.append_assoc, List.cons_append, List.nil_append] at this
    rw [this, (delinked_lookup os f (x :: q)).1, hl]
    intro t ht
    rw [hl] at ht
    exact hno t (Node.copied_link ht.symm)
  · have := h2 x q
    simp only [List.append_assoc, List.cons_append, List.nil_append] at this
    rw [this]
    refine (delinked_lookup os f (x :: q)).2 t ?_
    rw [hl, ht]; rfl
  · refine h3 l' (fun j hj => ?_) (fun x q => ?_)
    · simpa using hl' []
    · have := hl' (x :: q)
      simpa using this

/-! ### The theorems -/

/-- C86, the exit status of `b`: it is 1, whatever was extracted. -/
theorem C86_status (D : Deflater) (Z : Inflater) (os : Os) (fuel : Nat) (env : HlTestEnv)
    (fn inp : Bytes) (more : List Bytes) (w w' : World) (r : Int) (hb : fn.head? = some 98)
    (h : llTestMain D Z os fuel env (fn :: inp :: more) w = .ok (r, w')) : r = 1 := by
  have e : (98 : UInt8) ≠ 97 := by decide
  simp only [llTestMain, hb, Option.some.injEq, e, if_false, if_true, llTestExtract] at h
  split at h
  · cases h; rfl
  · split at h
    · cases h
    · cases h; rfl

/-- C86 for directories: `c DIR ARCHIVE`, then `b ARCHIVE OUT` with a new name `OUT` in a directory,
recreates all files and directories of `DIR`, with an empty file in place of every link; the first run
changes only the archive, and the second nothing outside `OUT`.
Missing: links; exit status 0 of the second run; existing output directories (`C86_root_false`); paths
beyond 4094 bytes (`C86_long_path_false`); archives that lie in their own source; a last output piece
of 512 KiB. -/
theorem C86_copy_directory_partial (CD : DeflateOK D plain) (C : InflateOK Z plain) (hfin : C.Final)
    (hfit : CD.Fits) {os : Os} (hq : os.quiet) {w : World} (ht : w.fs.tree) (env : HlTestEnv)
    (hj : env.junk.length = 120) (hh : env.hdr.length = 128) (hi : env.item.length = 40)
    (hok : ∀ k n, env.ok k n = true) (z : D.τ) (hz : D.init 9 = some z)
    -- the source, and the archive outside
    {p : Bytes} {l : Loc} (A : Archivable os w p l) (hne : ∃ x, w.fs (l ++ [x]) ≠ none) {a : Bytes}
    {la : Loc} (ha : OutFile os w a la) (hout : ¬ l <+: la)
    (hsee : Shows os (sysOpen os w a 0o666 true).2 (env.see (sysOpen os w a 0o666 true).2))
    (henv : (env.see (sysOpen os w a 0o666 true).2).ok)
    -- the target
    {pre : Bytes} (h0 : 0 ∉ pre) {d : Loc} (hd : InDir os w pre d) (ho : OpenDir os w.fs d) {n : Bytes}
    (hn : PlainName n) (hnew : w.fs (d ++ [n]) = none) (hla : la ≠ d ++ [n])
    (hen : Enterable os (dirMode os 0o775))
    (hfe : ∀ q m, q ≠ [] → w.fs (l ++ q) = some (.dir m) → Enterable os (dirMode os m))
    (hlim : ∀ q node, w.fs (l ++ q) = some node →
      (pre ++ n).length + ((q.map (47 :: ·)).flatten).length ≤ 4094)
    (more more' : List Bytes) :
    ∃ (n1 : Nat) (log : List Bytes) (b : Bytes) (w2 : World), (∀ fuel, n1 ≤ fuel →
        llTestMain D Z os fuel env ([99] :: p :: a :: more) w = .ok (0, w2)) ∧
      log.getLast? = some b ∧ w2.cwd = w.cwd ∧ Stored w.fs w2.fs la log.flatten ∧
      (b.length < 524288 → C.Prompt log.flatten →
        ∃ n0 w3, (∀ fuel, n0 ≤ fuel → llTestMain D Z os fuel env
            ([98] :: a :: (pre ++ n) :: more') w2 = .ok (1, w3)) ∧
          w3.cwd = w.cwd ∧ LinklessCopy os w.fs l w2.fs w3.fs d n) := by
  obtain ⟨m, o1, o2, o3⟩ := ha.open' hq
  have o1' : sysOpen os w a 0o666 true = (some la, (w.put la (.file m [])).tick) := o1
  simp only [o1'] at hsee henv
  generalize hw1 : (w.put la (.file m [])).tick = w1 at *
  have hw1fs : w1.fs = w.fs.put la (.file m []) := by rw [← hw1]; rfl
  have hw1c : w1.cwd = w.cwd := by rw [← hw1]; rfl
  have hk1 : Keeps w.fs w1.fs := by rw [hw1fs]; exact keeps_store o3
  have hs1 : ∀ q, w1.fs (l ++ q) = w.fs (l ++ q) := by
    intro q
    simp only [hw1fs, FS.put]
    rw [if_neg]
    intro e
    exact hout ⟨q, e⟩
  have A1 : Archivable os w1 p l := A.beside hk1 hw1c hs1
  obtain ⟨da, na, hla2, mda, hda⟩ : ∃ da na, la = da ++ [na] ∧ ∃ mda, w.fs da = some (.dir mda) := by
    obtain ⟨_, da, na, _, e, _, _, ⟨mda, hda, _⟩, _⟩ := ha
    exact ⟨da, na, e, mda, hda⟩
  have ht1 : w1.fs.tree := by
    rw [hw1fs, hla2]
    exact tree_store ht hda (fun x hx => o3 x (by rw [hla2]; exact hx))
  -- compression
  obtain ⟨es, f, m1, m2, m3, m4, m5⟩ := A1.mirror (os' := os) ht1 hsee
  obtain ⟨s1, s2⟩ := select_prune (fun _ _ => true) f p (Forest.pure_readable _ f m4 p)
  rw [prune_all f m4] at s2
  obtain ⟨n1, log, g, rfl, k1, kO, t, k3, _, b, k2, k5⟩ := compressDir_good CD (env.see w1) henv
    (keepFilter (fun _ _ => true)) .plain trivial m1 m2 () 9 z hz env.junk hj (by rw [s1]; decide)
  rw [show (Forest.nil ++ (select (keepFilter fun _ _ => true) p f ()).forest) =
    (select (keepFilter fun _ _ => true) p f ()).forest from rfl, s2] at k3
  have hput : (writePieces os log ⟨la, 0⟩ w1).fs = w.fs.put la (.file m log.flatten) ∧
      (writePieces os log ⟨la, 0⟩ w1).cwd = w.cwd := by
    obtain ⟨e1, e2⟩ := writePieces_end hq (m := m) log [] w1 (by rw [hw1fs, FS.put_same])
    rw [List.length_nil] at e1 e2
    refine ⟨?_, by rw [e2, hw1c]⟩
    rw [e1, hw1fs, FS.put_put, List.nil_append]
  obtain ⟨p1, p2⟩ := hput
  refine ⟨n1, log, b, writePieces os log ⟨la, 0⟩ w1, fun fuel hf => ?_, k2, p2, ⟨⟨m, ?_, o3⟩, ?_⟩, ?_⟩
  · show hlTestDir D os fuel env.junk env.see .plain p a w = _
    rw [hlTestDir, o1]
    simp only [hlTestFilter_eq, k1 fuel hf]
  · rw [p1, FS.put_same]
  · intro l' hl'
    rw [p1, FS.put, if_neg hl']
  -- extraction
  intro hb hpr
  generalize hw2 : writePieces os log ⟨la, 0⟩ w1 = w2 at *
  have hk2 : Keeps w.fs w2.fs := by rw [p1]; exact keeps_store o3
  have ht2 : w2.fs.tree := by
    rw [p1, hla2]
    exact tree_store ht hda (fun x hx => o3 x (by rw [hla2]; exact hx))
  have hread : InFile os w2 a la log.flatten :=
    ha.reads hk2 p2 (m := m) (by rw [p1, FS.put_same]) o2
  have hrd := hread.read hq
  obtain ⟨md, hmd, hmd'⟩ := ho
  have hk3 : Keeps w.fs w2.tick.fs := hk2
  have hlk : ∀ {q node}, f.lookup os q = some node →
      q ≠ [] ∧ some node = (w.fs (l ++ q)).map (Node.copied os) := by
    intro q node h
    obtain ⟨x, q, rfl, _⟩ := Forest.lookup_head h
    exact ⟨by simp, by rw [← hs1, ← m5, h]⟩
  have hfe' : f.enterable os := by
    refine Forest.enterable_of _ m3 (fun q m h => ?_)
    obtain ⟨h1, h3⟩ := hlk h
    obtain ⟨m', h4, h5⟩ := Node.copied_dir h3
    rw [h5]
    exact hfe q m' h1 h4
  have hwi : f.within 4094 (pre ++ n).length := by
    refine Forest.within_of (os := os) _ f _ m3 (fun q node h => ?_)
    obtain ⟨_, h3⟩ := hlk h
    cases hw : w.fs (l ++ q) with
    | none => rw [hw] at h3; cases h3
    | some y => exact hlim q y hw
  have hfn : f ≠ .nil := by
    rintro rfl
    obtain ⟨x, hx⟩ := hne
    have := m5 x []
    cases hw : w.fs (l ++ [x]) with
    | none => exact hx hw
    | some y => rw [hs1, hw] at this; cases this
  obtain ⟨n0, r, r1, _, r2, r3⟩ := ltExtract_tree C (CD.plain_nil hz) env.ok hok env.hdr env.item hh hi os
    hq w2.tick ht2 pre h0 d (inDir_mono hk3 p2 hd hmd) (OpenDir.mono ⟨md, hmd, hmd'⟩ hk3) n hn (by
      show w2.fs _ = none
      rw [p1, FS.put, if_neg (Ne.symm hla)]; exact hnew) hen m3 hfe' hwi hfn hj k3
    ⟨log.flatten, false⟩ rfl (k5 hb)
  obtain ⟨f1, f2, _⟩ := r3 (r2 hfin (kO hfit)) (.inr hpr)
  refine ⟨n0, r.st.w, fun fuel hf => ?_, by rw [f1]; exact p2, ?_⟩
  · show llTestExtract Z os env.ok fuel env.hdr env.item a (pre ++ n) w2 = _
    have hc : contentAt w2.tick la = ⟨log.flatten, false⟩ := by
      have : w2.fs la = some (.file m log.flatten) := by rw [p1, FS.put_same]
      simp only [contentAt, World.tick, this]
    rw [llTestExtract, hrd]
    simp only [hc, r1 fuel hf]
  · exact linkless_of_landed (fun x q => by rw [m5, hs1]) f2

/-- C86 for files: `a FILE ARCHIVE`, then `b ARCHIVE OUT`, copies the content of the file; the first run
changes only the archive, the second only the output file.
Missing: exit status 0 of the second run; empty files; output files that cannot be opened
(`C86_output_false`); a last output piece of 512 KiB. -/
theorem C86_copy_file_partial (CD : DeflateOK D plain) (C : InflateOK Z plain) (hfin : C.Final)
    (hfit : CD.Fits) {os : Os} (hq : os.quiet) {w : World} (env : HlTestEnv)
    (hj : env.junk.length = 120) (hh : env.hdr.length = 128) (hi : env.item.length = 40)
    (z : D.τ) (hz : D.init 9 = some z) {p : Bytes} {li : Loc} {content : Bytes}
    (hp : InFile os w p li content) (hc : content ≠ []) {a : Bytes} {la : Loc} (ha : OutFile os w a la)
    (hne : la ≠ li) {o : Bytes} {lo : Loc} (ho : OutFile os w o lo) (hno : lo ≠ la)
    (more more' : List Bytes) :
    ∃ (n1 : Nat) (log : List Bytes) (b : Bytes) (w2 : World), (∀ fuel, n1 ≤ fuel →
        llTestMain D Z os fuel env ([97] :: p :: a :: more) w = .ok (0, w2)) ∧
      log.getLast? = some b ∧ w2.cwd = w.cwd ∧ Stored w.fs w2.fs la log.flatten ∧
      (b.length < 524288 → C.Prompt log.flatten →
        ∃ n0 w3, (∀ fuel, n0 ≤ fuel → llTestMain D Z os fuel env ([98] :: a :: o :: more') w2 =
            .ok (1, w3)) ∧
          w3.cwd = w.cwd ∧ Stored w2.fs w3.fs lo content) := by
  have hin := hp.read hq
  obtain ⟨hp1, hp2, mi, hp3, hp4⟩ := hp
  have ha' : OutFile os w.tick a la := ha.later (Keeps.refl _) rfl rfl
  obtain ⟨m, o1, o2, o3⟩ := ha'.open' hq
  have o3 : ∀ x, w.fs la = some x → ∃ c', x = .file m c' := o3
  generalize hw1 : (w.tick.put la (.file m [])).tick = w1 at *
  have hw1fs : w1.fs = w.fs.put la (.file m []) := by rw [← hw1]; rfl
  have hw1c : w1.cwd = w.cwd := by rw [← hw1]; rfl
  have hcont : contentAt w1 li = ⟨content, false⟩ := by
    have : w1.fs li = some (.file mi content) := by
      rw [hw1fs, FS.put, if_neg (Ne.symm hne)]; exact hp3
    simp only [contentAt, this]
  obtain ⟨f1, f2, f3⟩ := readFile_ok content false
  obtain ⟨s0, s, n1, rets, c1, copen, _, b, c2, c3⟩ := session_writes_good CD CT_FILE 9 z hz env.junk hj
    (readFile content false).1 f3
  obtain ⟨p1, p2⟩ : (writePieces os s.log ⟨la, 0⟩ w1).fs = w.fs.put la (.file m s.log.flatten) ∧
      (writePieces os s.log ⟨la, 0⟩ w1).cwd = w.cwd := by
    obtain ⟨e1, e2⟩ := writePieces_end hq (m := m) s.log [] w1 (by rw [hw1fs, FS.put_same])
    rw [List.length_nil] at e1 e2
    refine ⟨?_, by rw [e2, hw1c]⟩
    rw [e1, hw1fs, FS.put_put, List.nil_append]
  refine ⟨n1, s.log, b, writePieces os s.log ⟨la, 0⟩ w1, fun fuel hf => ?_, c2, p2,
    ⟨⟨m, ?_, o3⟩, ?_⟩, ?_⟩
  · show hlTestFile D os fuel env.junk p a w = _
    rw [hlTestFile, hin]
    simp only [o1, hcont, compressFile, (c1 fuel hf).1, (c1 fuel hf).2, f1]
    rfl
  · rw [p1, FS.put_same]
  · intro l' hl'
    rw [p1, FS.put, if_neg hl']
  intro hb hpr
  generalize hw2 : writePieces os s.log ⟨la, 0⟩ w1 = w2 at *
  have hk2 : Keeps w.fs w2.fs := by rw [p1]; exact keeps_store o3
  have hread : InFile os w2 a la s.log.flatten :=
    ha.reads hk2 p2 (m := m) (by rw [p1, FS.put_same]) o2
  have hrd := hread.read hq
  have hlo : w2.fs lo = w.fs lo := by rw [p1, FS.put, if_neg hno]
  have ho2 : OutFile os w2.tick o lo := ho.later hk2 p2 hlo
  obtain ⟨mo, oo, _, _⟩ := ho2.open' hq
  obtain ⟨n0, r, r1, r2, r3⟩ := ltExtract_file C (CD.plain_nil hz) env.ok env.hdr env.item hh hi os hq
    w2.tick o lo (by rw [oo]) hj hc ⟨s.log.flatten, false⟩ rfl
    (by show plain s.log.flatten = _; rw [c3 hb, f2 rfl]; rfl)
  obtain ⟨g1, m', g2, g3⟩ := r3 (r2 hfin (copen hfit)) (.inr hpr)
  refine ⟨n0, r.st.w, fun fuel hf => ?_, by rw [g1]; exact p2, ⟨m', ?_, g3⟩, ?_⟩
  · show llTestExtract Z os env.ok fuel env.hdr env.item a o w2 = _
    have hc : contentAt w2.tick la = ⟨s.log.flatten, false⟩ := by
      have : w2.fs la = some (.file m s.log.flatten) := by rw [p1, FS.put_same]
      simp only [contentAt, World.tick, this]
    rw [llTestExtract, hrd]
    simp only [hc, r1 fuel hf]
  · rw [g2, FS.put_same]
  · intro l' hl'
    rw [g2, FS.put, if_neg hl']
    rfl

/-- C86, a cost of links: when a tree has been extracted, there is for every link in it a descriptor
that has not been closed. -/
theorem C86_descriptors (C : InflateOK Z plain) (hnil : plain [] = []) (ok : AllocOracle)
    (hok : ∀ k n, ok k n = true) (hdr item : Bytes) (hh : hdr.length = 128) (hi : item.length = 40)
    (os : Os) (hq : os.quiet) (w : World) (ht : w.fs.tree) (pre : Bytes)
    (h0 : 0 ∉ pre) (d : Loc) (hd : InDir os w pre d) (ho : OpenDir os w.fs d) (n : Bytes)
    (hn : PlainName n) (hnew : w.fs (d ++ [n]) = none) (hen : Enterable os (dirMode os 0o775))
    {f : Forest} (hf : f.proper) (hfe : f.enterable os) (hwi : f.within 4094 (pre ++ n).length)
    (hfn : f ≠ .nil) {junk t : Bytes} (hj : junk.length = 120) (he : Encodes f t) (data : Bytes)
    (harc : plain data = headerBytes 0 1 junk ++ t) (hfin : C.Final) (hopen : Open plain data)
    (hpr : C.Prompt data) :
    ∃ n0 r, (∀ fuel, n0 ≤ fuel →
        ltExtract Z os ok fuel hdr item (pre ++ n) ⟨data, false⟩ w = .ok r) ∧
      Landed os w.fs r.st.w.fs d n [] f.delinked ∧
      r.st.lost + r.st.held = f.links := by
  obtain ⟨n0, r, r1, _, r2, r3⟩ := ltExtract_tree C hnil ok hok hdr item hh hi os hq w ht pre h0 d hd ho n
    hn hnew hen hf hfe hwi hfn hj he ⟨data, false⟩ rfl harc
  obtain ⟨_, f2, f3⟩ := r3 (r2 hfin hopen) (.inr hpr)
  exact ⟨n0, r, r1, f2, f3⟩

/-- C86, runs that come to nothing: too few arguments, an unknown letter, an input file or archive that
cannot be opened for reading, and an output file that cannot be opened for writing give 1, and the disk
and the working directory are as before. -/
theorem C86_unusable (D : Deflater) (Z : Inflater) (os : Os) (fuel : Nat) (env : HlTestEnv)
    (args : List Bytes) (w : World)
    (h : args.length < 2 ∨ ∃ fn inp more, args = fn :: inp :: more ∧
      ((∀ c ∈ fn.head?, c < 97 ∨ 99 < c) ∨
        (fn.head? = some 97 ∨ fn.head? = some 98) ∧ (sysOpenRead os w inp).1 = none ∨
        fn.head? ≠ some 98 ∧ ∀ k, (sysOpen os { w with calls := w.calls + k }
          (more.head?.getD (strB "out.zlib")) 0o666 true).1 = none)) :
    ∃ w', llTestMain D Z os fuel env args w = .ok (1, w') ∧ w'.fs = w.fs ∧ w'.cwd = w.cwd := by
  rcases h with h | ⟨fn, inp, more, rfl, h⟩
  · match args with
    | [] => exact ⟨w, rfl, rfl, rfl⟩
    | [_] => exact ⟨w, rfl, rfl, rfl⟩
    | _ :: _ :: _ => simp at h; omega
  · have hdir : ∀ fn', (sysOpen os w (more.head?.getD (strB "out.zlib")) 0o666 true).1 = none →
        hlTestDir D os fuel env.junk env.see fn' inp (more.head?.getD (strB "out.zlib")) w =
          .ok (1, w.tick) := by
      intro fn' h
      have h2 := sysOpen_none h
      rw [hlTestDir]
      have : sysOpen os w (more.head?.getD (strB "out.zlib")) FOPEN_MODE true = (none, w.tick) :=
        Prod.ext h h2
      rw [this]
    have hfile : (sysOpenRead os w inp).1 = none ∨
        (sysOpen os w.tick (more.head?.getD (strB "out.zlib")) 0o666 true).1 = none →
        ∃ w', hlTestFile D os fuel env.junk inp (more.head?.getD (strB "out.zlib")) w = .ok (1, w') ∧
          w'.fs = w.fs ∧ w'.cwd = w.cwd := by
      intro h
      rw [hlTestFile]
      cases hr : sysOpenRead os w inp with
      | mk x y =>
        have hy : y = w.tick := by
          have := sysOpenRead_same os w inp
          rw [hr] at this; exact this
        subst hy
        cases x with
        | none => exact ⟨_, rfl, rfl, rfl⟩
        | some li =>
          rw [hr] at h
          have h := h.resolve_left (by simp)
          have : sysOpen os w.tick (more.head?.getD (strB "out.zlib")) FOPEN_MODE true =
            (none, w.tick.tick) := Prod.ext h (sysOpen_none h)
          simp only [this]
          exact ⟨_, rfl, rfl, rfl⟩
    simp only [llTestMain]
    rcases h with h | ⟨h1, h2⟩ | ⟨h1, h2⟩
    · have : ∀ c : UInt8, 97 ≤ c → c ≤ 99 → fn.head? ≠ some c := by
        intro c h1 h2 h3
        rcases h c h3 with h | h
        · exact absurd h (by simpa using h1)
        · exact absurd h (by simpa using h2)
      simp only [this 97 (by decide) (by decide), this 98 (by decide) (by decide),
        this 99 (by decide) (by decide), if_false]
      exact ⟨w, rfl, rfl, rfl⟩
    · rcases h1 with h1 | h1
      · rw [if_pos h1]
        exact hfile (.inl h2)
      · rw [if_neg (by rw [h1]; decide), if_pos h1, llTestExtract,
          show sysOpenRead os w inp = (none, w.tick) from Prod.ext h2 (sysOpenRead_same os w inp)]
        exact ⟨w.tick, rfl, rfl, rfl⟩
    · split
      · exact hfile (.inr (h2 1))
      · have := h2 0
        repeat' split
        all_goals first
          | exact ⟨_, hdir _ this, rfl, rfl⟩
          | exact ⟨w, rfl, rfl, rfl⟩

/-- C86: without a third argument the output is `out.zlib`. -/
example (D : Deflater) (Z : Inflater) (os : Os) (fuel : Nat) (env : HlTestEnv)
    (fn inp : Bytes) (w : World) :
    llTestMain D Z os fuel env [fn, inp] w =
      llTestMain D Z os fuel env [fn, inp, [111, 117, 116, 46, 122, 108, 105, 98]] w := rfl

/-! ### Examples and witnesses -/

namespace LLTestSample
open HLSample

/-- Two runs: exit statuses and some nodes in the end. -/
def both (e : HlTestEnv) (args args' : List Bytes) (w : World) (ls : List Loc) :
    Except (Option Fault) (Int × Int × List (Option Node)) :=
  match llTestMain queueD copyI os 9 e args w with
  | .ok (r, w) =>
    match llTestMain queueD copyI os 9 e args' w with
    | .ok (r', w) => .ok (r, r', ls.map w.fs)
    | .error x => .error (some x)
  | .error _ => .error none

theorem both_ok {e : HlTestEnv} {args args' : List Bytes} {w : World} {ls : List Loc} {r r' : Int}
    {ns : List (Option Node)} (h : both e args args' w ls = .ok (r, r', ns)) :
    ∃ w1 w2, llTestMain queueD copyI os 9 e args w = .ok (r, w1) ∧
      llTestMain queueD copyI os 9 e args' w1 = .ok (r', w2) ∧ ls.map w2.fs = ns := by
  simp only [both] at h
  split at h
  · rename_i r1 w1 h1
    split at h
    · rename_i r2 w2 h2
      simp only [Except.ok.injEq, Prod.mk.injEq] at h
      obtain ⟨rfl, rfl, h3⟩ := h
      exact ⟨w1, w2, h1, h2, h3⟩
    · cases h
  · cases h

theorem both_fault {e : HlTestEnv} {args args' : List Bytes} {w : World} {ls : List Loc} {x : Fault}
    (h : both e args args' w ls = .error (some x)) :
    ∃ r w1, llTestMain queueD copyI os 9 e args w = .ok (r, w1) ∧
      llTestMain queueD copyI os 9 e args' w1 = .error x := by
  simp only [both] at h
  split at h
  · rename_i r1 w1 h1
    split at h
    · cases h
    · rename_i y h2
      cases h
      exact ⟨r1, w1, h1, h2⟩
  · cases h

/-- `/h/w/r` with a directory `d`, and the directory `/h/w/o`. -/
def nodes : List (Loc × Node) :=
  [([[104], [119], [114]], .dir 0o755), ([[104], [119], [114], [100]], .dir 0o755),
   ([[104], [119], [111]], .dir 0o755)]

/-- The program on that disk; the archive is `/h/w/z`. -/
def env : HlTestEnv :=
  { HLTestSample.env with
    see := fun w => envOf os w ([[104], [119], [122]] :: CopySample.places nodes) }

end LLTestSample

open HLSample LLTestSample in
/-- Example: `c r z` in `/h/w`, then `b z o`: the link `k` becomes a file. -/
example : both HLTestSample.env [[99], [114], [122]] [[98], [122], [111]] (world CopySample.nodes)
    [[[104], [119], [111]], [[104], [119], [111], [97]],
     [[104], [119], [111], [100], [98]], [[104], [119], [111], [100], [107]]] =
    .ok (0, 1, [some (.dir 0o755), some (.file 0o640 [1, 2]), some (.file 0o600 []),
      some (.file 0o755 [])]) := by decide +kernel

open HLSample LLTestSample in
/-- Example: `a r/a z`, then `b z f`; and `y` is not there. -/
example : both HLTestSample.env [[97], [114, 47, 97], [122]] [[98], [122], [102]]
    (world CopySample.nodes) [[[104], [119], [102]]] = .ok (0, 1, [some (.file 0o644 [1, 2])]) ∧
    both HLTestSample.env [[97], [121], [122]] [[98], [121]] (world CopySample.nodes)
      [[[104], [119], [122]]] = .ok (1, 1, [none]) := by decide +kernel

open HLSample in
/-- Example: a tree with a file, a directory and a link, for `C86_descriptors`. -/
example : ∃ f : Forest, f.links = 1 ∧ f.proper ∧ f.enterable os ∧ f.within 4094 1 ∧ f ≠ .nil ∧
    f.delinked = .file [97] 0o640 [1] (.dir [100] 0o755 (.file [107] 0o777 [] .nil) .nil) :=
  ⟨.file [97] 0o640 [1] (.dir [100] 0o755 (.link [107] 0o777 [98] .nil) .nil), rfl,
    by simp [Forest.proper, Forest.names]; decide, by simp [Forest.enterable, Enterable]; decide,
    by simp [Forest.within], by simp, rfl⟩

open HLSample in
example := C86_descriptors copyIOK rfl (fun _ _ => true) (fun _ _ => rfl) hdrMem itemMem List.length_replicate
  List.length_replicate os os_quiet (world []) world_tree [] (by decide) [[104], [119]] .rel
  ⟨0o755, by decide +kernel, .inr (by decide)⟩ [111] (by decide) (by decide +kernel) (.inr (by decide))
  (f := .file [97] 0o640 [1] (.dir [100] 0o755 (.link [107] 0o777 [98] .nil) .nil))
  (by simp [Forest.proper, Forest.names]; decide) (by simp [Forest.enterable, Enterable]; decide)
  (by simp [Forest.within]) (by simp) (junk := List.replicate 120 0xEE) List.length_replicate
  (encodes _ (by decide)) _ rfl copyIOK_final ⟨[0], by simp⟩ (copyIOK_prompt _)

open HLSample CopySample HLTestSample in
/-- Example: the hypotheses of `C86_copy_directory_partial` for the first of these. -/
example := C86_copy_directory_partial queueDOK copyIOK copyIOK_final queueDOK_fits os_quiet tree
  HLTestSample.env List.length_replicate List.length_replicate List.length_replicate (fun _ _ => rfl) [] rfl
  archivable ⟨[97], by rw [at_a]; simp⟩ out_z (by decide) shows_z (fun _ => by simp [HLTestSample.env, envOf])
  (pre := []) (by decide) (d := [[104], [119]]) .rel ⟨0o755, by decide +kernel, .inr (by decide)⟩ (n := [111])
  (by decide) (by decide +kernel) (by decide) (.inr (by decide)) enters (fun q node h => by
    rcases below q (by rw [h]; simp) with rfl | rfl | rfl | rfl | rfl <;> decide) [] []

open HLSample CopySample HLTestSample in
/-- Example: the hypotheses of `C86_copy_file_partial`, for a file `f` written from `z`. -/
example := C86_copy_file_partial queueDOK copyIOK copyIOK_final queueDOK_fits os_quiet (w := world nodes)
  HLTestSample.env List.length_replicate List.length_replicate List.length_replicate [] rfl (p := [114, 47, 97])
  (li := [[104], [119], [114], [97]]) (content := [1, 2])
  ⟨by decide, by decide +kernel, 0o640, by decide +kernel, .inr (by decide)⟩ (by decide) out_z (by decide)
  (o := [102]) (lo := [[104], [119], [102]])
  ⟨[], [[104], [119]], [102], rfl, rfl, by decide, .rel, ⟨0o755, by decide +kernel, .inr (by decide)⟩,
    by decide, .inl ⟨by decide +kernel, .inr (by decide)⟩⟩ (by decide) [] []

open HLSample LLTestSample in
/-- C86 is false of the exit status: it does not tell complete copies from failures. -/
theorem C86_status_false :
    ¬ ∀ (D : Deflater) (Z : Inflater) (plain : Bytes → Bytes) (_ : DeflateOK D plain)
      (_ : InflateOK Z plain) (fuel : Nat) (e : HlTestEnv) (p a o : Bytes) (w w1 w2 : World) (r : Int)
      (l lo : Loc) (m m' : Nat) (c : Bytes),
      llTestMain D Z os fuel e [[97], p, a] w = .ok (0, w1) → locate os w true p = some l →
      w.fs l = some (.file m c) → llTestMain D Z os fuel e [[98], a, o] w1 = .ok (r, w2) →
      locate os w true o = some lo → w2.fs lo = some (.file m' c) → r = 0 := by
  intro h
  have k1 : both HLTestSample.env [[97], [114, 47, 97], [122]] [[98], [122], [102]]
      (world CopySample.nodes) [[[104], [119], [102]]] = .ok (0, 1, [some (.file 0o644 [1, 2])]) := by
    decide +kernel
  obtain ⟨w1, w2, a1, a2, a3⟩ := both_ok k1
  simp only [List.map_cons, List.map_nil, List.cons.injEq, and_true] at a3
  have := h queueD copyI id queueDOK copyIOK 9 HLTestSample.env [114, 47, 97] [122] [102]
    (world CopySample.nodes) w1 w2 1 [[104], [119], [114], [97]] [[104], [119], [102]] 0o640 0o644 [1, 2] a1
    (by decide +kernel) (by decide +kernel) a2 (by decide +kernel) a3
  exact absurd this (by decide)

open HLSample LLTestSample in
/-- C86 is false of links: they are not recreated. -/
theorem C86_links_false :
    ¬ ∀ (D : Deflater) (Z : Inflater) (plain : Bytes → Bytes) (_ : DeflateOK D plain)
      (_ : InflateOK Z plain) (fuel : Nat) (e : HlTestEnv) (p a o : Bytes) (w w1 w2 : World) (r : Int)
      (l lo : Loc) (q : List Bytes) (t : Bytes),
      llTestMain D Z os fuel e [[99], p, a] w = .ok (0, w1) → locate os w true p = some l →
      llTestMain D Z os fuel e [[98], a, o] w1 = .ok (r, w2) → locate os w true o = some lo →
      w1.fs lo = none → w.fs (l ++ q) = some (.link t) → w2.fs (lo ++ q) = some (.link t) := by
  intro h
  have k1 : both HLTestSample.env [[99], [114], [122]] [[98], [122], [111]] (world CopySample.nodes)
      [[[104], [119], [111]] ++ [[100], [107]]] = .ok (0, 1, [some (.file 0o755 [])]) := by
    decide +kernel
  have k2 : (match llTestMain queueD copyI os 9 HLTestSample.env [[99], [114], [122]]
      (world CopySample.nodes) with
      | .ok (_, w) => decide (w.fs [[104], [119], [111]] = none)
      | .error _ => false) = true := by decide +kernel
  obtain ⟨w1, w2, a1, a2, a3⟩ := both_ok k1
  rw [a1] at k2
  have := h queueD copyI id queueDOK copyIOK 9 HLTestSample.env [114] [122] [111] (world CopySample.nodes)
    w1 w2 1 [[104], [119], [114]] [[104], [119], [111]] [[100], [107]] [98] a1 (by decide +kernel) a2
    (by decide +kernel) (by simpa using k2) (by decide +kernel)
  simp only [List.map_cons, List.map_nil, List.cons.injEq, and_true] at a3
  rw [a3] at this
  cases this

open HLSample LLTestSample in
/-- C86 is false of output directories that exist: the directories of the archive are created in the
root of the file system. -/
theorem C86_root_false :
    ¬ ∀ (D : Deflater) (Z : Inflater) (plain : Bytes → Bytes) (_ : DeflateOK D plain)
      (_ : InflateOK Z plain) (fuel : Nat) (e : HlTestEnv) (p a o : Bytes) (w w1 w2 : World) (r : Int)
      (lo l : Loc),
      llTestMain D Z os fuel e [[99], p, a] w = .ok (0, w1) →
      llTestMain D Z os fuel e [[98], a, o] w1 = .ok (r, w2) → locate os w true o = some lo →
      ¬ lo <+: l → w2.fs l = w1.fs l := by
  intro h
  have k1 : both LLTestSample.env [[99], [114], [122]] [[98], [122], [111]] (world LLTestSample.nodes)
      [[[100]], [[104], [119], [111], [100]]] = .ok (0, 1, [some (.dir 0o755), none]) := by
    decide +kernel
  have k2 : (match llTestMain queueD copyI os 9 LLTestSample.env [[99], [114], [122]]
      (world LLTestSample.nodes) with
      | .ok (_, w) => decide (w.fs [[100]] = none)
      | .error _ => false) = true := by decide +kernel
  obtain ⟨w1, w2, a1, a2, a3⟩ := both_ok k1
  rw [a1] at k2
  have := h queueD copyI id queueDOK copyIOK 9 LLTestSample.env [114] [122] [111]
    (world LLTestSample.nodes) w1 w2 1 [[104], [119], [111]] [[100]] a1 a2 (by decide +kernel) (by decide)
  simp only [List.map_cons, List.map_nil, List.cons.injEq, and_true] at a3
  rw [a3.1, show w1.fs [[100]] = none by simpa using k2] at this
  cases this

namespace LongSample
open HLSample

/-- A file name of 203 bytes. -/
def name : Bytes := List.replicate 203 97

/-- `./././…/o`: with a slash and the name 4095 bytes, the most that Linux takes. -/
def out : Bytes := (List.replicate 1945 [46, 47]).flatten ++ [111]

/-- `/h/w/r` with one file. -/
def nodes : List (Loc × Node) :=
  [([[104], [119], [114]], .dir 0o755), ([[104], [119], [114], name], .file 0o644 [1])]

/-- The program on that disk; the archive is `/h/w/z`. -/
def env : HlTestEnv :=
  { HLTestSample.env with
    see := fun w => envOf os w ([[104], [119], [122]] :: CopySample.places nodes) }

end LongSample

open HLSample LLTestSample in
set_option maxRecDepth 100000 in
/-- C86 is false of long paths, also of those that the system takes: a file whose path has 4095 bytes is
created under a name that lacks its last byte. -/
theorem C86_long_path_false :
    ¬ ∀ (D : Deflater) (Z : Inflater) (plain : Bytes → Bytes) (_ : DeflateOK D plain)
      (_ : InflateOK Z plain) (fuel : Nat) (e : HlTestEnv) (p a o : Bytes) (w w1 w2 : World) (r : Int)
      (l lo : Loc) (n c : Bytes) (m : Nat),
      llTestMain D Z os fuel e [[99], p, a] w = .ok (0, w1) → locate os w true p = some l →
      llTestMain D Z os fuel e [[98], a, o] w1 = .ok (r, w2) → locate os w true o = some lo →
      w1.fs lo = none → w.fs (l ++ [n]) = some (.file m c) → (o ++ 47 :: n).length ≤ 4095 →
      ∃ m', w2.fs (lo ++ [n]) = some (.file m' c) := by
  intro h
  have k1 : both LongSample.env [[99], [114], [122]] [[98], [122], LongSample.out]
      (world LongSample.nodes) [[[104], [119], [111], LongSample.name],
        [[104], [119], [111], LongSample.name.take 202]] =
      .ok (0, 1, [none, some (.file 0o644 [1])]) := by
    decide +kernel
  have k2 : (match llTestMain queueD copyI os 9 LongSample.env [[99], [114], [122]]
      (world LongSample.nodes) with
      | .ok (_, w) => decide (w.fs [[104], [119], [111]] = none)
      | .error _ => false) = true := by decide +kernel
  obtain ⟨w1, w2, a1, a2, a3⟩ := both_ok k1
  rw [a1] at k2
  obtain ⟨m', hm⟩ := h queueD copyI id queueDOK copyIOK 9 LongSample.env [114] [122] LongSample.out
    (world LongSample.nodes) w1 w2 1 [[104], [119], [114]] [[104], [119], [111]] LongSample.name [1] 0o644 a1
    (by decide +kernel) a2 (by decide +kernel) (by simpa using k2) (by decide +kernel) (by decide +kernel)
  simp only [List.map_cons, List.map_nil, List.cons.injEq, and_true] at a3
  simp only [List.cons_append, List.nil_append] at hm
  rw [a3.1] at hm
  cases hm

open HLSample LLTestSample in
/-- C86 is false of outputs that cannot be created: `b` then has undefined behaviour, for directories
(the path of the first file is printed from a null pointer) and for files (the content is written to a
null stream). -/
theorem C86_output_false :
    (¬ ∀ (D : Deflater) (Z : Inflater) (plain : Bytes → Bytes) (_ : DeflateOK D plain)
      (_ : InflateOK Z plain) (fuel : Nat) (e : HlTestEnv) (p a o : Bytes) (w w1 : World),
      llTestMain D Z os fuel e [[99], p, a] w = .ok (0, w1) →
      ∃ r, llTestMain D Z os fuel e [[98], a, o] w1 = .ok r) ∧
    (¬ ∀ (D : Deflater) (Z : Inflater) (plain : Bytes → Bytes) (_ : DeflateOK D plain)
      (_ : InflateOK Z plain) (fuel : Nat) (e : HlTestEnv) (p a o : Bytes) (w w1 : World),
      llTestMain D Z os fuel e [[97], p, a] w = .ok (0, w1) →
      ∃ r, llTestMain D Z os fuel e [[98], a, o] w1 = .ok r) := by
  constructor
  · intro h
    have k : both HLTestSample.env [[99], [114], [122]] [[98], [122], [121, 47, 111]]
        (world CopySample.nodes) [] = .error (some .nullDeref) := by decide +kernel
    obtain ⟨r, w1, a1, a2⟩ := both_fault k
    have a1' : r = 0 := by
      have k2 : (match llTestMain queueD copyI os 9 HLTestSample.env [[99], [114], [122]]
          (world CopySample.nodes) with
          | .ok (r, _) => decide (r = 0)
          | .error _ => false) = true := by decide +kernel
      rw [a1] at k2
      simpa using k2
    subst a1'
    obtain ⟨x, hx⟩ := h queueD copyI id queueDOK copyIOK 9 HLTestSample.env [114] [122] [121, 47, 111]
      (world CopySample.nodes) w1 a1
    rw [a2] at hx
    cases hx
  · intro h
    have k : both HLTestSample.env [[97], [114, 47, 97], [122]] [[98], [122], [121, 47, 111]]
        (world CopySample.nodes) [] = .error (some .nullDeref) := by decide +kernel
    obtain ⟨r, w1, a1, a2⟩ := both_fault k
    have a1' : r = 0 := by
      have k2 : (match llTestMain queueD copyI os 9 HLTestSample.env [[97], [114, 47, 97], [122]]
          (world CopySample.nodes) with
          | .ok (r, _) => decide (r = 0)
          | .error _ => false) = true := by decide +kernel
      rw [a1] at k2
      simpa using k2
    subst a1'
    obtain ⟨x, hx⟩ := h queueD copyI id queueDOK copyIOK 9 HLTestSample.env [114, 47, 97] [122]
      [121, 47, 111] (world CopySample.nodes) w1 a1
    rw [a2] at hx
    cases hx

end Zwt
