import Verif.Props.HLTest
import Verif.Props.CopyLoose

/-! C82, sources of any size with links. -/

namespace Zwt

variable {Z : Inflater} {D : Deflater} {plain : Bytes → Bytes}

theorem LooseCopy.source {os : Os} {src src' : FS} {p : Bytes} {l : Loc} {keep : Bytes → Entry → Bool}
    {fs fs' : FS} {d : Loc} {n : Bytes} {ns : List Bytes} (hs : ∀ q, src' (l ++ q) = src (l ++ q))
    (h : LooseCopy os src' p l keep fs fs' d n ns) : LooseCopy os src p l keep fs fs' d n ns := by
  obtain ⟨h1, h2, h3, h4⟩ := h
  refine ⟨h1, fun x q hk => ?_, fun x q hk => ?_, h4⟩
  · rw [← hs (x :: q)]
    exact h2 x q ((keptAt_congr _ p l hs).2 hk)
  · exact h3 x q (fun h => hk ((keptAt_congr _ p l hs).1 h))

/-- C82, sources of any size with links: `c DIR ARCHIVE`, then `b ARCHIVE OUT`, as in
`C82_copy_directory_partial`, but for every source.  Either the second run reads beyond the output buffer
(`C39_link_end_false`), or it returns 0 and the copy has all files and directories, and every link
with its target or a non-empty end of its target (`C39_large_links_false`).
Missing, besides what is missing there: the beginnings of such targets. -/
theorem C82_copy_any_partial (CD : DeflateOK D plain) (C : InflateOK Z plain) (hfin : C.Final)
    (hfit : CD.Fits) {os : Os} (hq : os.quiet) {w : World} (ht : w.fs.tree) (env : HlTestEnv)
    (hj : env.junk.length = 120) (hh : env.hdr.length = 128) (hi : env.item.length = 40)
    (hok : ∀ k n, env.ok k n = true) (z : D.τ) (hz : D.init 9 = some z)
    -- the source, and the archive outside
    {p : Bytes} {l : Loc} (A : Archivable os w p l) (hne : ∃ x, w.fs (l ++ [x]) ≠ none) {a : Bytes}
    {la : Loc} (ha : OutFile os w a la) (hout : ¬ l <+: la)
    (hsee : Shows os (sysOpen os w a 0o666 true).2 (env.see (sysOpen os w a 0o666 true).2))
    (henv : (env.see (sysOpen os w a 0o666 true).2).ok)
    -- the target
    {pre : Bytes} (h0 : 0 ∉ pre) {d : Loc} (hd : InDir os w pre d) (ho : OpenDir os w.fs d) {n : Bytes}
    {ns : List Bytes} (hn : ∀ x ∈ n :: ns, PlainName x) (hnew : w.fs (d ++ [n]) = none)
    (hla : la ≠ d ++ [n]) (hen : Enterable os (dirMode os 0o775)) (hlen : ns.length ≤ 61)
    (hfe : ∀ q m, q ≠ [] → w.fs (l ++ q) = some (.dir m) → Enterable os (dirMode os m))
    (hcwd : CwdOk os w.fs w.cwd)
    (more more' : List Bytes) :
    ∃ (n1 : Nat) (log : List Bytes) (b : Bytes) (w2 : World), (∀ fuel, n1 ≤ fuel →
        hlTestMain D Z os fuel env ([99] :: p :: a :: more) w = .ok (0, w2)) ∧
      log.getLast? = some b ∧ w2.cwd = w.cwd ∧ Stored w.fs w2.fs la log.flatten ∧
      (b.length < 524288 → C.Prompt log.flatten →
        ∃ n0, (∀ fuel, n0 ≤ fuel → hlTestMain D Z os fuel env
            ([98] :: a :: (pre ++ joinNames (n :: ns)) :: more') w2 = .error .oobRead) ∨
          ∃ w3, (∀ fuel, n0 ≤ fuel → hlTestMain D Z os fuel env
            ([98] :: a :: (pre ++ joinNames (n :: ns)) :: more') w2 = .ok (0, w3)) ∧
          w3.cwd = w.cwd ∧ LooseCopy os w.fs p l (fun _ _ => true) w2.fs w3.fs d n ns) := by
  obtain ⟨m, o1, o2, o3⟩ := ha.open' hq
  have o1' : sysOpen os w a 0o666 true = (some la, (w.put la (.file m [])).tick) := o1
  simp only [o1'] at hsee henv
  generalize hw1 : (w.put la (.file m [])).tick = w1 at *
  have hw1fs : w1.fs = w.fs.put la (.file m []) := by rw [← hw1]; rfl
  have hw1c : w1.cwd = w.cwd := by rw [← hw1]; rfl
  have hk1 : Keeps w.fs w1.fs := by rw [hw1fs]; exact keeps_store o3
  have hsame : ∀ c q, (w.fs.put la (.file m c)) (l ++ q) = w.fs (l ++ q) := by
    intro c q
    simp only [FS.put]
    rw [if_neg]
    intro e
    exact hout ⟨q, e⟩
  have hs1 : ∀ q, w1.fs (l ++ q) = w.fs (l ++ q) := by intro q; rw [hw1fs]; exact hsame _ q
  have A1 : Archivable os w1 p l := A.beside hk1 hw1c hs1
  obtain ⟨da, na, hla2, mda, hda⟩ : ∃ da na, la = da ++ [na] ∧ ∃ mda, w.fs da = some (.dir mda) := by
    obtain ⟨_, da, na, _, e, _, _, ⟨mda, hda, _⟩, _⟩ := ha
    exact ⟨da, na, e, mda, hda⟩
  have ht1 : w1.fs.tree := by
    rw [hw1fs, hla2]
    exact tree_store ht hda (fun x hx => o3 x (by rw [hla2]; exact hx))
  -- the world after the first run
  have hput : ∀ log : List Bytes, (writePieces os log ⟨la, 0⟩ w1).fs = w.fs.put la (.file m log.flatten) ∧
      (writePieces os log ⟨la, 0⟩ w1).cwd = w.cwd := by
    intro log
    obtain ⟨e1, e2⟩ := writePieces_end hq (m := m) log [] w1 (by rw [hw1fs, FS.put_same])
    rw [List.length_nil] at e1 e2
    refine ⟨?_, by rw [e2, hw1c]⟩
    rw [e1, hw1fs, FS.put_put, List.nil_append]
  have hkept : ∃ x, KeptAt (fun _ _ => true) w1.fs p l [x] := by
    obtain ⟨x, hx⟩ := hne
    cases hx' : w.fs (l ++ [x]) with
    | none => exact absurd hx' hx
    | some node => exact ⟨x, ⟨node, by rw [hs1]; exact hx', rfl⟩, trivial⟩
  have hmain : ∀ fuel, hlTestMain D Z os fuel env ([99] :: p :: a :: more) w =
      match compressDir D (env.see w1) hlTestFilter fuel .plain p () 9 env.junk with
      | .error e => .error e
      | .ok (ret, log) => .ok (ret, writePieces os log ⟨la, 0⟩ w1) := by
    intro fuel
    rw [hlTestMain_c, hlTestDir, o1]
    rfl
  -- what C79 says for each target
  have key : ∀ w' : World, w'.fs.tree → InDir os w' pre d → OpenDir os w'.fs d →
      w'.fs (d ++ [n]) = none → CwdOk os w'.fs w'.cwd → _ :=
    fun w' t1 t2 t3 t4 t5 => C79_copy_any_partial CD C ht1 henv hsee A1 (fun _ _ => true) hkept 9 z hz
      env.junk hj env.ok hok env.hdr env.item hh hi os hq w' t1 pre h0 d t2 t3 n ns hn t4 hen hlen
      (fun q mq _ hq0 hq1 => hfe q mq hq0 (by rw [← hs1]; exact hq1)) t5
  obtain ⟨n1, log, b, k1, k2, _⟩ := key w ht hd ho hnew hcwd
  obtain ⟨p1, p2⟩ := hput log
  refine ⟨n1, log, b, writePieces os log ⟨la, 0⟩ w1, fun fuel hf => ?_, k2, p2, ⟨⟨m, ?_, o3⟩, ?_⟩, ?_⟩
  · rw [hmain, hlTestFilter_eq, k1 fuel hf]
  · rw [p1, FS.put_same]
  · intro l' hl'
    rw [p1, FS.put, if_neg hl']
  intro hb hpr
  generalize hw2 : writePieces os log ⟨la, 0⟩ w1 = w2 at *
  have hk2 : Keeps w.fs w2.fs := by rw [p1]; exact keeps_store o3
  have ht2 : w2.fs.tree := by
    rw [p1, hla2]
    exact tree_store ht hda (fun x hx => o3 x (by rw [hla2]; exact hx))
  have hread : InFile os w2 a la log.flatten :=
    ha.reads hk2 p2 (m := m) (by rw [p1, FS.put_same]) o2
  have hrd := hread.read hq
  obtain ⟨md, hmd, hmd'⟩ := ho
  have ho : OpenDir os w.fs d := ⟨md, hmd, hmd'⟩
  have hk3 : Keeps w.fs w2.tick.fs := hk2
  obtain ⟨n1', log', b', k1', k2', k3'⟩ := key w2.tick ht2 (inDir_mono hk3 p2 hd hmd) (ho.mono hk3)
    (by
      show w2.fs _ = none
      rw [p1, FS.put, if_neg (Ne.symm hla)]; exact hnew)
    (by
      show CwdOk os w2.fs w2.cwd
      rw [p2]; exact hcwd.mono hk2)
  have e1 := k1 (max n1 n1') (by omega)
  rw [k1' (max n1 n1') (by omega)] at e1
  cases e1
  rw [k2] at k2'
  cases k2'
  obtain ⟨n0, X, x1, x2, x3⟩ := k3' 0 log.flatten rfl hb
  have hc : contentAt w2.tick la = ⟨log.flatten, false⟩ := by
    have : w2.fs la = some (.file m log.flatten) := by rw [p1, FS.put_same]
    simp only [contentAt, World.tick, this]
  refine ⟨n0, x2.imp (fun hX fuel hf => ?_) (fun ⟨r, hX⟩ => ?_)⟩
  · rw [hlTestMain_b, hlTestExtract, hrd]
    simp only [Option.map_some]
    rw [hc, extractFile, x1 fuel hf, hX]
  · obtain ⟨f1, f2, f3, _⟩ := (x3 r hX).2 ((x3 r hX).1 hfin hfit) (.inr hpr)
    refine ⟨r.w, fun fuel hf => ?_, by rw [f2]; exact p2, f3.source hs1⟩
    rw [hlTestMain_b, hlTestExtract, hrd]
    simp only [Option.map_some]
    rw [hc, extractFile, x1 fuel hf, hX]
    simp [f1, CT_DIRECTORY, CT_NONE]

open HLSample CopySample HLTestSample in
/-- Example: `c r z` in `/h/w`, then `b z o/p`. -/
example := C82_copy_any_partial queueDOK copyIOK copyIOK_final queueDOK_fits os_quiet tree env
  List.length_replicate List.length_replicate List.length_replicate (fun _ _ => rfl) [] rfl archivable
  ⟨[97], by rw [at_a]; simp⟩ out_z (by decide) shows_z (fun _ => by simp [env, envOf]) (pre := []) (by decide)
  (d := [[104], [119]]) .rel ⟨0o755, by decide +kernel, .inr (by decide)⟩ (n := [111]) (ns := [[112]])
  (by decide +kernel) (by decide +kernel) (by decide) (.inr (by decide)) (by decide) enters cwd_ok [] []

end Zwt
