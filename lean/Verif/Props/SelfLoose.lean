import Verif.Proofs.SelfLoose
import Verif.Props.SelfDisk
import Verif.Props.Compressdir

/-! C70, C87: directories of any size with links. -/

namespace Zwt

variable {Z : Inflater} {D : Deflater} {plain : Bytes → Bytes}

/-- C70, directories of any size with links: as `C70_compressdir_round_trip_partial`, but for every
directory.  Either the extraction reads beyond its output buffer (`C39_link_end_false`), or the
directory arrives, all files and directories as they were, and every link with its target or with a
non-empty end of its target (`C39_large_links_false`); with the whole targets if no output buffer ends
inside one.
Missing, besides what is missing there: the beginnings of such targets. -/
theorem C70_any_partial (CD : DeflateOK D plain) (C : InflateOK Z plain)
    (env : Env) (henv : env.ok) {dir : Bytes} {es : List Entry} {f : Forest}
    (hl : env.list dir = some es) (hm : Mirror env dir es f) (z : D.τ) (hz : D.init 9 = some z)
    (junk : Bytes) (hj : junk.length = 120) (hr : f.readable (fun _ _ => true) dir)
    (hne : f.prune (fun _ _ => true) dir ≠ .nil)
    (ok : AllocOracle) (hok : ∀ k n, ok k n = true) (hdr item : Bytes) (hh : hdr.length = 128)
    (hi : item.length = 40) (os : Os) (hq : os.quiet) (w : World) (ht : w.fs.tree) (pre : Bytes)
    (h0 : 0 ∉ pre) (d : Loc) (hd : InDir os w pre d) (ho : OpenDir os w.fs d) (n : Bytes)
    (ns : List Bytes) (hn : ∀ x ∈ n :: ns, PlainName x) (hnew : w.fs (d ++ [n]) = none)
    (hen : Enterable os (dirMode os 0o775)) (hlen : ns.length ≤ 61) (hf : f.proper)
    (hfe : (f.prune (fun _ _ => true) dir).enterable os) (hcwd : CwdOk os w.fs w.cwd) :
    ∃ n1, ∀ (canOpen : Bytes → Bool) (args : List Bytes) (fuel : Nat) (t : ToolRun), n1 ≤ fuel →
      compressdirWith D env fuel junk canOpen args = .ok t → t.source = some dir →
      t.ret = 0 ∧ ∃ b, t.written.getLast? = some b ∧ (b.length < 524288 →
        ∃ n0 X, (∀ fuel, n0 ≤ fuel → extract Z os ok fuel hdr item (pre ++ joinNames (n :: ns)) 0
            ⟨t.written.flatten, false⟩ w = X) ∧ (X = .error .oobRead ∨ ∃ r, X = .ok r) ∧
          ∀ r, X = .ok r →
            (C.Final → CD.Fits → ∀ c ∈ r.codes, c = Z_OK) ∧
            ((∀ c ∈ r.codes, c = Z_OK) → 0 < r.room ∨ C.Prompt t.written.flatten →
              r.ret = CT_DIRECTORY ∧ r.w.cwd = w.cwd ∧
              ∃ g, Relinked (f.prune (fun _ _ => true) dir) g ∧
                (NoLinkCut ok r.pieces → g = f.prune (fun _ _ => true) dir) ∧
                Landed os w.fs r.w.fs d n ns g)) := by
  obtain ⟨s1, s2⟩ := select_prune (fun _ _ => true) f dir hr
  have hk : keepFilter (fun _ _ => true) = compressdirFilter := rfl
  rw [hk] at s1 s2
  have hst : (select compressdirFilter dir f ()).status ≠ .failed := by rw [s1]; decide
  rw [← s2] at hne hfe
  obtain ⟨n1, log, b, c1, c2, c3⟩ := C39_round_trip_any_partial CD C env henv compressdirFilter hl
    hm () 9 z hz junk hj hst hne ok hok hdr item hh hi os hq w ht pre h0 d hd ho n ns hn hnew hen
    hlen hf hfe hcwd
  rw [s2] at c3
  refine ⟨n1, fun canOpen args fuel t hfu hrun hsrc => ?_⟩
  have e1 := (C54_written _ _ _ hrun).1 dir hsrc
  rw [c1 fuel hfu] at e1
  injection e1 with e1
  injection e1 with e2 e3
  subst e3
  exact ⟨e2.symm, b, c2, fun hb => c3 0 t.written.flatten (by simp [allowed]) hb⟩

open HLSample in
example := C70_any_partial queueDOK copyIOK selfDirEnv
  (fun _ => by simp [selfDirEnv]) (dir := [114]) rfl selfDirMirror [] rfl (List.replicate 120 0)
  List.length_replicate ⟨fun _ => trivial, trivial⟩ (by decide +kernel) (fun _ _ => true)
  (fun _ _ => rfl) hdrMem itemMem List.length_replicate List.length_replicate os os_quiet (world [])
  world_tree [] (by decide) [[104], [119]] .rel ⟨0o755, by decide +kernel, .inr (by decide)⟩ [111] []
  (by decide +kernel) (by decide +kernel) (.inr (by decide)) (by decide)
  (by simp only [selfDirForest, Forest.proper]; decide +kernel)
  (by rw [show selfDirForest.prune (fun _ _ => true) [114] = selfDirForest by decide +kernel]
      exact ⟨.inr (by decide), trivial, trivial⟩) BigSample.cwdOk

/-- C87, directories of any size with links: as `C87_copy_partial`, but for every directory.  Either
the second run reads beyond its output buffer (`C39_link_end_false`), or it works, and makes a copy of
all files and directories, and of every link with its target or with a non-empty end of its target
(`C39_large_links_false`).
Missing, besides what is missing there: the beginnings of such targets. -/
theorem C87_copy_any_partial (CD : DeflateOK D plain) (C : InflateOK Z plain) (hfin : C.Final)
    (hfit : CD.Fits) {os : Os} (hq : os.quiet) {w : World} (ht : w.fs.tree) (env : SelfDiskEnv)
    (hj : env.junk.length = 120) (z : D.τ) (hz : D.init 9 = some z) (ndebug : Bool)
    -- the program
    {dir n : Bytes} {l : Loc} {exe : Bytes} (hexe : InFile os w (dir ++ 47 :: n) (l ++ [n]) exe)
    (hlen : (dir ++ 47 :: n).length < 4191) (hbs : 92 ∉ dir ++ 47 :: n) (hn : PlainName n)
    (hno : n ≠ strB "__out.exe") (hsize : exe.length ≤ if ndebug then 524288 else 2097152)
    -- the output file
    {m : Nat} (hout : OutProg os w (strB "__out.exe") m)
    (hone : OnlyIn w.fs l n l) (hone' : OnlyIn w.fs l (strB "__out.exe") w.cwd)
    -- the directory, with the copy of the program
    (hne : ∃ x, KeptAt (packable n (strB "__out.exe")) w.fs dir l [x])
    (hA : ∀ w' : World, w'.cwd = w.cwd → w'.fs = w.fs.put (w.cwd ++ [strB "__out.exe"]) (.file m exe) →
      Archivable os w' dir l ∧ Shows os w' (env.see w') ∧ (env.see w').ok) :
    ∃ (n1 : Nat) (log : List Bytes) (b packed : Bytes) (w2 : World), (∀ fuel, n1 ≤ fuel →
        selfDiskMain D Z os fuel env ndebug (dir ++ 47 :: n) w = .ok (0, w2)) ∧
      log.getLast? = some b ∧ w2.cwd = w.cwd ∧
      Stored w.fs w2.fs (w.cwd ++ [strB "__out.exe"]) packed ∧
      packed = exe ++ List.replicate ((if ndebug then 524288 else 2097152) - exe.length) 0 ++ log.flatten ∧
      (b.length < 524288 → C.Prompt log.flatten →
        ∀ (os' : Os) (_ : os'.quiet) (w' : World) (_ : w'.fs.tree) (env' : SelfDiskEnv)
          (_ : env'.hdr.length = 128) (_ : env'.item.length = 40) (_ : ∀ k n, env'.ok k n = true)
          (a : Bytes) (la : Loc) (_ : InFile os' w' a la packed) (_ : a.length < 4191)
          (_ : OpenDir os' w'.fs w'.cwd) (_ : Enterable os' (dirMode os' 0o775))
          (_ : ∀ v, v.fs = w'.fs → v.cwd = w'.cwd → Without (strB ".out_dir") v (env'.remove v))
          (_ : ∀ q m, KeptAt (packable n (strB "__out.exe")) w.fs dir l q → q ≠ [] →
            w.fs (l ++ q) = some (.dir m) → Enterable os' (dirMode os' m))
          (_ : CwdOk os' w'.fs w'.cwd),
        (∃ n0, ∀ fuel, n0 ≤ fuel → selfDiskMain D Z os' fuel env' ndebug a w' = .error .oobRead) ∨
        ∃ (n0 : Nat) (v w3 : World), Without (strB ".out_dir") w' v ∧ w3.cwd = w'.cwd ∧
          LooseCopy os' w.fs dir l (packable n (strB "__out.exe")) v.fs w3.fs w'.cwd
            (strB ".out_dir") [] ∧
          ∀ fuel, n0 ≤ fuel → selfDiskMain D Z os' fuel env' ndebug a w' =
            .ok (0,
              if (env'.start (strB ".out_dir/maind.exe") w3).1 = some 0
              then env'.remove (env'.start (strB ".out_dir/maind.exe") w3).2
              else (env'.start (strB ".out_dir/main.exe")
                (env'.start (strB ".out_dir/maind.exe") w3).2).2)) := by
  have hno : n ≠ OUT_FILE := hno
  have hout : OutProg os w OUT_FILE m := hout
  have hmax : (if ndebug then 524288 else 2097152) = maxExe ndebug := rfl
  rw [hmax] at hsize
  simp only [hmax]
  change OnlyIn w.fs l OUT_FILE w.cwd at hone'
  have hparts := exeParts_slash hbs hn.2.2.2.1
  obtain ⟨wb, hwbc, hwbfs, htb, o3, hrun⟩ := self_pack D Z hq ht env ndebug hlen hexe hsize hout
  obtain ⟨A, H, hE⟩ := hA wb hwbc hwbfs
  generalize hlo : w.cwd ++ [OUT_FILE] = lo at *
  have hlast : lo.getLast? = some OUT_FILE := by rw [← hlo]; simp
  -- what is packed is as before
  have hne1 : ∀ x, x ≠ lo → wb.fs x = w.fs x := by
    intro x hx; rw [hwbfs, FS.put, if_neg hx]
  have hnd1 : ∀ x, w.fs lo = some x → x.type ≠ .dir := by
    intro x hx; obtain ⟨c, rfl⟩ := o3 x hx; simp [Node.type]
  have hnd2 : ∀ x, wb.fs lo = some x → x.type ≠ .dir := by
    intro x hx; rw [hwbfs, FS.put_same] at hx; cases hx; simp [Node.type]
  have hkeep := fun q => (keptAt_out (exe := n) hlast hne1 hnd1 hnd2 q dir l)
  have hsame : ∀ q, q ≠ [] → KeptAt (packable n OUT_FILE) w.fs dir l q → wb.fs (l ++ q) = w.fs (l ++ q) :=
    fun q hq0 hk => hne1 _ ((hkeep q).2 hq0 hk)
  have hone1 : OnlyIn wb.fs l n l := by
    intro q node hx hty
    by_cases e : l ++ q ++ [n] = lo
    · rw [← hlo] at e
      exact absurd (List.append_inj_right' e rfl) (by simpa using hno)
    · exact hone q node (by rw [← hne1 _ e]; exact hx) hty
  have hone2 : OnlyIn wb.fs l OUT_FILE w.cwd := by
    intro q node hx hty
    by_cases e : l ++ q ++ [OUT_FILE] = lo
    · rw [← hlo] at e
      exact List.append_inj_left' e rfl
    · exact hone' q node (by rw [← hne1 _ e]; exact hx) hty
  obtain ⟨x, hx⟩ := hne
  obtain ⟨n1, log, b, k1, k2, k3, k4⟩ := self_tree_any CD C htb hE H A hno hone1 hone2
    ⟨x, (hkeep [x]).1.2 hx⟩ z hz env.junk hj
  obtain ⟨w2, p2, p1, p3⟩ := hrun 0 log
  rw [pwrite_far _ _ _ k3 hsize] at p1
  refine ⟨n1, log, b, _, w2, fun fuel hf => p3 fuel (by rw [hparts]; exact k1 fuel hf), k2, p2,
    ⟨⟨m, ?_, fun x hx => o3 x (by rw [← hlo]; exact hx)⟩, ?_⟩, rfl, ?_⟩
  · rw [p1, show strB "__out.exe" = OUT_FILE from rfl, hlo, FS.put_same]
  · intro l' hl'
    rw [show strB "__out.exe" = OUT_FILE from rfl, hlo] at hl'
    rw [p1, FS.put, if_neg hl']
  intro hb hpr os' hq' w' ht' env' hh hi hok a la ha hal hop hen hrm hfe hcw
  have hrd' := ha.read hq'
  obtain ⟨_, a2, ma, a3, a4⟩ := ha
  generalize hv : env'.remove w'.tick.tick = v
  have hwo : Without OUT_FOLDER w'.tick.tick v := by rw [← hv]; exact hrm w'.tick.tick rfl rfl
  have hwo' : Without OUT_FOLDER w' v := ⟨hwo.1, hwo.2, hwo.3⟩
  have hvc : v.cwd = w'.cwd := hwo.cwd
  have hdir : ∀ {l m}, l <+: w'.cwd → w'.fs l = some (.dir m) → v.fs l = some (.dir m) :=
    fun h h' => by rw [hwo'.above h]; exact h'
  obtain ⟨mo, hmo, hmo'⟩ := hop
  obtain ⟨n0, X, r1, rX, r23⟩ := k4 env'.ok hok env'.hdr env'.item hh hi os' hq' v (hwo'.tree ht') []
    (by simp) v.cwd .rel ⟨mo, hdir (by rw [hvc]; exact List.prefix_rfl) (by rw [hvc]; exact hmo), hmo'⟩
    OUT_FOLDER [] (by intro x hx; simp at hx; rw [hx]; exact outFolder_plain)
    (hwo.gone _ (by rw [hvc]; exact List.prefix_rfl)) hen (by simp)
    (fun q mq hk hq0 hd => by
      have hk' := (hkeep q).1.1 hk
      exact hfe q mq hk' hq0 (by rw [← hsame q hq0 hk']; exact hd))
    (by
      rw [hvc]
      refine ⟨hcw.1, hcw.2.1, fun x hx => ?_⟩
      have := hcw.2.2 x hx
      simp only [searchable, hwo'.above hx] at this ⊢
      exact this) hb
  have hc : contentAt w'.tick la = ⟨exe ++ List.replicate (maxExe ndebug - exe.length) 0 ++ log.flatten,
      false⟩ := by
    simp only [contentAt, World.tick, a3]
  have hlen1 : (exe ++ List.replicate (maxExe ndebug - exe.length) (0 : UInt8)).length = maxExe ndebug := by
    simp; omega
  have hpos : 0 < log.flatten.length := List.length_pos_iff.2 k3
  rcases rX with rX | ⟨r, rX⟩
  · refine .inl ⟨n0, fun fuel hf => ?_⟩
    rw [selfDiskMain, if_neg (by simp only [VC_BUFFER_SIZE]; omega), hrd']
    simp only [hc]
    rw [if_pos (by rw [List.length_append, hlen1]; omega), List.drop_left' hlen1, selfDiskRun]
    have r1' := r1 fuel hf
    rw [show ([] : Bytes) ++ joinNames [OUT_FOLDER] = OUT_FOLDER from rfl, rX] at r1'
    simp only [hq'.2.2, Bool.false_eq_true, if_false, hv, r1']
  obtain ⟨r2, r3⟩ := r23 r rX
  rw [rX] at r1
  right
  obtain ⟨f1, f2, f3⟩ := r3 (r2 hfin hfit) (.inr hpr)
  rw [hvc] at f2 f3
  refine ⟨n0, v, r.w, hwo', f2, LooseCopy.source_out hlast hne1 hnd1 hnd2 f3, fun fuel hf => ?_⟩
  rw [selfDiskMain, if_neg (by simp only [VC_BUFFER_SIZE]; omega), hrd']
  simp only [hc]
  rw [if_pos (by rw [List.length_append, hlen1]; omega), List.drop_left' hlen1, selfDiskRun]
  have r1' := r1 fuel hf
  rw [show ([] : Bytes) ++ joinNames [OUT_FOLDER] = OUT_FOLDER from rfl] at r1'
  simp only [hq'.2.2, Bool.false_eq_true, if_false, hv, r1', f1, ne_eq, not_true_eq_false]
  have g1 : FIRST_PROG = strB ".out_dir/maind.exe" := by decide +kernel
  have g2 : secondProg = strB ".out_dir/main.exe" := by decide +kernel
  rw [g1, g2]
  by_cases hs : (env'.start (strB ".out_dir/maind.exe") r.w).1 = some 0
  · rw [if_pos hs]
    have h0 : (env'.start (strB ".out_dir/maind.exe") r.w).1.getD 1 = 0 := by rw [hs]; rfl
    exact if_neg (fun h => h h0)
  · rw [if_neg hs]
    have h0 : (env'.start (strB ".out_dir/maind.exe") r.w).1.getD 1 ≠ 0 := by
      cases h : (env'.start (strB ".out_dir/maind.exe") r.w).1 with
      | none => simp
      | some k => rw [h] at hs; simpa using hs
    exact if_pos h0

open HLSample SelfSample in
/-- `r/s` started in `/h/w`, with a link in its directory. -/
example := C87_copy_any_partial queueDOK copyIOK copyIOK_final queueDOK_fits os_quiet tree env
  List.length_replicate [] rfl true (dir := [114]) (n := [115]) (l := [[104], [119], [114]]) (exe := [7, 8])
  ⟨by decide, by decide +kernel, 0o755, by decide +kernel, by decide⟩ (by decide) (by decide) (by decide)
  (by decide +kernel) (by decide) outProg (onlyIn_of (by decide +kernel)) (onlyIn_of (by decide +kernel))
  ⟨[97], ⟨.file 0o640 [1, 2], by decide +kernel, by decide +kernel⟩, trivial⟩
  (fun w' hc hf => by
    rw [after_fs] at hf
    obtain ⟨a, b, _⟩ := sees (exe := [7, 8]) hc hf
    exact ⟨archivable_of hc hf (by decide) (by decide +kernel) (m := 0o755) (by decide +kernel)
      (by decide +kernel), a, b⟩)

end Zwt
