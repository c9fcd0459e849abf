import Verif.Proofs.ConcRun
import Verif.Proofs.ConcOne
import Verif.Proofs.RoundAny
import Verif.Props.HLConfine
import Verif.Props.HLRound

/-! C75, C76: extraction that is interrupted. -/

namespace Zwt

variable {Z : Inflater} {plain : Bytes → Bytes}

theorem InDir.stop {os : Os} {w : World} {pre : Bytes} {d : Loc} (h : InDir os w pre d) (n : Nat) :
    InDir (os.stopAt n) w pre d := by
  cases h with
  | rel => exact .rel
  | abs => exact .abs
  | path h => exact .path (by rw [locate_stop]; exact h)

/-- The callbacks of a directory archive with safe entries, stopped after any number of calls. -/
theorem confined_log_stop {os : Os} {w : World} {pre : Bytes} {d : Loc} {n : Bytes}
    (B : ∀ k, Base (os.stopAt k) w pre d n) (ha : Absent w.fs (d ++ [n])) (ns : List Bytes)
    (hns : ∀ x ∈ ns, PlainName x) (hmem : ∀ k, os.noMem k = false)
    (hmk : (mkdirRecurse os BASE_DIR_MODE (pre ++ n ++ slashed ns) w).1 = 0) (ok : AllocOracle)
    (Q : Bytes) (hs : ∀ a ∈ (specParse ok 0 (Q.drop 128)).atoms, SafeEntry a)
    (hb : balance 0 (specParse ok 0 (Q.drop 128)).atoms ≠ none)
    (hk : hdrKind (Q.take 128) = CT_DIRECTORY) (P : Bytes) (hP : P <+: Q) (pieces : List Bytes)
    (log : List Ev) (size : Nat) (hlog : ArchiveLog ok size P pieces log) (k : Nat) :
    (∀ x, ¬ d ++ [n] <+: x →
      ((hlEventsP (pre ++ n ++ slashed ns) HLv.init log).after os k w).2.fs x = w.fs x) ∧
    ((hlEventsP (pre ++ n ++ slashed ns) HLv.init log).after os k w).2.cwd = w.cwd := by
  obtain ⟨e1, e2⟩ := Prog.after_stop os k (hlEventsP (pre ++ n ++ slashed ns) HLv.init log) w
  rw [e1, e2]
  generalize w.calls + k = K
  by_cases h0 : (mkdirRecurse (os.stopAt K) BASE_DIR_MODE (pre ++ n ++ slashed ns) w).1 = 0
  · obtain ⟨h', g1, g2⟩ := confined_log (B K) ha ns hns hmem h0 ok Q hs hb hk P hP pieces log size hlog
    have := hlEventsP_run (os.stopAt K) (pre ++ n ++ slashed ns) log HLv.init w
    rw [show HLv.init.at w = HL.init w from rfl, g1] at this
    cases hx : (hlEventsP (pre ++ n ++ slashed ns) HLv.init log).run (os.stopAt K) w with
    | mk r w' =>
      rw [hx] at this
      cases r with
      | error e => simp [toHL, Except.map] at this
      | ok v =>
        simp only [toHL, Except.map, Except.ok.injEq] at this
        subst this
        exact ⟨g2.out, g2.cwd⟩
  · -- stopped in the creation of the output directory
    have hstop : K ≤ (mkdirRecurse (os.stopAt K) BASE_DIR_MODE (pre ++ n ++ slashed ns) w).2.calls := by
      apply Nat.le_of_not_lt
      intro hlt
      rw [← mkdirRecurseP_run] at hlt h0
      rw [Prog.run_before os K _ w hlt, mkdirRecurseP_run] at h0
      exact h0 hmk
    have c0 : Conf w w (d ++ [n]) :=
      ⟨fun _ _ => rfl, fun q t => by rw [ha q]; simp, rfl, Keeps.refl _⟩
    have c1 := (B K).mkdirs c0 ns hns BASE_DIR_MODE
    have rest : ∀ evs, hlEventsP (pre ++ n ++ slashed ns) HLv.init (.drStart :: evs) =
        (mkdirRecurseP BASE_DIR_MODE (pre ++ n ++ slashed ns)).bind fun r =>
          andThen ((if r ≠ 0 then (.ret { HLv.init with hasError := true } : Prog HLv)
            else .call .alloc fun (bad : Bool) =>
              if bad then .ret { HLv.init with dirPath := none, hasError := true }
              else .ret { HLv.init with
                dirPath := some (pre ++ n ++ slashed ns), ret := CT_DIRECTORY }).bind
            fun h => .ret (.ok h)) fun v => hlEventsP (pre ++ n ++ slashed ns) v evs := by
      intro evs
      simp only [hlEventsP, hlEventP, hlDirStartP, andThen, Prog.bind_assoc]
    cases hlog with
    | short => exact ⟨fun _ _ => rfl, rfl⟩
    | version => exact ⟨fun _ _ => rfl, rfl⟩
    | empty => exact ⟨fun _ _ => rfl, rfl⟩
    | unknown => exact ⟨fun _ _ => rfl, rfl⟩
    | @file h chunks a1 a2 a3 =>
      obtain ⟨t, rfl⟩ := hP
      rw [List.append_assoc, List.take_left' a1] at hk
      rw [hk] at a3
      exact absurd a3 (by decide)
    | dir =>
      rw [rest, Prog.run_bind, mkdirRecurseP_run]
      obtain ⟨f1, f2⟩ := Prog.run_stopped os K (andThen
        ((if (mkdirRecurse (os.stopAt K) BASE_DIR_MODE (pre ++ n ++ slashed ns) w).1 ≠ 0 then
            (.ret { HLv.init with hasError := true } : Prog HLv)
          else .call .alloc fun (bad : Bool) =>
            if bad then .ret { HLv.init with dirPath := none, hasError := true }
            else .ret { HLv.init with
              dirPath := some (pre ++ n ++ slashed ns), ret := CT_DIRECTORY }).bind
          fun h => .ret (.ok h)) fun v => hlEventsP (pre ++ n ++ slashed ns) v _) _ hstop
      rw [f1, f2]
      exact ⟨c1.out, c1.cwd⟩

/-- C75: if every entry of a directory archive has an ordinary name and none is a symbolic link,
directory ends do not outnumber directory starts, and the output directory can be created, then an
extraction that is interrupted after any number of calls has changed nothing outside the topmost
directory to create, whatever calls the system refused. -/
theorem C75_interrupted_directory (C : InflateOK Z plain) (ok : AllocOracle) (hdr item : Bytes)
    (hh : hdr.length = 128) (hi : item.length = 40) (os : Os) (hmem : ∀ k, os.noMem k = false)
    (w : World) (ht : w.fs.tree) (pre : Bytes) (h0 : 0 ∉ pre) (d : Loc) (hd : InDir os w pre d)
    (hsd : searchable os w.fs d = true) (n : Bytes) (ns : List Bytes)
    (hn : ∀ x ∈ n :: ns, PlainName x) (hback : 92 ∉ pre ++ n) (hnew : w.fs (d ++ [n]) = none)
    (hmk : (mkdirRecurse os BASE_DIR_MODE (pre ++ joinNames (n :: ns)) w).1 = 0)
    (size : Nat) (inp : Input)
    (hk : hdrKind ((plain (allowed size 0 inp.data)).take 128) = CT_DIRECTORY)
    (hs : ∀ a ∈ (specParse ok 0 ((plain (allowed size 0 inp.data)).drop 128)).atoms, SafeEntry a)
    (hb : balance 0 (specParse ok 0 ((plain (allowed size 0 inp.data)).drop 128)).atoms ≠ none) :
    ∃ n0, ∀ fuel, n0 ≤ fuel → ∀ k x, ¬ d ++ [n] <+: x →
      ((extractP Z ok fuel hdr item (pre ++ joinNames (n :: ns)) size inp).after os k w).2.fs x =
        w.fs x := by
  have hpath : pre ++ joinNames (n :: ns) = pre ++ n ++ slashed ns := by
    rw [joinNames_slashed]; simp
  rw [hpath] at hmk ⊢
  have B : ∀ k, Base (os.stopAt k) w pre d n := fun k =>
    ⟨(hd.stop k).front hsd h0, hsd, hn n List.mem_cons_self, hback⟩
  obtain ⟨n0, hn0⟩ := extractP_all C ok hdr item hh hi os (pre ++ n ++ slashed ns) w size inp
    (fun c w' => ∀ x, ¬ d ++ [n] <+: x → (c.exec os w').2.fs x = w.fs x) (by
      intro P pieces log hP hlog
      refine Prog.all_of_after os (fun w' => ∀ x, ¬ d ++ [n] <+: x → w'.fs x = w.fs x) _ w ?_
      intro k
      exact (confined_log_stop B (ht.absent hnew) ns (fun x hx => hn x (List.mem_cons_of_mem _ hx))
        hmem hmk ok _ hs hb hk P hP pieces log DEF_CHUNK_SIZE hlog k).1)
  refine ⟨n0, fun fuel hf k => ?_⟩
  exact Prog.after_of_all os (fun w' => ∀ x, ¬ d ++ [n] <+: x → w'.fs x = w.fs x) k _ w
    (fun _ _ => rfl) (hn0 fuel hf)

open HLSample in
/-- Example: an archive with a directory `d` holding a file `a`, extracted to `o/p`; the tenth call
is refused.  The whole takes 11 calls; after 9 of them `o/p/d` is there and `o/p/d/a` is not. -/
example : (∀ k, os.noMem k = false) ∧
    InDir { os with refuses := fun k => k == 9 } (world []) [] [[104], [119]] ∧
    searchable os (world []).fs [[104], [119]] = true ∧
    (∀ x ∈ [[111], [112]], PlainName x) ∧ (world []).fs [[104], [119], [111]] = none ∧
    (mkdirRecurse { os with refuses := fun k => k == 9 } BASE_DIR_MODE
      ([] ++ joinNames [[111], [112]]) (world [])).1 = 0 ∧
    hdrKind ((id (allowed 0 0 (dirArc (.dir [100] 0o755 (.file [97] 0o640 [7] .nil) .nil)))).take 128) =
      CT_DIRECTORY ∧
    (∀ a ∈ (specParse (fun _ _ => true) 0
      ((id (allowed 0 0 (dirArc (.dir [100] 0o755 (.file [97] 0o640 [7] .nil) .nil)))).drop 128)).atoms,
      SafeEntry a) ∧
    balance 0 (specParse (fun _ _ => true) 0
      ((id (allowed 0 0 (dirArc (.dir [100] 0o755 (.file [97] 0o640 [7] .nil) .nil)))).drop 128)).atoms ≠
        none ∧
    ((extractP copyI (fun _ _ => true) 5 hdrMem itemMem [111, 47, 112] 0
      ⟨dirArc (.dir [100] 0o755 (.file [97] 0o640 [7] .nil) .nil), false⟩).after
        { os with refuses := fun k => k == 9 } 9 (world [])).2.fs [[104], [119], [111], [112], [100]] =
        some (.dir 0o755) := by
  refine ⟨fun _ => rfl, .rel, by decide +kernel, by decide +kernel, by decide +kernel,
    by decide +kernel, by decide +kernel, by decide +kernel, by decide +kernel, by decide +kernel⟩

theorem flReadsP_only (os : Os) (out : Bytes) (w : World) (l : Loc) (ds : List Bytes) :
    ∀ (v : HLv) (w' : World), (∀ f, v.fpOut = some f → f.loc = l) →
    (w'.cwd = w.cwd ∧ ∀ x, x ≠ l → w'.fs x = w.fs x) →
    (hlEventsP out v (ds.map .flRead)).All
      (fun c w' => (c.exec os w').2.cwd = w.cwd ∧ ∀ x, x ≠ l → (c.exec os w').2.fs x = w.fs x) os w' := by
  induction ds with
  | nil => intro v w' _ _; trivial
  | cons d ds ih =>
    intro v w' hf hw
    rw [List.map_cons, hlEventsP, all_andThen]
    cases hfp : v.fpOut with
    | none =>
      simp only [hlEventP, hlFileDataP, hfp]
      exact ⟨trivial, fun a h => by simp [Prog.run] at h⟩
    | some f =>
      have hl := hf f hfp
      have hj : (sysWrite os w' f d).2.cwd = w.cwd ∧
          (∀ x, x ≠ l → (sysWrite os w' f d).2.fs x = w.fs x) ∧ (sysWrite os w' f d).1.loc = l := by
        simp only [sysWrite]
        split
        · exact ⟨hw.1, hw.2, hl⟩
        · split
          · refine ⟨hw.1, fun x hx => ?_, hl⟩
            simp only [World.tick, World.put, FS.put]
            rw [if_neg (by rw [hl]; exact hx)]
            exact hw.2 x hx
          · exact ⟨hw.1, hw.2, hl⟩
      simp only [hlEventP, hlFileDataP, hfp]
      refine ⟨⟨⟨hj.1, hj.2.1⟩, trivial⟩, ?_⟩
      intro a ha
      rw [run_write, run_ret] at ha ⊢
      simp only [Except.ok.injEq] at ha
      subst ha
      exact ih _ _ (by intro f' h; cases h; exact hj.2.2) ⟨hj.1, hj.2.1⟩

/-- C75 for other archives: an extraction that is interrupted after any number of calls has changed
at most the place the output path leads to, whatever calls the system refused. -/
theorem C75_interrupted_file (C : InflateOK Z plain) (ok : AllocOracle) (hdr item : Bytes)
    (hh : hdr.length = 128) (hi : item.length = 40) (os : Os) (out : Bytes) (w : World) (n : Nat)
    (inp : Input) (hk : hdrKind ((plain (allowed n 0 inp.data)).take 128) ≠ CT_DIRECTORY) :
    ∃ n0, ∀ fuel, n0 ≤ fuel → ∀ k,
      ((extractP Z ok fuel hdr item out n inp).after os k w).2.cwd = w.cwd ∧
      ∀ x, locate os w true out ≠ some x →
        ((extractP Z ok fuel hdr item out n inp).after os k w).2.fs x = w.fs x := by
  let J : World → Prop := fun w' => w'.cwd = w.cwd ∧
    ∀ x, locate os w true out ≠ some x → w'.fs x = w.fs x
  obtain ⟨n0, hn0⟩ := extractP_all C ok hdr item hh hi os out w n inp
    (fun c w' => J (c.exec os w').2) (by
      intro P pieces log hP hlog
      cases hlog.kind with
      | none => trivial
      | dir a1 a2 a3 a4 =>
        rw [(take_header hP a1).1] at a3
        exact absurd a3 hk
      | @file ds a1 a2 a3 a4 a5 =>
        obtain ⟨o1, o2, o3⟩ := open_only os w out FOPEN_MODE true
        rw [hlEventsP, all_andThen]
        simp only [hlEventP, hlFileStartP, Prog.bind]
        refine ⟨⟨⟨o1, o2⟩, ?_⟩, ?_⟩
        · show Prog.All _ os (Prog.bind (match (sysOpen os w out FOPEN_MODE true).1 with
            | none => _ | some l => _) _) _
          cases (sysOpen os w out FOPEN_MODE true).1 <;> trivial
        · intro v hv
          rw [run_open] at hv ⊢
          cases hs : (sysOpen os w out FOPEN_MODE true).1 with
          | none =>
            rw [hs] at hv
            simp only [Prog.bind, run_ret, Except.ok.injEq] at hv ⊢
            cases ds with
            | nil => exact absurd rfl a4
            | cons d ds =>
              subst hv
              rw [List.map_cons, hlEventsP, all_andThen]
              simp only [hlEventP, hlFileDataP]
              exact ⟨trivial, fun a h => by simp [Prog.run] at h⟩
          | some l =>
            rw [hs] at hv
            simp only [Prog.bind, run_ret, Except.ok.injEq] at hv ⊢
            subst hv
            have hl := o3 l hs
            have hJ : J = fun w' => w'.cwd = w.cwd ∧ ∀ x, x ≠ l → w'.fs x = w.fs x := by
              funext w'
              simp only [J, hl, ne_eq, Option.some.injEq, eq_comm (a := l)]
            rw [hJ]
            refine flReadsP_only os out w l ds _ _ (by intro f h; cases h; rfl) ?_
            have : J (sysOpen os w out FOPEN_MODE true).2 := ⟨o1, o2⟩
            rw [hJ] at this
            exact this)
  refine ⟨n0, fun fuel hf k => ?_⟩
  exact Prog.after_of_all os J k _ w ⟨rfl, fun _ _ => rfl⟩ (hn0 fuel hf)

open HLSample in
/-- Example: the file `o` exists; after one call it is empty, after two complete. -/
example : hdrKind ((id (allowed 0 0 (fileArc [1, 2, 3]))).take 128) ≠ CT_DIRECTORY ∧
    (List.range 3).map (fun k => ((extractP copyI (fun _ _ => true) 5 hdrMem itemMem [111] 0
      ⟨fileArc [1, 2, 3], false⟩).after os k
        (world [([[104], [119], [111]], .file 0o600 [9])])).2.fs [[104], [119], [111]]) =
      [some (.file 0o600 [9]), some (.file 0o600 []), some (.file 0o600 [1, 2, 3])] := by
  decide +kernel

/-! ### C76 -/

/-- C76: an extraction of the archive of a tree without links or of a beginning of it, to a path whose
directories do not exist yet, that is interrupted after any number of calls, or in which memory for names
runs out, leaves a part of the tree that the whole archive would have put there: every
directory with its mode, every file with its mode and a beginning of its content, at most one of them incomplete; what was on the disk before is still there, and nothing else is. -/
theorem C76_interrupted_tree (C : InflateOK Z plain) (ok : AllocOracle)
    (hdr item : Bytes) (hh : hdr.length = 128) (hi : item.length = 40)
    (os : Os) (hq : os.quiet) (w : World) (ht : w.fs.tree) (pre : Bytes)
    (h0 : 0 ∉ pre) (d : Loc) (hd : InDir os w pre d) (ho : OpenDir os w.fs d) (n : Bytes)
    (ns : List Bytes) (hn : ∀ x ∈ n :: ns, PlainName x) (hnew : w.fs (d ++ [n]) = none)
    (hen : Enterable os (dirMode os 0o775)) (hlen : ns.length ≤ 61) {f : Forest} (hf : f.proper)
    (hfe : f.enterable os) (hfl : f.noLinks) {junk t : Bytes} (hj : junk.length = 120)
    (he : Encodes f t) (size : Nat) (inp : Input)
    (harc : plain (allowed size 0 inp.data) <+: headerBytes 0 1 junk ++ t) :
    ∃ final, Landed os w.fs final d n ns f ∧
      ∃ n0, ∀ fuel, n0 ≤ fuel → ∀ k,
        let now := ((extractP Z ok fuel hdr item (pre ++ joinNames (n :: ns)) size inp).after os k w).2.fs
        w.fs.partOf now ∧ now.partOf final ∧ (∀ l, final l = w.fs l → now l = w.fs l) ∧ now.nearly final := by
  have fresh := fun evs rest he => tree_fresh os hq w ht pre h0 d hd ho n ns hn hnew hen hlen hf hfe
    (evs := evs) (rest := rest) (.inl hfl) he
  have adds := fun evs he => tree_fresh_adds os hq w ht pre h0 d hd ho n ns hn hnew hen hlen hf hfe
    (evs := evs) (.inl hfl) he
  -- the final disk
  obtain ⟨as, p2, _⟩ := he.atomsAny
  have hev : EvsOf f (canon as) := by
    have := p2.complete [] as rfl rfl hf.wellNamed (by simp)
    simpa using this
  obtain ⟨hF, f1, f2, f3⟩ := fresh (canon as) [] (by simpa using hev)
  obtain ⟨f4, f5, f6⟩ := f3 rfl
  refine ⟨hF.w.fs, f6, ?_⟩
  have one := fun evs he hG g => tree_fresh_one os hq w ht pre h0 d hd ho n ns hn hnew hen hlen hf hfe
    (evs := evs) (.inl hfl) he (hG := hG) g
  let J : World → Prop := fun w' => w.fs.partOf w'.fs ∧ w'.fs.partOf hF.w.fs ∧ w'.fs.nearly hF.w.fs
  have hstart : w.fs.nearly hF.w.fs := (f6.within (ht.absent hnew)).nearly
  have hend : w.fs.partOf hF.w.fs := by
    have := Prog.between os 0 _ w (adds _ hev)
    rw [show HL.init w = HLv.init.at w from rfl] at this
    have h2 := this.2
    have := hlEventsP_ok f1
    rw [show (HL.init w).w = w from rfl] at this
    rw [show (HLv.init.at w).view = (HL.init w).view from rfl, this] at h2
    exact h2
  obtain ⟨n0, hn0⟩ := extractP_all C ok hdr item hh hi os (pre ++ joinNames (n :: ns)) w size inp
    (fun c w' => J (c.exec os w').2) (by
      intro P pieces log hP hlog
      replace hP := hP.trans harc
      rcases log_tree_any hj he ok hf hfl hP hlog with rfl | ⟨evs, rest, rfl, hev⟩
      · trivial
      · refine Prog.all_of_after os J _ w fun k => ?_
        have hall := adds _ hev
        obtain ⟨hG, g1, _, g3⟩ := fresh (evs ++ rest) [] (by simpa using hev)
        obtain ⟨_, _, g6⟩ := g3 rfl
        have hFG : hG.w.fs = hF.w.fs := g6.unique f6
        obtain ⟨hM, m1, _⟩ := fresh evs rest hev
        have b1 := Prog.between os k _ _ ((List.cons_append ▸ hall : AddsAll os _ (HL.init w)
          ((.drStart :: evs) ++ rest)).before)
        refine ⟨b1.1, b1.2.trans ?_, ?_⟩
        rotate_left
        · rw [← hFG]
          have := one _ hev _ g1
          rw [show Ev.drStart :: (evs ++ rest) = (Ev.drStart :: evs) ++ rest from rfl] at this
          exact Prog.after_of_all os (fun w => w.fs.nearly hG.w.fs) k _ w (hFG ▸ hstart) this.before
        have hr : hlEvents os (pre ++ joinNames (n :: ns)) hM rest = .ok hG := by
          rw [show Ev.drStart :: (evs ++ rest) = (Ev.drStart :: evs) ++ rest from rfl,
            hlEvents_append, m1] at g1
          exact g1
        have hall' := hall
        rw [show Ev.drStart :: (evs ++ rest) = (Ev.drStart :: evs) ++ rest from rfl, AddsAll,
          hlEventsP_append, all_andThen, hlEventsP_ok m1] at hall'
        have b2 := (Prog.between os 0 _ _ (hall'.2 _ rfl)).2
        rw [hlEventsP_ok hr] at b2
        rw [hlEventsP_ok m1, ← hFG]
        exact b2)
  refine ⟨n0, fun fuel hfu k => ?_⟩
  have hJ : J _ := Prog.after_of_all os J k _ w ⟨.refl _, hend, hstart⟩ (hn0 fuel hfu)
  refine ⟨hJ.1, hJ.2.1, ?_, hJ.2.2⟩
  intro l hl
  cases hnow : ((extractP Z ok fuel hdr item (pre ++ joinNames (n :: ns)) size inp).after os k w).2.fs l with
  | none =>
    cases hw : w.fs l with
    | none => rfl
    | some a =>
      obtain ⟨b, hb, _⟩ := hJ.1 l a hw
      rw [hnow] at hb
      cases hb
  | some a =>
    obtain ⟨b, hb, hab⟩ := hJ.2.1 l a hnow
    rw [hl] at hb
    obtain ⟨c, hc, hbc⟩ := hJ.1 l b hb
    rw [hnow] at hc
    cases hc
    rw [hb, hab.antisymm hbc]

open HLSample in
/-- Example: the hypotheses hold for the tree `a`, `d/b` extracted to `o/p`; the disk after each
number of calls. -/
example : os.quiet ∧ (world []).fs.tree ∧ InDir os (world []) [] [[104], [119]] ∧
    OpenDir os (world []).fs [[104], [119]] ∧ (∀ x ∈ [[111], [112]], PlainName x) ∧
    (world []).fs [[104], [119], [111]] = none ∧ Enterable os (dirMode os 0o775) ∧
    (Forest.file [97] 0o640 [1, 2] (.dir [100] 0o755 (.file [98] 0o600 [3] .nil) .nil)).proper ∧
    (Forest.file [97] 0o640 [1, 2] (.dir [100] 0o755 (.file [98] 0o600 [3] .nil) .nil)).enterable os ∧
    (Forest.file [97] 0o640 [1, 2] (.dir [100] 0o755 (.file [98] 0o600 [3] .nil) .nil)).noLinks ∧
    id (allowed 0 0 (dirArc (.file [97] 0o640 [1, 2] (.dir [100] 0o755 (.file [98] 0o600 [3] .nil) .nil)))) =
      headerBytes 0 1 (List.replicate 120 0xEE) ++
        encode (.file [97] 0o640 [1, 2] (.dir [100] 0o755 (.file [98] 0o600 [3] .nil) .nil)) ∧
    (List.range 16).map (fun k => [[[111]], [[111], [112]], [[111], [112], [97]],
        [[111], [112], [100]], [[111], [112], [100], [98]]].filterMap fun l =>
      ((extractP copyI (fun _ _ => true) 5 hdrMem itemMem [111, 47, 112] 0
        ⟨dirArc (.file [97] 0o640 [1, 2] (.dir [100] 0o755 (.file [98] 0o600 [3] .nil) .nil)), false⟩).after
          os k (world [])).2.fs ([[104], [119]] ++ l)) =
      [[], [], [], [.dir 0o755], [.dir 0o755, .dir 0o755], [.dir 0o755, .dir 0o755],
       [.dir 0o755, .dir 0o755, .file 0o640 []],
       [.dir 0o755, .dir 0o755, .file 0o640 [1, 2]],
       [.dir 0o755, .dir 0o755, .file 0o640 [1, 2]],
       [.dir 0o755, .dir 0o755, .file 0o640 [1, 2]],
       [.dir 0o755, .dir 0o755, .file 0o640 [1, 2]],
       [.dir 0o755, .dir 0o755, .file 0o640 [1, 2], .dir 0o755],
       [.dir 0o755, .dir 0o755, .file 0o640 [1, 2], .dir 0o755, .file 0o600 []],
       [.dir 0o755, .dir 0o755, .file 0o640 [1, 2], .dir 0o755, .file 0o600 [3]],
       [.dir 0o755, .dir 0o755, .file 0o640 [1, 2], .dir 0o755, .file 0o600 [3]],
       [.dir 0o755, .dir 0o755, .file 0o640 [1, 2], .dir 0o755, .file 0o600 [3]]] := by
  refine ⟨os_quiet, world_tree, .rel, ⟨0o755, by decide +kernel, .inr (by decide)⟩,
    by decide +kernel, by decide +kernel, .inr (by decide), ?_, ⟨.inr (by decide), trivial, trivial⟩,
    ⟨trivial, trivial⟩, by decide +kernel, by decide +kernel⟩
  simp only [Forest.proper]
  decide +kernel

theorem flReadsP_part (os : Os) (hq : os.quiet) (out : Bytes) (l : Loc) (m : Nat) (fs : FS)
    (Q : Bytes) (ds : List Bytes) :
    ∀ (v : HLv) (w : World) (c : Bytes), w.fs = fs.put l (.file m c) →
    v.fpOut = some ⟨l, c.length⟩ → c ++ ds.flatten <+: Q →
    (hlEventsP out v (ds.map .flRead)).All
      (fun c w => ∃ x, x <+: Q ∧ (c.exec os w).2.fs = fs.put l (.file m x)) os w := by
  induction ds with
  | nil => intro v w c _ _ _; trivial
  | cons d ds ih =>
    intro v w c hc hfp hpre
    rw [List.map_cons, hlEventsP, all_andThen]
    have hw := write_end os hq w l m c d (by rw [hc, FS.put_same])
    have hfs : (w.put l (.file m (c ++ d))).tick.fs = fs.put l (.file m (c ++ d)) := by
      show w.fs.put _ _ = _
      rw [hc, FS.put_put]
    rw [List.flatten_cons, ← List.append_assoc] at hpre
    simp only [hlEventP, hlFileDataP, hfp]
    refine ⟨⟨⟨c ++ d, (List.prefix_append _ _).trans hpre, ?_⟩, trivial⟩, ?_⟩
    · simp only [Call.exec, hw]
      exact hfs
    · intro a ha
      rw [run_write, run_ret] at ha ⊢
      rw [hw] at ha ⊢
      simp only [Except.ok.injEq] at ha
      subst ha
      exact ih _ _ (c ++ d) hfs rfl hpre

/-- The mode of a file that `open` makes. -/
theorem open_new_mode {os : Os} {w w' : World} {p : Bytes} {mode : Nat} {l : Loc}
    (h : sysOpen os w p mode true = (some l, w')) (hnone : w.fs l = none) :
    w'.fs l = some (.file (mode &&& os.allow) []) := by
  simp only [sysOpen] at h
  split at h
  · cases h
  · split at h
    · cases h
    · rename_i l' hl
      split at h
      · rename_i m c hf
        split at h
        · cases h
        · simp only [if_true] at h
          cases h
          rw [hnone] at hf
          simp at hf
      · cases h
      · split at h
        · cases h
        · simp only [addNode] at h
          split at h
          · cases h
          · rename_i w2 hw2
            cases h
            split at hw2
            · cases hw2
              exact if_pos rfl
            · simp at hw2

/-- C76 for other archives: if the output file can be opened, then after any number of calls the disk
is as before, or the output file holds a beginning of the archived data, with its old mode or that
of a new file; everything else is as before.  (The model lets `fwrite` write at once; a buffer of the C library that is lost with the
process can only shorten the beginning.) -/
theorem C76_interrupted_file (C : InflateOK Z plain) (ok : AllocOracle) (hdr item : Bytes)
    (hh : hdr.length = 128) (hi : item.length = 40) (os : Os) (hq : os.quiet) (out : Bytes) (w : World)
    (l : Loc) (ho : (sysOpen os w out FOPEN_MODE true).1 = some l) (n : Nat)
    (inp : Input) (hk : hdrKind ((plain (allowed n 0 inp.data)).take 128) ≠ CT_DIRECTORY) :
    ∃ m, (∀ a, w.fs l = some a → ∃ c, a = .file m c) ∧ (w.fs l = none → m = 0o666 &&& os.allow) ∧
      ∃ n0, ∀ fuel, n0 ≤ fuel → ∀ k,
      ((extractP Z ok fuel hdr item out n inp).after os k w).2.fs = w.fs ∨
      ∃ c, c <+: (plain (allowed n 0 inp.data)).drop 128 ∧
        ((extractP Z ok fuel hdr item out n inp).after os k w).2.fs = w.fs.put l (.file m c) := by
  cases hs : sysOpen os w out FOPEN_MODE true with
  | mk ol w1 =>
  rw [hs] at ho
  cases ho
  obtain ⟨m, h1, h2, h3, h4⟩ := open_trunc os w w1 out _ l hs
  refine ⟨m, h4, ?_, ?_⟩
  · intro hnone
    have := open_new_mode hs hnone
    rw [h1] at this
    simpa [FS.put, FOPEN_MODE] using this
  let J : World → Prop := fun w' => ∃ c, c <+: (plain (allowed n 0 inp.data)).drop 128 ∧
    w'.fs = w.fs.put l (.file m c)
  let J' : World → Prop := fun w' => w'.fs = w.fs ∨ J w'
  obtain ⟨n0, hn0⟩ := extractP_all C ok hdr item hh hi os out w n inp
    (fun c w' => J' (c.exec os w').2) (by
      intro P pieces log hP hlog
      cases hlog.kind with
      | none => trivial
      | dir a1 a2 a3 a4 =>
        rw [(take_header hP a1).1] at a3
        exact absurd a3 hk
      | @file ds a1 a2 a3 a4 a5 =>
        rw [hlEventsP, all_andThen]
        simp only [hlEventP, hlFileStartP, Prog.bind]
        refine ⟨⟨?_, ?_⟩, ?_⟩
        · simp only [Call.exec, hs]
          exact .inr ⟨[], List.nil_prefix, h1⟩
        · simp only [Call.exec, hs]
          trivial
        · intro v hv
          rw [run_open, hs] at hv ⊢
          simp only [Prog.bind, run_ret, Except.ok.injEq] at hv ⊢
          subst hv
          have := flReadsP_part os hq out l m w.fs ((plain (allowed n 0 inp.data)).drop 128) ds
            { HLv.init with fpOut := some ⟨l, 0⟩, ret := CT_FILE } w1 [] h1 rfl (by
              rw [List.nil_append, ← a5]
              obtain ⟨t, ht⟩ := hP
              rw [← ht, List.drop_append_of_le_length a1]
              exact List.prefix_append _ _)
          exact this.mono fun c w' h => .inr h)
  refine ⟨n0, fun fuel hf k => ?_⟩
  exact Prog.after_of_all os J' k _ w (.inl rfl) (hn0 fuel hf)

open HLSample in
/-- Example: the hypothesis holds for a new file. -/
example : (sysOpen os (world []) [111] FOPEN_MODE true).1 = some [[104], [119], [111]] ∧
    hdrKind ((id (allowed 0 0 (fileArc [1, 2, 3]))).take 128) ≠ CT_DIRECTORY := by decide +kernel

end Zwt
