import Verif.Proofs.ConcLocal
import Verif.Props.HLConfine

/-! Extractions side by side. -/

namespace Zwt

variable {α β : Type}

theorem Job.archive_allowed (j : Job) (plain : Bytes → Bytes) :
    j.archive plain = plain (allowed j.size 0 j.inp.data) := by
  simp only [Job.archive, allowed, Nat.sub_zero]

/-! ### The calls of one extraction -/

theorem Job.Safe.base {os : Os} {w : World} {ok : AllocOracle} {plain : Bytes → Bytes} {j : Job}
    (h : j.Safe os w ok plain) : Base os w j.pre j.dir j.name :=
  ⟨h.inDir.front h.enter h.zero, h.enter, h.plainNames _ List.mem_cons_self, h.back⟩

theorem Job.Safe.steady {os : Os} {w : World} {ok : AllocOracle} {plain : Bytes → Bytes} {j : Job}
    (h : j.Safe os w ok plain) : Steady w w j.place :=
  ⟨h.noLink, rfl, Keeps.refl _⟩

theorem Job.out_eq (j : Job) : j.out = j.pre ++ j.name ++ slashed j.names := by
  rw [Job.out, joinNames_slashed]; simp

theorem flReads_near {pre : Bytes} {d : Loc} {n : Bytes} (out : Bytes) (ds : List Bytes) : ∀ (v : HLv),
    (∀ f, v.fpOut = some f → d ++ [n] <+: f.loc) →
    (hlEventsP out v (ds.map .flRead)).Uses (Call.Near pre d n) (Call.Reply (d ++ [n]))
      fun _ => True := by
  induction ds with
  | nil => intro v _; trivial
  | cons x ds ih =>
    intro v hv
    rw [List.map_cons, hlEventsP]
    simp only [hlEventP, hlFileDataP]
    cases hf : v.fpOut with
    | none => trivial
    | some f =>
      refine ⟨hv f hf, fun (f' : OpenFile) (hf' : f'.loc = f.loc) => ih _ ?_⟩
      intro g hg
      cases hg
      rw [hf']; exact hv f hf

theorem safe_near {Z : Inflater} {plain : Bytes → Bytes} (C : InflateOK Z plain) (ok : AllocOracle)
    (os : Os) (hq : os.quiet) (w : World) (j : Job) (h : j.Safe os w ok plain) :
    ∃ n0, ∀ fuel, n0 ≤ fuel → (extractP Z ok fuel j.hdr j.item j.out j.size j.inp).All
      (fun c _ => c.Near j.pre j.dir j.name) os w := by
  refine extractP_all C ok j.hdr j.item h.hdr h.item os j.out w j.size j.inp _ ?_
  intro P pieces log hP hlog
  have B := h.base
  have hns : ∀ x ∈ j.names, PlainName x := fun x hx => h.plainNames x (List.mem_cons_of_mem _ hx)
  rw [← Job.archive_allowed j plain] at hP
  rw [Job.out_eq]
  have hfile : ∀ ds : List Bytes, (hlEventsP (j.pre ++ j.name ++ slashed j.names) HLv.init
      (.flStart :: ds.map .flRead)).All (fun c _ => c.Near j.pre j.dir j.name) os w := by
    intro ds
    refine Prog.Uses.near hq B (P := fun _ => True) ?_ h.steady
    rw [hlEventsP]
    simp only [hlEventP, hlFileStartP]
    refine ⟨⟨_, hns, rfl⟩, fun (o : Option Loc) ho => ?_⟩
    cases o with
    | none => exact flReads_near _ ds _ (by simp)
    | some l =>
      refine flReads_near _ ds _ ?_
      intro f hf
      cases hf
      exact ho l rfl
  cases hlog with
  | short => trivial
  | version => trivial
  | empty => trivial
  | unknown => trivial
  | @file h chunks a1 a2 a3 => exact hfile _
  | @dir hd _ evs owed a1 a2 a3 a4 a5 a6 a7 a8 a9 a10 =>
    obtain ⟨u, hu⟩ := hP
    have hd2 : (j.archive plain).drop 128 = pieces.flatten ++ u := by
      rw [← hu, List.append_assoc, List.drop_left' a1]
    obtain ⟨hmk, hs, hb⟩ := h.kind.resolve_left (by
      intro hne
      refine hne ?_
      rw [← hu, List.append_assoc, List.take_left' a1]
      exact a3)
    rw [Job.out_eq] at hmk
    rw [hd2] at hs hb
    have hpre := specParse_prefix ok 0 pieces.flatten u
    have hnl : ∀ t, Atom.link t ∉ (specParse ok 0 pieces.flatten).atoms :=
      fun t ht => hs _ (hpre.subset ht)
    rw [← a8.eq_of_noLink hnl] at hpre
    obtain ⟨v, hv⟩ := hpre
    rw [← hv] at hs hb
    have hmkU := mkdirRecurseP_near (d := j.dir) B j.names hns BASE_DIR_MODE
    rw [hlEventsP]
    simp only [hlEventP, hlDirStartP, andThen, Prog.bind_assoc]
    rw [Prog.all_bind]
    refine ⟨hmkU.near hq B h.steady, ?_⟩
    rw [mkdirRecurseP_run, hmk]
    simp only [ne_eq, not_true_eq_false, if_false]
    -- the world after the creation of the directory
    have hsteady : Steady w (mkdirRecurse os BASE_DIR_MODE
        (j.pre ++ j.name ++ slashed j.names) w).2 j.place := by
      have c0 : Conf w w j.place := ⟨fun _ _ => rfl, h.noLink, rfl, Keeps.refl _⟩
      have c1 := B.mkdirs c0 j.names hns BASE_DIR_MODE
      exact ⟨c1.noLink, c1.cwd, c1.keeps⟩
    refine Prog.Uses.near hq B (P := fun _ => True) ?_ hsteady
    refine ⟨trivial, fun (b : Bool) (hbb : b = false) => ?_⟩
    subst hbb
    exact within_events B j.names hns _ evs _ .idle [] ⟨by simp, by simp, by simp [HLv.init], by simp⟩
      a10 (fun a ha => hs a (List.mem_append_left _ (List.mem_append_left _ ha)))
      (balance_after (balance_after hb))

theorem safe_local {Z : Inflater} {plain : Bytes → Bytes} (C : InflateOK Z plain) (ok : AllocOracle)
    (os : Os) (hq : os.quiet) (w : World) (j : Job) (h : j.Safe os w ok plain) :
    ∃ n0, ∀ fuel, n0 ≤ fuel → (extractP Z ok fuel j.hdr j.item j.out j.size j.inp).All
      (fun c _ => c.Local os w j.place) os w := by
  obtain ⟨n0, hn⟩ := safe_near C ok os hq w j h
  exact ⟨n0, fun fuel hf => (hn fuel hf).mono fun c _ hc => (hc.local hq h.base).1⟩

/-! ### Programs side by side -/

theorem prefix_clash {r s x : Loc} (h1 : ¬ r <+: s) (h2 : ¬ s <+: r) (hx : s <+: x) : ¬ r <+: x :=
  fun h => (List.prefix_or_prefix_of_prefix h hx).elim h1 h2

theorem Twin.others {w0 w w' w1 : World} {r : Loc} (T : Twin w0 r w w') (hc : w1.cwd = w0.cwd)
    (hk : Keeps w0.fs w1.fs) (hs : ∀ q, w1.fs (r ++ q) = w'.fs (r ++ q)) : Twin w0 r w w1 :=
  ⟨T.left, ⟨fun q t => by rw [hs]; exact T.right.noLink q t, hc, hk⟩,
    fun q => by rw [hs]; exact T.same q⟩

theorem play_local {ι : Type} [DecidableEq ι] (os : Os) (w0 : World) (r : ι → Loc)
    (hr : ∀ i k, i ≠ k → ¬ r i <+: r k) (sched : List ι) :
    ∀ (ps : ι → Prog α) (ws : ι → World) (w' : World),
    (∀ i, (ps i).All (fun c _ => c.Local os w0 (r i)) os (ws i)) →
    (∀ i, Twin w0 (r i) (ws i) w') → w'.cwd = w0.cwd →
    (∀ i, (play os sched ps w').1 i = ((ps i).after os (sched.count i) (ws i)).1 ∧
      Twin w0 (r i) ((ps i).after os (sched.count i) (ws i)).2 (play os sched ps w').2) ∧
    (∀ x, (∀ i, ¬ r i <+: x) → (play os sched ps w').2.fs x = w'.fs x) ∧
    (play os sched ps w').2.cwd = w0.cwd := by
  induction sched with
  | nil => intro ps ws w' _ hT hc; exact ⟨fun i => ⟨rfl, hT i⟩, fun _ _ => rfl, hc⟩
  | cons i sched ih =>
    intro ps ws w' hA hT hc
    cases hp : ps i with
    | ret a =>
      have hsame : (fun j => if j = i then ((ps i).step os w').1 else ps j) = ps := by
        funext k
        split
        · rename_i hk; rw [hk, hp]; rfl
        · rfl
      have hcnt : ∀ k, (ps k).after os ((i :: sched).count k) (ws k) =
          (ps k).after os (sched.count k) (ws k) := by
        intro k
        rw [List.count_cons]
        split
        · rename_i hk
          rw [← eq_of_beq hk, hp]
          rfl
        · rfl
      rw [play, hsame, hp]
      obtain ⟨h1, h2⟩ := ih ps ws w' hA hT hc
      exact ⟨fun k => by rw [hcnt]; exact h1 k, h2⟩
    | call c k =>
      have hAi := hA i
      rw [hp] at hAi
      obtain ⟨e1, e2, e3⟩ := hAi.1 _ _ (hT i)
      rw [play, hp]
      simp only [Prog.step]
      obtain ⟨h1, h2, h3⟩ := ih (fun j => if j = i then k (c.exec os w').1 else ps j)
        (fun j => if j = i then (c.exec os (ws i)).2 else ws j) (c.exec os w').2 (by
          intro j
          split
          · rename_i hj; subst hj; rw [e1]; exact hAi.2
          · exact hA j) (by
          intro j
          split
          · rename_i hj; subst hj; exact e2
          · rename_i hj
            refine (hT j).others e2.right.cwd e2.right.keeps fun q => ?_
            exact e3 _ (prefix_clash (hr i j (Ne.symm hj)) (hr j i hj) (List.prefix_append _ _)))
        e2.right.cwd
      refine ⟨fun j => ?_, fun x hx => by rw [h2 x hx]; exact e3 x (hx i), h3⟩
      have := h1 j
      rw [List.count_cons]
      by_cases hj : j = i
      · subst hj
        simp only [if_true] at this
        simp only [beq_self_eq_true, if_true, Prog.after, hp, Prog.step]
        rw [e1] at this ⊢
        exact this
      · simp only [if_neg hj] at this
        rw [if_neg (by simpa using Ne.symm hj)]
        exact this

theorem amid_local (os : Os) (w0 : World) (r : Loc) (acts : List (Option (World → World)))
    (hg : ∀ g, some g ∈ acts → Elsewhere w0 r g) : ∀ (p : Prog α) (w w' : World),
    p.All (fun c _ => c.Local os w0 r) os w → Twin w0 r w w' →
    (amid os acts p w').1 = (p.after os (acts.countP Option.isNone) w).1 ∧
      Twin w0 r (p.after os (acts.countP Option.isNone) w).2 (amid os acts p w').2 := by
  induction acts with
  | nil => intro p w w' _ hT; exact ⟨rfl, hT⟩
  | cons a acts ih =>
    intro p w w' hA hT
    have ih := ih fun g h => hg g (List.mem_cons_of_mem _ h)
    cases a with
    | none =>
      rw [List.countP_cons_of_pos rfl]
      cases p with
      | ret a =>
        simp only [amid, Prog.step, Prog.after]
        exact ih _ _ _ hA hT
      | call c k =>
        obtain ⟨e1, e2, e3⟩ := hA.1 _ _ hT
        simp only [amid, Prog.step, Prog.after, e1]
        exact ih _ _ _ hA.2 e2
    | some g =>
      rw [List.countP_cons_of_neg (by simp)]
      simp only [amid]
      obtain ⟨g1, g2, g3⟩ := hg g List.mem_cons_self w'
      refine ih _ _ _ hA (hT.others (by rw [g1]; exact hT.right.cwd) ⟨?_, ?_⟩ g2)
      · exact fun l m h => g3 l _ h (by simp) (hT.right.keeps.1 l m h)
      · exact fun l t h => g3 l _ h (by simp) (hT.right.keeps.2 l t h)

/-- A program is finished after some number of calls. -/
theorem Prog.after_run (os : Os) (p : Prog α) : ∀ w, ∃ m, ∀ k, m ≤ k →
    p.after os k w = (.ret (p.run os w).1, (p.run os w).2) := by
  induction p with
  | ret a =>
    intro w
    refine ⟨0, fun k _ => ?_⟩
    induction k with
    | zero => rfl
    | succ k ih => exact ih (Nat.zero_le _)
  | call c f ih =>
    intro w
    obtain ⟨m, hm⟩ := ih (c.exec os w).1 (c.exec os w).2
    refine ⟨m + 1, fun k hk => ?_⟩
    obtain ⟨k, rfl⟩ : ∃ k', k = k' + 1 := ⟨k - 1, by omega⟩
    exact hm k (by omega)

end Zwt
