import Verif.Proofs.ConcTree
import Verif.Proofs.Confine

/-! Calls that depend only on, and change only, what is at and below one place. -/

namespace Zwt

variable {α β : Type}

/-- The world still has the directories and links of `w0` and its working directory, and no links
at or below `r`. -/
structure Steady (w0 w : World) (r : Loc) : Prop where
  noLink : Sealed w.fs r
  cwd : w.cwd = w0.cwd
  keeps : Keeps w0.fs w.fs

/-- Two such worlds with the same content at and below `r`. -/
structure Twin (w0 : World) (r : Loc) (w w' : World) : Prop where
  left : Steady w0 w r
  right : Steady w0 w' r
  same : ∀ q, w'.fs (r ++ q) = w.fs (r ++ q)

theorem Steady.tick {w0 w : World} {r : Loc} (h : Steady w0 w r) : Steady w0 w.tick r :=
  ⟨h.noLink, h.cwd, h.keeps⟩

theorem Steady.put {w0 w : World} {r l : Loc} (h : Steady w0 w r) (n : Node)
    (hn : ∀ t, n ≠ .link t) (hk : Keeps w.fs (w.fs.put l n)) : Steady w0 (w.put l n) r := by
  refine ⟨?_, h.cwd, h.keeps.trans hk⟩
  intro q t
  show (w.fs.put l n) _ ≠ _
  rw [FS.put]
  split
  · simpa using hn t
  · exact h.noLink q t

theorem Twin.tick {w0 w w' : World} {r : Loc} (h : Twin w0 r w w') : Twin w0 r w.tick w'.tick :=
  ⟨h.left.tick, h.right.tick, h.same⟩

theorem Twin.put {w0 w w' : World} {r l : Loc} (h : Twin w0 r w w') (n : Node)
    (hn : ∀ t, n ≠ .link t) (hk : Keeps w.fs (w.fs.put l n)) (hk' : Keeps w'.fs (w'.fs.put l n)) :
    Twin w0 r (w.put l n) (w'.put l n) := by
  refine ⟨h.left.put n hn hk, h.right.put n hn hk', ?_⟩
  intro q
  show (w'.fs.put l n) _ = (w.fs.put l n) _
  rw [FS.put, FS.put, h.same q]

theorem Twin.refl {w0 w : World} {r : Loc} (h : Steady w0 w r) : Twin w0 r w w := ⟨h, h, fun _ => rfl⟩

theorem Twin.at {w0 w w' : World} {r l : Loc} (h : Twin w0 r w w') (hl : r <+: l) :
    w'.fs l = w.fs l := by
  obtain ⟨q, rfl⟩ := hl
  exact h.same q

theorem resolve_twin {os : Os} {w0 w w' : World} {r : Loc} (T : Twin w0 r w w') (follow : Bool)
    (m : Nat) (cs : List Bytes) (hc : ∀ c ∈ cs, PlainName c) : ∀ (cur : Loc), r <+: cur →
    resolve os w'.fs follow m cur cs = resolve os w.fs follow m cur cs := by
  induction cs with
  | nil => intro cur _; rw [resolve_nil, resolve_nil]
  | cons c cs ih =>
    intro cur hr
    have hp := hc c List.mem_cons_self
    have hr' : r <+: cur ++ [c] := hr.trans (List.prefix_append _ _)
    have hs : searchable os w'.fs cur = searchable os w.fs cur := by
      simp only [searchable, T.at hr]
    rw [resolve_cons, resolve_cons, hs, if_neg (c := c = [] ∨ c = [46]) (by simp [hp.1, hp.2.1]), if_neg hp.2.2.1, if_neg (c := c = [] ∨ c = [46]) (by simp [hp.1, hp.2.1]), if_neg hp.2.2.1, T.at hr']
    split
    · rfl
    · split
      · rfl
      · rename_i t ht
        obtain ⟨q, hq⟩ := hr'
        rw [← hq] at ht
        exact absurd ht (T.left.noLink q t)
      · exact ih (fun x hx => hc x (List.mem_cons_of_mem _ hx)) _ hr'

theorem Base.resolve_same {os : Os} {w0 w w' : World} {pre : Bytes} {d : Loc} {n : Bytes}
    (B : Base os w0 pre d n) (T : Twin w0 (d ++ [n]) w w') (follow : Bool) (m : Nat)
    (cs : List Bytes) (hc : ∀ c ∈ cs, PlainName c) :
    resolve os w'.fs follow m d (n :: cs) = resolve os w.fs follow m d (n :: cs) := by
  have hn := B.name
  have e := T.at (List.prefix_refl _)
  rw [resolve_cons, resolve_cons, T.left.keeps.searchable B.dir, T.right.keeps.searchable B.dir,
    if_neg (c := n = [] ∨ n = [46]) (by simp [hn.1, hn.2.1]), if_neg hn.2.2.1,
    if_neg (c := n = [] ∨ n = [46]) (by simp [hn.1, hn.2.1]), if_neg hn.2.2.1, e]
  split
  · rfl
  · split
    · rfl
    · rename_i t ht
      exact absurd ht (by simpa using T.left.noLink [] t)
    · exact resolve_twin T follow m cs hc _ (List.prefix_refl _)

/-- How a path through the front is resolved. -/
theorem Base.locate_eq {os : Os} {w0 : World} {pre : Bytes} {d : Loc} {n : Bytes}
    (B : Base os w0 pre d n) (ns : List Bytes) (hns : ∀ x ∈ ns, PlainName x) (follow : Bool) :
    ∃ m, ∀ w, Steady w0 w (d ++ [n]) →
      Zwt.locate os w follow (pre ++ n ++ slashed ns) = resolve os w.fs follow m d (n :: ns) := by
  obtain ⟨_, b, cs, m, h1, h2⟩ := B.front
  refine ⟨m, fun w h => ?_⟩
  have hp := h2 (n ++ slashed ns) (by simp [B.name.1]) (by
    have := B.name.head
    cases hn : n with
    | nil => exact absurd hn B.name.1
    | cons a as => rw [hn] at this; simpa using this)
  rw [← h.cwd, ← List.append_assoc] at hp
  rw [Zwt.locate, if_neg (by simp [B.name.1]), hp.1, hp.2,
    splitPath_slashed n ns B.name.2.2.2.1 (fun x hx => (hns x hx).2.2.2.1),
    (h1.mono h.keeps).resolve follow _ (by simp)]

theorem Base.locate_same {os : Os} {w0 w w' : World} {pre : Bytes} {d : Loc} {n : Bytes}
    (B : Base os w0 pre d n) (T : Twin w0 (d ++ [n]) w w') (ns : List Bytes)
    (hns : ∀ x ∈ ns, PlainName x) (follow : Bool) :
    Zwt.locate os w' follow (pre ++ n ++ slashed ns) =
      Zwt.locate os w follow (pre ++ n ++ slashed ns) := by
  obtain ⟨m, h⟩ := B.locate_eq ns hns follow
  rw [h w T.left, h w' T.right]
  exact B.resolve_same T follow m ns hns

theorem Base.locate_in {os : Os} {w0 w : World} {pre : Bytes} {d : Loc} {n : Bytes}
    (B : Base os w0 pre d n) (h : Steady w0 w (d ++ [n])) (ns : List Bytes)
    (hns : ∀ x ∈ ns, PlainName x) (follow : Bool) (l : Loc)
    (hl : Zwt.locate os w follow (pre ++ n ++ slashed ns) = some l) : d ++ [n] <+: l := by
  obtain ⟨m, hm⟩ := B.locate_eq ns hns follow
  rw [hm w h] at hl
  exact resolve_sealed_from os w.fs follow m d n B.name h.noLink ns hns l hl

/-- Without following a last link: something that stays. -/
theorem Walks.stays {os : Os} {fs : FS} {n m : Nat} {cur e : Loc} {cs : List Bytes}
    (h : Walks os fs n cur cs m e) (he : ∃ md, fs e = some (.dir md)) :
    ∃ l, ∀ fs', Keeps fs fs' → Zwt.resolve os fs' false n cur cs = some l ∧ fs' l ≠ none := by
  induction h with
  | nil =>
    obtain ⟨md, he⟩ := he
    exact ⟨_, fun fs' hk => ⟨resolve_nil .., by rw [hk.1 _ _ he]; simp⟩⟩
  | skip h1 h2 _ ih =>
    obtain ⟨l, hl⟩ := ih he
    refine ⟨l, fun fs' hk => ?_⟩
    rw [resolve_cons, if_neg (by simp [hk.searchable h1]), if_pos h2]
    exact hl fs' hk
  | up h1 _ ih =>
    obtain ⟨l, hl⟩ := ih he
    refine ⟨l, fun fs' hk => ?_⟩
    rw [resolve_cons, if_neg (by simp [hk.searchable h1]), if_neg (by simp), if_pos rfl]
    exact hl fs' hk
  | dir h1 h2 h3 h4 _ ih =>
    obtain ⟨l, hl⟩ := ih he
    refine ⟨l, fun fs' hk => ?_⟩
    rw [resolve_cons, if_neg (by simp [hk.searchable h1]), if_neg h2, if_neg h3, hk.1 _ _ h4]
    exact hl fs' hk
  | @link n cur c cs m d t h1 h2 h3 h4 _ ih =>
    obtain ⟨l, hl⟩ := ih he
    by_cases hc : cs = [] ∧ ¬ false = true
    · refine ⟨cur ++ [c], fun fs' hk => ?_⟩
      rw [resolve_cons, if_neg (by simp [hk.searchable h1]), if_neg h2, if_neg h3, hk.2 _ _ h4]
      simp only
      rw [if_pos hc]
      exact ⟨rfl, by simp⟩
    · refine ⟨l, fun fs' hk => ?_⟩
      rw [resolve_cons, if_neg (by simp [hk.searchable h1]), if_neg h2, if_neg h3, hk.2 _ _ h4]
      simp only
      rw [if_neg hc]
      exact hl fs' hk

/-- A part that ends inside the front: what `mkdir` and `stat` say of it. -/
theorem Base.part_calls {os : Os} (hq : os.quiet) {w0 : World} {pre : Bytes} {d : Loc} {n : Bytes}
    (B : Base os w0 pre d n) (s t : Bytes) (hs : pre = s ++ 47 :: t) :
    ∃ r b, ∀ w, Steady w0 w (d ++ [n]) →
      (∀ mode, sysMkdir os w s mode = (r, w.tick)) ∧ sysIsDir os w s = (b, w.tick) := by
  by_cases hne : s = []
  · subst hne
    refine ⟨.fail, false, fun w _ => ⟨fun mode => ?_, ?_⟩⟩
    · simp [sysMkdir, hq.1, Zwt.locate]
    · simp [sysIsDir, hq.1, Zwt.locate]
  obtain ⟨_, b, cs, m, h1, h2⟩ := B.front
  have hp := h2 n B.name.1 B.name.head
  subst hs
  rw [List.append_assoc, List.cons_append, pathBase_append _ _ _ hne, splitPath_append,
    splitPath_plain n B.name.2.2.2.1] at hp
  obtain ⟨cs', hcs⟩ : ∃ cs', cs = splitPath s ++ cs' := by
    have hx := congrArg List.dropLast hp.2
    rw [List.dropLast_concat, List.dropLast_append_of_ne_nil (splitPath_ne_nil _)] at hx
    exact ⟨_, hx.symm⟩
  obtain ⟨k, e, g1, g2⟩ := h1.split _ _ hcs
  have he : ∃ md, w0.fs e = some (.dir md) := by
    refine searchable_dir (os := os) ?_
    cases g2 with
    | nil => exact B.dir
    | skip a => exact a
    | up a => exact a
    | dir a => exact a
    | link a => exact a
  obtain ⟨l, hl⟩ := g1.stays he
  obtain ⟨md, he⟩ := he
  refine ⟨.exist, true, fun w h => ⟨fun mode => ?_, ?_⟩⟩
  · obtain ⟨l1, l2⟩ := hl w.fs h.keeps
    cases hw : w.fs l with
    | none => exact absurd hw l2
    | some x =>
      simp only [sysMkdir, hq.1, Bool.false_eq_true, if_false, Zwt.locate, if_neg hne, h.cwd, hp.1, l1, hw]
  · simp only [sysIsDir, hq.1, Bool.false_eq_true, if_false, Zwt.locate, if_neg hne, h.cwd, hp.1,
      (g1.mono h.keeps).resolve_end, h.keeps.1 _ _ he]

/-! ### Local calls -/

/-- The call does the same in two worlds that are the same at and below `r`, and changes nothing
else. -/
def Call.Local (os : Os) (w0 : World) (r : Loc) (c : Call) : Prop :=
  ∀ w w', Twin w0 r w w' →
    (c.exec os w').1 = (c.exec os w).1 ∧ Twin w0 r (c.exec os w).2 (c.exec os w').2 ∧
    ∀ x, ¬ r <+: x → (c.exec os w').2.fs x = w'.fs x

theorem Twin.writable {os : Os} {w0 w w' : World} {pre : Bytes} {d : Loc} {n : Bytes}
    (B : Base os w0 pre d n) (T : Twin w0 (d ++ [n]) w w') {l : Loc} (hl : d ++ [n] <+: l) :
    Zwt.writable os w'.fs l.dropLast = Zwt.writable os w.fs l.dropLast := by
  obtain ⟨q, rfl⟩ := hl
  rcases List.eq_nil_or_concat q with rfl | ⟨q', x, rfl⟩
  · obtain ⟨m, hm⟩ := searchable_dir B.dir
    simp only [List.append_nil, List.dropLast_concat, Zwt.writable, T.left.keeps.1 _ _ hm,
      T.right.keeps.1 _ _ hm]
  · rw [List.concat_eq_append, ← List.append_assoc, List.dropLast_concat]
    simp only [Zwt.writable, T.same q']

theorem put_other {fs : FS} {r l x : Loc} (hl : r <+: l) (hx : ¬ r <+: x) (n : Node) :
    fs.put l n x = fs x := by
  rw [FS.put, if_neg (fun (he : x = l) => hx (by rw [he]; exact hl))]

/-- Storing a new node. -/
theorem Twin.add {os : Os} {w0 w w' : World} {pre : Bytes} {d : Loc} {n : Bytes}
    (B : Base os w0 pre d n) (T : Twin w0 (d ++ [n]) w w') {l : Loc} (hl : d ++ [n] <+: l)
    (hnone : w.fs l = none) (x : Node) (hx : ∀ t, x ≠ .link t) :
    (addNode os w l x = none ∧ addNode os w' l x = none) ∨
      addNode os w l x = some (w.put l x) ∧ addNode os w' l x = some (w'.put l x) ∧
        Twin w0 (d ++ [n]) (w.put l x) (w'.put l x) := by
  have hnone' : w'.fs l = none := by rw [T.at hl, hnone]
  simp only [addNode, T.writable B hl]
  split
  · exact .inr ⟨rfl, rfl, T.put x hx (Keeps.put hnone _) (Keeps.put hnone' _)⟩
  · exact .inl ⟨rfl, rfl⟩

theorem local_alloc {os : Os} (hq : os.quiet) (w0 : World) (r : Loc) :
    Call.Local os w0 r .alloc := by
  intro w w' T
  simp only [Call.exec, hq.2.2]
  exact ⟨trivial, T.tick, fun _ _ => rfl⟩

theorem local_nop (os : Os) (w0 : World) (r : Loc) : Call.Local os w0 r .nop :=
  fun _ _ T => ⟨rfl, T.tick, fun _ _ => rfl⟩

theorem local_mkdir {os : Os} (hq : os.quiet) {w0 : World} {pre : Bytes} {d : Loc} {n : Bytes}
    (B : Base os w0 pre d n) (ns : List Bytes) (hns : ∀ x ∈ ns, PlainName x) (s : Bytes)
    (hs : PathCut (pre ++ n ++ slashed ns) s) (mode : Nat) :
    Call.Local os w0 (d ++ [n]) (.mkdir s mode) := by
  intro w w' T
  rcases cut_cases pre n ns B.name.2.2.2.1 (fun x hx => (hns x hx).2.2.2.1) s hs with
    ⟨t, ht⟩ | ⟨ns', hp, rfl⟩
  · obtain ⟨r, b, h⟩ := B.part_calls hq s t ht
    simp only [Call.exec, (h w T.left).1, (h w' T.right).1]
    exact ⟨trivial, T.tick, fun _ _ => rfl⟩
  · have hns' : ∀ x ∈ ns', PlainName x := fun x hx => hns x (hp.subset hx)
    simp only [Call.exec, sysMkdir, hq.1, Bool.false_eq_true, if_false, B.locate_same T ns' hns']
    cases hl : Zwt.locate os w false (pre ++ n ++ slashed ns') with
    | none => exact ⟨rfl, T.tick, fun _ _ => rfl⟩
    | some l =>
      have hin := B.locate_in T.left ns' hns' false l hl
      simp only [T.at hin]
      cases hw : w.fs l with
      | some x => exact ⟨rfl, T.tick, fun _ _ => rfl⟩
      | none =>
        simp only
        rcases T.add B hin hw (.dir (mode &&& 0o1777 &&& os.allow)) (by simp) with
          ⟨h1, h2⟩ | ⟨h1, h2, h3⟩
        · rw [h1, h2]; exact ⟨rfl, T.tick, fun _ _ => rfl⟩
        · rw [h1, h2]; exact ⟨rfl, h3.tick, fun x hx => put_other hin hx _⟩

theorem local_isDir {os : Os} (hq : os.quiet) {w0 : World} {pre : Bytes} {d : Loc} {n : Bytes}
    (B : Base os w0 pre d n) (ns : List Bytes) (hns : ∀ x ∈ ns, PlainName x) (s : Bytes)
    (hs : PathCut (pre ++ n ++ slashed ns) s) :
    Call.Local os w0 (d ++ [n]) (.isDir s) := by
  intro w w' T
  rcases cut_cases pre n ns B.name.2.2.2.1 (fun x hx => (hns x hx).2.2.2.1) s hs with
    ⟨t, ht⟩ | ⟨ns', hp, rfl⟩
  · obtain ⟨r, b, h⟩ := B.part_calls hq s t ht
    simp only [Call.exec, (h w T.left).2, (h w' T.right).2]
    exact ⟨trivial, T.tick, fun _ _ => rfl⟩
  · have hns' : ∀ x ∈ ns', PlainName x := fun x hx => hns x (hp.subset hx)
    simp only [Call.exec, sysIsDir, hq.1, Bool.false_eq_true, if_false, B.locate_same T ns' hns']
    cases hl : Zwt.locate os w true (pre ++ n ++ slashed ns') with
    | none => exact ⟨rfl, T.tick, fun _ _ => rfl⟩
    | some l =>
      have hin := B.locate_in T.left ns' hns' true l hl
      simp only [T.at hin]
      cases hw : w.fs l with
      | none => exact ⟨rfl, T.tick, fun _ _ => rfl⟩
      | some x => cases x <;> exact ⟨rfl, T.tick, fun _ _ => rfl⟩

theorem local_open {os : Os} (hq : os.quiet) {w0 : World} {pre : Bytes} {d : Loc} {n : Bytes}
    (B : Base os w0 pre d n) (ns : List Bytes) (hns : ∀ x ∈ ns, PlainName x) (mode : Nat)
    (trunc : Bool) :
    Call.Local os w0 (d ++ [n]) (.openFile (pre ++ n ++ slashed ns) mode trunc) ∧
    ∀ w, Steady w0 w (d ++ [n]) → ∀ l,
      (sysOpen os w (pre ++ n ++ slashed ns) mode trunc).1 = some l → d ++ [n] <+: l := by
  constructor
  · intro w w' T
    simp only [Call.exec, sysOpen, hq.1, Bool.false_eq_true, if_false, B.locate_same T ns hns]
    cases hl : Zwt.locate os w true (pre ++ n ++ slashed ns) with
    | none => exact ⟨rfl, T.tick, fun _ _ => rfl⟩
    | some l =>
      have hin := B.locate_in T.left ns hns true l hl
      simp only [T.at hin]
      cases hw : w.fs l with
      | none =>
        simp only
        split
        · exact ⟨rfl, T.tick, fun _ _ => rfl⟩
        · rcases T.add B hin hw (.file (mode &&& os.allow) []) (by simp) with
            ⟨h1, h2⟩ | ⟨h1, h2, h3⟩
          · rw [h1, h2]; exact ⟨rfl, T.tick, fun _ _ => rfl⟩
          · rw [h1, h2]; exact ⟨rfl, h3.tick, fun x hx => put_other hin hx _⟩
      | some x =>
        cases x with
        | dir m => exact ⟨rfl, T.tick, fun _ _ => rfl⟩
        | link t => exact ⟨rfl, T.tick, fun _ _ => rfl⟩
        | file m c =>
          have hw' : w'.fs l = some (.file m c) := by rw [T.at hin, hw]
          simp only
          split
          · exact ⟨rfl, T.tick, fun _ _ => rfl⟩
          · split
            · exact ⟨rfl, (T.put (.file m []) (by simp) (Keeps.putFile hw _)
                (Keeps.putFile hw' _)).tick, fun x hx => put_other hin hx _⟩
            · exact ⟨rfl, T.tick, fun _ _ => rfl⟩
  · intro w h l ho
    simp only [sysOpen, hq.1, Bool.false_eq_true, if_false] at ho
    cases hl : Zwt.locate os w true (pre ++ n ++ slashed ns) with
    | none => rw [hl] at ho; simp at ho
    | some l' =>
      have hin := B.locate_in h ns hns true l' hl
      rw [hl] at ho
      have : l' = l := by
        simp only at ho
        split at ho
        · split at ho
          · simp at ho
          · split at ho <;> simpa using ho
        · simp at ho
        · split at ho
          · simp at ho
          · split at ho
            · simp at ho
            · simpa using ho
      rw [← this]
      exact hin

theorem local_write {os : Os} (hq : os.quiet) (w0 : World) (r : Loc) (f : OpenFile) (hf : r <+: f.loc)
    (data : Bytes) : Call.Local os w0 r (.write f data) := by
  intro w w' T
  simp only [Call.exec, sysWrite, hq.1, Bool.false_eq_true, if_false, T.at hf,
    List.take_of_length_le (hq.2.1 _ _)]
  cases hw : w.fs f.loc with
  | none => exact ⟨rfl, T.tick, fun _ _ => rfl⟩
  | some x =>
    cases x with
    | dir m => exact ⟨rfl, T.tick, fun _ _ => rfl⟩
    | link t => exact ⟨rfl, T.tick, fun _ _ => rfl⟩
    | file m c =>
      have hw' : w'.fs f.loc = some (.file m c) := by rw [T.at hf, hw]
      exact ⟨rfl, (T.put _ (by simp) (Keeps.putFile hw _) (Keeps.putFile hw' _)).tick,
        fun x hx => put_other hf hx _⟩

theorem write_loc (os : Os) (w : World) (f : OpenFile) (data : Bytes) :
    (sysWrite os w f data).1.loc = f.loc := by
  simp only [sysWrite]
  split
  · rfl
  · split <;> rfl

/-! ### Programs of local calls -/

/-- A call that extraction makes at or below `d/n` (or on the path to it). -/
def Call.Near (pre : Bytes) (d : Loc) (n : Bytes) : Call → Prop
  | .alloc => True
  | .nop => True
  | .mkdir s _ => ∃ ns, (∀ x ∈ ns, PlainName x) ∧ PathCut (pre ++ n ++ slashed ns) s
  | .isDir s => ∃ ns, (∀ x ∈ ns, PlainName x) ∧ PathCut (pre ++ n ++ slashed ns) s
  | .openFile s _ _ => ∃ ns, (∀ x ∈ ns, PlainName x) ∧ s = pre ++ n ++ slashed ns
  | .write f _ => d ++ [n] <+: f.loc
  | _ => False

/-- What such a call may return. -/
def Call.Reply (r : Loc) : (c : Call) → c.Res → Prop
  | .alloc, b => b = false
  | .openFile _ _ _, o => ∀ l, o = some l → r <+: l
  | .write f _, f' => f'.loc = f.loc
  | _, _ => True

theorem Call.Near.local {os : Os} (hq : os.quiet) {w0 : World} {pre : Bytes} {d : Loc} {n : Bytes}
    (B : Base os w0 pre d n) {c : Call} (h : c.Near pre d n) :
    c.Local os w0 (d ++ [n]) ∧ ∀ w, Steady w0 w (d ++ [n]) → c.Reply (d ++ [n]) (c.exec os w).1 := by
  cases c with
  | alloc => exact ⟨local_alloc hq _ _, fun w _ => hq.2.2 _⟩
  | nop => exact ⟨local_nop _ _ _, fun _ _ => trivial⟩
  | mkdir s m =>
    obtain ⟨ns, h1, h2⟩ := h
    exact ⟨local_mkdir hq B ns h1 s h2 m, fun _ _ => trivial⟩
  | isDir s =>
    obtain ⟨ns, h1, h2⟩ := h
    exact ⟨local_isDir hq B ns h1 s h2, fun _ _ => trivial⟩
  | openFile s m t =>
    obtain ⟨ns, h1, rfl⟩ := h
    exact local_open hq B ns h1 m t
  | write f x => exact ⟨local_write hq _ _ f h x, fun w _ => write_loc os w f x⟩
  | symlink t p => exact h.elim
  | chdir p => exact h.elim
  | getcwd k => exact h.elim

/-- A program of calls in `A`, as long as the replies are in `R`; its result is in `Post`. -/
def Prog.Uses (A : Call → Prop) (R : (c : Call) → c.Res → Prop) (Post : α → Prop) : Prog α → Prop
  | .ret a => Post a
  | .call c k => A c ∧ ∀ r, R c r → (k r).Uses A R Post

theorem Prog.Uses.bind {A : Call → Prop} {R : (c : Call) → c.Res → Prop} {P : α → Prop}
    {P' : β → Prop} {p : Prog α} {k : α → Prog β} (hp : p.Uses A R P)
    (hk : ∀ a, P a → (k a).Uses A R P') : (p.bind k).Uses A R P' := by
  induction p with
  | ret a => exact hk a hp
  | call c f ih => exact ⟨hp.1, fun r hr => ih r (hp.2 r hr)⟩

theorem Prog.Uses.mono {A : Call → Prop} {R : (c : Call) → c.Res → Prop} {P P' : α → Prop}
    {p : Prog α} (hp : p.Uses A R P) (h : ∀ a, P a → P' a) : p.Uses A R P' := by
  induction p with
  | ret a => exact h a hp
  | call c f ih => exact ⟨hp.1, fun r hr => ih r (hp.2 r hr)⟩

theorem Prog.Uses.calls {A A' : Call → Prop} {R : (c : Call) → c.Res → Prop} {P : α → Prop}
    {p : Prog α} (hp : p.Uses A R P) (h : ∀ c, A c → A' c) : p.Uses A' R P := by
  induction p with
  | ret a => exact hp
  | call c f ih => exact ⟨h c hp.1, fun r hr => ih r (hp.2 r hr)⟩

theorem uses_andThen {A : Call → Prop} {R : (c : Call) → c.Res → Prop}
    {P : Run β → Prop} {p : Prog (Run α)} {k : α → Prog (Run β)}
    (hp : p.Uses A R fun r => ∃ a, r = .ok a ∧ (k a).Uses A R P) : (andThen p k).Uses A R P := by
  refine hp.bind ?_
  rintro _ ⟨a, rfl, h⟩
  exact h

theorem Prog.Uses.near {os : Os} (hq : os.quiet) {w0 : World} {pre : Bytes} {d : Loc} {n : Bytes}
    (B : Base os w0 pre d n) {P : α → Prop} {p : Prog α} :
    ∀ {w : World}, p.Uses (Call.Near pre d n) (Call.Reply (d ++ [n])) P → Steady w0 w (d ++ [n]) →
    p.All (fun c _ => c.Near pre d n) os w := by
  induction p with
  | ret a => intro w _ _; trivial
  | call c f ih =>
    intro w hp hw
    obtain ⟨h1, h2⟩ := hp.1.local hq B
    exact ⟨hp.1, ih _ (hp.2 _ (h2 w hw)) (h1 w w (.refl hw)).2.1.left⟩

/-! ### The programs of extraction -/

section

variable {pre : Bytes} {d : Loc} {n : Bytes}

/-- The calls made for the directories of a path. -/
def Call.Along (path : Bytes) : Call → Prop
  | .alloc => True
  | .mkdir s _ => PathCut path s
  | .isDir s => PathCut path s
  | _ => False

theorem osCreateP_along {r : Loc} (path s : Bytes) (mode : Nat) (hs : PathCut path s) :
    (osCreateP s mode).Uses (Call.Along path) (Call.Reply r) fun _ => True := by
  refine ⟨hs, fun (r : MkRes) _ => ?_⟩
  cases r with
  | ok => trivial
  | fail => trivial
  | exist => exact ⟨hs, fun _ _ => trivial⟩

theorem mkRestoreP_along {r : Loc} (path : Bytes) (mode : Nat) (h0 : 0 ∉ path) (idxs : List Nat) :
    ∀ (mem : Bytes), MemOk path idxs mem →
    (mkRestoreP mode idxs mem).Uses (Call.Along path) (Call.Reply r) fun _ => True := by
  induction idxs with
  | nil => intro mem _; trivial
  | cons i idxs ih =>
    intro mem hm
    refine (osCreateP_along path _ mode (hm.restore.cut h0)).bind fun r _ => ?_
    split
    · trivial
    · exact ih _ hm.restore

theorem mkCutP_along {r : Loc} (path : Bytes) (mode : Nat) (h0 : 0 ∉ path)
    (hb : ∀ s, PathCut path s → 47 ∉ s → 92 ∉ s) (k : Nat) :
    ∀ (idxs : List Nat) (mem : Bytes), MemOk path idxs mem →
    (mkCutP mode k idxs mem).Uses (Call.Along path) (Call.Reply r) fun _ => True := by
  induction k with
  | zero => intro idxs mem _; trivial
  | succ k ih =>
    intro idxs mem hm
    simp only [mkCutP]
    cases hd : fileDelimiter (cString mem) with
    | none => trivial
    | some i =>
      have hi : (cString mem)[i]? = some 47 := by
        simp only [fileDelimiter] at hd
        split at hd
        · rename_i j hj
          cases hd
          exact lastIndexOf_some hj
        · rename_i hn
          have h47 := lastIndexOf_eq_none hn
          have h92 := hb _ (hm.cut h0) h47
          rw [lastIndexOf_none 92 _ h92] at hd
          simp at hd
      have hp := hm.push h0 hi
      refine (osCreateP_along path _ mode (hp.cut h0)).bind fun r _ => ?_
      split
      · trivial
      · split
        · split
          · exact mkRestoreP_along path mode h0 _ _ hp
          · trivial
        · exact ih _ _ hp

theorem mkdirRecurseP_along {r : Loc} {os : Os} {w0 : World} (B : Base os w0 pre d n) (ns : List Bytes)
    (hns : ∀ x ∈ ns, PlainName x) (mode : Nat) :
    (mkdirRecurseP mode (pre ++ n ++ slashed ns)).Uses (Call.Along (pre ++ n ++ slashed ns))
      (Call.Reply r) fun _ => True := by
  have h0 : 0 ∉ pre ++ n ++ slashed ns := by
    have h0 := B.front.1
    simp only [List.mem_append, not_or]
    refine ⟨⟨h0, B.name.2.2.2.2⟩, ?_⟩
    intro hm
    simp only [slashed, List.mem_flatten, List.mem_map] at hm
    obtain ⟨_, ⟨x, hx, rfl⟩, hm⟩ := hm
    rcases List.mem_cons.mp hm with h | h
    · exact absurd h (by decide)
    · exact (hns x hx).2.2.2.2 h
  refine ⟨trivial, fun (b : Bool) _ => ?_⟩
  cases b with
  | true => trivial
  | false =>
    refine (osCreateP_along _ _ mode (.inl rfl)).bind fun r _ => ?_
    split
    · trivial
    · exact mkCutP_along _ mode h0 (fun s hs h => B.backslash ns hns s hs h) 62 [] _
        ⟨rfl, by simp, by simp, by simp⟩

theorem mkdirRecurseP_near {os : Os} {w0 : World} (B : Base os w0 pre d n) (ns : List Bytes)
    (hns : ∀ x ∈ ns, PlainName x) (mode : Nat) :
    (mkdirRecurseP mode (pre ++ n ++ slashed ns)).Uses (Call.Near pre d n)
      (Call.Reply (d ++ [n])) fun _ => True := by
  refine (mkdirRecurseP_along B ns hns mode).calls ?_
  intro c hc
  cases c with
  | alloc => trivial
  | mkdir s m => exact ⟨ns, hns, hc⟩
  | isDir s => exact ⟨ns, hns, hc⟩
  | nop => trivial
  | openFile s m t => exact hc.elim
  | write f x => exact hc.elim
  | symlink t p => exact hc.elim
  | chdir p => exact hc.elim
  | getcwd k => exact hc.elim

/-- State between callbacks: inside the directories `q` below the output directory. -/
structure Within (pre : Bytes) (d : Loc) (n : Bytes) (ns : List Bytes) (v : HLv) (p : Proto)
    (q : List Bytes) : Prop where
  path : v.dirPath = some (pre ++ n ++ slashed (ns ++ q))
  plain : ∀ x ∈ q, PlainName x
  fd : ∀ f, v.fd = .opened f → d ++ [n] <+: f.loc
  live : p ≠ .idle → v.fd ≠ .closed

theorem within_events {os : Os} {w0 : World} (B : Base os w0 pre d n) (ns : List Bytes)
    (hns : ∀ x ∈ ns, PlainName x) (out : Bytes) (evs : List Ev) :
    ∀ (v : HLv) (p : Proto) (q : List Bytes), Within pre d n ns v p q →
    (p.run evs).isSome → (∀ a ∈ atoms evs, SafeEntry a) → balance q.length (atoms evs) ≠ none →
    (hlEventsP out v evs).Uses (Call.Near pre d n) (Call.Reply (d ++ [n])) fun _ => True := by
  induction evs with
  | nil => intro v p q _ _ _ _; trivial
  | cons e evs ih =>
    intro v p q I hp hs hb
    have hall : ∀ x ∈ ns ++ q, PlainName x := by
      intro x hx
      rcases List.mem_append.mp hx with h | h
      · exact hns x h
      · exact I.plain x h
    simp only [Proto.run] at hp
    cases hst : p.step e with
    | none => rw [hst] at hp; simp at hp
    | some p' =>
      rw [hst] at hp
      simp only [Option.bind_some] at hp
      have hs1 : ∀ a ∈ e.atoms, SafeEntry a := by
        intro a ha; exact hs a (by simp [atoms, ha])
      have hs2 : ∀ a ∈ atoms evs, SafeEntry a := by
        intro a ha
        refine hs a ?_
        simp only [atoms, List.flatMap_cons, List.mem_append]
        exact .inr ha
      have hat : atoms (e :: evs) = e.atoms ++ atoms evs := by simp [atoms]
      rw [hat] at hb
      have path0 : ∀ (ms : List Bytes), (∀ x ∈ ms, PlainName x) → 0 ∉ pre ++ n ++ slashed ms := by
        intro ms hms
        simp only [List.mem_append, not_or]
        refine ⟨⟨B.front.1, B.name.2.2.2.2⟩, ?_⟩
        intro hm
        simp only [slashed, List.mem_flatten, List.mem_map] at hm
        obtain ⟨_, ⟨x, hx, rfl⟩, hm⟩ := hm
        rcases List.mem_cons.mp hm with h | h
        · exact absurd h (by decide)
        · exact (hms x hx).2.2.2.2 h
      rw [hlEventsP]
      refine uses_andThen ?_
      cases e with
      | flStart => cases p <;> simp [Proto.step] at hst
      | flRead _ => cases p <;> simp [Proto.step] at hst
      | drStart => cases p <;> simp [Proto.step] at hst
      | symLink t a => exact (hs1 (.link t) (by simp [Ev.atoms])).elim
      | fileRead ds =>
        cases p with
        | idle => simp [Proto.step] at hst
        | inLink => simp [Proto.step] at hst
        | inFile left =>
          have hlive := I.live (by simp)
          have hb' : balance q.length (atoms evs) ≠ none := by
            rw [show (Ev.fileRead ds).atoms = ds.map .byte from rfl, balance_bytes] at hb
            exact hb
          simp only [hlEventP, hlFileReadP]
          cases hfd : v.fd with
          | bad =>
            exact ⟨trivial, fun _ _ => ⟨v, rfl, ih v p' q ⟨I.path, I.plain, I.fd,
              fun _ => by simp [hfd]⟩ hp hs2 hb'⟩⟩
          | closed => exact absurd hfd hlive
          | opened f =>
            have hin := I.fd f hfd
            refine ⟨hin, fun (f' : OpenFile) (hf' : f'.loc = f.loc) => ⟨_, rfl, ih _ p' q
              ⟨I.path, I.plain, ?_, fun _ => by simp⟩ hp hs2 hb'⟩⟩
            intro f2 hf2
            cases hf2
            rw [hf']; exact hin
      | fileEnd =>
        cases p with
        | idle => simp [Proto.step] at hst
        | inLink => simp [Proto.step] at hst
        | inFile left =>
          have hlive := I.live (by simp)
          have hp' : p' = .idle := by
            cases left with
            | zero => simpa [Proto.step] using hst.symm
            | succ k => simp [Proto.step] at hst
          have hb' : balance q.length (atoms evs) ≠ none := by
            simpa [Ev.atoms, balance] using hb
          simp only [hlEventP, hlFileEndP]
          cases hfd : v.fd with
          | bad =>
            exact ⟨trivial, fun _ _ => ⟨v, rfl, ih v p' q ⟨I.path, I.plain, I.fd,
              fun hc => absurd hp' hc⟩ hp hs2 hb'⟩⟩
          | closed => exact absurd hfd hlive
          | opened f =>
            exact ⟨trivial, fun _ _ => ⟨_, rfl, ih _ p' q ⟨I.path, I.plain, by simp,
              fun hc => absurd hp' hc⟩ hp hs2 hb'⟩⟩
      | dirEnd =>
        have hidle : p = .idle ∧ p' = .idle := by
          cases p with
          | idle => simpa [Proto.step] using hst.symm
          | inLink => simp [Proto.step] at hst
          | inFile left => cases left <;> simp [Proto.step] at hst
        rcases List.eq_nil_or_concat q with rfl | ⟨q', x, rfl⟩
        · simp [Ev.atoms, balance] at hb
        · have hx := I.plain x (by simp)
          have hb' : balance q'.length (atoms evs) ≠ none := by
            simpa [Ev.atoms, balance] using hb
          have e1 : pre ++ n ++ slashed (ns ++ q'.concat x) =
              pre ++ n ++ slashed (ns ++ q') ++ 47 :: x := by
            rw [List.concat_eq_append, ← List.append_assoc, slashed_snoc, List.append_assoc]
            simp
          have hz := path0 (ns ++ q'.concat x) hall
          have hpth := I.path
          rw [e1] at hz hpth
          simp only [hlEventP, hlDirEndP, hpth, cString_plain _ hz,
            lastIndexOf_append 47 _ x hx.2.2.2.1, List.take_left']
          exact ⟨_, rfl, ih _ p' q' ⟨rfl, fun y hy => I.plain y (by simp [hy]), I.fd,
            fun hc => absurd hidle.2 hc⟩ hp hs2 hb'⟩
      | itemStart ft nm it =>
        have hidle : p = .idle := by
          cases p with
          | idle => rfl
          | inLink => simp [Proto.step] at hst
          | inFile left => cases left <;> simp [Proto.step] at hst
        subst hidle
        have hsafe := hs1 (.start ft nm it) (by simp [Ev.atoms])
        have e1 : pre ++ n ++ slashed (ns ++ q) ++ 47 :: nm.take (itNameLen it) =
            pre ++ n ++ slashed (ns ++ q ++ [nm.take (itNameLen it)]) := by
          rw [slashed_snoc, List.append_assoc (pre ++ n)]
        cases ft with
        | none => simp [Proto.step] at hst
        | symlink => exact hsafe.elim
        | file =>
          obtain ⟨hle, hpl⟩ := hsafe
          have hb' : balance q.length (atoms evs) ≠ none := by
            simpa [Ev.atoms, balance] using hb
          have hms : ∀ x ∈ ns ++ q ++ [nm.take (itNameLen it)], PlainName x := by
            intro x hx
            rcases List.mem_append.mp hx with h | h
            · exact hall x h
            · rw [List.mem_singleton.mp h]; exact hpl
          have hz := path0 _ hms
          simp only [hlEventP, hlItemStartP, hlFileItemP, itemPathV, if_pos hle, I.path,
            Option.getD_some, e1, cString_plain _ hz]
          refine ⟨⟨_, hms, cString_plain _ hz⟩, fun (o : Option Loc) ho => ?_⟩
          cases o with
          | none =>
            exact ⟨_, rfl, ih _ p' q ⟨rfl, I.plain, by simp, fun _ => by simp⟩ hp hs2 hb'⟩
          | some l =>
            refine ⟨_, rfl, ih _ p' q ⟨rfl, I.plain, ?_, fun _ => by simp⟩ hp hs2 hb'⟩
            intro f hf
            cases hf
            exact ho l rfl
        | dir =>
          obtain ⟨hle, hpl⟩ := hsafe
          have hp' : p' = .idle := by simpa [Proto.step] using hst.symm
          have hb' : balance (q.length + 1) (atoms evs) ≠ none := by
            simpa [Ev.atoms, balance] using hb
          have hms : ∀ x ∈ ns ++ q ++ [nm.take (itNameLen it)], PlainName x := by
            intro x hx
            rcases List.mem_append.mp hx with h | h
            · exact hall x h
            · rw [List.mem_singleton.mp h]; exact hpl
          have hz := path0 _ hms
          refine ⟨trivial, fun (b : Bool) (hbb : b = false) => ?_⟩
          subst hbb
          simp only [Bool.false_eq_true, if_false, itemPathV, if_pos hle, I.path,
            Option.getD_some, e1, cString_plain _ hz]
          refine (mkdirRecurseP_near B _ hms (itMode it)).bind fun r _ => ?_
          refine ⟨_, rfl, ih _ p' (q ++ [nm.take (itNameLen it)]) ⟨by simp only [List.append_assoc],
            ?_, I.fd, fun hc => absurd hp' hc⟩ hp hs2 (by simpa using hb')⟩
          intro x hx
          rcases List.mem_append.mp hx with h | h
          · exact I.plain x h
          · rw [List.mem_singleton.mp h]; exact hpl

end

end Zwt
