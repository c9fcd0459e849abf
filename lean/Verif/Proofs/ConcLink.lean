import Verif.Proofs.ConcAbs
import Verif.Proofs.ConfineLink

/-! Calls that depend only on, and change only, what is at and below one place, where there may be
links. -/

namespace Zwt

variable {α β : Type}

/-- Two worlds with the same working directory and the same content at and below `r`, both of which
still have the directories and links of `w0`. -/
structure TwinL (w0 : World) (r : Loc) (w w' : World) : Prop where
  cwd : w'.cwd = w.cwd
  left : Keeps w0.fs w.fs
  right : Keeps w0.fs w'.fs
  same : ∀ q, w'.fs (r ++ q) = w.fs (r ++ q)

/-- The call does in `w` what it does in every world that is the same at and below `r`, and changes
nothing else there. -/
def Call.LocalAt (os : Os) (w0 : World) (r : Loc) (c : Call) (w : World) : Prop :=
  ∀ w', TwinL w0 r w w' →
    (c.exec os w').1 = (c.exec os w).1 ∧ TwinL w0 r (c.exec os w).2 (c.exec os w').2 ∧
    ∀ x, ¬ r <+: x → (c.exec os w').2.fs x = w'.fs x

theorem TwinL.tick {w0 w w' : World} {r : Loc} (h : TwinL w0 r w w') : TwinL w0 r w.tick w'.tick :=
  ⟨h.cwd, h.left, h.right, h.same⟩

theorem TwinL.go {w0 w w' : World} {r : Loc} (h : TwinL w0 r w w') (l : Loc) :
    TwinL w0 r { w.tick with cwd := l } { w'.tick with cwd := l } :=
  ⟨rfl, h.left, h.right, h.same⟩

theorem TwinL.put {w0 w w' : World} {r l : Loc} (h : TwinL w0 r w w') (n : Node)
    (hk : Keeps w.fs (w.fs.put l n)) (hk' : Keeps w'.fs (w'.fs.put l n)) :
    TwinL w0 r (w.put l n) (w'.put l n) := by
  refine ⟨h.cwd, h.left.trans hk, h.right.trans hk', ?_⟩
  intro q
  show (w'.fs.put l n) _ = (w.fs.put l n) _
  rw [FS.put, FS.put, h.same q]

theorem TwinL.refl {w0 w : World} {r : Loc} (h : Keeps w0.fs w.fs) : TwinL w0 r w w :=
  ⟨rfl, h, h, fun _ => rfl⟩

theorem TwinL.at {w0 w w' : World} {r l : Loc} (h : TwinL w0 r w w') (hl : r <+: l) :
    w'.fs l = w.fs l := by
  obtain ⟨q, rfl⟩ := hl
  exact h.same q

theorem TwinL.others {w0 w w' w1 : World} {r : Loc} (T : TwinL w0 r w w') (hc : w1.cwd = w'.cwd)
    (hk : Keeps w0.fs w1.fs) (hs : ∀ q, w1.fs (r ++ q) = w'.fs (r ++ q)) : TwinL w0 r w w1 :=
  ⟨hc.trans T.cwd, T.left, hk, fun q => by rw [hs]; exact T.same q⟩

theorem resolve_twinL {os : Os} {w0 w w' : World} {r : Loc} (T : TwinL w0 r w w')
    {L : List (List Bytes)} (hL : ∀ q t, w.fs (r ++ q) = some (.link t) → q ∈ L) (follow : Bool)
    (m : Nat) (cs : List Bytes) (hc : ∀ c ∈ cs, PlainName c) : ∀ (q : List Bytes), Clear L (q ++ cs) →
    resolve os w'.fs follow m (r ++ q) cs = resolve os w.fs follow m (r ++ q) cs := by
  induction cs with
  | nil => intro q _; rw [resolve_nil, resolve_nil]
  | cons c cs ih =>
    intro q hq
    have hp := hc c List.mem_cons_self
    have hs : searchable os w'.fs (r ++ q) = searchable os w.fs (r ++ q) := by
      simp only [searchable, T.same q]
    have e : w'.fs (r ++ q ++ [c]) = w.fs (r ++ q ++ [c]) := by
      rw [List.append_assoc]; exact T.same _
    rw [resolve_cons, resolve_cons, hs, if_neg (c := c = [] ∨ c = [46]) (by simp [hp.1, hp.2.1]),
      if_neg hp.2.2.1, if_neg (c := c = [] ∨ c = [46]) (by simp [hp.1, hp.2.1]), if_neg hp.2.2.1, e]
    split
    · rfl
    · split
      · rfl
      · rename_i t ht
        rw [List.append_assoc] at ht
        exact absurd (List.prefix_append_right_inj q |>.mpr (by simp : [c] <+: c :: cs)) (hq _ (hL _ _ ht))
      · have := ih (fun x hx => hc x (List.mem_cons_of_mem _ hx)) (q ++ [c]) (by simpa using hq)
        simpa using this

theorem Base.resolve_sameL {os : Os} {w0 w w' : World} {pre : Bytes} {d : Loc} {n : Bytes}
    (B : Base os w0 pre d n) (T : TwinL w0 (d ++ [n]) w w') {L : List (List Bytes)}
    (hL : ∀ q t, w.fs (d ++ [n] ++ q) = some (.link t) → q ∈ L) (follow : Bool) (m : Nat)
    (cs : List Bytes) (hc : ∀ c ∈ cs, PlainName c) (hcl : Clear L cs) :
    resolve os w'.fs follow m d (n :: cs) = resolve os w.fs follow m d (n :: cs) := by
  have hn := B.name
  have e := T.at (List.prefix_refl _)
  rw [resolve_cons, resolve_cons, T.left.searchable B.dir, T.right.searchable B.dir,
    if_neg (c := n = [] ∨ n = [46]) (by simp [hn.1, hn.2.1]), if_neg hn.2.2.1,
    if_neg (c := n = [] ∨ n = [46]) (by simp [hn.1, hn.2.1]), if_neg hn.2.2.1, e]
  split
  · rfl
  · split
    · rfl
    · rename_i t ht
      exact absurd List.nil_prefix (hcl [] (hL [] t (by simpa using ht)))
    · have := resolve_twinL (os := os) T hL follow m cs hc [] (by simpa using hcl)
      simpa using this

theorem Base.locate_eqL {os : Os} {w0 : World} {pre : Bytes} {d : Loc} {n : Bytes}
    (B : Base os w0 pre d n) (ns : List Bytes) (hns : ∀ x ∈ ns, PlainName x) (follow : Bool) :
    ∃ m, ∀ w, Keeps w0.fs w.fs → (pre.head? = some 47 ∨ w.cwd = w0.cwd) →
      Zwt.locate os w follow (pre ++ n ++ slashed ns) = resolve os w.fs follow m d (n :: ns) := by
  obtain ⟨_, b, cs, m, h1, h2⟩ := B.front
  refine ⟨m, fun w hk hc => ?_⟩
  have hp := h2 (n ++ slashed ns) (by simp [B.name.1]) (by
    have := B.name.head
    cases hn : n with
    | nil => exact absurd hn B.name.1
    | cons a as => rw [hn] at this; simpa using this)
  rw [← pathBase_home hc, ← List.append_assoc] at hp
  rw [Zwt.locate, if_neg (by simp [B.name.1]), hp.1, hp.2,
    splitPath_slashed n ns B.name.2.2.2.1 (fun x hx => (hns x hx).2.2.2.1),
    (h1.mono hk).resolve follow _ (by simp)]

theorem Base.locate_sameL {os : Os} {w0 w w' : World} {pre : Bytes} {d : Loc} {n : Bytes}
    (B : Base os w0 pre d n) {L : List (List Bytes)} (hw : ConfL w0 w pre (d ++ [n]) L)
    (T : TwinL w0 (d ++ [n]) w w') (ns : List Bytes) (hns : ∀ x ∈ ns, PlainName x) (hcl : Clear L ns)
    (follow : Bool) : Zwt.locate os w' follow (pre ++ n ++ slashed ns) =
      Zwt.locate os w follow (pre ++ n ++ slashed ns) := by
  obtain ⟨m, h⟩ := B.locate_eqL ns hns follow
  rw [h w T.left hw.cwd, h w' T.right (by rw [T.cwd]; exact hw.cwd)]
  exact B.resolve_sameL T hw.links follow m ns hns hcl

/-- A part that ends inside the front: what `mkdir` and `stat` say of it. -/
theorem Base.part_callsL {os : Os} (hq : os.quiet) {w0 : World} {pre : Bytes} {d : Loc} {n : Bytes}
    (B : Base os w0 pre d n) (s t : Bytes) (hs : pre = s ++ 47 :: t) :
    ∃ r b, ∀ w, Keeps w0.fs w.fs → (pre.head? = some 47 ∨ w.cwd = w0.cwd) →
      (∀ mode, sysMkdir os w s mode = (r, w.tick)) ∧ sysIsDir os w s = (b, w.tick) := by
  by_cases hne : s = []
  · subst hne
    refine ⟨.fail, false, fun w _ _ => ⟨fun mode => ?_, ?_⟩⟩
    · simp [sysMkdir, hq.1, Zwt.locate]
    · simp [sysIsDir, hq.1, Zwt.locate]
  obtain ⟨_, b, cs, m, h1, h2⟩ := B.front
  have hp := h2 n B.name.1 B.name.head
  have hhead : ∀ (w : World), (pre.head? = some 47 ∨ w.cwd = w0.cwd) →
      pathBase w.cwd s = pathBase w0.cwd s := by
    intro w h
    have := pathBase_home (pre := s) (x := []) (a := w.cwd) (b := w0.cwd) (by
      rcases h with h | h
      · left
        rw [hs] at h
        cases s with
        | nil => exact absurd rfl hne
        | cons a s => simpa using h
      · exact .inr h)
    simpa using this
  subst hs
  rw [List.append_assoc, List.cons_append, pathBase_append _ _ _ hne, splitPath_append,
    splitPath_plain n B.name.2.2.2.1] at hp
  obtain ⟨cs', hcs⟩ : ∃ cs', cs = splitPath s ++ cs' := by
    have hx := congrArg List.dropLast hp.2
    rw [List.dropLast_concat, List.dropLast_append_of_ne_nil (splitPath_ne_nil _)] at hx
    exact ⟨_, hx.symm⟩
  obtain ⟨k, e, g1, g2⟩ := h1.split _ _ hcs
  have he : ∃ md, w0.fs e = some (.dir md) := by
    refine searchable_dir (os := os) ?_
    cases g2 with
    | nil => exact B.dir
    | skip a => exact a
    | up a => exact a
    | dir a => exact a
    | link a => exact a
  obtain ⟨l, hl⟩ := g1.stays he
  obtain ⟨md, he⟩ := he
  refine ⟨.exist, true, fun w hk hc => ⟨fun mode => ?_, ?_⟩⟩
  · obtain ⟨l1, l2⟩ := hl w.fs hk
    cases hw : w.fs l with
    | none => exact absurd hw l2
    | some x =>
      simp only [sysMkdir, hq.1, Bool.false_eq_true, if_false, Zwt.locate, if_neg hne, hhead w hc,
        hp.1, l1, hw]
  · simp only [sysIsDir, hq.1, Bool.false_eq_true, if_false, Zwt.locate, if_neg hne, hhead w hc, hp.1,
      (g1.mono hk).resolve_end, hk.1 _ _ he]

theorem TwinL.writable {os : Os} {w0 w w' : World} {d : Loc} {n : Bytes}
    (hd : searchable os w0.fs d = true) (T : TwinL w0 (d ++ [n]) w w') {l : Loc} (hl : d ++ [n] <+: l) :
    Zwt.writable os w'.fs l.dropLast = Zwt.writable os w.fs l.dropLast := by
  obtain ⟨q, rfl⟩ := hl
  rcases List.eq_nil_or_concat q with rfl | ⟨q', x, rfl⟩
  · obtain ⟨m, hm⟩ := searchable_dir hd
    simp only [List.append_nil, List.dropLast_concat, Zwt.writable, T.left.1 _ _ hm, T.right.1 _ _ hm]
  · rw [List.concat_eq_append, ← List.append_assoc, List.dropLast_concat]
    simp only [Zwt.writable, T.same q']

/-- Storing a new node. -/
theorem TwinL.add {os : Os} {w0 w w' : World} {d : Loc} {n : Bytes}
    (hd : searchable os w0.fs d = true) (T : TwinL w0 (d ++ [n]) w w') {l : Loc} (hl : d ++ [n] <+: l)
    (hnone : w.fs l = none) (x : Node) :
    (addNode os w l x = none ∧ addNode os w' l x = none) ∨
      addNode os w l x = some (w.put l x) ∧ addNode os w' l x = some (w'.put l x) ∧
        TwinL w0 (d ++ [n]) (w.put l x) (w'.put l x) := by
  have hnone' : w'.fs l = none := by rw [T.at hl, hnone]
  simp only [addNode, T.writable hd hl]
  split
  · exact .inr ⟨rfl, rfl, T.put x (Keeps.put hnone _) (Keeps.put hnone' _)⟩
  · exact .inl ⟨rfl, rfl⟩

/-! ### Calls -/

theorem localAt_alloc {os : Os} (hq : os.quiet) (w0 : World) (r : Loc) (w : World) :
    Call.LocalAt os w0 r .alloc w := by
  intro w' T
  simp only [Call.exec, hq.2.2]
  exact ⟨trivial, T.tick, fun _ _ => rfl⟩

theorem localAt_nop (os : Os) (w0 : World) (r : Loc) (w : World) : Call.LocalAt os w0 r .nop w :=
  fun _ T => ⟨rfl, T.tick, fun _ _ => rfl⟩

theorem localAt_getcwd {os : Os} (hq : os.quiet) (w0 : World) (r : Loc) (w : World) (k : Nat) :
    Call.LocalAt os w0 r (.getcwd k) w := by
  intro w' T
  simp only [Call.exec, sysGetcwd, hq.1, Bool.false_eq_true, if_false, T.cwd]
  split
  · exact ⟨rfl, T.tick, fun _ _ => rfl⟩
  · exact ⟨rfl, T.tick, fun _ _ => rfl⟩

theorem localAt_mkdir {os : Os} (hq : os.quiet) {w0 w : World} {pre : Bytes} {d : Loc} {n : Bytes}
    (B : Base os w0 pre d n) {L : List (List Bytes)} (hw : ConfL w0 w pre (d ++ [n]) L)
    (ns : List Bytes) (hns : ∀ x ∈ ns, PlainName x) (hcl : Clear L ns) (s : Bytes)
    (hs : PathCut (pre ++ n ++ slashed ns) s) (mode : Nat) :
    Call.LocalAt os w0 (d ++ [n]) (.mkdir s mode) w := by
  intro w' T
  rcases cut_cases pre n ns B.name.2.2.2.1 (fun x hx => (hns x hx).2.2.2.1) s hs with
    ⟨t, ht⟩ | ⟨ns', hp, rfl⟩
  · obtain ⟨r, b, h⟩ := B.part_callsL hq s t ht
    simp only [Call.exec, (h w T.left hw.cwd).1, (h w' T.right (by rw [T.cwd]; exact hw.cwd)).1]
    exact ⟨trivial, T.tick, fun _ _ => rfl⟩
  · have hns' : ∀ x ∈ ns', PlainName x := fun x hx => hns x (hp.subset hx)
    simp only [Call.exec, sysMkdir, hq.1, Bool.false_eq_true, if_false,
      B.locate_sameL hw T ns' hns' (hcl.prefix hp)]
    cases hl : Zwt.locate os w false (pre ++ n ++ slashed ns') with
    | none => exact ⟨rfl, T.tick, fun _ _ => rfl⟩
    | some l =>
      have hin : d ++ [n] <+: l := by
        rw [B.locateL hw ns' hns' (hcl.prefix hp) false l hl]; exact List.prefix_append _ _
      simp only [T.at hin]
      cases hw : w.fs l with
      | some x => exact ⟨rfl, T.tick, fun _ _ => rfl⟩
      | none =>
        simp only
        rcases T.add B.dir hin hw (.dir (mode &&& 0o1777 &&& os.allow)) with
          ⟨h1, h2⟩ | ⟨h1, h2, h3⟩
        · rw [h1, h2]; exact ⟨rfl, T.tick, fun _ _ => rfl⟩
        · rw [h1, h2]; exact ⟨rfl, h3.tick, fun x hx => put_other hin hx _⟩

theorem localAt_isDir {os : Os} (hq : os.quiet) {w0 w : World} {pre : Bytes} {d : Loc} {n : Bytes}
    (B : Base os w0 pre d n) {L : List (List Bytes)} (hw : ConfL w0 w pre (d ++ [n]) L)
    (ns : List Bytes) (hns : ∀ x ∈ ns, PlainName x) (hcl : Clear L ns) (s : Bytes)
    (hs : PathCut (pre ++ n ++ slashed ns) s) :
    Call.LocalAt os w0 (d ++ [n]) (.isDir s) w := by
  intro w' T
  rcases cut_cases pre n ns B.name.2.2.2.1 (fun x hx => (hns x hx).2.2.2.1) s hs with
    ⟨t, ht⟩ | ⟨ns', hp, rfl⟩
  · obtain ⟨r, b, h⟩ := B.part_callsL hq s t ht
    simp only [Call.exec, (h w T.left hw.cwd).2, (h w' T.right (by rw [T.cwd]; exact hw.cwd)).2]
    exact ⟨trivial, T.tick, fun _ _ => rfl⟩
  · have hns' : ∀ x ∈ ns', PlainName x := fun x hx => hns x (hp.subset hx)
    simp only [Call.exec, sysIsDir, hq.1, Bool.false_eq_true, if_false,
      B.locate_sameL hw T ns' hns' (hcl.prefix hp)]
    cases hl : Zwt.locate os w true (pre ++ n ++ slashed ns') with
    | none => exact ⟨rfl, T.tick, fun _ _ => rfl⟩
    | some l =>
      have hin : d ++ [n] <+: l := by
        rw [B.locateL hw ns' hns' (hcl.prefix hp) true l hl]; exact List.prefix_append _ _
      simp only [T.at hin]
      cases hw : w.fs l with
      | none => exact ⟨rfl, T.tick, fun _ _ => rfl⟩
      | some x => cases x <;> exact ⟨rfl, T.tick, fun _ _ => rfl⟩

theorem localAt_open {os : Os} (hq : os.quiet) {w0 w : World} {pre : Bytes} {d : Loc} {n : Bytes}
    (B : Base os w0 pre d n) {L : List (List Bytes)} (hw : ConfL w0 w pre (d ++ [n]) L)
    (ns : List Bytes) (hns : ∀ x ∈ ns, PlainName x) (hcl : Clear L ns) (mode : Nat) (trunc : Bool) :
    Call.LocalAt os w0 (d ++ [n]) (.openFile (pre ++ n ++ slashed ns) mode trunc) w := by
  intro w' T
  simp only [Call.exec, sysOpen, hq.1, Bool.false_eq_true, if_false, B.locate_sameL hw T ns hns hcl]
  cases hl : Zwt.locate os w true (pre ++ n ++ slashed ns) with
  | none => exact ⟨rfl, T.tick, fun _ _ => rfl⟩
  | some l =>
    have hin : d ++ [n] <+: l := by
      rw [B.locateL hw ns hns hcl true l hl]; exact List.prefix_append _ _
    simp only [T.at hin]
    cases hw : w.fs l with
    | none =>
      simp only
      split
      · exact ⟨rfl, T.tick, fun _ _ => rfl⟩
      · rcases T.add B.dir hin hw (.file (mode &&& os.allow) []) with
          ⟨h1, h2⟩ | ⟨h1, h2, h3⟩
        · rw [h1, h2]; exact ⟨rfl, T.tick, fun _ _ => rfl⟩
        · rw [h1, h2]; exact ⟨rfl, h3.tick, fun x hx => put_other hin hx _⟩
    | some x =>
      cases x with
      | dir m => exact ⟨rfl, T.tick, fun _ _ => rfl⟩
      | link t => exact ⟨rfl, T.tick, fun _ _ => rfl⟩
      | file m c =>
        have hw' : w'.fs l = some (.file m c) := by rw [T.at hin, hw]
        simp only
        split
        · exact ⟨rfl, T.tick, fun _ _ => rfl⟩
        · split
          · exact ⟨rfl, (T.put (.file m []) (Keeps.putFile hw _) (Keeps.putFile hw' _)).tick,
              fun x hx => put_other hin hx _⟩
          · exact ⟨rfl, T.tick, fun _ _ => rfl⟩

theorem localAt_write {os : Os} (hq : os.quiet) (w0 : World) (r : Loc) (w : World) (f : OpenFile)
    (hf : r <+: f.loc) (data : Bytes) : Call.LocalAt os w0 r (.write f data) w := by
  intro w' T
  simp only [Call.exec, sysWrite, hq.1, Bool.false_eq_true, if_false, T.at hf,
    List.take_of_length_le (hq.2.1 _ _)]
  cases hw : w.fs f.loc with
  | none => exact ⟨rfl, T.tick, fun _ _ => rfl⟩
  | some x =>
    cases x with
    | dir m => exact ⟨rfl, T.tick, fun _ _ => rfl⟩
    | link t => exact ⟨rfl, T.tick, fun _ _ => rfl⟩
    | file m c =>
      have hw' : w'.fs f.loc = some (.file m c) := by rw [T.at hf, hw]
      exact ⟨rfl, (T.put _ (Keeps.putFile hw _) (Keeps.putFile hw' _)).tick,
        fun x hx => put_other hf hx _⟩

/-- Into a directory of the tree. -/
theorem localAt_enter {os : Os} (hq : os.quiet) {w0 w : World} {pre : Bytes} {d : Loc} {n : Bytes}
    (B : Base os w0 pre d n) {L : List (List Bytes)} (hw : ConfL w0 w pre (d ++ [n]) L)
    (ns : List Bytes) (hns : ∀ x ∈ ns, PlainName x) (hcl : Clear L ns) :
    Call.LocalAt os w0 (d ++ [n]) (.chdir (pre ++ n ++ slashed ns)) w := by
  intro w' T
  simp only [Call.exec, sysChdir, hq.1, Bool.false_eq_true, if_false, B.locate_sameL hw T ns hns hcl]
  cases hl : Zwt.locate os w true (pre ++ n ++ slashed ns) with
  | none => exact ⟨rfl, T.tick, fun _ _ => rfl⟩
  | some l =>
    have hin : d ++ [n] <+: l := by
      rw [B.locateL hw ns hns hcl true l hl]; exact List.prefix_append _ _
    have hse : searchable os w'.fs l = searchable os w.fs l := by simp only [searchable, T.at hin]
    simp only [hse]
    cases searchable os w.fs l with
    | true => exact ⟨rfl, T.go l, fun _ _ => rfl⟩
    | false => exact ⟨rfl, T.tick, fun _ _ => rfl⟩

/-- Back to the working directory of `w0`. -/
theorem localAt_back {os : Os} (hq : os.quiet) {w0 : World} (r : Loc) (hb : CwdBack os w0.fs w0.cwd)
    (w : World) : Call.LocalAt os w0 r (.chdir (absPath w0.cwd)) w := by
  intro w' T
  have h1 := hb.mono T.left
  have h2 := hb.mono T.right
  simp only [Call.exec, chdir_back hq.1 (w := w) h1.1 h1.2, chdir_back hq.1 (w := w') h2.1 h2.2]
  exact ⟨trivial, T.go _, fun _ _ => rfl⟩

/-- A link in the directory where the process is. -/
theorem localAt_symlink {os : Os} (hq : os.quiet) {w0 w : World} {d : Loc} {n : Bytes}
    (hd : searchable os w0.fs d = true) (hw : d ++ [n] <+: w.cwd) (t x : Bytes) (hpl : PlainName x) :
    Call.LocalAt os w0 (d ++ [n]) (.symlink t x) w := by
  intro w' T
  have key : ∀ w2 : World, w2.cwd = w.cwd → w2.fs w.cwd = w.fs w.cwd →
      locate os w2 false x = if searchable os w.fs w.cwd then some (w.cwd ++ [x]) else none := by
    intro w2 h1 h2
    rw [Zwt.locate, if_neg hpl.1, splitPath_plain x hpl.2.2.2.1, pathBase, if_neg hpl.head, h1,
      resolve_cons, if_neg (c := x = [] ∨ x = [46]) (by simp [hpl.1, hpl.2.1]), if_neg hpl.2.2.1]
    have hse : searchable os w2.fs w.cwd = searchable os w.fs w.cwd := by
      simp only [searchable, h2]
    rw [hse]
    cases searchable os w.fs w.cwd with
    | false => simp
    | true =>
      rw [if_neg (by simp), if_pos rfl]
      split
      · simp
      · simp
      · rw [resolve_nil]
  simp only [Call.exec, sysSymlink, hq.1, Bool.false_eq_true, false_or, key w rfl rfl,
    key w' T.cwd (T.at hw)]
  split
  · exact ⟨rfl, T.tick, fun _ _ => rfl⟩
  · cases searchable os w.fs w.cwd with
    | false => exact ⟨rfl, T.tick, fun _ _ => rfl⟩
    | true =>
      have hin : d ++ [n] <+: w.cwd ++ [x] := hw.trans (List.prefix_append _ _)
      simp only [if_true, T.at hin]
      cases hx : w.fs (w.cwd ++ [x]) with
      | some _ => exact ⟨rfl, T.tick, fun _ _ => rfl⟩
      | none =>
        simp only
        rcases T.add hd hin hx (.link t) with ⟨h1, h2⟩ | ⟨h1, h2, h3⟩
        · rw [h1, h2]; exact ⟨rfl, T.tick, fun _ _ => rfl⟩
        · rw [h1, h2]; exact ⟨rfl, h3.tick, fun y hy => put_other hin hy _⟩

/-! ### Programs -/

theorem exec_mkdirL {os : Os} {w0 w : World} {pre : Bytes} {d : Loc} {n : Bytes}
    (B : Base os w0 pre d n) {L : List (List Bytes)} (h : ConfL w0 w pre (d ++ [n]) L) (ns : List Bytes)
    (hns : ∀ x ∈ ns, PlainName x) (hc : Clear L ns) (s : Bytes) (mode : Nat)
    (hs : PathCut (pre ++ n ++ slashed ns) s) : ConfL w0 (sysMkdir os w s mode).2 pre (d ++ [n]) L := by
  simp only [sysMkdir]
  split
  · exact h.tick
  · split
    · exact h.tick
    · rename_i l hl
      split
      · exact h.tick
      · rename_i hnone
        simp only [addNode]
        split
        · exact h.tick
        · rename_i w' hw'
          split at hw'
          · cases hw'
            rcases cut_cases pre n ns B.name.2.2.2.1 (fun x hx => (hns x hx).2.2.2.1) s hs with
              ⟨t, ht⟩ | ⟨ns', hp, rfl⟩
            · exact absurd hnone (B.partL h s t ht l hl)
            · have hin := B.locateL h ns' (fun x hx => hns x (hp.subset hx)) (hc.prefix hp) false l hl
              exact (h.put (by rw [hin]; exact List.prefix_append _ _) _ (by simp)
                (Keeps.put hnone _)).tick
          · simp at hw'

theorem sysIsDir_world (os : Os) (w : World) (s : Bytes) : (sysIsDir os w s).2 = w.tick := by
  simp only [sysIsDir]
  repeat' split
  all_goals rfl

theorem Prog.Uses.alongL {os : Os} (hq : os.quiet) {w0 : World} {pre : Bytes} {d : Loc} {n : Bytes}
    (B : Base os w0 pre d n) {L : List (List Bytes)} (ns : List Bytes) (hns : ∀ x ∈ ns, PlainName x)
    (hcl : Clear L ns) {P : α → Prop} {p : Prog α} :
    ∀ {w : World}, p.Uses (Call.Along (pre ++ n ++ slashed ns)) (Call.Reply (d ++ [n])) P →
      ConfL w0 w pre (d ++ [n]) L → p.All (Call.LocalAt os w0 (d ++ [n])) os w := by
  induction p with
  | ret a => intro w _ _; trivial
  | call c f ih =>
    intro w hp hw
    obtain ⟨hc, hk⟩ := hp
    cases c with
    | alloc => exact ⟨localAt_alloc hq _ _ _, ih _ (hk _ (hq.2.2 _)) hw.tick⟩
    | mkdir s m =>
      exact ⟨localAt_mkdir hq B hw ns hns hcl s hc m, ih _ (hk _ trivial)
        (exec_mkdirL B hw ns hns hcl s m hc)⟩
    | isDir s =>
      refine ⟨localAt_isDir hq B hw ns hns hcl s hc, ih _ (hk _ trivial) ?_⟩
      show ConfL w0 (sysIsDir os w s).2 _ _ _
      rw [sysIsDir_world]
      exact hw.tick
    | nop => exact hc.elim
    | openFile s m t => exact hc.elim
    | write f x => exact hc.elim
    | symlink t p => exact hc.elim
    | chdir p => exact hc.elim
    | getcwd k => exact hc.elim

theorem symLinkP_localAt {os : Os} (hq : os.quiet) {w0 w : World} {pre : Bytes} {d : Loc} {n : Bytes}
    (B : Base os w0 pre d n) (hb : CwdBack os w0.fs w0.cwd) {L : List (List Bytes)}
    (hw : ConfL w0 w pre (d ++ [n]) L) (hcwd : w.cwd = w0.cwd) (ns : List Bytes)
    (hns : ∀ x ∈ ns, PlainName x) (hcl : Clear L ns) (v : HLv)
    (hp : v.dirPath = some (pre ++ n ++ slashed ns)) (hz : 0 ∉ pre ++ n ++ slashed ns)
    {nm x : Bytes} (hnm : v.name = some nm) (hx : cstr? nm = some x) (hpl : PlainName x) (t a : Bytes) :
    (hlSymLinkP v t a).All (Call.LocalAt os w0 (d ++ [n])) os w := by
  refine ⟨localAt_getcwd hq _ _ _ _, ?_⟩
  simp only [Call.exec, sysGetcwd, hq.1, Bool.false_eq_true, if_false]
  split
  · trivial
  · rename_i old ho
    have hold : old = absPath w0.cwd ∧ True := by
      split at ho
      · have := (Option.some.injEq _ _).mp ho
        exact ⟨by rw [← this, hcwd], trivial⟩
      · simp at ho
    have hw1 : (if (absPath w.cwd).length < CWD_SIZE then (some (absPath w.cwd), w.tick)
        else (none, w.tick)).2 = w.tick := by split <;> rfl
    rw [hw1]
    simp only [hp]
    generalize hcs : cString (pre ++ n ++ slashed ns) = s
    have hs : s = pre ++ n ++ slashed ns := by rw [← hcs, cString_plain _ hz]
    clear hcs
    subst hs
    refine ⟨localAt_enter hq B hw.tick ns hns hcl, ?_⟩
    simp only [Call.exec]
    cases hch : sysChdir os w.tick (pre ++ n ++ slashed ns) with
    | mk b w2 =>
      cases b with
      | false => trivial
      | true =>
        have hw2 : w2.cwd = d ++ [n] ++ ns := by
          simp only [sysChdir] at hch
          split at hch
          · simp at hch
          · split at hch
            · simp at hch
            · rename_i l hl
              have := B.locateL hw.tick ns hns hcl true l hl
              split at hch
              · cases hch; exact this
              · simp at hch
        simp only [hnm, hx]
        cases cstr? (t ++ a) with
        | none => trivial
        | some tgt =>
          refine ⟨localAt_symlink hq B.dir (by rw [hw2]; exact List.prefix_append _ _) tgt x hpl, ?_, trivial⟩
          rw [hold.1]
          exact localAt_back hq _ hb _

/-- The calls of a callback. -/
theorem inside_localAt {os : Os} (hq : os.quiet) {w0 : World} {pre : Bytes} {d : Loc} {n : Bytes}
    (B : Base os w0 pre d n) (hb : CwdBack os w0.fs w0.cwd) (ns : List Bytes)
    (hns : ∀ x ∈ ns, PlainName x) (out : Bytes) (e : Ev) (as : List Atom) (v : HLv) (w : World)
    (p p' : Proto) (L : List (List Bytes)) (q : List Bytes)
    (I : InsideL w0 pre d n ns L (v.at w) p q) (hcwd : w.cwd = w0.cwd) (hst : p.step e = some p')
    (hs : LinkSafe L q (e.atoms ++ as)) :
    (hlEventP out v e).All (Call.LocalAt os w0 (d ++ [n])) os w := by
  have hall : ∀ x ∈ ns ++ q, PlainName x := by
    intro x hx
    rcases List.mem_append.mp hx with h | h
    · exact hns x h
    · exact I.plain x h
  have path0 : ∀ (ms : List Bytes), (∀ x ∈ ms, PlainName x) → 0 ∉ pre ++ n ++ slashed ms := by
    intro ms hms
    simp only [List.mem_append, not_or]
    refine ⟨⟨B.front.1, B.name.2.2.2.2⟩, ?_⟩
    intro hm
    simp only [slashed, List.mem_flatten, List.mem_map] at hm
    obtain ⟨_, ⟨x, hx, rfl⟩, hm⟩ := hm
    rcases List.mem_cons.mp hm with h | h
    · exact absurd h (by decide)
    · exact (hms x hx).2.2.2.2 h
  have hpath : v.dirPath = some (pre ++ n ++ slashed (ns ++ q)) := I.path
  have hconf : ConfL w0 w pre (d ++ [n]) (L.map (ns ++ ·)) := I.conf
  have e1 : ∀ x : Bytes, pre ++ n ++ slashed (ns ++ q) ++ 47 :: x = pre ++ n ++ slashed (ns ++ (q ++ [x])) := by
    intro x
    rw [← List.append_assoc ns, slashed_snoc, List.append_assoc (pre ++ n)]
  have hms : ∀ x : Bytes, PlainName x → ∀ y ∈ ns ++ (q ++ [x]), PlainName y := by
    intro x hpl y hy
    rw [← List.append_assoc] at hy
    rcases List.mem_append.mp hy with h | h
    · exact hall y h
    · rw [List.mem_singleton.mp h]; exact hpl
  cases e with
  | flStart => cases p <;> simp [Proto.step] at hst
  | flRead _ => cases p <;> simp [Proto.step] at hst
  | drStart => cases p <;> simp [Proto.step] at hst
  | symLink t a =>
    have hpp : p = .inLink := by
      cases p with
      | idle => simp [Proto.step] at hst
      | inLink => rfl
      | inFile left => cases left <;> simp [Proto.step] at hst
    obtain ⟨nm, x, g1, g2, g3, g4⟩ := I.link hpp
    exact symLinkP_localAt hq B hb hconf hcwd _ hall (clear_map ns I.clear) v hpath (path0 _ hall) g1 g2 g3 t a
  | fileRead ds =>
    simp only [hlEventP, hlFileReadP]
    cases hfd : v.fd with
    | bad => exact ⟨localAt_nop _ _ _ _, trivial⟩
    | closed => trivial
    | opened f => exact ⟨localAt_write hq _ _ _ f (I.fd f hfd) ds, trivial⟩
  | fileEnd =>
    simp only [hlEventP, hlFileEndP]
    cases hfd : v.fd with
    | bad => exact ⟨localAt_nop _ _ _ _, trivial⟩
    | closed => trivial
    | opened f => exact ⟨localAt_nop _ _ _ _, trivial⟩
  | dirEnd =>
    simp only [hlEventP, hlDirEndP, hpath]
    split <;> trivial
  | itemStart ft nm it =>
    cases ft with
    | none => cases p <;> simp [Proto.step] at hst
    | symlink => trivial
    | file =>
      obtain ⟨hle, hpl, hcl, _⟩ := hs
      simp only [hlEventP, hlItemStartP, hlFileItemP, itemPathV, if_pos hle, hpath,
        Option.getD_some, e1, cString_plain _ (path0 _ (hms _ hpl))]
      refine ⟨by
        rw [cString_plain _ (path0 _ (hms _ hpl))]
        exact localAt_open hq B hconf _ (hms _ hpl) (clear_map ns hcl) _ _, ?_⟩
      generalize (Call.exec os w _).1 = o
      cases (o : Option Loc) <;> trivial
    | dir =>
      obtain ⟨hle, hpl, hcl, _⟩ := hs
      refine ⟨localAt_alloc hq _ _ _, ?_⟩
      simp only [Call.exec, hq.2.2, Bool.false_eq_true, if_false, itemPathV, if_pos hle, hpath,
        Option.getD_some, e1, cString_plain _ (path0 _ (hms _ hpl))]
      rw [Prog.all_bind]
      refine ⟨(mkdirRecurseP_along B _ (hms _ hpl) (itMode it)).alongL hq B _ (hms _ hpl)
        (clear_map ns hcl) hconf.tick, trivial⟩

theorem inside_events_localAt {os : Os} (hq : os.quiet) {w0 : World} {pre : Bytes} {d : Loc} {n : Bytes}
    (B : Base os w0 pre d n) (hb : CwdBack os w0.fs w0.cwd) (ns : List Bytes)
    (hns : ∀ x ∈ ns, PlainName x) (out : Bytes) (evs : List Ev) :
    ∀ (v : HLv) (w : World) (p : Proto) (L : List (List Bytes)) (q : List Bytes),
    InsideL w0 pre d n ns L (v.at w) p q → w.cwd = w0.cwd → (p.run evs).isSome →
    LinkSafe L q (atoms evs) →
    (hlEventsP out v evs).All (Call.LocalAt os w0 (d ++ [n])) os w := by
  induction evs with
  | nil => intro v w p L q _ _ _ _; trivial
  | cons e evs ih =>
    intro v w p L q I hcwd hp hs
    have hat : atoms (e :: evs) = e.atoms ++ atoms evs := by simp [atoms]
    rw [hat] at hs
    simp only [Proto.run] at hp
    cases hst : p.step e with
    | none => rw [hst] at hp; simp at hp
    | some p' =>
      rw [hst] at hp
      simp only [Option.bind_some] at hp
      rw [hlEventsP, all_andThen]
      refine ⟨inside_localAt hq B hb ns hns out e _ v w p p' L q I hcwd hst hs, fun v1 hv1 => ?_⟩
      have hrun := hlEventP_run os out v w e
      cases hx : (hlEventP out v e).run os w with
      | mk r w1 =>
        rw [hx] at hrun hv1
        have hv1 : r = .ok v1 := hv1
        subst hv1
        have hrun : hlEvent os out (v.at w) e = .ok (v1.at w1) := hrun.symm
        obtain ⟨L', q', I', hs'⟩ := inside_stepL B ns hns out hq.2.2 e (atoms evs)
          (.inr (.inr ⟨hq.1, hb⟩)) _ _ p p' L q I hst hs hrun
        have hk : ConfL w0 w pre (d ++ [n]) (L.map (ns ++ ·)) := I.conf
        have hc1 : w1.cwd = w.cwd := (hlEvent_keeps os out _ _ e hrun).2.2.2 (.inr ⟨hq.1, by
          show CwdBack os w.fs w.cwd
          rw [hcwd]; exact hb.mono hk.keeps⟩)
        exact ih v1 w1 p' L' q' I' (hc1.trans hcwd) hp hs'

/-! ### The calls of an extraction -/

theorem Job.SafeL.base {os : Os} {w : World} {ok : AllocOracle} {plain : Bytes → Bytes} {j : Job}
    (h : j.SafeL os w ok plain) : Base os w j.pre j.dir j.name :=
  ⟨h.inDir.front h.enter h.zero, h.enter, h.plainNames _ List.mem_cons_self, h.back⟩

theorem flReads_localAt {os : Os} (hq : os.quiet) {w0 : World} {r : Loc} (out : Bytes)
    (ds : List Bytes) : ∀ (v : HLv) (w : World), (∀ f, v.fpOut = some f → r <+: f.loc) →
    (hlEventsP out v (ds.map .flRead)).All (Call.LocalAt os w0 r) os w := by
  induction ds with
  | nil => intro v w _; trivial
  | cons x ds ih =>
    intro v w hv
    rw [List.map_cons, hlEventsP]
    simp only [hlEventP, hlFileDataP]
    cases hf : v.fpOut with
    | none => trivial
    | some f =>
      refine ⟨localAt_write hq _ _ _ f (hv f hf) x, ih _ _ ?_⟩
      intro g hg
      cases hg
      have := write_loc os w f x
      rw [show (Call.exec os w (.write f x)).1.loc = f.loc from this]
      exact hv f hf

theorem safeL_localAt {Z : Inflater} {plain : Bytes → Bytes} (C : InflateOK Z plain) (ok : AllocOracle)
    (os : Os) (hq : os.quiet) (w : World) (j : Job) (h : j.SafeL os w ok plain) :
    ∃ n0, ∀ fuel, n0 ≤ fuel → (extractP Z ok fuel j.hdr j.item j.out j.size j.inp).All
      (Call.LocalAt os w j.place) os w := by
  refine extractP_all C ok j.hdr j.item h.hdr h.item os j.out w j.size j.inp _ ?_
  intro P pieces log hP hlog
  have B := h.base
  have hns : ∀ x ∈ j.names, PlainName x := fun x hx => h.plainNames x (List.mem_cons_of_mem _ hx)
  have c0 : ConfL w w j.pre (j.dir ++ [j.name]) [] :=
    ⟨fun _ _ => rfl, fun q t hq => absurd hq (h.noLink q t), .inr rfl, Keeps.refl _⟩
  rw [← Job.archive_allowed j plain] at hP
  rw [Job.out_eq]
  cases hlog with
  | short => trivial
  | version => trivial
  | empty => trivial
  | unknown => trivial
  | @file hd chunks a1 a2 a3 =>
    rw [hlEventsP]
    simp only [hlEventP, hlFileStartP]
    refine ⟨localAt_open hq B c0 j.names hns (fun l hl => by simp at hl) _ _, ?_⟩
    cases ho : sysOpen os w (j.pre ++ j.name ++ slashed j.names) FOPEN_MODE true with
    | mk o w1 =>
      rw [show Call.exec os w (.openFile (j.pre ++ j.name ++ slashed j.names) FOPEN_MODE true) =
        (o, w1) from ho]
      cases o with
      | none => exact flReads_localAt hq _ _ _ _ (by simp)
      | some l =>
        refine flReads_localAt hq _ _ _ _ ?_
        intro f hf
        cases hf
        exact (local_open hq B j.names hns FOPEN_MODE true).2 w ⟨h.noLink, rfl, Keeps.refl _⟩ l (by rw [ho])
  | @dir hd _ evs owed a1 a2 a3 a4 a5 a6 a7 a8 a9 a10 =>
    obtain ⟨u, hu⟩ := hP
    have hd2 : (j.archive plain).drop 128 = pieces.flatten ++ u := by
      rw [← hu, List.append_assoc, List.drop_left' a1]
    obtain ⟨hmk, hs⟩ := h.kind.resolve_left (by
      intro hne
      refine hne ?_
      rw [← hu, List.append_assoc, List.take_left' a1]
      exact a3)
    rw [Job.out_eq] at hmk
    rw [hd2] at hs
    obtain ⟨v, hv⟩ := specParse_prefix ok 0 pieces.flatten u
    rw [← hv] at hs
    have hs' : LinkSafe [] [] (atoms evs) := (hs.prefix.sfx a8).prefix
    have hcl : Clear [] j.names := fun l hl => by simp at hl
    have c1 := B.mkdirsL c0 j.names hns hcl BASE_DIR_MODE
    have c2 := mkdirRecurse_calm os BASE_DIR_MODE (j.pre ++ j.name ++ slashed j.names) w
    rw [hlEventsP]
    simp only [hlEventP, hlDirStartP, andThen, Prog.bind_assoc]
    rw [Prog.all_bind]
    refine ⟨(mkdirRecurseP_along B j.names hns BASE_DIR_MODE).alongL hq B j.names hns hcl c0, ?_⟩
    rw [mkdirRecurseP_run, hmk]
    simp only [ne_eq, not_true_eq_false, if_false]
    refine ⟨localAt_alloc hq _ _ _, ?_⟩
    simp only [Call.exec, hq.2.2, Bool.false_eq_true, if_false, Prog.bind]
    exact inside_events_localAt hq B h.home j.names hns _ evs _ _ .idle [] []
      ⟨by simp [HLv.at], by simp, by simp, c1.tick, by simp [HLv.at, HLv.init], by simp⟩ c2.2 a10 hs'

/-! ### Amid other activity -/

theorem amid_localAt (os : Os) (w0 : World) (r : Loc) (acts : List (Option (World → World)))
    (hg : ∀ g, some g ∈ acts → Elsewhere w0 r g) : ∀ (p : Prog α) (w w' : World),
    p.All (Call.LocalAt os w0 r) os w → TwinL w0 r w w' →
    (amid os acts p w').1 = (p.after os (acts.countP Option.isNone) w).1 ∧
      TwinL w0 r (p.after os (acts.countP Option.isNone) w).2 (amid os acts p w').2 := by
  induction acts with
  | nil => intro p w w' _ hT; exact ⟨rfl, hT⟩
  | cons a acts ih =>
    intro p w w' hA hT
    have ih := ih fun g h => hg g (List.mem_cons_of_mem _ h)
    cases a with
    | none =>
      rw [List.countP_cons_of_pos rfl]
      cases p with
      | ret a =>
        simp only [amid, Prog.step, Prog.after]
        exact ih _ _ _ hA hT
      | call c k =>
        obtain ⟨e1, e2, e3⟩ := hA.1 _ hT
        simp only [amid, Prog.step, Prog.after, e1]
        exact ih _ _ _ hA.2 e2
    | some g =>
      rw [List.countP_cons_of_neg (by simp)]
      simp only [amid]
      obtain ⟨g1, g2, g3⟩ := hg g List.mem_cons_self w'
      refine ih _ _ _ hA (hT.others g1 ⟨?_, ?_⟩ g2)
      · exact fun l m h => g3 l _ h (by simp) (hT.right.1 l m h)
      · exact fun l t h => g3 l _ h (by simp) (hT.right.2 l t h)

/-! ### Side by side -/

theorem Call.Free.cwd {os : Os} {c : Call} (h : c.Free os) (w : World) : (c.exec os w).2.cwd = w.cwd := by
  have h1 := h w w.cwd
  have h2 : c.exec os (w.goto w.cwd) = c.exec os w := rfl
  rw [h2] at h1
  exact congrArg (fun x => x.2.cwd) h1

/-- Programs side by side, all but one of which do not depend on the working directory. -/
theorem play_mixed {ι : Type} [DecidableEq ι] (os : Os) (w0 : World) (r : ι → Loc)
    (hr : ∀ i k, i ≠ k → ¬ r i <+: r k) (i0 : ι) (sched : List ι) :
    ∀ (ps : ι → Prog α) (ws : ι → World) (w' : World),
    (∀ i, i ≠ i0 → (ps i).All (fun c _ => c.Local os w0 (r i) ∧ c.Free os) os (ws i)) →
    (ps i0).All (Call.LocalAt os w0 (r i0)) os (ws i0) →
    (∀ i, i ≠ i0 → Twin w0 (r i) (ws i) (w'.goto w0.cwd)) → TwinL w0 (r i0) (ws i0) w' →
    (∀ i, (play os sched ps w').1 i = ((ps i).after os (sched.count i) (ws i)).1 ∧
      ∀ q, (play os sched ps w').2.fs (r i ++ q) =
        ((ps i).after os (sched.count i) (ws i)).2.fs (r i ++ q)) ∧
    (∀ x, (∀ i, ¬ r i <+: x) → (play os sched ps w').2.fs x = w'.fs x) ∧
    (play os sched ps w').2.cwd = ((ps i0).after os (sched.count i0) (ws i0)).2.cwd := by
  induction sched with
  | nil =>
    intro ps ws w' _ _ hT hT0
    refine ⟨fun i => ⟨rfl, fun q => ?_⟩, fun _ _ => rfl, hT0.cwd⟩
    by_cases hi : i = i0
    · subst hi; exact hT0.same q
    · exact (hT i hi).same q
  | cons i sched ih =>
    intro ps ws w' hA hA0 hT hT0
    cases hp : ps i with
    | ret a =>
      have hsame : (fun j => if j = i then ((ps i).step os w').1 else ps j) = ps := by
        funext k
        split
        · rename_i hk; rw [hk, hp]; rfl
        · rfl
      have hcnt : ∀ k, (ps k).after os ((i :: sched).count k) (ws k) =
          (ps k).after os (sched.count k) (ws k) := by
        intro k
        rw [List.count_cons]
        split
        · rename_i hk
          rw [← eq_of_beq hk, hp]
          rfl
        · rfl
      rw [play, hsame, hp]
      obtain ⟨h1, h2, h3⟩ := ih ps ws w' hA hA0 hT hT0
      exact ⟨fun k => by rw [hcnt]; exact h1 k, h2, by rw [hcnt]; exact h3⟩
    | call c k =>
      -- what the call does
      have key : (c.exec os w').1 = (c.exec os (ws i)).1 ∧
          (∀ x, ¬ r i <+: x → (c.exec os w').2.fs x = w'.fs x) ∧ Keeps w0.fs (c.exec os w').2.fs ∧
          (if i = i0 then TwinL w0 (r i) (c.exec os (ws i)).2 (c.exec os w').2
           else Twin w0 (r i) (c.exec os (ws i)).2 ((c.exec os w').2.goto w0.cwd) ∧
            (c.exec os w').2.cwd = w'.cwd) ∧ (k (c.exec os w').1).All
              (if i = i0 then Call.LocalAt os w0 (r i) else fun c _ => c.Local os w0 (r i) ∧ c.Free os)
              os (c.exec os (ws i)).2 := by
        by_cases hi : i = i0
        · subst hi
          rw [hp] at hA0
          obtain ⟨e1, e2, e3⟩ := hA0.1 _ hT0
          simp only [if_true, e1]
          exact ⟨trivial, e3, e2.right, e2, hA0.2⟩
        · have hAi := hA i hi
          rw [hp] at hAi
          obtain ⟨e1, e2, e3⟩ := hAi.1.1 _ _ (hT i hi)
          have hfree := hAi.1.2 w' w0.cwd
          rw [hfree] at e1 e2 e3
          have e1 : (c.exec os w').1 = (c.exec os (ws i)).1 := e1
          simp only [if_neg hi, e1]
          exact ⟨trivial, e3, e2.right.keeps, ⟨e2, hAi.1.2.cwd w'⟩, hAi.2⟩
      obtain ⟨e1, e3, ek, e2, hAk⟩ := key
      rw [play, hp]
      simp only [Prog.step]
      have hother : ∀ j, j ≠ i → ∀ q, (c.exec os w').2.fs (r j ++ q) = w'.fs (r j ++ q) := fun j hj q =>
        e3 _ (prefix_clash (hr i j (Ne.symm hj)) (hr j i hj) (List.prefix_append _ _))
      obtain ⟨h1, h2, h3⟩ := ih (fun j => if j = i then k (c.exec os w').1 else ps j)
        (fun j => if j = i then (c.exec os (ws i)).2 else ws j) (c.exec os w').2 (by
          intro j hj0
          by_cases hj : j = i
          · subst hj; simpa [hj0] using hAk
          · simpa [hj] using hA j hj0) (by
          by_cases hj : i0 = i
          · subst hj; simpa using hAk
          · simpa [hj] using hA0) (by
          intro j hj0
          by_cases hj : j = i
          · subst hj
            rw [if_neg hj0] at e2
            simpa using e2.1
          · simp only [if_neg hj]
            exact (hT j hj0).others rfl ek (fun q => hother j hj q)) (by
          by_cases hj : i0 = i
          · subst hj; simpa using e2
          · rw [if_neg (Ne.symm hj)] at e2
            simp only [if_neg hj]
            exact hT0.others e2.2 ek (fun q => hother i0 hj q))
      have hcnt : ∀ j, ((fun j => if j = i then k (c.exec os w').1 else ps j) j).after os (sched.count j)
          (if j = i then (c.exec os (ws i)).2 else ws j) = (ps j).after os ((i :: sched).count j) (ws j) := by
        intro j
        rw [List.count_cons]
        by_cases hj : j = i
        · subst hj
          simp only [if_true, beq_self_eq_true, Prog.after, hp, Prog.step]
          rw [e1]
        · simp only [if_neg hj]
          rw [if_neg (by simpa using Ne.symm hj)]
          rfl
      refine ⟨fun j => ?_, fun x hx => by rw [h2 x hx]; exact e3 x (hx i), ?_⟩
      · have := h1 j
        rw [hcnt] at this
        exact this
      · rw [h3, hcnt]

end Zwt
