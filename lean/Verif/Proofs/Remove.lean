import Verif.Spec.Remove
import Verif.Proofs.Disk

/-! Removing a directory. -/

namespace Zwt

/-! ### Paths of plain names -/

/-- The path of the place `q` below the entry `n` of the working directory. -/
def rmAt (n : Bytes) (q : List Bytes) : Bytes := n ++ (q.map (47 :: ·)).flatten

theorem rmAt_snoc (n : Bytes) (q : List Bytes) (x : Bytes) : rmAt n (q ++ [x]) = rmAt n q ++ 47 :: x := by
  simp [rmAt]

theorem rmAt_ne_nil {n : Bytes} (hn : PlainName n) (q : List Bytes) : rmAt n q ≠ [] := by
  have := hn.1
  simp [rmAt, this]

theorem splitPath_rmAt {n : Bytes} (hn : PlainName n) : ∀ (k : Nat) (q : List Bytes), q.length = k →
    (∀ x ∈ q, PlainName x) → splitPath (rmAt n q) = n :: q := by
  intro k
  induction k with
  | zero =>
    intro q hq _
    rw [List.length_eq_zero_iff.mp hq]
    simpa [rmAt] using splitPath_plain n hn.2.2.2.1
  | succ k ih =>
    intro q hk hx
    have hq : q ≠ [] := by rintro rfl; simp at hk
    obtain ⟨q, x, rfl⟩ : ∃ q' x, q = q' ++ [x] := ⟨_, _, (List.dropLast_concat_getLast hq).symm⟩
    rw [rmAt_snoc, splitPath_append, ih q (by simpa using hk) (fun y hy => hx y (by simp [hy])),
      splitPath_plain x (hx x (by simp)).2.2.2.1]
    simp

theorem pathBase_rmAt {n : Bytes} (hn : PlainName n) (cwd : Loc) (q : List Bytes) :
    pathBase cwd (rmAt n q) = cwd := by
  have h := hn.head
  unfold pathBase rmAt
  cases n with
  | nil => exact absurd rfl hn.1
  | cons a as => rw [if_neg (by simpa using h)]

/-- A path of plain names through directories. -/
theorem resolve_names (os : Os) (fs : FS) (follow : Bool) (k : Nat) : ∀ (q : List Bytes) (cur : Loc)
    (x : Bytes), (∀ y ∈ q ++ [x], PlainName y) →
    (∀ j, j ≤ q.length → searchable os fs (cur ++ q.take j) = true) →
    (follow = true → ∀ t, fs (cur ++ q ++ [x]) ≠ some (.link t)) →
    resolve os fs follow k cur (q ++ [x]) = some (cur ++ q ++ [x]) := by
  intro q
  induction q with
  | nil =>
    intro cur x hp hs hl
    have hx := hp x (by simp)
    have h0 := hs 0 (by simp)
    simp only [List.take_zero, List.append_nil] at h0
    rw [List.nil_append, resolve_cons, if_neg (by simp [h0]), if_neg (by simp [hx.1, hx.2.1]),
      if_neg hx.2.2.1]
    simp only [List.append_nil] at hl ⊢
    cases hn : fs (cur ++ [x]) with
    | none => simp
    | some node =>
      cases node with
      | link t =>
        cases follow with
        | true => exact absurd hn (hl rfl t)
        | false => simp
      | dir _ => exact resolve_nil ..
      | file _ _ => exact resolve_nil ..
  | cons y q ih =>
    intro cur x hp hs hl
    have hy := hp y (by simp)
    have h0 := hs 0 (by simp)
    simp only [List.take_zero, List.append_nil] at h0
    have h1 := hs 1 (by simp)
    simp only [List.take_succ_cons, List.take_zero] at h1
    rw [List.cons_append, resolve_cons, if_neg (by simp [h0]), if_neg (by simp [hy.1, hy.2.1]),
      if_neg hy.2.2.1]
    have hd : ∃ m, fs (cur ++ [y]) = some (.dir m) := by
      simp only [searchable] at h1
      split at h1
      · exact ⟨_, ‹_›⟩
      · cases h1
    obtain ⟨m, hd⟩ := hd
    rw [hd]
    simp only
    have := ih (cur ++ [y]) x (fun z hz => hp z (by simp only [List.cons_append]; exact .tail _ hz))
      (fun j hj => by simpa using hs (j + 1) (by simpa using hj)) (by simpa using hl)
    simpa using this

/-- A path of plain names that meets no link leads nowhere else. -/
theorem resolve_names_only (os : Os) (fs : FS) (follow : Bool) (k : Nat) : ∀ (q : List Bytes) (cur : Loc)
    (x : Bytes) (r : Loc), (∀ y ∈ q ++ [x], PlainName y) →
    (∀ j, j ≤ q.length → 0 < j → ∀ t, fs (cur ++ q.take j) ≠ some (.link t)) →
    (follow = true → ∀ t, fs (cur ++ q ++ [x]) ≠ some (.link t)) →
    resolve os fs follow k cur (q ++ [x]) = some r → r = cur ++ q ++ [x] := by
  intro q
  induction q with
  | nil =>
    intro cur x r hp _ hl h
    have hx := hp x (by simp)
    rw [List.nil_append, resolve_cons] at h
    split at h
    · cases h
    · rw [if_neg (by simp [hx.1, hx.2.1]), if_neg hx.2.2.1] at h
      simp only [List.append_nil] at hl ⊢
      cases hn : fs (cur ++ [x]) with
      | none => rw [hn] at h; simpa using h.symm
      | some node =>
        rw [hn] at h
        cases node with
        | link t =>
          cases follow with
          | true => exact absurd hn (hl rfl t)
          | false => simpa using h.symm
        | dir _ => simp only [resolve_nil] at h; exact (Option.some.inj h).symm
        | file _ _ => simp only [resolve_nil] at h; exact (Option.some.inj h).symm
  | cons y q ih =>
    intro cur x r hp hs hl h
    have hy := hp y (by simp)
    rw [List.cons_append, resolve_cons] at h
    split at h
    · cases h
    · rw [if_neg (by simp [hy.1, hy.2.1]), if_neg hy.2.2.1] at h
      have h1 := hs 1 (by simp) (by omega)
      simp only [List.take_succ_cons, List.take_zero] at h1
      have key : resolve os fs follow k (cur ++ [y]) (q ++ [x]) = some r → r = cur ++ y :: q ++ [x] := by
        intro h
        have := ih (cur ++ [y]) x r (fun z hz => hp z (by simp only [List.cons_append]; exact .tail _ hz))
          (fun j hj hj' => by simpa using hs (j + 1) (by simpa using hj) (by omega)) (by simpa using hl) h
        simpa using this
      cases hn : fs (cur ++ [y]) with
      | none =>
        rw [hn] at h
        have hx := (hp x (by simp)).1
        simp [hx] at h
      | some node =>
        rw [hn] at h
        cases node with
        | link t => exact absurd hn (h1 t)
        | dir _ => exact key h
        | file _ _ => exact key h

/-- The path of a place below `n`, all of whose directories can be entered. -/
theorem locate_rmAt {os : Os} {v : World} {n : Bytes} (hn : PlainName n) {q : List Bytes}
    (hq : ∀ x ∈ q, PlainName x) (hc : searchable os v.fs v.cwd = true)
    (hs : ∀ j, j < q.length → searchable os v.fs (v.cwd ++ n :: q.take j) = true) (follow : Bool)
    (hl : follow = true → ∀ t, v.fs (v.cwd ++ n :: q) ≠ some (.link t)) :
    locate os v follow (rmAt n q) = some (v.cwd ++ n :: q) := by
  unfold locate
  rw [if_neg (rmAt_ne_nil hn q), splitPath_rmAt hn _ q rfl hq, pathBase_rmAt hn]
  have hne : n :: q ≠ [] := by simp
  have e := List.dropLast_concat_getLast hne
  have := resolve_names os v.fs follow MAX_LINKS (n :: q).dropLast v.cwd ((n :: q).getLast hne)
    (by rw [e]; intro y hy; rcases List.mem_cons.mp hy with rfl | hy
        · exact hn
        · exact hq y hy) ?_ (by rw [List.append_assoc, e]; exact hl)
  · rw [e, List.append_assoc, e] at this
    exact this
  · intro j hj
    cases j with
    | zero => simpa using hc
    | succ j =>
      have hj' : j < q.length := by simp at hj; omega
      have : (n :: q).dropLast.take (j + 1) = n :: q.take j := by
        rw [List.dropLast_eq_take, List.take_take, Nat.min_eq_left (by simp; omega), List.take_succ_cons]
      rw [this]
      exact hs j hj'

/-- No other place is found under the path. -/
theorem locate_rmAt_only {os : Os} {v : World} {n : Bytes} (hn : PlainName n) {q : List Bytes}
    (hq : ∀ x ∈ q, PlainName x)
    (hs : ∀ j, j < q.length → ∀ t, v.fs (v.cwd ++ n :: q.take j) ≠ some (.link t)) (follow : Bool)
    (hl : follow = true → ∀ t, v.fs (v.cwd ++ n :: q) ≠ some (.link t)) {r : Loc}
    (h : locate os v follow (rmAt n q) = some r) : r = v.cwd ++ n :: q := by
  unfold locate at h
  rw [if_neg (rmAt_ne_nil hn q), splitPath_rmAt hn _ q rfl hq, pathBase_rmAt hn] at h
  have hne : n :: q ≠ [] := by simp
  have e := List.dropLast_concat_getLast hne
  have := resolve_names_only os v.fs follow MAX_LINKS (n :: q).dropLast v.cwd ((n :: q).getLast hne) r
    (by rw [e]; intro y hy; rcases List.mem_cons.mp hy with rfl | hy
        · exact hn
        · exact hq y hy) ?_ (by rw [List.append_assoc, e]; exact hl) (by rw [e]; exact h)
  · rw [List.append_assoc, e] at this
    exact this
  · intro j hj h0
    cases j with
    | zero => omega
    | succ j =>
      have hj' : j < q.length := by simp at hj; omega
      have : (n :: q).dropLast.take (j + 1) = n :: q.take j := by
        rw [List.dropLast_eq_take, List.take_take, Nat.min_eq_left (by simp; omega), List.take_succ_cons]
      rw [this]
      exact hs j hj'

theorem rmPath_at {n : Bytes} {q : List Bytes} {x : Bytes} (h : (rmAt n (q ++ [x])).length ≤ 4094) :
    rmPath (rmAt n q) x = rmAt n (q ++ [x]) := by
  unfold rmPath
  rw [← rmAt_snoc, List.take_of_length_le h]

/-! ### Nothing outside changes -/

/-- `v` is `w` with nodes removed at or below the entry `n` of the working directory. -/
def CutBelow (w : World) (n : Bytes) (v : World) : Prop :=
  Thinned w v ∧ ∀ x, ¬ w.cwd ++ [n] <+: x → v.fs x = w.fs x

theorem CutBelow.refl (w : World) (n : Bytes) : CutBelow w n w :=
  ⟨⟨rfl, fun _ => .inr rfl⟩, fun _ _ => rfl⟩

theorem CutBelow.tick {w v : World} {n : Bytes} (h : CutBelow w n v) : CutBelow w n v.tick := h

theorem CutBelow.drop {w v : World} {n : Bytes} (h : CutBelow w n v) (os : Os) (q : List Bytes) :
    CutBelow w n (dropNode os v (v.cwd ++ n :: q)).2 := by
  unfold dropNode
  split
  · refine ⟨⟨h.1.1, fun x => ?_⟩, fun x hx => ?_⟩
    · show (if x = v.cwd ++ n :: q then none else v.fs x) = none ∨
        (if x = v.cwd ++ n :: q then none else v.fs x) = w.fs x
      split
      · exact .inl rfl
      · exact h.1.2 x
    · show (if x = v.cwd ++ n :: q then none else v.fs x) = _
      rw [if_neg, h.2 x hx]
      rintro rfl
      exact hx ⟨q, by rw [h.1.1]; simp⟩
  · exact h

/-- On the way to the place there is no link. -/
def NoLinkTo (w : World) (n : Bytes) (q : List Bytes) : Prop :=
  ∀ j, j < q.length → ∀ t, w.fs (w.cwd ++ n :: q.take j) ≠ some (.link t)

theorem Thinned.noLink {w v : World} (h : Thinned w v) {x : Loc} (hx : ∀ t, w.fs x ≠ some (.link t)) :
    ∀ t, v.fs x ≠ some (.link t) := by
  intro t ht
  rcases h.2 x with h | h
  · rw [h] at ht; cases ht
  · exact hx t (h ▸ ht)

theorem CutBelow.locate {w v : World} {n : Bytes} (h : CutBelow w n v) (hn : PlainName n)
    {q : List Bytes} (hq : ∀ x ∈ q, PlainName x) (hs : NoLinkTo w n q) {os : Os} {follow : Bool}
    (hl : follow = true → ∀ t, w.fs (w.cwd ++ n :: q) ≠ some (.link t)) {r : Loc}
    (hr : Zwt.locate os v follow (rmAt n q) = some r) : r = v.cwd ++ n :: q :=
  locate_rmAt_only hn hq (fun j hj => by rw [h.1.1]; exact h.1.noLink (hs j hj)) follow
    (fun hf => by rw [h.1.1]; exact h.1.noLink (hl hf)) hr

theorem CutBelow.unlink {w v : World} {n : Bytes} (h : CutBelow w n v) (hn : PlainName n)
    {q : List Bytes} (hq : ∀ x ∈ q, PlainName x) (hs : NoLinkTo w n q) (os : Os) :
    CutBelow w n (sysUnlink os v (rmAt n q)).2 := by
  unfold sysUnlink
  split
  · exact h
  · cases hr : Zwt.locate os v false (rmAt n q) with
    | none => exact h
    | some r =>
      have := h.locate hn hq hs (by simp) hr
      subst this
      simp only
      split
      · exact h.drop os q
      · exact h.drop os q
      · exact h

theorem CutBelow.rmdir {w v : World} {n : Bytes} (h : CutBelow w n v) (hn : PlainName n)
    {q : List Bytes} (hq : ∀ x ∈ q, PlainName x) (hs : NoLinkTo w n q) (env : RmEnv) (os : Os) :
    CutBelow w n (sysRmdir env os v (rmAt n q)).2 := by
  unfold sysRmdir
  split
  · exact h
  · cases hr : Zwt.locate os v false (rmAt n q) with
    | none => exact h
    | some r =>
      have := h.locate hn hq hs (by simp) hr
      subst this
      simp only
      split
      · split
        · exact h.drop os q
        · exact h
      · exact h

/-- The entries of the directory at `q`, as they were. -/
def Listed (w : World) (n : Bytes) (q : List Bytes) (e : Entry) : Prop :=
  (e.name = [46] ∨ e.name = [46, 46]) ∧ e.ty = .dir ∨
    ∃ node, w.fs (w.cwd ++ n :: q ++ [e.name]) = some node ∧ e.ty = node.type

theorem rmEach_inside {os : Os} {env : RmEnv} {w : World} {n : Bytes} (S : ShortBelow w n)
    {sub : Bytes → World → Run (Nat × World)} {q : List Bytes} (hq : ∀ x ∈ q, PlainName x)
    (hs : NoLinkTo w n q) (hl : ∀ t, w.fs (w.cwd ++ n :: q) ≠ some (.link t))
    (hsub : ∀ x v c v', PlainName x → (∃ m, w.fs (w.cwd ++ n :: q ++ [x]) = some (.dir m)) →
      CutBelow w n v → sub (rmAt n (q ++ [x])) v = .ok (c, v') → CutBelow w n v') :
    ∀ (es : List Entry) (count : Nat) (v : World) (c : Nat) (v' : World),
      (∀ e ∈ es, Listed w n q e) → CutBelow w n v →
      rmEach env os sub (rmAt n q) es count v = .ok (c, v') → CutBelow w n v' := by
  intro es
  induction es with
  | nil => intro count v c v' _ h hr; simp only [rmEach] at hr; cases hr; exact h
  | cons e es ih =>
    intro count v c v' he h hr
    have hes : ∀ e ∈ es, Listed w n q e := fun x hx => he x (.tail _ hx)
    have hsx : NoLinkTo w n (q ++ [e.name]) := by
      intro j hj
      rw [List.take_append_of_le_length (by simp at hj; omega)]
      by_cases hjq : j < q.length
      · exact hs j hjq
      · rw [List.take_of_length_le (by omega)]; exact hl
    have hqx : PlainName e.name → ∀ x ∈ q ++ [e.name], PlainName x := by
      intro hp x hx
      rcases List.mem_append.mp hx with hx | hx
      · exact hq x hx
      · rw [List.mem_singleton.mp hx]; exact hp
    have hreal : ∀ node, w.fs (w.cwd ++ n :: q ++ [e.name]) = some node →
        PlainName e.name ∧ rmPath (rmAt n q) e.name = rmAt n (q ++ [e.name]) := by
      intro node hn
      refine ⟨S.names q e.name node hn, rmPath_at ?_⟩
      exact S.limit (q ++ [e.name]) node (by simpa using hn)
    simp only [rmEach] at hr
    split at hr
    · rename_i hty
      split at hr
      · exact ih _ _ _ _ hes h hr
      · rename_i hdot
        rcases he e (.head _) with ⟨hd, _⟩ | ⟨node, hn, ht⟩
        · exact absurd (by simpa [isDot] using hd) hdot
        · obtain ⟨hp, hpath⟩ := hreal node hn
          have hdir : ∃ m, w.fs (w.cwd ++ n :: q ++ [e.name]) = some (.dir m) := by
            rw [hty] at ht
            cases node with
            | dir m => exact ⟨m, hn⟩
            | file _ _ => cases ht
            | link _ => cases ht
          rw [hpath] at hr
          cases hc : sub (rmAt n (q ++ [e.name])) v with
          | error x => rw [hc] at hr; cases hr
          | ok p =>
            obtain ⟨c1, v1⟩ := p
            have h1 := hsub _ _ _ _ hp hdir h hc
            rw [hc] at hr
            cases c1 with
            | zero => exact ih _ _ _ _ hes (h1.rmdir S.name (hqx hp) hsx env os) hr
            | succ c1 => exact ih _ _ _ _ hes h1 hr
    · rename_i hty
      rcases he e (.head _) with ⟨_, hd⟩ | ⟨node, hn, ht⟩
      · exact absurd hd hty
      · obtain ⟨hp, hpath⟩ := hreal node hn
        rw [hpath] at hr
        have h1 := h.unlink S.name (hqx hp) hsx os
        cases hu : sysUnlink os v (rmAt n (q ++ [e.name])) with
        | mk b v1 =>
          rw [hu] at hr h1
          cases b with
          | true => exact ih _ _ _ _ hes h1 hr
          | false => exact ih _ _ _ _ hes h1 hr

theorem rmTree_inside {os : Os} {env : RmEnv} {w : World} {n : Bytes} (R : Reads os env w)
    (S : ShortBelow w n) : ∀ (fuel : Nat) (q : List Bytes) (v : World) (c : Nat) (v' : World),
      (∀ x ∈ q, PlainName x) → NoLinkTo w n q → (∀ t, w.fs (w.cwd ++ n :: q) ≠ some (.link t)) →
      CutBelow w n v → rmTree env os fuel (rmAt n q) v = .ok (c, v') → CutBelow w n v' := by
  intro fuel
  induction fuel with
  | zero => intro q v c v' _ _ _ _ hr; simp only [rmTree] at hr; cases hr
  | succ fuel ih =>
    intro q v c v' hq hs hl h hr
    simp only [rmTree] at hr
    split at hr
    · cases hr; exact h
    · refine rmEach_inside S hq hs hl ?_ _ _ _ _ _ ?_ h.tick hr
      · intro x u c u' hx hd hu hsub
        refine ih _ u c u' ?_ ?_ ?_ hu hsub
        · intro y hy
          rcases List.mem_append.mp hy with hy | hy
          · exact hq y hy
          · rw [List.mem_singleton.mp hy]; exact hx
        · intro j hj
          rw [List.take_append_of_le_length (by simp at hj; omega)]
          by_cases hjq : j < q.length
          · exact hs j hjq
          · rw [List.take_of_length_le (by omega)]; exact hl
        · intro t ht
          obtain ⟨m, hd⟩ := hd
          have : w.fs (w.cwd ++ n :: q ++ [x]) = some (.link t) := by simpa using ht
          rw [hd] at this; cases this
      · intro e he
        cases hes : env.list v (rmAt n q) with
        | none => rw [hes] at he; simp at he
        | some es =>
          rw [hes] at he
          simp only [Option.getD_some] at he
          obtain ⟨l, m, h1, h2, h3, h4⟩ := R.list v h.1 _ _ hes
          have hloc := h.locate S.name hq hs (fun _ => hl) h1
          subst hloc
          have hdots := h4 e he
          rcases h3.real e he with hd | hd | ⟨node, hn, ht⟩
          · exact .inl ⟨.inl hd, hdots (.inl hd)⟩
          · exact .inl ⟨.inr hd, hdots (.inr hd)⟩
          · refine .inr ⟨node, ?_, ht⟩
            rw [h.1.1] at hn
            rcases h.1.2 (w.cwd ++ n :: q ++ [e.name]) with h0 | h0
            · rw [h0] at hn; cases hn
            · rw [← h0]; exact hn

/-! ### Everything below is removed -/

/-- The directories from the working directory to the place `q` below `n` are as they were. -/
def Intact (w : World) (n : Bytes) (q : List Bytes) (v : World) : Prop :=
  v.fs w.cwd = w.fs w.cwd ∧ ∀ j, j ≤ q.length → v.fs (w.cwd ++ n :: q.take j) = w.fs (w.cwd ++ n :: q.take j)

theorem Intact.of_rest {w v v' : World} {n : Bytes} {q : List Bytes} (h : Intact w n q v)
    (hr : ∀ y, (∀ x r, y ≠ w.cwd ++ n :: q ++ x :: r) → v'.fs y = v.fs y) : Intact w n q v' := by
  refine ⟨?_, fun j hj => ?_⟩
  · rw [hr _ (fun x r e => ?_), h.1]
    have := congrArg List.length e
    simp at this
  · rw [hr _ (fun x r e => ?_), h.2 j hj]
    have := congrArg List.length e
    simp at this; omega

theorem dropNode_ok {os : Os} {v : World} {l : Loc} (h : writable os v.fs l.dropLast = true) :
    dropNode os v l = (true, { v with fs := v.fs.del l }.tick) := by
  unfold dropNode; rw [if_pos h]

theorem Enterable.search {os : Os} {m : Nat} (h : Enterable os m) {fs : FS} {l : Loc}
    (hl : fs l = some (.dir m)) : searchable os fs l = true ∧ writable os fs l = true := by
  simp only [searchable, writable, hl]
  rcases h with h | ⟨h1, h2⟩
  · simp [h]
  · simp [h1, h2]

section
variable {os : Os} {env : RmEnv} {w : World} {n : Bytes}

/-- What is needed throughout. -/
structure RmOk (os : Os) (env : RmEnv) (w : World) (n : Bytes) : Prop where
  quiet : ∀ k, os.refuses k = false
  tree : w.fs.tree
  reads : Reads os env w
  short : ShortBelow w n
  own : OwnBelow os w n
  search : searchable os w.fs w.cwd = true

theorem RmOk.locate (K : RmOk os env w n) {q : List Bytes} (hq : ∀ x ∈ q, PlainName x)
    (hd : ∀ j, j ≤ q.length → ∃ m, w.fs (w.cwd ++ n :: q.take j) = some (.dir m)) {x : Bytes}
    (hx : PlainName x) {v : World} (hv : v.cwd = w.cwd) (I : Intact w n q v) (follow : Bool)
    (hl : follow = true → ∀ t, v.fs (w.cwd ++ n :: q ++ [x]) ≠ some (.link t)) :
    Zwt.locate os v follow (rmAt n (q ++ [x])) = some (w.cwd ++ n :: q ++ [x]) := by
  have := locate_rmAt (os := os) (v := v) K.short.name (q := q ++ [x]) ?_ ?_ ?_ follow ?_
  · simpa [hv] using this
  · intro y hy
    rcases List.mem_append.mp hy with hy | hy
    · exact hq y hy
    · rw [List.mem_singleton.mp hy]; exact hx
  · rw [hv]
    have := K.search
    simpa only [searchable, I.1] using this
  · intro j hj
    have hj' : j ≤ q.length := by simp at hj; omega
    rw [List.take_append_of_le_length hj', hv]
    obtain ⟨m, hm⟩ := hd j hj'
    exact ((K.own _ m hm).2.search ((I.2 j hj').trans hm)).1
  · intro hf t
    rw [hv]
    simpa using hl hf t

/-- What a call leaves: nothing below the place, everything else as it was. -/
structure Emptied (w : World) (n : Bytes) (q : List Bytes) (v v' : World) : Prop where
  cwd : v'.cwd = v.cwd
  gone : ∀ x r, v'.fs (w.cwd ++ n :: q ++ x :: r) = none
  rest : ∀ y, (∀ x r, y ≠ w.cwd ++ n :: q ++ x :: r) → v'.fs y = v.fs y

theorem rmEach_all (K : RmOk os env w n) {sub : Bytes → World → Run (Nat × World)} {q : List Bytes}
    (hq : ∀ x ∈ q, PlainName x)
    (hd : ∀ j, j ≤ q.length → ∃ m, w.fs (w.cwd ++ n :: q.take j) = some (.dir m))
    (hsub : ∀ x v, PlainName x → (∃ m, w.fs (w.cwd ++ n :: q ++ [x]) = some (.dir m)) →
      Thinned w v → Intact w n (q ++ [x]) v →
      (∀ y r, v.fs (w.cwd ++ n :: (q ++ [x]) ++ y :: r) = w.fs (w.cwd ++ n :: (q ++ [x]) ++ y :: r)) →
      ∃ v', sub (rmAt n (q ++ [x])) v = .ok (0, v') ∧ Emptied w n (q ++ [x]) v v') :
    ∀ (es : List Entry) (count : Nat) (v : World), Thinned w v → Intact w n q v →
      (es.map (·.name)).Nodup → (∀ e ∈ es, Listed w n q e) →
      (∀ e ∈ es, ∀ r, v.fs (w.cwd ++ n :: q ++ e.name :: r) = w.fs (w.cwd ++ n :: q ++ e.name :: r)) →
      (∀ x r, x ∉ es.map (·.name) → v.fs (w.cwd ++ n :: q ++ x :: r) = none) →
      ∃ v', rmEach env os sub (rmAt n q) es count v = .ok (count, v') ∧ Emptied w n q v v' := by
  intro es
  induction es with
  | nil =>
    intro count v _ _ _ _ _ h
    exact ⟨v, rfl, rfl, fun x r => h x r (by simp), fun _ _ => rfl⟩
  | cons e es ih =>
    intro count v T I hnd hls has hnone
    have hnd' := List.nodup_cons.mp (by simpa using hnd : (e.name :: es.map (·.name)).Nodup)
    have hls' : ∀ x ∈ es, Listed w n q x := fun x hx => hls x (.tail _ hx)
    have hself := has e (.head _)
    -- going on when everything of this name is gone
    have go : ∀ v1 : World, v1.cwd = v.cwd → (∀ r, v1.fs (w.cwd ++ n :: q ++ e.name :: r) = none) →
        (∀ y, (∀ r, y ≠ w.cwd ++ n :: q ++ e.name :: r) → v1.fs y = v.fs y) →
        ∃ v', rmEach env os sub (rmAt n q) es count v1 = .ok (count, v') ∧ Emptied w n q v v' := by
      intro v1 hc hg hrest
      have hrest' : ∀ y, (∀ x r, y ≠ w.cwd ++ n :: q ++ x :: r) → v1.fs y = v.fs y :=
        fun y hy => hrest y (fun r => hy e.name r)
      have hT1 : Thinned w v1 := by
        refine ⟨hc.trans T.1, fun x => ?_⟩
        by_cases hx : ∃ r, x = w.cwd ++ n :: q ++ e.name :: r
        · obtain ⟨r, rfl⟩ := hx; exact .inl (hg r)
        · rw [hrest x (fun r hr => hx ⟨r, hr⟩)]; exact T.2 x
      have has1 : ∀ x ∈ es, ∀ r, v1.fs (w.cwd ++ n :: q ++ x.name :: r) =
          w.fs (w.cwd ++ n :: q ++ x.name :: r) := by
        intro x hx r
        rw [hrest _ (fun r' hr => ?_), has x (.tail _ hx) r]
        have := List.append_cancel_left hr
        simp only [List.cons.injEq] at this
        exact hnd'.1 (this.1 ▸ List.mem_map_of_mem hx)
      have hnone1 : ∀ x r, x ∉ es.map (·.name) → v1.fs (w.cwd ++ n :: q ++ x :: r) = none := by
        intro x r hx
        by_cases hxe : x = e.name
        · rw [hxe]; exact hg r
        · rw [hrest _ (fun r' hr => ?_)]
          · refine hnone x r ?_
            rw [List.map_cons, List.mem_cons, not_or]
            exact ⟨hxe, hx⟩
          · have := List.append_cancel_left hr
            simp only [List.cons.injEq] at this
            exact hxe this.1
      obtain ⟨v', a1, a2, a3, a4⟩ := ih count v1 hT1 (I.of_rest hrest') hnd'.2 hls' has1 hnone1
      exact ⟨v', a1, a2.trans hc, a3, fun y hy => (a4 y hy).trans (hrest' y hy)⟩
    have hlist : ∀ node, w.fs (w.cwd ++ n :: q ++ [e.name]) = some node →
        PlainName e.name ∧ rmPath (rmAt n q) e.name = rmAt n (q ++ [e.name]) := by
      intro node hn
      refine ⟨K.short.names q e.name node hn, rmPath_at ?_⟩
      exact K.short.limit (q ++ [e.name]) node (by simpa using hn)
    have hwr : ∀ u : World, Intact w n q u → writable os u.fs (w.cwd ++ n :: q ++ [e.name]).dropLast = true := by
      intro u hu
      rw [List.dropLast_concat]
      obtain ⟨m, hm⟩ := hd q.length (Nat.le_refl _)
      have e1 := hu.2 q.length (Nat.le_refl _)
      rw [List.take_length] at hm e1
      exact ((K.own _ m hm).2.search (e1.trans hm)).2
    have hcut : ∀ (u : World) (y : Loc), (∀ r, y ≠ w.cwd ++ n :: q ++ e.name :: r) →
        u.fs.del (w.cwd ++ n :: q ++ [e.name]) y = u.fs y := by
      intro u y hy
      unfold FS.del
      rw [if_neg (hy [])]
    rcases hls e (.head _) with ⟨hdot, hty⟩ | ⟨node, hn, hty⟩
    · -- `.` and `..`
      have hskip : rmEach env os sub (rmAt n q) (e :: es) count v =
          rmEach env os sub (rmAt n q) es count v := by
        simp only [rmEach, hty]
        rw [if_pos (by simpa [isDot] using hdot)]
      rw [hskip]
      have hno : ¬ PlainName e.name := by
        rintro ⟨_, h1, h2, _⟩
        rcases hdot with h | h
        · exact h1 h
        · exact h2 h
      have h0 : w.fs (w.cwd ++ n :: q ++ [e.name]) = none := by
        cases hx : w.fs (w.cwd ++ n :: q ++ [e.name]) with
        | none => rfl
        | some node => exact absurd (K.short.names q _ node hx) hno
      refine go v rfl (fun r => ?_) (fun _ _ => rfl)
      rw [hself r]
      cases r with
      | nil => exact h0
      | cons a r =>
        have := K.tree.below (l := w.cwd ++ n :: q ++ [e.name]) (by rw [h0]; simp) (q := a :: r) (by simp)
        simpa using this
    · obtain ⟨hp, hpath⟩ := hlist node hn
      have hv : v.fs (w.cwd ++ n :: q ++ [e.name]) = some node := (hself []).trans hn
      have hndot : isDot e.name = false := by
        obtain ⟨_, h1, h2, _⟩ := hp
        simp [isDot, h1, h2]
      by_cases hdir : ∃ m, node = .dir m
      · -- a directory
        obtain ⟨m, rfl⟩ := hdir
        have hty' : e.ty = .dir := hty
        have hI : Intact w n (q ++ [e.name]) v := by
          refine ⟨I.1, fun j hj => ?_⟩
          by_cases hjq : j ≤ q.length
          · rw [List.take_append_of_le_length hjq]; exact I.2 j hjq
          · rw [List.take_of_length_le (by simp; omega)]
            have := hself []
            simpa using this
        obtain ⟨v1, b1, b2, b3, b4⟩ := hsub e.name v hp ⟨m, hn⟩ T hI (fun y r => by
          have := hself (y :: r)
          simpa using this)
        have hcwd : v1.cwd = w.cwd := b2.trans T.1
        have b4' : ∀ y, (∀ r, y ≠ w.cwd ++ n :: q ++ e.name :: r) → v1.fs y = v.fs y := by
          intro y hy
          refine b4 y (fun x r hx => hy (x :: r) ?_)
          rw [hx]; simp
        have hI1 : Intact w n q v1 := I.of_rest (fun y hy => b4' y (fun r => hy e.name r))
        have hv1 : v1.fs (w.cwd ++ n :: q ++ [e.name]) = some (.dir m) := by
          rw [b4 _ (fun x r hx => ?_), hv]
          have := congrArg List.length hx
          simp at this
        have T1 : Thinned w v1 := by
          refine ⟨hcwd, fun x => ?_⟩
          by_cases hx : ∃ y r, x = w.cwd ++ n :: (q ++ [e.name]) ++ y :: r
          · obtain ⟨y, r, rfl⟩ := hx; exact .inl (b3 y r)
          · rw [b4 x (fun y r h => hx ⟨y, r, h⟩)]; exact T.2 x
        have hloc := K.locate hq hd hp hcwd hI1 false (by simp)
        have hbare : env.bare v1.fs (w.cwd ++ n :: q ++ [e.name]) = true := by
          rw [K.reads.bare v1 T1]
          intro x
          have := b3 x []
          simpa using this
        have hrm : sysRmdir env os v1 (rmAt n (q ++ [e.name])) =
            (true, { v1 with fs := v1.fs.del (w.cwd ++ n :: q ++ [e.name]) }.tick) := by
          unfold sysRmdir
          rw [if_neg (by simp [K.quiet]), hloc]
          simp only [hv1]
          rw [if_pos, dropNode_ok (hwr v1 hI1)]
          refine ⟨by simp, hbare, ?_⟩
          rw [splitPath_rmAt K.short.name _ _ rfl (by
            intro y hy
            rcases List.mem_append.mp hy with hy | hy
            · exact hq y hy
            · rw [List.mem_singleton.mp hy]; exact hp)]
          have e2 : (n :: (q ++ [e.name])).getLast? = some e.name := by
            rw [← List.cons_append, List.getLast?_append]; simp
          rw [e2]
          intro h
          exact hp.2.1 (Option.some.inj h)
        have hstep : rmEach env os sub (rmAt n q) (e :: es) count v =
            rmEach env os sub (rmAt n q) es count
              { v1 with fs := v1.fs.del (w.cwd ++ n :: q ++ [e.name]) }.tick := by
          simp only [rmEach, hty']
          rw [if_neg (by simp [hndot]), hpath, b1]
          simp only [hrm]
        rw [hstep]
        refine go _ b2 (fun r => ?_) (fun y hy => ?_)
        · show v1.fs.del _ _ = none
          unfold FS.del
          split
          · rfl
          · rename_i hne
            cases r with
            | nil => exact absurd rfl hne
            | cons a r =>
              have := b3 a r
              simpa using this
        · exact (hcut v1 y hy).trans (b4' y hy)
      · -- a file or a link
        have hloc := K.locate hq hd hp T.1 I false (by simp)
        have hrm : sysUnlink os v (rmAt n (q ++ [e.name])) =
            (true, { v with fs := v.fs.del (w.cwd ++ n :: q ++ [e.name]) }.tick) := by
          unfold sysUnlink
          rw [if_neg (by simp [K.quiet]), hloc]
          simp only [hv]
          cases node with
          | dir m => exact absurd ⟨m, rfl⟩ hdir
          | file _ _ => exact dropNode_ok (hwr v I)
          | link _ => exact dropNode_ok (hwr v I)
        have hstep : rmEach env os sub (rmAt n q) (e :: es) count v =
            rmEach env os sub (rmAt n q) es count
              { v with fs := v.fs.del (w.cwd ++ n :: q ++ [e.name]) }.tick := by
          cases node with
          | dir m => exact absurd ⟨m, rfl⟩ hdir
          | file _ _ =>
            have hty' : e.ty = .file := hty
            simp only [rmEach, hty', hpath, hrm]
          | link _ =>
            have hty' : e.ty = .symlink := hty
            simp only [rmEach, hty', hpath, hrm]
        rw [hstep]
        refine go _ rfl (fun r => ?_) (fun y hy => hcut v y hy)
        show v.fs.del _ _ = none
        unfold FS.del
        split
        · rfl
        · rename_i hne
          cases r with
          | nil => exact absurd rfl hne
          | cons a r =>
            rw [hself]
            have := K.tree.below (l := w.cwd ++ n :: q ++ [e.name]) (by
              intro m hm; rw [hn] at hm; exact hdir ⟨m, Option.some.inj hm⟩) (q := a :: r) (by simp)
            simpa using this

theorem rmTree_all (K : RmOk os env w n) : ∀ (fuel : Nat) (q : List Bytes) (v : World),
    (∀ x ∈ q, PlainName x) →
    (∀ j, j ≤ q.length → ∃ m, w.fs (w.cwd ++ n :: q.take j) = some (.dir m)) →
    4095 ≤ fuel + (rmAt n q).length → Thinned w v → Intact w n q v →
    (∀ y r, v.fs (w.cwd ++ n :: q ++ y :: r) = w.fs (w.cwd ++ n :: q ++ y :: r)) →
    ∃ v', rmTree env os fuel (rmAt n q) v = .ok (0, v') ∧ Emptied w n q v v' := by
  intro fuel
  induction fuel with
  | zero =>
    intro q v _ hd hf
    obtain ⟨m, hm⟩ := hd q.length (Nat.le_refl _)
    rw [List.take_length] at hm
    have : (rmAt n q).length ≤ 4094 := K.short.limit q _ hm
    omega
  | succ fuel ih =>
    intro q v hq hd hf T I hb
    obtain ⟨m, hm⟩ := hd q.length (Nat.le_refl _)
    rw [List.take_length] at hm
    have hvm : v.fs (w.cwd ++ n :: q) = some (.dir m) := by
      have := I.2 q.length (Nat.le_refl _)
      rw [List.take_length] at this
      exact this.trans hm
    have hloc : Zwt.locate os v true (rmAt n q) = some (w.cwd ++ n :: q) := by
      have := locate_rmAt (os := os) (v := v) K.short.name hq ?_ ?_ true ?_
      · rw [T.1] at this; exact this
      · rw [T.1]
        have := K.search
        simpa only [searchable, I.1] using this
      · intro j hj
        rw [T.1]
        obtain ⟨m', hm'⟩ := hd j (by omega)
        exact ((K.own _ m' hm').2.search ((I.2 j (by omega)).trans hm')).1
      · intro _ t; rw [T.1, hvm]; simp
    simp only [rmTree]
    rw [if_neg (by simp [K.quiet])]
    cases hes : env.list v (rmAt n q) with
    | none => exact absurd hes (K.reads.can v T _ _ m hloc hvm (K.own _ m hm).1)
    | some es =>
      simp only [Option.getD_some]
      obtain ⟨l, m', h1, h2, h3, h4⟩ := K.reads.list v T _ _ hes
      rw [hloc] at h1
      cases h1
      have hvx : ∀ x, v.fs (w.cwd ++ n :: q ++ [x]) = w.fs (w.cwd ++ n :: q ++ [x]) := fun x => hb x []
      have key := rmEach_all K hq hd (sub := rmTree env os fuel) ?_ es 0 v.tick
        T I h3.once ?_ (fun e _ r => hb e.name r) ?_
      · obtain ⟨v', a1, a2, a3, a4⟩ := key
        exact ⟨v', a1, a2, a3, a4⟩
      · intro x u hx hxd hT hI hbu
        refine ih (q ++ [x]) u ?_ ?_ ?_ hT hI hbu
        · intro y hy
          rcases List.mem_append.mp hy with hy | hy
          · exact hq y hy
          · rw [List.mem_singleton.mp hy]; exact hx
        · intro j hj
          by_cases hjq : j ≤ q.length
          · rw [List.take_append_of_le_length hjq]; exact hd j hjq
          · rw [List.take_of_length_le (by simp; omega)]
            obtain ⟨m, h⟩ := hxd
            exact ⟨m, by simpa using h⟩
        · rw [rmAt_snoc]
          simp only [List.length_append, List.length_cons]
          omega
      · intro e he
        rcases h3.real e he with hd | hd | ⟨node, hn, ht⟩
        · exact .inl ⟨.inl hd, h4 e he (.inl hd)⟩
        · exact .inl ⟨.inr hd, h4 e he (.inr hd)⟩
        · exact .inr ⟨node, (hvx _) ▸ hn, ht⟩
      · intro x r hx
        have h0 : w.fs (w.cwd ++ n :: q ++ [x]) = none := by
          cases hn : w.fs (w.cwd ++ n :: q ++ [x]) with
          | none => rfl
          | some node =>
            obtain ⟨e, he, hex⟩ := h3.all x node ((hvx x).trans hn)
            exact absurd (List.mem_map.mpr ⟨e, he, hex⟩) hx
        show v.fs _ = none
        rw [hb]
        cases r with
        | nil => exact h0
        | cons a r =>
          have := K.tree.below (l := w.cwd ++ n :: q ++ [x]) (by rw [h0]; simp) (q := a :: r) (by simp)
          simpa using this

end

/-! ### The computed environment -/

theorem reads_rmEnvOf (os : Os) (w : World) (names : List Loc) (hn : names.Nodup)
    (hall : ∀ x, w.fs x ≠ none → x ∈ names) (hdot : ∀ x ∈ names, x.getLast? ≠ some [46] ∧
      x.getLast? ≠ some [46, 46]) : Reads os (rmEnvOf os names) w := by
  have hthin : ∀ v, Thinned w v → ∀ x, v.fs x ≠ none → x ∈ names := by
    intro v hv x hx
    rcases hv.2 x with h | h
    · exact absurd h hx
    · exact hall x (h ▸ hx)
  refine ⟨fun v hv p es hes => ?_, fun v hv p l m hl hd hr => ?_, fun v hv l => ?_⟩
  · have hes' := hes
    simp only [rmEnvOf, envOf] at hes'
    split at hes'
    · cases hes'
    · rename_i l hl
      split at hes'
      · rename_i m hm
        split at hes'
        · rename_i hr
          obtain ⟨es', h1, h2⟩ := (shows_envOf os v names hn (hthin v hv)).list p l m hl hm hr
          have : es' = es := Option.some.inj (h1.symm.trans hes)
          subst this
          refine ⟨l, m, hl, hm, h2, fun e he hd => ?_⟩
          rw [← Option.some.inj hes'] at he
          obtain ⟨z, hz, hz'⟩ := List.mem_filterMap.mp he
          split at hz'
          · rename_i n' node h3 h4
            split at hz'
            · simp only [Option.some.injEq] at hz'
              subst hz'
              have := hdot z hz
              rcases hd with hd | hd
              · exact absurd (h3.trans (congrArg some hd)) this.1
              · exact absurd (h3.trans (congrArg some hd)) this.2
            · cases hz'
          · cases hz'
        · cases hes'
      · cases hes'
  · obtain ⟨es, h, _⟩ := (shows_envOf os v names hn (hthin v hv)).list p l m hl hd hr
    show (envOf os v names).list p ≠ none
    rw [h]; simp
  · simp only [rmEnvOf, List.all_eq_true, Bool.or_eq_true, bne_iff_ne, beq_iff_eq,
      Option.isNone_iff_eq_none]
    constructor
    · intro h x
      cases hx : v.fs (l ++ [x]) with
      | none => rfl
      | some node =>
        have := h _ (hthin v hv _ (by rw [hx]; simp))
        simp [hx] at this
    · intro h x hx
      by_cases h1 : x.dropLast = l
      · by_cases h2 : x = []
        · exact .inl (.inr h2)
        · right
          rw [← List.dropLast_concat_getLast h2, h1]
          exact h _
      · exact .inl (.inl h1)

end Zwt
