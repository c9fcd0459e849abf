import Verif.Spec.Disk
import Verif.Proofs.Confine
import Verif.Proofs.HLTree

/-! What the compression functions see of a disk is a tree. -/

namespace Zwt

theorem or_lt_mode {a m : Nat} (ha : a < 2 ^ 17) (hm : m < 0o10000) : a ||| m < 2 ^ 32 := by
  have : a ||| m < 2 ^ 17 := Nat.or_lt_two_pow ha (by omega)
  omega

theorem dirMode_type (os : Os) (m : Nat) : dirMode os (0o040000 ||| m) = dirMode os m := by
  unfold dirMode
  congr 1
  rw [Nat.and_or_distrib_right]
  simp

theorem fileMode_type (os : Os) (m : Nat) : fileMode os (0o100000 ||| m) = fileMode os m := by
  unfold fileMode
  congr 1
  rw [Nat.and_or_distrib_left]
  simp

/-- The place of an existing entry that is no link. -/
theorem Front.at {os : Os} {w : World} {pre : Bytes} {d : Loc} (h : Front os w.fs w.cwd pre d)
    (hs : searchable os w.fs d = true) {x : Bytes} (hx : PlainName x) (follow : Bool) {n : Node}
    (hn : w.fs (d ++ [x]) = some n) (hl : follow = true → ∀ t, n ≠ .link t) :
    Zwt.locate os w follow (pre ++ x) = some (d ++ [x]) := by
  obtain ⟨m, hm⟩ := h.locate follow hx
  rw [hm, resolve_cons, if_neg (by simp [hs]), if_neg (by simp [hx.1, hx.2.1]), if_neg hx.2.2.1, hn]
  cases n with
  | link t =>
    cases follow with
    | true => exact absurd rfl (hl rfl t)
    | false => simp
  | dir _ => exact resolve_nil ..
  | file _ _ => exact resolve_nil ..

/-- What the tree has at a relative place. -/
def Matches (os : Os) (fs : FS) (l : Loc) (f : Forest) (ok : Bytes → Prop) : Prop :=
  f.proper ∧ f.pure ∧ (∀ x ∈ f.names, ok x) ∧
    ∀ x q, ok x → f.lookup os (x :: q) = (fs (l ++ x :: q)).map (Node.copied os)

theorem Archivable.searchable {os : Os} {w : World} {p : Bytes} {l : Loc} (A : Archivable os w p l)
    {q : List Bytes} {m : Nat} (h : w.fs (l ++ q) = some (.dir m)) :
    Zwt.searchable os w.fs (l ++ q) = true := by
  obtain ⟨_, h2, _⟩ := A.dirs q m h
  simp only [Zwt.searchable, h]
  rcases h2 with h | h <;> simp [h]

theorem FS.tree.below_aux {fs : FS} (ht : fs.tree) : ∀ (k : Nat) (l q : Loc), q.length = k → q ≠ [] →
    fs (l ++ q) ≠ none → ∃ m, fs l = some (.dir m) := by
  intro k
  induction k with
  | zero => intro l q hk hq; exact absurd (List.length_eq_zero_iff.mp hk) hq
  | succ k ih =>
    intro l q hk hq h
    have e : q = q.dropLast ++ [q.getLast hq] := (List.dropLast_concat_getLast hq).symm
    rw [e, ← List.append_assoc] at h
    cases hx : fs (l ++ q.dropLast ++ [q.getLast hq]) with
    | none => exact absurd hx h
    | some n =>
      obtain ⟨m, hm⟩ := ht.2 _ _ _ hx
      by_cases ha : q.dropLast = []
      · rw [ha, List.append_nil] at hm; exact ⟨m, hm⟩
      · exact ih l q.dropLast (by simp [hk]) ha (by rw [hm]; simp)

/-- Nothing below what is no directory. -/
theorem FS.tree.below {fs : FS} (ht : fs.tree) {l : Loc} (h : ∀ m, fs l ≠ some (.dir m))
    {q : Loc} (hq : q ≠ []) : fs (l ++ q) = none := by
  cases hx : fs (l ++ q) with
  | none => rfl
  | some n =>
    obtain ⟨m, hm⟩ := ht.below_aux q.length l q rfl hq (by rw [hx]; simp)
    exact absurd hm (h m)

/-- The names of `es` other than `.` and `..`. -/
def Real (es : List Entry) (x : Bytes) : Prop := (∃ e ∈ es, e.name = x) ∧ x ≠ [46] ∧ x ≠ [46, 46]

/-- The entries of a directory, given that its subdirectories are trees. -/
theorem mirror_list {os os' : Os} {w : World} {env : Env} {p : Bytes} {l : Loc} (ht : w.fs.tree)
    (H : Shows os w env) (A : Archivable os w p l) (q : List Bytes) {m0 : Nat}
    (hd : w.fs (l ++ q) = some (.dir m0))
    (hF : Front os w.fs w.cwd (p ++ slashed q ++ [47]) (l ++ q))
    (IH : ∀ x m, PlainName x → w.fs (l ++ q ++ [x]) = some (.dir m) →
      ∃ es f, env.list (pathOf (p ++ slashed q) x) = some es ∧
        Mirror env (pathOf (p ++ slashed q) x) es f ∧
        Matches os' w.fs (l ++ q ++ [x]) f (fun _ => True)) :
    ∀ es : List Entry, (es.map (·.name)).Nodup →
      (∀ e ∈ es, e.name = [46] ∨ e.name = [46, 46] ∨
        ∃ n, w.fs (l ++ q ++ [e.name]) = some n ∧ e.ty = n.type) →
      ∃ f, Mirror env (p ++ slashed q) es f ∧ Matches os' w.fs (l ++ q) f (Real es) := by
  intro es
  induction es with
  | nil =>
    intro _ _
    exact ⟨.nil, .nil, trivial, trivial, by simp [Forest.names], fun x q' h => by
      obtain ⟨⟨e, he, _⟩, _⟩ := h; simp at he⟩
  | cons e es ih =>
    intro hnd hreal
    simp only [List.map_cons, List.nodup_cons] at hnd
    obtain ⟨f, hm, h1, h2, h3, h4⟩ := ih hnd.2 (fun e' he' => hreal e' (List.mem_cons_of_mem _ he'))
    obtain ⟨name, ty⟩ := e
    have hup : ∀ x, Real es x → Real (⟨name, ty⟩ :: es) x := by
      rintro x ⟨⟨e, he, hx⟩, hx'⟩
      exact ⟨⟨e, List.mem_cons_of_mem _ he, hx⟩, hx'⟩
    have hdown : ∀ x, Real (⟨name, ty⟩ :: es) x → x ≠ name → Real es x := by
      rintro x ⟨⟨e, he, hx⟩, hx'⟩ hne
      rcases List.mem_cons.mp he with rfl | he
      · exact absurd hx.symm hne
      · exact ⟨⟨e, he, hx⟩, hx'⟩
    by_cases hdot : name = [46] ∨ name = [46, 46]
    · refine ⟨f, .dot hdot hm, h1, h2, fun x hx => hup x (h3 x hx), fun x q' hx => ?_⟩
      refine h4 x q' (hdown x hx ?_)
      rintro rfl
      rcases hdot with h | h
      · exact hx.2.1 h
      · exact hx.2.2 h
    · simp only [not_or] at hdot
      have hr := hreal ⟨name, ty⟩ List.mem_cons_self
      simp only [hdot.1, hdot.2, false_or] at hr
      obtain ⟨node, hnode, hty⟩ := hr
      have hpn : PlainName name := A.names q name node (by rw [← hnode])
      have hsr := A.searchable hd
      have hnin : name ∉ f.names := by
        intro hx
        obtain ⟨⟨e, he, hx⟩, _⟩ := h3 _ hx
        exact hnd.1 (List.mem_map.mpr ⟨e, he, hx⟩)
      have hreal' : Real (⟨name, ty⟩ :: es) name := ⟨⟨_, List.mem_cons_self, rfl⟩, hdot⟩
      have epath : pathOf (p ++ slashed q) name = p ++ slashed q ++ [47] ++ name := by simp [pathOf]
      have hlim : (pathOf (p ++ slashed q) name).length ≤ 4094 := by
        have := A.limit (q ++ [name]) node (by rw [← hnode, List.append_assoc])
        have e : ((q ++ [name]).map (47 :: ·)).flatten = slashed q ++ 47 :: name := slashed_snoc q name
        rw [e] at this
        simp only [pathOf, List.length_append, List.length_cons] at this ⊢
        omega
      have fits : ∀ mode, mode < 2 ^ 32 → FitsName (p ++ slashed q) name mode := fun mode hmode =>
        ⟨hdot, hlim, by
          simp only [pathOf, List.length_append, List.length_cons] at hlim
          omega, hmode⟩
      have e1 : l ++ (q ++ [name]) = l ++ q ++ [name] := by simp
      have hbelow : (∀ m, node ≠ .dir m) → ∀ y ys, w.fs (l ++ q ++ name :: y :: ys) = none := by
        intro hn y ys
        have := ht.below (l := l ++ q ++ [name]) (fun m hm => by
          rw [hnode] at hm; exact hn m (Option.some.inj hm)) (q := y :: ys) (by simp)
        rw [← this]; simp
      have hnil : ∀ q', q' = [] → w.fs (l ++ q ++ name :: q') = some node := by
        rintro _ rfl; exact hnode
      cases node with
      | dir m =>
        obtain ⟨d1, d2, d3⟩ := A.dirs (q ++ [name]) m (by rw [e1]; exact hnode)
        obtain ⟨es', sub, s1, s2, s3, s4, s5, s6⟩ := IH name m hpn hnode
        have hty' : ty = .dir := hty
        subst hty'
        have hloc := hF.at hsr hpn true hnode (by simp)
        have hst := H.stat _ _ _ hloc hnode
        rw [← epath] at hst
        refine ⟨.dir name (0o040000 ||| m) sub f,
          .dir (fits _ (or_lt_mode (by decide) d3)) hst s1 s2 hm, ⟨hpn, hnin, s3, h1⟩, ⟨s4, h2⟩, ?_, ?_⟩
        · intro x hx
          rcases List.mem_cons.mp hx with rfl | hx
          · exact hreal'
          · exact hup x (h3 x hx)
        · intro x q' hx
          rw [Forest.lookup]
          by_cases hxn : x = name
          · subst hxn
            simp only [if_true]
            cases q' with
            | nil => simp only [if_true]; rw [hnode]; simp [Node.copied, dirMode_type]
            | cons y ys =>
              simp only [reduceCtorEq, if_false]
              rw [s6 y ys trivial]; simp
          · simp only [hxn, if_false]
            exact h4 x q' (hdown x hx hxn)
      | file m c =>
        obtain ⟨d1, d2, d3⟩ := A.files (q ++ [name]) m c (by rw [e1]; exact hnode)
        have hty' : ty = .file := hty
        subst hty'
        have hloc := hF.at hsr hpn true hnode (by simp)
        have hst := H.open' _ _ _ _ hloc hnode d1
        rw [← epath] at hst
        refine ⟨.file name (0o100000 ||| m) c f,
          .file (fits _ (or_lt_mode (by decide) d2)) d3 hst hm, ⟨hpn, hnin, h1⟩, h2, ?_, ?_⟩
        · intro x hx
          rcases List.mem_cons.mp hx with rfl | hx
          · exact hreal'
          · exact hup x (h3 x hx)
        · intro x q' hx
          rw [Forest.lookup]
          by_cases hxn : x = name
          · subst hxn
            cases q' with
            | nil => rw [if_pos rfl, hnode]; simp [Node.copied, fileMode_type]
            | cons y ys =>
              rw [if_neg (by simp), Forest.lookup_none os' f x _ hnin, hbelow (by simp) y ys]; rfl
          · rw [if_neg (by simp [hxn])]
            exact h4 x q' (hdown x hx hxn)
      | link t =>
        obtain ⟨d1, d2, d3⟩ := A.links (q ++ [name]) t (by rw [e1]; exact hnode)
        have hty' : ty = .symlink := hty
        subst hty'
        have hloc := hF.at hsr hpn false hnode (by simp)
        have hst := H.lstat _ _ _ hloc hnode
        have hrd := H.readlink _ _ _ hloc hnode
        rw [← epath] at hst hrd
        refine ⟨.link name 0o120777 t f,
          .link (fits _ (by decide)) d3 hst hrd hm, ⟨hpn, hnin, d1, d2, h1⟩, h2, ?_, ?_⟩
        · intro x hx
          rcases List.mem_cons.mp hx with rfl | hx
          · exact hreal'
          · exact hup x (h3 x hx)
        · intro x q' hx
          rw [Forest.lookup]
          by_cases hxn : x = name
          · subst hxn
            cases q' with
            | nil => rw [if_pos rfl, hnode]; simp [Node.copied]
            | cons y ys =>
              rw [if_neg (by simp), Forest.lookup_none os' f x _ hnin, hbelow (by simp) y ys]; rfl
          · rw [if_neg (by simp [hxn])]
            exact h4 x q' (hdown x hx hxn)

/-- All names. -/
theorem Matches.all {os os' : Os} {w : World} {p : Bytes} {l : Loc} (ht : w.fs.tree)
    (A : Archivable os w p l) {q : List Bytes} {es : List Entry} {f : Forest}
    (hl : Lists w.fs (l ++ q) es) (h : Matches os' w.fs (l ++ q) f (Real es)) :
    Matches os' w.fs (l ++ q) f (fun _ => True) := by
  obtain ⟨h1, h2, h3, h4⟩ := h
  refine ⟨h1, h2, fun _ _ => trivial, fun x q' _ => ?_⟩
  cases hx : w.fs (l ++ q ++ [x]) with
  | some n =>
    obtain ⟨e, he, hn⟩ := hl.all x n hx
    have hp := A.names q x n hx
    exact h4 x q' ⟨⟨e, he, hn⟩, hp.2.1, hp.2.2.1⟩
  | none =>
    have hnone : w.fs (l ++ q ++ x :: q') = none := by
      cases q' with
      | nil => exact hx
      | cons y ys =>
        have := ht.below (l := l ++ q ++ [x]) (by rw [hx]; simp) (q := y :: ys) (by simp)
        rw [← this]; simp
    rw [hnone, Forest.lookup_none os' f x q' (fun hm => ?_)]; rfl
    obtain ⟨⟨e, he, hn⟩, hd⟩ := h3 x hm
    rcases hl.real e he with h | h | ⟨n, h, _⟩
    · exact hd.1 (hn ▸ h)
    · exact hd.2 (hn ▸ h)
    · rw [hn, hx] at h; cases h

/-- A directory that can be archived is seen as a tree. -/
theorem mirror_dir {os os' : Os} {w : World} {env : Env} {p : Bytes} {l : Loc} (ht : w.fs.tree)
    (H : Shows os w env) (A : Archivable os w p l) : ∀ (k : Nat) (q : List Bytes) (m : Nat),
    4094 ≤ k + (p ++ slashed q).length → w.fs (l ++ q) = some (.dir m) →
    locate os w true (p ++ slashed q) = some (l ++ q) →
    Front os w.fs w.cwd (p ++ slashed q ++ [47]) (l ++ q) →
    ∃ es f, env.list (p ++ slashed q) = some es ∧ Mirror env (p ++ slashed q) es f ∧
      Matches os' w.fs (l ++ q) f (fun _ => True) := by
  intro k
  induction k with
  | zero =>
    intro q m hk hd hloc hF
    obtain ⟨es, h1, h2⟩ := H.list _ _ _ hloc hd (A.dirs q m hd).1
    obtain ⟨f, h3, h4⟩ := mirror_list (os' := os') ht H A q hd hF (by
      intro x m' hx hm'
      have := A.limit (q ++ [x]) _ (by rw [← hm', List.append_assoc])
      have e : ((q ++ [x]).map (47 :: ·)).flatten = slashed q ++ 47 :: x := slashed_snoc q x
      rw [e] at this
      simp only [List.length_append, List.length_cons] at this hk
      omega) es h2.once h2.real
    exact ⟨es, f, h1, h3, Matches.all ht A h2 h4⟩
  | succ k ih =>
    intro q m hk hd hloc hF
    obtain ⟨es, h1, h2⟩ := H.list _ _ _ hloc hd (A.dirs q m hd).1
    obtain ⟨f, h3, h4⟩ := mirror_list (os' := os') ht H A q hd hF (by
      intro x m' hx hm'
      have e : pathOf (p ++ slashed q) x = p ++ slashed (q ++ [x]) := by
        rw [slashed_snoc]; simp [pathOf]
      have e2 : l ++ q ++ [x] = l ++ (q ++ [x]) := by simp
      rw [e, e2]
      refine ih (q ++ [x]) m' ?_ (by rw [← e2]; exact hm') ?_ ?_
      · rw [slashed_snoc]
        simp only [List.length_append, List.length_cons] at hk ⊢
        omega
      · have := hF.at (A.searchable hd) hx true hm' (by simp)
        rw [slashed_snoc, ← e2, ← this]; simp
      · have := hF.extend (A.searchable hd) hx hm'
        rw [slashed_snoc, ← e2]
        have e3 : p ++ (slashed q ++ 47 :: x) ++ [47] = p ++ slashed q ++ [47] ++ x ++ [47] := by simp
        rw [e3]; exact this) es h2.once h2.real
    exact ⟨es, f, h1, h3, Matches.all ht A h2 h4⟩

/-- … the whole directory. -/
theorem Archivable.mirror {os os' : Os} {w : World} {env : Env} {p : Bytes} {l : Loc}
    (ht : w.fs.tree) (H : Shows os w env) (A : Archivable os w p l) :
    ∃ es f, env.list p = some es ∧ Mirror env p es f ∧ f.proper ∧ f.pure ∧
      ∀ x q, f.lookup os' (x :: q) = (w.fs (l ++ x :: q)).map (Node.copied os') := by
  obtain ⟨m, hm⟩ := A.isDir
  have hs : Zwt.searchable os w.fs l = true := by
    have := A.searchable (q := []) (by rw [List.append_nil]; exact hm)
    rwa [List.append_nil] at this
  have hF := (InDir.path A.leads).front hs (by
    have := A.path.2
    simp only [List.mem_append, List.mem_singleton, not_or]
    exact ⟨this, by decide⟩)
  obtain ⟨es, f, h1, h2, h3, h4, _, h5⟩ := mirror_dir (os' := os') ht H A 4094 [] m (by omega)
    (by rw [List.append_nil]; exact hm)
    (by simp only [slashed, List.map_nil, List.flatten_nil, List.append_nil]; exact A.leads)
    (by simp only [slashed, List.map_nil, List.flatten_nil, List.append_nil]; exact hF)
  simp only [slashed, List.map_nil, List.flatten_nil, List.append_nil] at h1 h2 h5
  exact ⟨es, f, h1, h2, h3, h4, fun x q => h5 x q trivial⟩

/-! ### Properties of a tree from its nodes -/

theorem Forest.lookup_head {os : Os} {f : Forest} {p : List Bytes} {n : Node}
    (h : f.lookup os p = some n) : ∃ x q, p = x :: q ∧ x ∈ f.names := by
  cases p with
  | nil =>
    exfalso
    induction f with
    | nil => cases h
    | file _ _ _ r ih => rw [lookup, if_neg (by simp)] at h; exact ih h
    | link _ _ _ r ih => rw [lookup, if_neg (by simp)] at h; exact ih h
    | dir _ _ _ _ _ _ => simp [lookup] at h
    | other _ r ih => exact ih h
    | bad _ r ih => exact ih h
  | cons x q =>
    refine ⟨x, q, rfl, ?_⟩
    cases Classical.em (x ∈ f.names) with
    | inl h => exact h
    | inr hn => rw [lookup_none os f x q hn] at h; cases h

theorem Forest.enterable_of {os : Os} (f : Forest) (hp : f.proper)
    (h : ∀ q m, f.lookup os q = some (.dir m) → Enterable os m) : f.enterable os := by
  induction f with
  | nil => trivial
  | file n m c r ih =>
    refine ih hp.2.2 (fun q m' hq => h q m' ?_)
    obtain ⟨x, q, rfl, hx⟩ := lookup_head hq
    rw [lookup, if_neg (by rintro ⟨⟩; exact hp.2.1 hx)]; exact hq
  | link n m c r ih =>
    refine ih hp.2.2.2.2 (fun q m' hq => h q m' ?_)
    obtain ⟨x, q, rfl, hx⟩ := lookup_head hq
    rw [lookup, if_neg (by rintro ⟨⟩; exact hp.2.1 hx)]; exact hq
  | dir n m s r ihs ih =>
    refine ⟨h [n] _ (by simp [lookup]), ihs hp.2.2.1 (fun q m' hq => h (n :: q) m' ?_),
      ih hp.2.2.2 (fun q m' hq => h q m' ?_)⟩
    · obtain ⟨x, q, rfl, hx⟩ := lookup_head hq
      simp [lookup, hq]
    · obtain ⟨x, q, rfl, hx⟩ := lookup_head hq
      rw [lookup, if_neg (by rintro rfl; exact hp.2.1 hx)]; exact hq
  | other n r ih => exact ih hp h
  | bad n r ih => exact ih hp h

theorem Forest.noLinks_of {os : Os} (f : Forest) (hp : f.proper)
    (h : ∀ q t, f.lookup os q ≠ some (.link t)) : f.noLinks := by
  induction f with
  | nil => trivial
  | file n m c r ih =>
    refine ih hp.2.2 (fun q m' hq => h q m' ?_)
    obtain ⟨x, q, rfl, hx⟩ := lookup_head hq
    rw [lookup, if_neg (by rintro ⟨⟩; exact hp.2.1 hx)]; exact hq
  | link n m c r ih => exact h [n] c (by simp [lookup])
  | dir n m s r ihs ih =>
    refine ⟨ihs hp.2.2.1 (fun q m' hq => h (n :: q) m' ?_), ih hp.2.2.2 (fun q m' hq => h q m' ?_)⟩
    · obtain ⟨x, q, rfl, hx⟩ := lookup_head hq
      simp [lookup, hq]
    · obtain ⟨x, q, rfl, hx⟩ := lookup_head hq
      rw [lookup, if_neg (by rintro rfl; exact hp.2.1 hx)]; exact hq
  | other n r ih => exact ih hp h
  | bad n r ih => exact ih hp h

theorem Forest.pure_readable (keep : Bytes → Entry → Bool) (f : Forest) (h : f.pure) :
    ∀ d, f.readable keep d := by
  induction f with
  | nil => intro d; trivial
  | file n m c r ih => exact ih h
  | link n m c r ih => exact ih h
  | dir n m s r ihs ih => intro d; exact ⟨fun _ => ihs h.1 _, ih h.2 d⟩
  | other n r ih => exact absurd h id
  | bad n r ih => exact absurd h id

/-! ### What a filter keeps -/

theorem Forest.prune_names (keep : Bytes → Entry → Bool) (f : Forest) : ∀ d,
    ∀ x ∈ (f.prune keep d).names, x ∈ f.names := by
  induction f with
  | nil => intro d x hx; exact hx
  | file n m c r ih =>
    intro d x hx
    rw [prune] at hx
    split at hx
    · rcases List.mem_cons.mp hx with rfl | hx
      · exact List.mem_cons_self
      · exact List.mem_cons_of_mem _ (ih d x hx)
    · exact List.mem_cons_of_mem _ (ih d x hx)
  | link n m c r ih =>
    intro d x hx
    rw [prune] at hx
    split at hx
    · rcases List.mem_cons.mp hx with rfl | hx
      · exact List.mem_cons_self
      · exact List.mem_cons_of_mem _ (ih d x hx)
    · exact List.mem_cons_of_mem _ (ih d x hx)
  | dir n m s r ihs ih =>
    intro d x hx
    rw [prune] at hx
    split at hx
    · rcases List.mem_cons.mp hx with rfl | hx
      · exact List.mem_cons_self
      · exact List.mem_cons_of_mem _ (ih d x hx)
    · exact List.mem_cons_of_mem _ (ih d x hx)
  | other n r ih => exact ih
  | bad n r ih => exact ih

theorem Node.copied_file {os : Os} {o : Option Node} {m : Nat} {c : Bytes}
    (h : some (Node.file m c) = o.map (Node.copied os)) : ∃ m', o = some (.file m' c) := by
  cases o with
  | none => cases h
  | some n => cases n <;> simp [Node.copied] at h; exact ⟨_, by rw [← h.2]⟩

theorem Node.copied_dir {os : Os} {o : Option Node} {m : Nat}
    (h : some (Node.dir m) = o.map (Node.copied os)) : ∃ m', o = some (.dir m') ∧ m = dirMode os m' := by
  cases o with
  | none => cases h
  | some n => cases n <;> simp [Node.copied] at h; exact ⟨_, rfl, h⟩

theorem Node.copied_link {os : Os} {o : Option Node} {t : Bytes}
    (h : some (Node.link t) = o.map (Node.copied os)) : o = some (.link t) := by
  cases o with
  | none => cases h
  | some n => cases n <;> simp [Node.copied] at h; rw [← h]

theorem Forest.prune_lookup {os : Os} (keep : Bytes → Entry → Bool) {fs : FS} (f : Forest) :
    ∀ d l, f.proper → f.pure →
      (∀ x ∈ f.names, ∀ q, f.lookup os (x :: q) = (fs (l ++ x :: q)).map (Node.copied os)) →
      ∀ x q, x ∈ f.names →
        (KeptAt keep fs d l (x :: q) → (f.prune keep d).lookup os (x :: q) = f.lookup os (x :: q)) ∧
        (¬ KeptAt keep fs d l (x :: q) → (f.prune keep d).lookup os (x :: q) = none) := by
  induction f with
  | nil => intro d l _ _ _ x q hx; simp [names] at hx
  | file n m c r ih =>
    intro d l hp hu hl x q hx
    have hrest : ∀ x ∈ r.names, x ≠ n := fun x hx he => hp.2.1 (he ▸ hx)
    have hn := hl n List.mem_cons_self []
    rw [lookup, if_pos rfl] at hn
    obtain ⟨m', hn⟩ := Node.copied_file hn
    have hr : ∀ x ∈ r.names, ∀ q, r.lookup os (x :: q) = (fs (l ++ x :: q)).map (Node.copied os) := by
      intro x hx q
      rw [← hl x (List.mem_cons_of_mem _ hx) q, lookup, if_neg (by simp [hrest x hx])]
    by_cases hxn : x = n
    · subst hxn
      have hnr := lookup_none os r x q hp.2.1
      have hnp := lookup_none os (r.prune keep d) x q (fun h => hp.2.1 (prune_names keep r d x h))
      rw [prune]
      by_cases hk : keep d ⟨x, .file⟩ = true
      · simp only [hk, if_true, lookup, hnr, hnp]
        refine ⟨fun _ => trivial, fun h => ?_⟩
        cases q with
        | nil => exact absurd ⟨⟨_, hn, hk⟩, trivial⟩ h
        | cons y ys => simp
      · simp only [hk]
        refine ⟨fun h => ?_, fun _ => hnp⟩
        obtain ⟨⟨node, h1, h2⟩, _⟩ := h
        rw [hn] at h1
        cases h1
        exact absurd h2 hk
    · have hxr : x ∈ r.names := by
        rcases List.mem_cons.mp hx with h | h
        · exact absurd h hxn
        · exact h
      have := ih d l hp.2.2 hu hr x q hxr
      have e : (Forest.file n m c r).lookup os (x :: q) = r.lookup os (x :: q) := by
        rw [lookup, if_neg (by simp [hxn])]
      rw [e, prune]
      split
      · rw [lookup, if_neg (by simp [hxn])]; exact this
      · exact this
  | link n m c r ih =>
    intro d l hp hu hl x q hx
    have hrest : ∀ x ∈ r.names, x ≠ n := fun x hx he => hp.2.1 (he ▸ hx)
    have hn := hl n List.mem_cons_self []
    rw [lookup, if_pos rfl] at hn
    have hn := Node.copied_link hn
    have hr : ∀ x ∈ r.names, ∀ q, r.lookup os (x :: q) = (fs (l ++ x :: q)).map (Node.copied os) := by
      intro x hx q
      rw [← hl x (List.mem_cons_of_mem _ hx) q, lookup, if_neg (by simp [hrest x hx])]
    by_cases hxn : x = n
    · subst hxn
      have hnr := lookup_none os r x q hp.2.1
      have hnp := lookup_none os (r.prune keep d) x q (fun h => hp.2.1 (prune_names keep r d x h))
      rw [prune]
      by_cases hk : keep d ⟨x, .symlink⟩ = true
      · simp only [hk, if_true, lookup, hnr, hnp]
        refine ⟨fun _ => trivial, fun h => ?_⟩
        cases q with
        | nil => exact absurd ⟨⟨_, hn, hk⟩, trivial⟩ h
        | cons y ys => simp
      · simp only [hk]
        refine ⟨fun h => ?_, fun _ => hnp⟩
        obtain ⟨⟨node, h1, h2⟩, _⟩ := h
        rw [hn] at h1
        cases h1
        exact absurd h2 hk
    · have hxr : x ∈ r.names := by
        rcases List.mem_cons.mp hx with h | h
        · exact absurd h hxn
        · exact h
      have := ih d l hp.2.2.2.2 hu hr x q hxr
      have e : (Forest.link n m c r).lookup os (x :: q) = r.lookup os (x :: q) := by
        rw [lookup, if_neg (by simp [hxn])]
      rw [e, prune]
      split
      · rw [lookup, if_neg (by simp [hxn])]; exact this
      · exact this
  | dir n m s r ihs ih =>
    intro d l hp hu hl x q hx
    have hrest : ∀ x ∈ r.names, x ≠ n := fun x hx he => hp.2.1 (he ▸ hx)
    have hn := hl n List.mem_cons_self []
    rw [lookup, if_pos rfl, if_pos rfl] at hn
    obtain ⟨m', hn, _⟩ := Node.copied_dir hn
    have hr : ∀ x ∈ r.names, ∀ q, r.lookup os (x :: q) = (fs (l ++ x :: q)).map (Node.copied os) := by
      intro x hx q
      rw [← hl x (List.mem_cons_of_mem _ hx) q, lookup, if_neg (hrest x hx)]
    have hs : ∀ x ∈ s.names, ∀ q,
        s.lookup os (x :: q) = (fs (l ++ [n] ++ x :: q)).map (Node.copied os) := by
      intro x hx q
      have := hl n List.mem_cons_self (x :: q)
      rw [lookup, if_pos rfl, if_neg (by simp)] at this
      rw [this]; simp
    by_cases hxn : x = n
    · subst hxn
      have hnp : ∀ q, (r.prune keep d).lookup os (x :: q) = none := fun q =>
        lookup_none os _ x q (fun h => hp.2.1 (prune_names keep r d x h))
      rw [prune]
      by_cases hk : keep d ⟨x, .dir⟩ = true
      · simp only [hk, if_true, lookup]
        cases q with
        | nil =>
          simp only [if_true]
          exact ⟨fun _ => trivial, fun h => absurd ⟨⟨_, hn, hk⟩, trivial⟩ h⟩
        | cons y ys =>
          simp only [reduceCtorEq, if_false]
          have e : KeptAt keep fs d l (x :: y :: ys) ↔ KeptAt keep fs (pathOf d x) (l ++ [x]) (y :: ys) :=
            ⟨fun h => h.2, fun h => ⟨⟨_, hn, hk⟩, h⟩⟩
          rw [e]
          by_cases hy : y ∈ s.names
          · exact ihs (pathOf d x) (l ++ [x]) hp.2.2.1 hu.1 hs y ys hy
          · rw [lookup_none os s y ys hy, lookup_none os _ y ys (fun h => hy (prune_names keep s _ y h))]
            exact ⟨fun _ => rfl, fun _ => rfl⟩
      · simp only [hk]
        refine ⟨fun h => ?_, fun _ => hnp q⟩
        obtain ⟨⟨node, h1, h2⟩, _⟩ := h
        rw [hn] at h1
        cases h1
        exact absurd h2 hk
    · have hxr : x ∈ r.names := by
        rcases List.mem_cons.mp hx with h | h
        · exact absurd h hxn
        · exact h
      have := ih d l hp.2.2.2 hu.2 hr x q hxr
      have e : (Forest.dir n m s r).lookup os (x :: q) = r.lookup os (x :: q) := by
        rw [lookup, if_neg hxn]
      rw [e, prune]
      split
      · rw [lookup, if_neg hxn]; exact this
      · exact this
  | other n r ih => intro d l _ hu; exact absurd hu id
  | bad n r ih => intro d l _ hu; exact absurd hu id

/-! ### Sizes -/

/-- Relative places of the entries of a tree. -/
def Forest.places : Forest → List (List Bytes)
  | .nil => []
  | .file n _ _ r => [n] :: r.places
  | .link n _ _ r => [n] :: r.places
  | .dir n _ s r => [n] :: (s.places.map (n :: ·) ++ r.places)
  | .other _ r => r.places
  | .bad _ r => r.places

theorem Forest.places_head (f : Forest) : ∀ q ∈ f.places, ∃ x ys, q = x :: ys ∧ x ∈ f.names := by
  induction f with
  | nil => intro q hq; simp [places] at hq
  | file n m c r ih =>
    intro q hq
    rcases List.mem_cons.mp hq with rfl | hq
    · exact ⟨_, _, rfl, List.mem_cons_self⟩
    · obtain ⟨x, ys, h, h'⟩ := ih q hq; exact ⟨x, ys, h, List.mem_cons_of_mem _ h'⟩
  | link n m c r ih =>
    intro q hq
    rcases List.mem_cons.mp hq with rfl | hq
    · exact ⟨_, _, rfl, List.mem_cons_self⟩
    · obtain ⟨x, ys, h, h'⟩ := ih q hq; exact ⟨x, ys, h, List.mem_cons_of_mem _ h'⟩
  | dir n m s r ihs ih =>
    intro q hq
    rcases List.mem_cons.mp hq with rfl | hq
    · exact ⟨_, _, rfl, List.mem_cons_self⟩
    · rcases List.mem_append.mp hq with hq | hq
      · obtain ⟨q', _, rfl⟩ := List.mem_map.mp hq
        exact ⟨_, _, rfl, List.mem_cons_self⟩
      · obtain ⟨x, ys, h, h'⟩ := ih q hq; exact ⟨x, ys, h, List.mem_cons_of_mem _ h'⟩
  | other n r ih => exact ih
  | bad n r ih => exact ih

theorem Forest.places_nodup (f : Forest) (hp : f.proper) : f.places.Nodup := by
  have aux : ∀ {n : Bytes} {r : Forest}, n ∉ r.names → ∀ q, n :: q ∉ r.places := by
    intro n r hn q hq
    obtain ⟨x, ys, h, hx⟩ := places_head r _ hq
    cases h
    exact hn hx
  induction f with
  | nil => simp [places]
  | file n m c r ih => exact List.nodup_cons.mpr ⟨aux hp.2.1 _, ih hp.2.2⟩
  | link n m c r ih => exact List.nodup_cons.mpr ⟨aux hp.2.1 _, ih hp.2.2.2.2⟩
  | dir n m s r ihs ih =>
    refine List.nodup_cons.mpr ⟨fun h => ?_, List.nodup_append.mpr ⟨?_, ih hp.2.2.2, ?_⟩⟩
    · rcases List.mem_append.mp h with h | h
      · obtain ⟨q, hq, e⟩ := List.mem_map.mp h
        obtain ⟨x, ys, rfl, _⟩ := places_head s q hq
        cases e
      · exact aux hp.2.1 _ h
    · exact List.Pairwise.map _ (fun a b h => by simpa using h) (ihs hp.2.2.1)
    · rintro a ha b hb rfl
      obtain ⟨q, _, rfl⟩ := List.mem_map.mp ha
      exact aux hp.2.1 _ hb
  | other n r ih => exact ih hp
  | bad n r ih => exact ih hp

theorem Forest.bulk_places {os : Os} {fs : FS} (f : Forest) : ∀ l, f.proper → f.pure →
    (∀ x ∈ f.names, ∀ q, f.lookup os (x :: q) = (fs (l ++ x :: q)).map (Node.copied os)) →
    f.bulk ≤ (f.places.map (fun q => placeCost fs (l ++ q))).sum ∧
      ∀ q ∈ f.places, fs (l ++ q) ≠ none := by
  induction f with
  | nil => intro l _ _ _; simp [bulk, places]
  | file n m c r ih =>
    intro l hp hu hl
    have hrest : ∀ x ∈ r.names, x ≠ n := fun x hx he => hp.2.1 (he ▸ hx)
    have hn := hl n List.mem_cons_self []
    rw [lookup, if_pos rfl] at hn
    obtain ⟨m', hn⟩ := Node.copied_file hn
    obtain ⟨i1, i2⟩ := ih l hp.2.2 hu (by
      intro x hx q
      rw [← hl x (List.mem_cons_of_mem _ hx) q, lookup, if_neg (by simp [hrest x hx])])
    refine ⟨?_, ?_⟩
    · have hc : 88 + n.length + c.length ≤ placeCost fs (l ++ [n]) := by
        simp only [placeCost]
        rw [hn]
        simp
      simp only [bulk, places, List.map_cons, List.sum_cons]
      omega
    · intro q hq
      rcases List.mem_cons.mp hq with rfl | hq
      · rw [hn]; simp
      · exact i2 q hq
  | link n m c r ih =>
    intro l hp hu hl
    have hrest : ∀ x ∈ r.names, x ≠ n := fun x hx he => hp.2.1 (he ▸ hx)
    have hn := hl n List.mem_cons_self []
    rw [lookup, if_pos rfl] at hn
    have hn := Node.copied_link hn
    obtain ⟨i1, i2⟩ := ih l hp.2.2.2.2 hu (by
      intro x hx q
      rw [← hl x (List.mem_cons_of_mem _ hx) q, lookup, if_neg (by simp [hrest x hx])])
    refine ⟨?_, ?_⟩
    · have hc : 88 + n.length + c.length ≤ placeCost fs (l ++ [n]) := by
        simp only [placeCost]
        rw [hn]
        simp
      simp only [bulk, places, List.map_cons, List.sum_cons]
      omega
    · intro q hq
      rcases List.mem_cons.mp hq with rfl | hq
      · rw [hn]; simp
      · exact i2 q hq
  | dir n m s r ihs ih =>
    intro l hp hu hl
    have hrest : ∀ x ∈ r.names, x ≠ n := fun x hx he => hp.2.1 (he ▸ hx)
    have hn := hl n List.mem_cons_self []
    rw [lookup, if_pos rfl, if_pos rfl] at hn
    obtain ⟨m', hn, _⟩ := Node.copied_dir hn
    obtain ⟨i1, i2⟩ := ih l hp.2.2.2 hu.2 (by
      intro x hx q
      rw [← hl x (List.mem_cons_of_mem _ hx) q, lookup, if_neg (hrest x hx)])
    obtain ⟨j1, j2⟩ := ihs (l ++ [n]) hp.2.2.1 hu.1 (by
      intro x hx q
      have := hl n List.mem_cons_self (x :: q)
      rw [lookup, if_pos rfl, if_neg (by simp)] at this
      rw [this]; simp)
    refine ⟨?_, ?_⟩
    · have e : (s.places.map (n :: ·)).map (fun q => placeCost fs (l ++ q)) =
          s.places.map (fun q => placeCost fs (l ++ [n] ++ q)) := by
        rw [List.map_map]; congr 1; funext q; simp
      have hc : 88 + n.length ≤ placeCost fs (l ++ [n]) := by
        simp only [placeCost]
        rw [hn]
        simp
      simp only [bulk, places, List.map_cons, List.sum_cons, List.map_append, List.sum_append, e]
      omega
    · intro q hq
      rcases List.mem_cons.mp hq with rfl | hq
      · rw [hn]; simp
      · rcases List.mem_append.mp hq with hq | hq
        · obtain ⟨q', hq', rfl⟩ := List.mem_map.mp hq
          have := j2 q' hq'
          simpa using this
        · exact i2 q hq
  | other n r ih => intro d _ hu; exact absurd hu id
  | bad n r ih => intro d _ hu; exact absurd hu id

theorem sum_le_of_nodup {α : Type} [DecidableEq α] (g : α → Nat) : ∀ (as bs : List α), as.Nodup →
    (∀ a ∈ as, a ∈ bs) → (as.map g).sum ≤ (bs.map g).sum := by
  intro as
  induction as with
  | nil => intro bs _ _; simp
  | cons a as ih =>
    intro bs hn hs
    rw [List.nodup_cons] at hn
    have ha := hs a List.mem_cons_self
    obtain ⟨u, v, rfl⟩ := List.append_of_mem ha
    have := ih (u ++ v) hn.2 (fun x hx => by
      have h1 := hs x (List.mem_cons_of_mem _ hx)
      simp only [List.mem_append, List.mem_cons] at h1 ⊢
      rcases h1 with h | rfl | h
      · exact .inl h
      · exact absurd hx hn.1
      · exact .inr h)
    simp only [List.map_cons, List.sum_cons, List.map_append, List.sum_append] at this ⊢
    omega

theorem Forest.bulk_small {os : Os} {fs : FS} {f : Forest} {l : Loc} (hp : f.proper) (hu : f.pure)
    (hl : ∀ x q, f.lookup os (x :: q) = (fs (l ++ x :: q)).map (Node.copied os))
    (hs : SmallDir fs l) : f.bulk < 524288 := by
  obtain ⟨qs, h1, h2⟩ := hs
  obtain ⟨b1, b2⟩ := bulk_places f l hp hu (fun x _ q => hl x q)
  have := sum_le_of_nodup (fun q => placeCost fs (l ++ q)) f.places qs (places_nodup f hp) (fun q hq => by
    obtain ⟨x, ys, rfl, _⟩ := places_head f q hq
    exact h1 _ (by simp) (b2 _ hq))
  omega

theorem Forest.prune_bulk (keep : Bytes → Entry → Bool) (f : Forest) : ∀ d,
    (f.prune keep d).bulk ≤ f.bulk := by
  induction f with
  | nil => intro d; exact Nat.le_refl _
  | file n m c r ih =>
    intro d; have := ih d; rw [prune]; split <;> simp only [bulk] <;> omega
  | link n m c r ih =>
    intro d; have := ih d; rw [prune]; split <;> simp only [bulk] <;> omega
  | dir n m s r ihs ih =>
    intro d
    have := ih d; have := ihs (pathOf d n)
    rw [prune]; split <;> simp only [bulk] <;> omega
  | other n r ih => exact ih
  | bad n r ih => exact ih

/-! ### The computed environment -/

theorem filterMap_nodup {α β : Type} (g : α → Option β) (xs : List α) (h : xs.Nodup)
    (inj : ∀ a b c, g a = some c → g b = some c → a = b) : (xs.filterMap g).Nodup := by
  induction xs with
  | nil => simp
  | cons a as ih =>
    rw [List.nodup_cons] at h
    rw [List.filterMap_cons]
    cases hg : g a with
    | none => exact ih h.2
    | some c =>
      simp only [List.nodup_cons]
      refine ⟨fun hc => ?_, ih h.2⟩
      obtain ⟨b, hb, hb'⟩ := List.mem_filterMap.mp hc
      exact h.1 (inj _ _ _ hg hb' ▸ hb)

theorem shows_envOf (os : Os) (w : World) (names : List Loc) (hn : names.Nodup)
    (hall : ∀ x, w.fs x ≠ none → x ∈ names) : Shows os w (envOf os w names) where
  list := by
    intro p l m hl hd hr
    refine ⟨_, by simp only [envOf, hl, hd, if_pos hr]; rfl, ?_, ?_, ?_⟩
    · rw [List.map_filterMap]
      refine filterMap_nodup _ _ hn ?_
      intro a b c ha hb
      have key : ∀ z : Loc, Option.map (fun e : Entry => e.name)
          (match z.getLast?, w.fs z with
            | some n, some node => if z.dropLast = l then some (⟨n, node.type⟩ : Entry) else none
            | _, _ => none) = some c → z = l ++ [c] := by
        intro z hz
        split at hz
        · rename_i n node h1 h2
          split at hz
          · rename_i h3
            simp only [Option.map_some, Option.some.injEq] at hz
            subst hz h3
            obtain ⟨y, rfl⟩ := List.getLast?_eq_some_iff.mp h1
            simp
          · cases hz
        · cases hz
      rw [key a ha, key b hb]
    · intro e he
      obtain ⟨z, _, hz⟩ := List.mem_filterMap.mp he
      split at hz
      · rename_i n node h1 h2
        split at hz
        · rename_i h3
          simp only [Option.some.injEq] at hz
          subst hz h3
          obtain ⟨y, rfl⟩ := List.getLast?_eq_some_iff.mp h1
          exact .inr (.inr ⟨node, by simpa using h2, rfl⟩)
        · cases hz
      · cases hz
    · intro x n hx
      refine ⟨⟨x, n.type⟩, ?_, rfl⟩
      refine List.mem_filterMap.mpr ⟨l ++ [x], hall _ (by rw [hx]; simp), ?_⟩
      simp [hx]
  stat := by intro p l m hl hd; simp [envOf, hl, hd]
  open' := by intro p l m c hl hd hr; simp [envOf, hl, hd, hr]
  lstat := by intro p l t hl hd; simp [envOf, hl, hd]
  readlink := by intro p l t hl hd; simp [envOf, hl, hd]

end Zwt
