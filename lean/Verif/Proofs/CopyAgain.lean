import Verif.Props.SameCopy
import Verif.Props.SelfClean

/-! C109: copies of directories can be archived. -/

namespace Zwt

/-- What a process with this umask makes can be read and changed by its owner. -/
def OwnerKeeps (os : Os) : Prop := os.allow &&& 0o700 = 0o700

theorem bit_of_and {m k : Nat} (h : m &&& 2 ^ k ≠ 0) : m.testBit k = true := by
  cases hb : m.testBit k with
  | true => rfl
  | false =>
    exfalso
    apply h
    apply Nat.eq_of_testBit_eq
    intro i
    rw [Nat.testBit_and, Nat.testBit_two_pow, Nat.zero_testBit]
    by_cases e : k = i
    · subst e; rw [hb]; rfl
    · simp [e]

theorem and_of_bit {m k : Nat} (h : m.testBit k = true) : m &&& 2 ^ k ≠ 0 := by
  intro e
  have := congrArg (fun x => Nat.testBit x k) e
  simp only [Nat.testBit_and, h, Nat.testBit_two_pow_self, Nat.zero_testBit, Bool.and_self,
    reduceCtorEq] at this

theorem OwnerKeeps.bit {os : Os} (h : OwnerKeeps os) {k : Nat} (hk : (0o700 : Nat).testBit k = true) :
    os.allow.testBit k = true := by
  have := congrArg (fun x => Nat.testBit x k) h
  simp only [Nat.testBit_and, hk, Bool.and_true] at this
  exact this

theorem OwnerKeeps.dir {os : Os} (h : OwnerKeeps os) {m k : Nat} (hk : (0o700 : Nat).testBit k = true)
    (hk' : (0o1777 : Nat).testBit k = true) (hm : m &&& 2 ^ k ≠ 0) : dirMode os m &&& 2 ^ k ≠ 0 := by
  apply and_of_bit
  simp only [dirMode, Nat.testBit_and, bit_of_and hm, hk', h.bit hk, Bool.and_self]

theorem OwnerKeeps.file {os : Os} (h : OwnerKeeps os) {m k : Nat} (hk : (0o700 : Nat).testBit k = true)
    (hk' : (0o777 : Nat).testBit k = true) (hm : m &&& 2 ^ k ≠ 0) : fileMode os m &&& 2 ^ k ≠ 0 := by
  apply and_of_bit
  simp only [fileMode, Nat.testBit_and, bit_of_and hm, hk', h.bit hk, Bool.and_self]

theorem dirMode_small (os : Os) (m : Nat) : dirMode os m < 0o10000 := by
  have h1 : m &&& 0o1777 &&& os.allow ≤ m &&& 0o1777 := Nat.and_le_left
  have h2 : m &&& 0o1777 ≤ 0o1777 := Nat.and_le_right
  simp only [dirMode]
  omega

theorem fileMode_small (os : Os) (m : Nat) : fileMode os m < 0o10000 := by
  have h1 : 0o777 &&& m &&& os.allow ≤ 0o777 &&& m := Nat.and_le_left
  have h2 : 0o777 &&& m ≤ 0o777 := Nat.and_le_left
  simp only [fileMode]
  omega

section
variable {os' : Os} {src : FS} {p : Bytes} {l : Loc} {keep : Bytes → Entry → Bool} {fs fs' : FS}
  {d : Loc} {n : Bytes} {ns : List Bytes}

/-- Everything in the copy comes from the source. -/
theorem CopyOf.origin (h : CopyOf os' src p l keep fs fs' d n ns) {q : List Bytes} (hq : q ≠ [])
    {node : Node} (hf : fs' (d ++ n :: ns ++ q) = some node) :
    ∃ m, src (l ++ q) = some m ∧ KeptAt keep src p l q ∧ node = m.copied os' := by
  cases q with
  | nil => exact absurd rfl hq
  | cons x q =>
    by_cases hk : KeptAt keep src p l (x :: q)
    · rw [h.2.1 x q hk] at hf
      cases hs : src (l ++ x :: q) with
      | none => rw [hs] at hf; cases hf
      | some m => rw [hs] at hf; cases hf; exact ⟨m, rfl, hk, rfl⟩
    · rw [h.2.2.1 x q hk] at hf; cases hf

theorem CopyOf.keeps (h : CopyOf os' src p l keep fs fs' d n ns) (ha : Absent fs (d ++ [n])) :
    Keeps fs fs' := by
  have key : ∀ l', fs l' ≠ none → fs' l' = fs l' := by
    intro l' hl'
    refine h.2.2.2 l' (fun j _ e => ?_) (fun x q e => ?_)
    · apply hl'
      have := ha (ns.take j)
      rw [e]; simpa using this
    · apply hl'
      have := ha (ns ++ x :: q)
      rw [e]; simpa using this
  exact ⟨fun l' m hm => by rw [key l' (by rw [hm]; simp)]; exact hm,
    fun l' t hm => by rw [key l' (by rw [hm]; simp)]; exact hm⟩

/-- The path of the copy leads to it. -/
theorem CopyOf.leads (h : CopyOf os' src p l keep fs fs' d n ns) {w' v : World} (hw : fs = w'.fs)
    (hv : fs' = v.fs) (hcwd : v.cwd = w'.cwd) (ht' : w'.fs.tree) {pre : Bytes} (h0 : 0 ∉ pre)
    (hd : InDir os' w' pre d) (ho : OpenDir os' w'.fs d) (hn : ∀ x ∈ n :: ns, PlainName x)
    (hnew : w'.fs (d ++ [n]) = none) (hen : Enterable os' (dirMode os' 0o775)) :
    locate os' v true (pre ++ joinNames (n :: ns)) = some (d ++ n :: ns) := by
  subst hw hv
  have hk := h.keeps (ht'.absent hnew)
  have F : Front os' v.fs v.cwd pre d := by
    rw [hcwd]; exact (hd.front ho.searchable h0).mono hk
  have hs := (ho.mono hk).searchable
  have hdirs := h.1
  rcases List.eq_nil_or_concat ns with rfl | ⟨ns', y, rfl⟩
  · exact F.at hs (hn n List.mem_cons_self) true (by simpa using hdirs 0 (by simp)) (by simp)
  · have hdirs' : ∀ j, j ≤ ns'.length → v.fs (d ++ n :: ns'.take j) = some (.dir (dirMode os' 0o775)) := by
      intro j hj
      have := hdirs j (by simp; omega)
      rw [List.concat_eq_append, List.take_append_of_le_length hj] at this
      exact this
    have F2 := F.chain ns' n hs (fun x hx => hn x (by
        rcases List.mem_cons.mp hx with rfl | hx
        · exact List.mem_cons_self
        · exact List.mem_cons_of_mem _ (by simp [hx]))) (fun j hj => ⟨_, hdirs' j hj, hen⟩)
    have hlast := hdirs (ns'.length + 1) (by simp)
    rw [List.concat_eq_append, List.take_of_length_le (by simp)] at hlast
    have := F2.at (OpenDir.searchable ⟨_, by simpa using hdirs' ns'.length (Nat.le_refl _), hen⟩)
      (hn y (by simp)) true (n := .dir (dirMode os' 0o775)) (by simpa using hlast) (by simp)
    rw [List.concat_eq_append]
    have e : pre ++ joinNames (n :: (ns' ++ [y])) = pre ++ joinNames (n :: ns') ++ [47] ++ y := by
      rw [joinNames_slashed, joinNames_slashed, slashed_snoc]
      simp
    rw [e]
    simpa using this

/-- The copy of a directory that can be archived can be archived, if the umask leaves the owner's
permissions and the new path is not too long. -/
theorem CopyOf.archivable (h : CopyOf os' src p l keep fs fs' d n ns) {os : Os} {w w' v : World}
    (hsrc : src = w.fs) (hw : fs = w'.fs) (hv : fs' = v.fs) (hcwd : v.cwd = w'.cwd)
    (ht' : w'.fs.tree) (A : Archivable os w p l) (hroot : os.root = true → os'.root = true)
    (hown : OwnerKeeps os') {pre : Bytes} (h0 : 0 ∉ pre) (hd : InDir os' w' pre d)
    (ho : OpenDir os' w'.fs d) (hn : ∀ x ∈ n :: ns, PlainName x) (hnew : w'.fs (d ++ [n]) = none)
    (hlim : ∀ q node, w.fs (l ++ q) = some node →
      (pre ++ joinNames (n :: ns)).length + ((q.map (47 :: ·)).flatten).length ≤ 4094) :
    Archivable os' v (pre ++ joinNames (n :: ns)) (d ++ n :: ns) := by
  have hen : Enterable os' (dirMode os' 0o775) :=
    .inr ⟨hown.dir (k := 6) (by decide) (by decide) (by decide),
      hown.dir (k := 7) (by decide) (by decide) (by decide)⟩
  have hlead := h.leads hw hv hcwd ht' h0 hd ho hn hnew hen
  have htop : v.fs (d ++ n :: ns) = some (.dir (dirMode os' 0o775)) := by
    have := h.1 ns.length (Nat.le_refl _)
    rwa [List.take_length, hv] at this
  have hsource : ∀ {q : List Bytes}, q ≠ [] → ∀ {node : Node}, v.fs (d ++ n :: ns ++ q) = some node →
      ∃ m, w.fs (l ++ q) = some m ∧ node = m.copied os' := by
    intro q hq node hf
    rw [← hv] at hf
    obtain ⟨m, a, _, b⟩ := h.origin hq hf
    exact ⟨m, by rw [← hsrc]; exact a, b⟩
  obtain ⟨mt, hmt⟩ := A.isDir
  have n0 : n ≠ [] := (hn n List.mem_cons_self).1
  refine ⟨⟨?_, ?_⟩, hlead, ⟨_, htop⟩, ?_, ?_, ?_, ?_, ?_⟩
  · rw [joinNames_slashed]; simp [n0]
  · rw [joinNames_slashed]
    simp only [List.mem_append, not_or]
    refine ⟨h0, (hn n List.mem_cons_self).2.2.2.2, ?_⟩
    intro hm
    simp only [slashed, List.mem_flatten, List.mem_map] at hm
    obtain ⟨_, ⟨y, hy, rfl⟩, hm⟩ := hm
    rcases List.mem_cons.mp hm with e | hm
    · cases e
    · exact (hn y (List.mem_cons_of_mem _ hy)).2.2.2.2 hm
  · intro q m hm
    by_cases hq : q = []
    · subst hq
      rw [List.append_nil, htop] at hm
      cases hm
      exact ⟨.inr (hown.dir (k := 8) (by decide) (by decide) (by decide)),
        .inr (hown.dir (k := 6) (by decide) (by decide) (by decide)), dirMode_small _ _⟩
    · obtain ⟨m0, a, b⟩ := hsource hq hm
      cases m0 with
      | dir m1 =>
        cases b
        obtain ⟨c1, c2, _⟩ := A.dirs q m1 a
        refine ⟨?_, ?_, dirMode_small _ _⟩
        · rcases c1 with c | c
          · exact .inl (hroot c)
          · exact .inr (hown.dir (k := 8) (by decide) (by decide) c)
        · rcases c2 with c | c
          · exact .inl (hroot c)
          · exact .inr (hown.dir (k := 6) (by decide) (by decide) c)
      | file _ _ => cases b
      | link _ => cases b
  · intro q m c hm
    have hq : q ≠ [] := by
      intro e; subst e; rw [List.append_nil, htop] at hm; cases hm
    obtain ⟨m0, a, b⟩ := hsource hq hm
    cases m0 with
    | file m1 c1 =>
      cases b
      obtain ⟨c1, c2, c3⟩ := A.files q m1 _ a
      refine ⟨?_, fileMode_small _ _, c3⟩
      rcases c1 with c | c
      · exact .inl (hroot c)
      · exact .inr (hown.file (k := 8) (by decide) (by decide) c)
    | dir _ => cases b
    | link _ => cases b
  · intro q t hm
    have hq : q ≠ [] := by
      intro e; subst e; rw [List.append_nil, htop] at hm; cases hm
    obtain ⟨m0, a, b⟩ := hsource hq hm
    cases m0 with
    | link t1 => cases b; exact A.links q _ a
    | dir _ => cases b
    | file _ _ => cases b
  · intro q x node hm
    rw [List.append_assoc] at hm
    obtain ⟨m0, a, b⟩ := hsource (by simp) hm
    rw [← List.append_assoc] at a
    exact A.names q x m0 a
  · intro q node hm
    by_cases hq : q = []
    · subst hq
      exact hlim [] _ (by rw [List.append_nil]; exact hmt)
    · obtain ⟨m0, a, b⟩ := hsource hq hm
      exact hlim q m0 a

theorem getLast?_under (a b : Loc) {q : Loc} (hq : q ≠ []) : (a ++ q).getLast? = (b ++ q).getLast? := by
  cases q with
  | nil => exact absurd rfl hq
  | cons x q => rw [List.getLast?_append, List.getLast?_append, List.getLast?_cons, Option.some_or, Option.some_or]

/-- A copy needs no more room in an archive. -/
theorem CopyOf.small (h : CopyOf os' src p l keep fs fs' d n ns) (hs : SmallDir src l) :
    SmallDir fs' (d ++ n :: ns) := by
  obtain ⟨qs, h1, h2⟩ := hs
  refine ⟨qs.filter (· ≠ []), ?_, Nat.lt_of_le_of_lt ?_ h2⟩
  · intro q hq hf
    cases hx : fs' (d ++ n :: ns ++ q) with
    | none => exact absurd hx hf
    | some node =>
      obtain ⟨m, a, _, _⟩ := h.origin hq hx
      simp only [ne_eq, List.mem_filter, decide_not, Bool.not_eq_eq_eq_not, Bool.not_true,
        decide_eq_false_iff_not]
      exact ⟨h1 q hq (by rw [a]; simp), hq⟩
  · clear h1 h2
    induction qs with
    | nil => simp
    | cons q qs ih =>
      by_cases hq : q = []
      · rw [List.filter_cons_of_neg (by simp [hq]), List.map_cons, List.sum_cons]
        omega
      · rw [List.filter_cons_of_pos (by simp [hq]), List.map_cons, List.sum_cons, List.map_cons,
          List.sum_cons]
        have : placeCost fs' (d ++ n :: ns ++ q) ≤ placeCost src (l ++ q) := by
          simp only [placeCost]
          rw [getLast?_under (d ++ n :: ns) l hq]
          cases hx : fs' (d ++ n :: ns ++ q) with
          | none => simp
          | some node =>
            obtain ⟨m, a, _, rfl⟩ := h.origin hq hx
            rw [a]
            cases m <;> simp [Node.copied]
        omega

/-- A disk with a copy on it is a tree. -/
theorem CopyOf.tree (h : CopyOf os' src p l keep fs fs' d n ns) (hs : src.tree) (ht : fs.tree)
    (hd : ∃ m, fs d = some (.dir m)) (hnew : fs (d ++ [n]) = none) : fs'.tree := by
  have hk := h.keeps (ht.absent hnew)
  have hout := h.2.2.2
  refine ⟨?_, fun x c node hx => ?_⟩
  · rw [hout [] (by simp) (by simp)]; exact ht.1
  by_cases hj : ∃ j, j ≤ ns.length ∧ x ++ [c] = d ++ n :: ns.take j
  · obtain ⟨j, hj, e⟩ := hj
    cases j with
    | zero =>
      have e : x = d := List.append_inj_left' (t₁ := [c]) (t₂ := [n]) (by simpa using e) rfl
      subst e
      obtain ⟨m, hm⟩ := hd
      exact ⟨m, hk.1 _ _ hm⟩
    | succ j =>
      rw [List.take_add_one, List.getElem?_eq_getElem (by omega), Option.toList_some, ← List.cons_append,
        ← List.append_assoc] at e
      rw [List.append_inj_left' e rfl]
      exact ⟨_, h.1 j (by omega)⟩
  by_cases hq : ∃ y q, x ++ [c] = d ++ n :: ns ++ y :: q
  · obtain ⟨y, q, e⟩ := hq
    rw [e] at hx
    obtain ⟨m, a, b, _⟩ := h.origin (by simp) hx
    rcases List.eq_nil_or_concat q with rfl | ⟨q', c', rfl⟩
    · rw [List.append_inj_left' e rfl]
      exact ⟨_, by simpa using h.1 ns.length (Nat.le_refl _)⟩
    · rw [List.concat_eq_append] at e a b
      rw [← List.cons_append, ← List.append_assoc] at e a
      rw [List.append_inj_left' e rfl]
      obtain ⟨m', hm'⟩ := hs.2 _ _ _ a
      refine ⟨dirMode os' m', ?_⟩
      rw [h.2.1 y q' (KeptAt.init (q := y :: q') (c := c') b), hm']
      rfl
  · rw [hout _ (fun j h e => hj ⟨j, h, e⟩) (fun y q e => hq ⟨y, q, e⟩)] at hx
    obtain ⟨m, hm⟩ := ht.2 x c node hx
    exact ⟨m, hk.1 _ _ hm⟩

/-- Something is in the copy if something was accepted. -/
theorem CopyOf.kept (h : CopyOf os' src p l keep fs fs' d n ns) {x : Bytes}
    (hx : KeptAt keep src p l [x]) (p' : Bytes) :
    KeptAt (fun _ _ => true) fs' p' (d ++ n :: ns) [x] := by
  obtain ⟨⟨node, a, b⟩, _⟩ := hx
  exact ⟨⟨_, by rw [h.2.1 x [] ⟨⟨node, a, b⟩, trivial⟩, a]; rfl, rfl⟩, trivial⟩

/-- Directories of the copy can be entered if those of a copy of the source can. -/
theorem CopyOf.enters (h : CopyOf os' src p l keep fs fs' d n ns)
    (hfe : ∀ q m, KeptAt keep src p l q → q ≠ [] → src (l ++ q) = some (.dir m) →
      Enterable os' (dirMode os' m)) (q : List Bytes) (m : Nat) (hq : q ≠ [])
    (hm : fs' (d ++ n :: ns ++ q) = some (.dir m)) : Enterable os' (dirMode os' m) := by
  obtain ⟨m0, a, b, e⟩ := h.origin hq hm
  cases m0 with
  | dir m1 =>
    have := hfe q m1 b hq a
    cases e
    have e2 := Node.copied_copied os' (.dir m1)
    simp only [Node.copied, Node.dir.injEq] at e2
    rw [e2]
    exact this
  | file _ _ => cases e
  | link _ => cases e

end

theorem OwnerKeeps.enter {os : Os} (h : OwnerKeeps os) : Enterable os (dirMode os 0o775) :=
  .inr ⟨h.dir (k := 6) (by decide) (by decide) (by decide),
    h.dir (k := 7) (by decide) (by decide) (by decide)⟩

end Zwt
