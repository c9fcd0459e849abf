import Verif.Proofs.FS

/-! `MkdirRecurse`. -/

namespace Zwt

/-- Paths `pre ++ n…` continue in the directory `d`. -/
def Front (os : Os) (fs : FS) (cwd : Loc) (pre : Bytes) (d : Loc) : Prop :=
  0 ∉ pre ∧ ∃ b cs m, Walks os fs MAX_LINKS b cs m d ∧
    ∀ n, n ≠ [] → n.head? ≠ some 47 → pathBase cwd (pre ++ n) = b ∧
      splitPath (pre ++ n) = cs ++ splitPath n

theorem PlainName.head {n : Bytes} (h : PlainName n) : n.head? ≠ some 47 := by
  obtain ⟨h1, _, _, h4, _⟩ := h
  cases n with
  | nil => exact absurd rfl h1
  | cons a as =>
    simp only [List.mem_cons, not_or] at h4
    simp only [List.head?_cons, ne_eq, Option.some.injEq]
    exact fun h => h4.1 h.symm

theorem Front.mono {os : Os} {fs fs' : FS} {cwd : Loc} {pre : Bytes} {d : Loc}
    (h : Front os fs cwd pre d) (hk : Keeps fs fs') : Front os fs' cwd pre d := by
  obtain ⟨h0, b, cs, m, h1, h2⟩ := h
  exact ⟨h0, b, cs, m, h1.mono hk, h2⟩

theorem OpenDir.searchable {os : Os} {fs : FS} {l : Loc} (h : OpenDir os fs l) :
    Zwt.searchable os fs l = true := by
  obtain ⟨m, h1, h2⟩ := h
  simp only [Zwt.searchable, h1]
  rcases h2 with h | h
  · simp [h]
  · simp [h.1]

theorem OpenDir.writable {os : Os} {fs : FS} {l : Loc} (h : OpenDir os fs l) :
    Zwt.writable os fs l = true := by
  obtain ⟨m, h1, h2⟩ := h
  simp only [Zwt.writable, h1]
  rcases h2 with h | h
  · simp [h]
  · simp [h.2]

theorem OpenDir.mono {os : Os} {fs fs' : FS} {l : Loc} (h : OpenDir os fs l) (hk : Keeps fs fs') :
    OpenDir os fs' l := by
  obtain ⟨m, h1, h2⟩ := h
  exact ⟨m, hk.1 _ _ h1, h2⟩

/-- Into a directory. -/
theorem Front.extend {os : Os} {fs : FS} {cwd : Loc} {pre : Bytes} {d : Loc}
    (h : Front os fs cwd pre d) (hs : searchable os fs d = true) {n : Bytes} (hn : PlainName n)
    {m : Nat} (hd : fs (d ++ [n]) = some (.dir m)) :
    Front os fs cwd (pre ++ n ++ [47]) (d ++ [n]) := by
  obtain ⟨h0, b, cs, k, h1, h2⟩ := h
  obtain ⟨n1, n2, n3, n4, n5⟩ := hn
  refine ⟨?_, b, cs ++ [n], k, ?_, ?_⟩
  · simp only [List.mem_append, List.mem_singleton, not_or]
    exact ⟨⟨h0, n5⟩, by decide⟩
  · exact h1.append (.dir hs (by simp [n1, n2]) n3 hd .nil)
  · intro x hx hx2
    have e : pre ++ n ++ [47] ++ x = (pre ++ n) ++ 47 :: x := by simp
    have hp := h2 n n1 (PlainName.head ⟨n1, n2, n3, n4, n5⟩)
    rw [e]
    constructor
    · rw [pathBase_append _ _ _ (by simp [n1])]
      exact hp.1
    · rw [splitPath_append, hp.2, splitPath_plain n n4]

/-- The place of a path given as front and name. -/
theorem Front.locate {os : Os} {w : World} {pre : Bytes} {d : Loc}
    (h : Front os w.fs w.cwd pre d) (follow : Bool) {n : Bytes} (hn : PlainName n) :
    ∃ m, Zwt.locate os w follow (pre ++ n) = resolve os w.fs follow m d [n] := by
  obtain ⟨_, b, cs, k, h1, h2⟩ := h
  have hp := h2 n hn.1 hn.head
  refine ⟨k, ?_⟩
  rw [Zwt.locate, if_neg (by simp [hn.1]), hp.1, hp.2, splitPath_plain n hn.2.2.2.1]
  exact h1.resolve follow [n] (by simp)

theorem resolve_missing (os : Os) (fs : FS) (follow : Bool) (m : Nat) (d : Loc) (n : Bytes)
    (cs : List Bytes) (hn : PlainName n) (hs : searchable os fs d = true)
    (ha : fs (d ++ [n]) = none) :
    resolve os fs follow m d (n :: cs) = if cs.all (· = []) then some (d ++ [n]) else none := by
  rw [resolve_cons, if_neg (by simp [hs]), if_neg (by simp [hn.1, hn.2.1]), if_neg hn.2.2.1, ha]

/-- `mkdir` of a missing entry. -/
theorem mkdir_new (os : Os) (hq : os.quiet) (w : World) (pre : Bytes) (d : Loc) (n : Bytes)
    (mode : Nat) (hf : Front os w.fs w.cwd pre d) (ho : OpenDir os w.fs d) (hn : PlainName n)
    (ha : w.fs (d ++ [n]) = none) :
    osCreate os w (pre ++ n) mode = (0, (w.put (d ++ [n]) (.dir (dirMode os mode))).tick) := by
  obtain ⟨m, hl⟩ := hf.locate false hn
  rw [resolve_missing os w.fs false m d n [] hn ho.searchable ha] at hl
  simp only [List.all_nil, if_true] at hl
  simp only [osCreate, sysMkdir, hq.1, Bool.false_eq_true, if_false, hl, ha, addNode,
    List.dropLast_concat, ho.writable, if_true, dirMode]

/-- `mkdir` below a missing entry. -/
theorem mkdir_below (os : Os) (hq : os.quiet) (w : World) (pre : Bytes) (d : Loc) (n x : Bytes)
    (mode : Nat) (hf : Front os w.fs w.cwd pre d) (hs : searchable os w.fs d = true)
    (hn : PlainName n) (hx : ¬ (splitPath x).all (· = []) = true)
    (ha : w.fs (d ++ [n]) = none) :
    osCreate os w (pre ++ n ++ 47 :: x) mode = (2, w.tick) := by
  have hl : Zwt.locate os w false (pre ++ n ++ 47 :: x) = none := by
    obtain ⟨_, b, cs, k, h1, h2⟩ := hf
    have hp := h2 n hn.1 hn.head
    rw [Zwt.locate, if_neg (by simp), pathBase_append _ _ _ (by simp [hn.1]), splitPath_append,
      hp.1, hp.2, splitPath_plain n hn.2.2.2.1, List.append_assoc,
      h1.resolve false _ (by simp [splitPath_ne_nil]), List.singleton_append,
      resolve_missing os w.fs false k d n _ hn hs ha, if_neg hx]
  simp only [osCreate, sysMkdir, hq.1, Bool.false_eq_true, if_false, hl]

/-! ### Strings -/

theorem cString_plain (p : Bytes) (h : 0 ∉ p) : cString p = p := by
  induction p with
  | nil => rfl
  | cons a as ih =>
    simp only [List.mem_cons, not_or] at h
    have : (a != 0) = true := by simp [Ne.symm h.1]
    simp only [cString] at ih ⊢
    simp [this, ih h.2]

theorem cString_zero (p x : Bytes) (h : 0 ∉ p) : cString (p ++ 0 :: x) = p := by
  induction p with
  | nil => simp [cString]
  | cons a as ih =>
    simp only [List.mem_cons, not_or] at h
    have : (a != 0) = true := by simp [Ne.symm h.1]
    simp only [cString] at ih ⊢
    simp [this, ih h.2]

theorem set_at (p x : Bytes) (a b : UInt8) : (p ++ a :: x).set p.length b = p ++ b :: x := by
  induction p with
  | nil => rfl
  | cons c cs ih => simp [ih]

theorem lastIndexOf_none (c : UInt8) (p : Bytes) (h : c ∉ p) : lastIndexOf c p = none := by
  induction p with
  | nil => rfl
  | cons a as ih =>
    simp only [List.mem_cons, not_or] at h
    simp [lastIndexOf, ih h.2, Ne.symm h.1]

theorem lastIndexOf_append (c : UInt8) (p n : Bytes) (h : c ∉ n) :
    lastIndexOf c (p ++ c :: n) = some p.length := by
  induction p with
  | nil => simp [lastIndexOf, lastIndexOf_none c n h]
  | cons a as ih => simp [lastIndexOf, ih]

/-- Names cut off, with the NULs put before them. -/
def cutTail : List Bytes → Bytes
  | [] => []
  | n :: ns => 0 :: n ++ cutTail ns

/-- Where the NULs are. -/
def cutIdx (p : Bytes) : List Bytes → List Nat
  | [] => []
  | n :: ns => p.length :: cutIdx (p ++ 47 :: n) ns

theorem cutIdx_length (p : Bytes) (ns : List Bytes) : (cutIdx p ns).length = ns.length := by
  induction ns generalizing p with
  | nil => rfl
  | cons n ns ih => simp [cutIdx, ih]

theorem cString_cut (p : Bytes) (ns : List Bytes) (h : 0 ∉ p) : cString (p ++ cutTail ns) = p := by
  cases ns with
  | nil => simp [cutTail, cString_plain p h]
  | cons n ns => exact cString_zero p _ h

/-- A path and further components. -/
def extendPath (p : Bytes) (ns : List Bytes) : Bytes := ns.foldl (fun p n => p ++ 47 :: n) p

theorem extendPath_snoc (p : Bytes) (ns : List Bytes) (n : Bytes) :
    extendPath p (ns ++ [n]) = extendPath p ns ++ 47 :: n := by
  simp [extendPath]

theorem extendPath_cons (p : Bytes) (n : Bytes) (ns : List Bytes) :
    extendPath p (n :: ns) = extendPath (p ++ 47 :: n) ns := rfl

theorem joinNames_cons (n : Bytes) (ns : List Bytes) (p : Bytes) :
    p ++ joinNames (n :: ns) = extendPath (p ++ n) ns := by
  induction ns generalizing n p with
  | nil => rfl
  | cons m ms ih =>
    have := ih m (p ++ n ++ [47])
    rw [extendPath_cons, joinNames]
    · simpa using this
    · simp

theorem extendPath_zero (p : Bytes) (ns : List Bytes) (hp : 0 ∉ p) (hn : ∀ n ∈ ns, PlainName n) :
    0 ∉ extendPath p ns := by
  induction ns generalizing p with
  | nil => exact hp
  | cons n ns ih =>
    rw [extendPath_cons]
    refine ih _ ?_ (fun m hm => hn m (List.mem_cons_of_mem _ hm))
    have := (hn n List.mem_cons_self).2.2.2.2
    simp only [List.mem_append, List.mem_cons, not_or]
    exact ⟨hp, by decide, this⟩

/-- A chain of new directories. -/
def mkChain (fs : FS) (l : Loc) (mode : Nat) : List Bytes → FS
  | [] => fs
  | n :: ns => mkChain (fs.put (l ++ [n]) (.dir mode)) (l ++ [n]) mode ns

/-- Nothing is at or below `l`. -/
def Absent (fs : FS) (l : Loc) : Prop := ∀ p, fs (l ++ p) = none

/-- Restoring the cut names creates them. -/
theorem mkRestore_good (os : Os) (hq : os.quiet) (mode : Nat) (he : Enterable os (dirMode os mode))
    (ns : List Bytes) : ∀ (w : World) (p : Bytes) (l : Loc),
    0 ∉ p → Front os w.fs w.cwd (p ++ [47]) l → OpenDir os w.fs l → (∀ n ∈ ns, PlainName n) →
    (∀ q, q ≠ [] → w.fs (l ++ q) = none) →
    ∃ w', mkRestore os mode (cutIdx p ns) (p ++ cutTail ns) w = (0, w') ∧
      w'.fs = mkChain w.fs l (dirMode os mode) ns ∧ w'.cwd = w.cwd := by
  induction ns with
  | nil => intro w p l _ _ _ _ _; exact ⟨w, rfl, rfl, rfl⟩
  | cons n ns ih =>
    intro w p l hp hf ho hn ha
    have hpn := hn n List.mem_cons_self
    have hnew := mkdir_new os hq w (p ++ [47]) l n mode hf ho hpn (ha [n] (by simp))
    have hmem : (p ++ cutTail (n :: ns)).set p.length 47 = (p ++ 47 :: n) ++ cutTail ns := by
      simp only [cutTail, List.cons_append]
      rw [set_at]; simp
    have hp' : 0 ∉ p ++ 47 :: n := by
      simp only [List.mem_append, List.mem_cons, not_or]
      exact ⟨hp, by decide, hpn.2.2.2.2⟩
    have hcs : cString ((p ++ cutTail (n :: ns)).set p.length 47) = p ++ [47] ++ n := by
      rw [hmem, cString_cut _ _ hp']; simp
    let w1 := (w.put (l ++ [n]) (.dir (dirMode os mode))).tick
    have hk : Keeps w.fs w1.fs := Keeps.put (ha [n] (by simp)) _
    have hdir : w1.fs (l ++ [n]) = some (.dir (dirMode os mode)) := by
      simp [w1, World.tick, World.put, FS.put]
    have hf1 : Front os w1.fs w1.cwd (p ++ 47 :: n ++ [47]) (l ++ [n]) := by
      have := (Front.mono hf hk).extend (ho.mono hk).searchable hpn hdir
      simp only [List.append_assoc, List.singleton_append, List.cons_append] at this ⊢
      exact this
    obtain ⟨w', g1, g2, g3⟩ := ih w1 (p ++ 47 :: n) (l ++ [n]) hp' hf1 ⟨_, hdir, he⟩
      (fun m hm => hn m (List.mem_cons_of_mem _ hm)) (by
        intro q hq'
        have : l ++ [n] ++ q ≠ l ++ [n] := by simp [hq']
        simp only [w1, World.tick, World.put, FS.put, if_neg this]
        rw [List.append_assoc]; exact ha _ (by simp))
    refine ⟨w', ?_, g2, g3⟩
    simp only [cutIdx, mkRestore, hcs, hnew]
    rw [if_neg (by simp), hmem]
    exact g1

/-- Cutting names off until the topmost missing one is reached. -/
theorem mkCut_good (os : Os) (hq : os.quiet) (mode : Nat) (he : Enterable os (dirMode os mode))
    (pre : Bytes) (d : Loc) (n : Bytes) (hn : PlainName n) (k : Nat) :
    ∀ (w : World) (ms ns : List Bytes), ms.length = k + 1 → (ms ++ ns).length ≤ 61 →
    Front os w.fs w.cwd pre d → OpenDir os w.fs d → (∀ x ∈ ms ++ ns, PlainName x) →
    Absent w.fs (d ++ [n]) →
    ∃ w', mkCut os mode (62 - ns.length) (cutIdx (extendPath (pre ++ n) ms) ns)
        (extendPath (pre ++ n) ms ++ cutTail ns) w = (0, w') ∧
      w'.fs = mkChain w.fs d (dirMode os mode) (n :: (ms ++ ns)) ∧ w'.cwd = w.cwd := by
  induction k with
  | zero =>
    intro w ms ns hk hlen hf ho hpl ha
    obtain ⟨m, rfl⟩ : ∃ m, ms = [m] := by
      cases ms with
      | nil => simp at hk
      | cons a as =>
        cases as with
        | nil => exact ⟨a, rfl⟩
        | cons b bs => simp at hk
    have hpm := hpl m (by simp)
    have h0 : 0 ∉ pre ++ n := by
      simp only [List.mem_append, not_or]; exact ⟨hf.1, hn.2.2.2.2⟩
    have hpath : extendPath (pre ++ n) [m] = pre ++ n ++ 47 :: m := rfl
    have h0' : 0 ∉ pre ++ n ++ 47 :: m := by
      rw [← hpath]; exact extendPath_zero _ _ h0 (by simpa using hpm)
    have hdel : fileDelimiter (cString (extendPath (pre ++ n) [m] ++ cutTail ns)) =
        some (pre ++ n).length := by
      rw [hpath, cString_cut _ _ h0', fileDelimiter, lastIndexOf_append _ _ _ hpm.2.2.2.1]
    have hmem : (extendPath (pre ++ n) [m] ++ cutTail ns).set (pre ++ n).length 0 =
        (pre ++ n) ++ cutTail (m :: ns) := by
      rw [hpath]
      simp only [cutTail, List.cons_append]
      rw [List.append_assoc (pre ++ n) (47 :: m), List.cons_append, set_at]
    have hnew := mkdir_new os hq w pre d n mode hf ho hn (by simpa using ha [])
    let w1 := (w.put (d ++ [n]) (.dir (dirMode os mode))).tick
    have hkp : Keeps w.fs w1.fs := Keeps.put (by simpa using ha []) _
    have hdir : w1.fs (d ++ [n]) = some (.dir (dirMode os mode)) := by
      simp [w1, World.tick, World.put, FS.put]
    obtain ⟨w', g1, g2, g3⟩ := mkRestore_good os hq mode he (m :: ns) w1 (pre ++ n) (d ++ [n]) h0
      ((hf.mono hkp).extend (ho.mono hkp).searchable hn hdir) ⟨_, hdir, he⟩
      (by simpa using hpl) (by
        intro q hq'
        have : d ++ [n] ++ q ≠ d ++ [n] := by simp [hq']
        simp only [w1, World.tick, World.put, FS.put, if_neg this]
        exact ha q)
    refine ⟨w', ?_, g2, g3⟩
    simp only [List.singleton_append, List.length_cons] at hlen
    obtain ⟨f, hfu⟩ : ∃ f, 62 - ns.length = f + 1 := ⟨61 - ns.length, by omega⟩
    rw [hfu, mkCut, hdel]
    simp only [hmem]
    rw [cString_cut _ _ h0, hnew]
    simp only
    rw [if_neg (by decide), if_pos (.inl trivial), if_pos (by
      rw [List.length_cons, cutIdx_length]; omega)]
    exact g1
  | succ k ih =>
    intro w ms ns hk hlen hf ho hpl ha
    obtain ⟨ms', m, rfl⟩ : ∃ ms' m, ms = ms' ++ [m] := by
      rcases List.eq_nil_or_concat ms with h | ⟨a, b, h⟩
      · rw [h] at hk; simp at hk
      · exact ⟨a, b, by simpa using h⟩
    have hpm := hpl m (by simp)
    have hms' : ∀ x ∈ ms', PlainName x := fun x hx => hpl x (by simp [hx])
    have h0 : 0 ∉ pre ++ n := by
      simp only [List.mem_append, not_or]; exact ⟨hf.1, hn.2.2.2.2⟩
    have h0p : 0 ∉ extendPath (pre ++ n) ms' := extendPath_zero _ _ h0 hms'
    have hpath := extendPath_snoc (pre ++ n) ms' m
    have h0' : 0 ∉ extendPath (pre ++ n) ms' ++ 47 :: m := by
      rw [← hpath]; exact extendPath_zero _ _ h0 (fun x hx => hpl x (by
        simp only [List.mem_append] at hx ⊢; exact .inl hx))
    have hdel : fileDelimiter (cString (extendPath (pre ++ n) (ms' ++ [m]) ++ cutTail ns)) =
        some (extendPath (pre ++ n) ms').length := by
      rw [hpath, cString_cut _ _ h0', fileDelimiter, lastIndexOf_append _ _ _ hpm.2.2.2.1]
    have hmem : (extendPath (pre ++ n) (ms' ++ [m]) ++ cutTail ns).set
        (extendPath (pre ++ n) ms').length 0 =
        extendPath (pre ++ n) ms' ++ cutTail (m :: ns) := by
      rw [hpath]
      simp only [cutTail, List.cons_append]
      rw [List.append_assoc _ (47 :: m), List.cons_append, set_at]
    -- `mkdir` fails: the parent is missing
    obtain ⟨x, xs, rfl⟩ : ∃ x xs, ms' = x :: xs := by
      cases ms' with
      | nil => simp at hk
      | cons x xs => exact ⟨x, xs, rfl⟩
    have hx := hms' x (by simp)
    have hbelow : osCreate os w (extendPath (pre ++ n) (x :: xs)) mode = (2, w.tick) := by
      have e : extendPath (pre ++ n) (x :: xs) = pre ++ n ++ 47 :: joinNames (x :: xs) := by
        have := joinNames_cons x xs (pre ++ n ++ [47])
        rw [extendPath_cons]
        simpa using this.symm
      rw [e]
      refine mkdir_below os hq w pre d n _ mode hf ho.searchable hn ?_ (by simpa using ha [])
      cases xs with
      | nil => simp [joinNames, splitPath_plain x hx.2.2.2.1, hx.1]
      | cons y ys =>
        rw [joinNames, splitPath_append, splitPath_plain x hx.2.2.2.1]
        · simp [hx.1]
        · simp
    obtain ⟨w', g1, g2, g3⟩ := ih w.tick (x :: xs) (m :: ns) (by simp at hk ⊢; omega)
      (by simpa using hlen) hf ho (by simpa using hpl) ha
    refine ⟨w', ?_, by rw [List.append_assoc]; exact g2, g3⟩
    simp only [List.length_append, List.length_cons, List.length_nil] at hlen hk
    obtain ⟨f, hfu⟩ : ∃ f, 62 - ns.length = f + 1 := ⟨61 - ns.length, by omega⟩
    have hfu2 : 62 - (m :: ns).length = f := by simp only [List.length_cons]; omega
    rw [hfu2] at g1
    have hidx : cutIdx (extendPath (pre ++ n) (x :: xs)) (m :: ns) =
        (extendPath (pre ++ n) (x :: xs)).length ::
          cutIdx (extendPath (pre ++ n) (x :: xs ++ [m])) ns := by
      rw [cutIdx, hpath]
    rw [hidx] at g1
    rw [hfu, mkCut, hdel]
    simp only [hmem]
    rw [cString_cut _ _ h0p, hbelow]
    simp only
    rw [if_neg (by decide), if_neg (by decide)]
    exact g1

/-- Recursive creation of missing directories. -/
theorem mkdirRecurse_new (os : Os) (hq : os.quiet) (mode : Nat) (w : World) (pre : Bytes) (d : Loc)
    (n : Bytes) (ns : List Bytes) (hf : Front os w.fs w.cwd pre d) (ho : OpenDir os w.fs d)
    (hn : ∀ x ∈ n :: ns, PlainName x) (ha : Absent w.fs (d ++ [n]))
    (he : ns = [] ∨ Enterable os (dirMode os mode)) (hlen : ns.length ≤ 61) :
    ∃ w', mkdirRecurse os mode (pre ++ joinNames (n :: ns)) w = (0, w') ∧
      w'.fs = mkChain w.fs d (dirMode os mode) (n :: ns) ∧ w'.cwd = w.cwd := by
  have hpn := hn n List.mem_cons_self
  have hpl : ∀ x ∈ ns, PlainName x := fun x hx => hn x (List.mem_cons_of_mem _ hx)
  have ha0 : w.fs (d ++ [n]) = none := by simpa using ha []
  rw [mkdirRecurse, if_neg (by simp [hq.2.2]), mkdirRaw, joinNames_cons]
  rcases List.eq_nil_or_concat ns with rfl | hc
  · have hnew := mkdir_new os hq w.tick pre d n mode hf ho hpn ha0
    rw [show extendPath (pre ++ n) [] = pre ++ n from rfl, hnew]
    simp only
    rw [if_pos (by simp)]
    exact ⟨_, rfl, rfl, rfl⟩
  · obtain ⟨x, xs, rfl⟩ : ∃ x xs, ns = x :: xs := by
      obtain ⟨a, b, h⟩ := hc
      cases ns with
      | nil => simp at h
      | cons x xs => exact ⟨x, xs, rfl⟩
    have hx := hpl x (by simp)
    have hbelow : osCreate os w.tick (extendPath (pre ++ n) (x :: xs)) mode = (2, w.tick.tick) := by
      have e : extendPath (pre ++ n) (x :: xs) = pre ++ n ++ 47 :: joinNames (x :: xs) := by
        have := joinNames_cons x xs (pre ++ n ++ [47])
        rw [extendPath_cons]
        simpa using this.symm
      rw [e]
      refine mkdir_below os hq w.tick pre d n _ mode hf ho.searchable hpn ?_ ha0
      cases xs with
      | nil => simp [joinNames, splitPath_plain x hx.2.2.2.1, hx.1]
      | cons y ys =>
        rw [joinNames, splitPath_append, splitPath_plain x hx.2.2.2.1]
        · simp [hx.1]
        · simp
    have he' : Enterable os (dirMode os mode) := by
      rcases he with h | h
      · simp at h
      · exact h
    rw [hbelow]
    simp only
    rw [if_neg (by decide)]
    have := mkCut_good os hq mode he' pre d n hpn xs.length w.tick.tick (x :: xs) [] rfl
      (by simpa using hlen) hf ho (by simpa using hpl) ha
    simpa [cutTail, cutIdx, World.tick] using this

/-- What a chain of new directories changes. -/
theorem mkChain_at (fs : FS) (mode : Nat) (ns : List Bytes) (l : Loc) :
    (∀ j, 0 < j → j ≤ ns.length → mkChain fs l mode ns (l ++ ns.take j) = some (.dir mode)) ∧
      ∀ x, (∀ j, 0 < j → j ≤ ns.length → x ≠ l ++ ns.take j) → mkChain fs l mode ns x = fs x := by
  induction ns generalizing fs l with
  | nil => exact ⟨fun j h1 h2 => by simp at h2; omega, fun x _ => rfl⟩
  | cons n ns ih =>
    obtain ⟨i1, i2⟩ := ih (fs.put (l ++ [n]) (.dir mode)) (l ++ [n])
    constructor
    · intro j h1 h2
      simp only [List.length_cons] at h2
      match j, h1 with
      | 1, _ =>
        rw [mkChain, i2]
        · simp [FS.put]
        · intro j a b h
          have := congrArg List.length h
          simp only [List.length_append, List.length_take, List.length_cons, List.length_nil] at this
          omega
      | j' + 2, _ =>
        have := i1 (j' + 1) (by omega) (by omega)
        rw [mkChain]
        simpa using this
    · intro x hx
      rw [mkChain, i2, FS.put, if_neg]
      · simpa using hx 1 (by omega) (by simp)
      · intro j a b
        have := hx (j + 1) (by omega) (by simp; omega)
        simpa using this

/-- An absolute, relative or other front of the property statements. -/
theorem InDir.front {os : Os} {w : World} {pre : Bytes} {d : Loc} (h : InDir os w pre d)
    (hd : searchable os w.fs d = true) (h0 : 0 ∉ pre) : Front os w.fs w.cwd pre d := by
  refine ⟨h0, ?_⟩
  cases h with
  | rel =>
    refine ⟨w.cwd, [], MAX_LINKS, .nil, ?_⟩
    intro n hn hh
    simp [pathBase, hh]
  | abs =>
    refine ⟨[], [[]], MAX_LINKS, .skip hd (.inl rfl) .nil, ?_⟩
    intro n hn hh
    have : ([47] : Bytes) ++ n = [] ++ 47 :: n := rfl
    rw [this, splitPath_append]
    simp [pathBase, splitPath]
  | @path p d hl =>
    have hp : p ≠ [] := by
      intro h; subst h; simp [locate] at hl
    rw [locate, if_neg hp] at hl
    obtain ⟨m, hm⟩ : ∃ m, w.fs d = some (.dir m) := by
      simp only [searchable] at hd
      split at hd
      · rename_i m hm; exact ⟨m, hm⟩
      · simp at hd
    obtain ⟨k, hk⟩ := resolve_walks os w.fs d m hm _ _ _ hl
    refine ⟨_, _, k, hk, ?_⟩
    intro n hn hh
    have e : p ++ [47] ++ n = p ++ 47 :: n := by simp
    rw [e, splitPath_append, pathBase_append _ _ _ hp]
    exact ⟨rfl, rfl⟩

end Zwt
