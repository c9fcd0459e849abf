import Verif.Proofs.Mkdir

/-!
Recursive creation of directories given with a slash at the end.
-/
namespace Zwt

/-- `mkdir` of an existing directory given with a slash at the end. -/
theorem mkdir_slash (os : Os) (hq : os.quiet) (w : World) (pre : Bytes) (d : Loc) (n : Bytes)
    (mode m : Nat) (hf : Front os w.fs w.cwd pre d) (ho : OpenDir os w.fs d) (hn : PlainName n)
    (hd : w.fs (d ++ [n]) = some (.dir m)) (he : Enterable os m) :
    osCreate os w (pre ++ n ++ [47]) mode = (1, w.tick.tick) := by
  have hs : searchable os w.fs (d ++ [n]) = true := OpenDir.searchable ⟨m, hd, he⟩
  have hl : ∀ follow, locate os w follow (pre ++ n ++ [47]) = some (d ++ [n]) := by
    intro follow
    obtain ⟨_, b, cs, k, h1, h2⟩ := hf
    have hp := h2 n hn.1 hn.head
    have e : pre ++ n ++ [47] = (pre ++ n) ++ 47 :: [] := rfl
    rw [e, locate, if_neg (by simp), pathBase_append _ _ _ (by simp [hn.1]), splitPath_append,
      hp.1, hp.2, splitPath_plain n hn.2.2.2.1, List.append_assoc,
      h1.resolve follow _ (by simp), List.singleton_append, resolve_cons,
      if_neg (by simp [ho.searchable]), if_neg (by simp [hn.1, hn.2.1]), if_neg hn.2.2.1, hd]
    simp only [splitPath]
    rw [resolve_cons, if_neg (by simp [hs]), if_pos (.inl rfl), resolve_nil]
  have hl' : locate os w.tick true (pre ++ n ++ [47]) = some (d ++ [n]) := hl true
  have hd' : w.tick.fs (d ++ [n]) = some (.dir m) := hd
  simp only [osCreate, sysMkdir, hq.1, Bool.false_eq_true, if_false, hl false, hd, sysIsDir, hl', hd']

theorem cString_cut_nil (p : Bytes) (h : 0 ∉ p) : cString (p ++ [47]) = p ++ [47] :=
  cString_plain _ (by simp [h])

/-- Restoring the cut names creates them; restoring the slash fails. -/
theorem mkRestore_slash (os : Os) (hq : os.quiet) (mode : Nat) (he : Enterable os (dirMode os mode))
    (ns : List Bytes) : ∀ (w : World) (pre : Bytes) (d : Loc) (n : Bytes),
    Front os w.fs w.cwd pre d → OpenDir os w.fs d → PlainName n →
    w.fs (d ++ [n]) = some (.dir (dirMode os mode)) → (∀ n ∈ ns, PlainName n) →
    (∀ q, q ≠ [] → w.fs (d ++ [n] ++ q) = none) →
    ∃ w', mkRestore os mode (cutIdx (pre ++ n) (ns ++ [[]])) (pre ++ n ++ cutTail (ns ++ [[]])) w =
        (-1, w') ∧
      w'.fs = mkChain w.fs (d ++ [n]) (dirMode os mode) ns ∧ w'.cwd = w.cwd := by
  induction ns with
  | nil =>
    intro w pre d n hf ho hn hd _ _
    have h0 : 0 ∉ pre ++ n := by
      simp only [List.mem_append, not_or]; exact ⟨hf.1, hn.2.2.2.2⟩
    have hmem : (pre ++ n ++ cutTail [[]]).set (pre ++ n).length 47 = pre ++ n ++ [47] := by
      simp only [cutTail, List.cons_append]
      rw [set_at]; simp
    refine ⟨w.tick.tick, ?_, rfl, rfl⟩
    simp only [List.nil_append, cutIdx, mkRestore, hmem]
    rw [cString_cut_nil _ h0, mkdir_slash os hq w pre d n mode _ hf ho hn hd he]
    simp
  | cons x ns ih =>
    intro w pre d n hf ho hn hd hns ha
    have hpx := hns x List.mem_cons_self
    have h0 : 0 ∉ pre ++ n := by
      simp only [List.mem_append, not_or]; exact ⟨hf.1, hn.2.2.2.2⟩
    have hf2 : Front os w.fs w.cwd (pre ++ n ++ [47]) (d ++ [n]) := hf.extend ho.searchable hn hd
    have hnew := mkdir_new os hq w (pre ++ n ++ [47]) (d ++ [n]) x mode hf2 ⟨_, hd, he⟩ hpx
      (ha [x] (by simp))
    have hmem : (pre ++ n ++ cutTail (x :: ns ++ [[]])).set (pre ++ n).length 47 =
        (pre ++ n ++ [47] ++ x) ++ cutTail (ns ++ [[]]) := by
      simp only [cutTail, List.cons_append]
      rw [set_at]; simp
    have hp' : 0 ∉ pre ++ n ++ [47] ++ x := by
      simp only [List.mem_append, List.mem_singleton, not_or]
      exact ⟨⟨⟨hf.1, hn.2.2.2.2⟩, by decide⟩, hpx.2.2.2.2⟩
    have hcs : cString ((pre ++ n ++ cutTail (x :: ns ++ [[]])).set (pre ++ n).length 47) =
        pre ++ n ++ [47] ++ x := by
      rw [hmem, cString_cut _ _ hp']
    let w1 := (w.put (d ++ [n] ++ [x]) (.dir (dirMode os mode))).tick
    have hk : Keeps w.fs w1.fs := Keeps.put (ha [x] (by simp)) _
    have hdir : w1.fs (d ++ [n] ++ [x]) = some (.dir (dirMode os mode)) := by
      simp [w1, World.tick, World.put, FS.put]
    have ho2 : OpenDir os w.fs (d ++ [n]) := ⟨_, hd, he⟩
    obtain ⟨w', g1, g2, g3⟩ := ih w1 (pre ++ n ++ [47]) (d ++ [n]) x (hf2.mono hk)
      (ho2.mono hk) hpx hdir
      (fun m hm => hns m (List.mem_cons_of_mem _ hm)) (by
        intro q hq'
        have : d ++ [n] ++ [x] ++ q ≠ d ++ [n] ++ [x] := by
          rw [ne_eq, List.append_right_eq_self]; exact hq'
        simp only [w1, World.tick, World.put, FS.put, if_neg this]
        rw [List.append_assoc]; exact ha _ (by simp))
    refine ⟨w', ?_, g2, g3⟩
    have hidx : cutIdx (pre ++ n) (x :: ns ++ [[]]) =
        (pre ++ n).length :: cutIdx (pre ++ n ++ [47] ++ x) (ns ++ [[]]) := by
      rw [List.cons_append, cutIdx]; simp
    rw [hidx]
    simp only [mkRestore, hcs, hnew]
    rw [if_neg (by simp), hmem]
    exact g1

/-- Cutting names off (after the slash at the end) until the topmost missing one is reached. -/
theorem mkCut_slash (os : Os) (hq : os.quiet) (mode : Nat) (he : Enterable os (dirMode os mode))
    (pre : Bytes) (d : Loc) (n : Bytes) (hn : PlainName n) (k : Nat) :
    ∀ (w : World) (ms ns : List Bytes), ms.length = k + 1 → (ms ++ ns).length ≤ 60 →
    Front os w.fs w.cwd pre d → OpenDir os w.fs d → (∀ x ∈ ms ++ ns, PlainName x) →
    Absent w.fs (d ++ [n]) →
    ∃ w', mkCut os mode (61 - ns.length) (cutIdx (extendPath (pre ++ n) ms) (ns ++ [[]]))
        (extendPath (pre ++ n) ms ++ cutTail (ns ++ [[]])) w = (-1, w') ∧
      w'.fs = mkChain w.fs d (dirMode os mode) (n :: (ms ++ ns)) ∧ w'.cwd = w.cwd := by
  induction k with
  | zero =>
    intro w ms ns hk hlen hf ho hpl ha
    obtain ⟨m, rfl⟩ : ∃ m, ms = [m] := by
      cases ms with
      | nil => simp at hk
      | cons a as =>
        cases as with
        | nil => exact ⟨a, rfl⟩
        | cons b bs => simp at hk
    have hpm := hpl m (by simp)
    have h0 : 0 ∉ pre ++ n := by
      simp only [List.mem_append, not_or]; exact ⟨hf.1, hn.2.2.2.2⟩
    have hpath : extendPath (pre ++ n) [m] = pre ++ n ++ 47 :: m := rfl
    have h0' : 0 ∉ pre ++ n ++ 47 :: m := by
      rw [← hpath]; exact extendPath_zero _ _ h0 (by simpa using hpm)
    have hdel : fileDelimiter (cString (extendPath (pre ++ n) [m] ++ cutTail (ns ++ [[]]))) =
        some (pre ++ n).length := by
      rw [hpath, cString_cut _ _ h0', fileDelimiter, lastIndexOf_append _ _ _ hpm.2.2.2.1]
    have hmem : (extendPath (pre ++ n) [m] ++ cutTail (ns ++ [[]])).set (pre ++ n).length 0 =
        (pre ++ n) ++ cutTail (m :: (ns ++ [[]])) := by
      rw [hpath]
      simp only [cutTail, List.cons_append]
      rw [List.append_assoc (pre ++ n) (47 :: m), List.cons_append, set_at]
    have hnew := mkdir_new os hq w pre d n mode hf ho hn (by simpa using ha [])
    let w1 := (w.put (d ++ [n]) (.dir (dirMode os mode))).tick
    have hkp : Keeps w.fs w1.fs := Keeps.put (by simpa using ha []) _
    have hdir : w1.fs (d ++ [n]) = some (.dir (dirMode os mode)) := by
      simp [w1, World.tick, World.put, FS.put]
    obtain ⟨w', g1, g2, g3⟩ := mkRestore_slash os hq mode he (m :: ns) w1 pre d n
      (hf.mono hkp) (ho.mono hkp) hn hdir
      (by simpa using hpl) (by
        intro q hq'
        have : d ++ [n] ++ q ≠ d ++ [n] := by simp [hq']
        simp only [w1, World.tick, World.put, FS.put, if_neg this]
        exact ha q)
    refine ⟨w', ?_, g2, g3⟩
    simp only [List.singleton_append, List.length_cons] at hlen
    obtain ⟨f, hfu⟩ : ∃ f, 61 - ns.length = f + 1 := ⟨60 - ns.length, by omega⟩
    rw [hfu, mkCut, hdel]
    simp only [hmem]
    rw [cString_cut _ _ h0, hnew]
    simp only
    rw [if_neg (by decide), if_pos (.inl trivial), if_pos (by
      rw [List.length_cons, cutIdx_length, List.length_append, List.length_singleton]; omega)]
    exact g1
  | succ k ih =>
    intro w ms ns hk hlen hf ho hpl ha
    obtain ⟨ms', m, rfl⟩ : ∃ ms' m, ms = ms' ++ [m] := by
      rcases List.eq_nil_or_concat ms with h | ⟨a, b, h⟩
      · rw [h] at hk; simp at hk
      · exact ⟨a, b, by simpa using h⟩
    have hpm := hpl m (by simp)
    have hms' : ∀ x ∈ ms', PlainName x := fun x hx => hpl x (by simp [hx])
    have h0 : 0 ∉ pre ++ n := by
      simp only [List.mem_append, not_or]; exact ⟨hf.1, hn.2.2.2.2⟩
    have h0p : 0 ∉ extendPath (pre ++ n) ms' := extendPath_zero _ _ h0 hms'
    have hpath := extendPath_snoc (pre ++ n) ms' m
    have h0' : 0 ∉ extendPath (pre ++ n) ms' ++ 47 :: m := by
      rw [← hpath]; exact extendPath_zero _ _ h0 (fun x hx => hpl x (by
        simp only [List.mem_append] at hx ⊢; exact .inl hx))
    have hdel : fileDelimiter (cString (extendPath (pre ++ n) (ms' ++ [m]) ++ cutTail (ns ++ [[]]))) =
        some (extendPath (pre ++ n) ms').length := by
      rw [hpath, cString_cut _ _ h0', fileDelimiter, lastIndexOf_append _ _ _ hpm.2.2.2.1]
    have hmem : (extendPath (pre ++ n) (ms' ++ [m]) ++ cutTail (ns ++ [[]])).set
        (extendPath (pre ++ n) ms').length 0 =
        extendPath (pre ++ n) ms' ++ cutTail (m :: (ns ++ [[]])) := by
      rw [hpath]
      simp only [cutTail, List.cons_append]
      rw [List.append_assoc _ (47 :: m), List.cons_append, set_at]
    -- `mkdir` fails: the parent is missing
    obtain ⟨x, xs, rfl⟩ : ∃ x xs, ms' = x :: xs := by
      cases ms' with
      | nil => simp at hk
      | cons x xs => exact ⟨x, xs, rfl⟩
    have hx := hms' x (by simp)
    have hbelow : osCreate os w (extendPath (pre ++ n) (x :: xs)) mode = (2, w.tick) := by
      have e : extendPath (pre ++ n) (x :: xs) = pre ++ n ++ 47 :: joinNames (x :: xs) := by
        have := joinNames_cons x xs (pre ++ n ++ [47])
        rw [extendPath_cons]
        simpa using this.symm
      rw [e]
      refine mkdir_below os hq w pre d n _ mode hf ho.searchable hn ?_ (by simpa using ha [])
      cases xs with
      | nil => simp [joinNames, splitPath_plain x hx.2.2.2.1, hx.1]
      | cons y ys =>
        rw [joinNames, splitPath_append, splitPath_plain x hx.2.2.2.1]
        · simp [hx.1]
        · simp
    obtain ⟨w', g1, g2, g3⟩ := ih w.tick (x :: xs) (m :: ns) (by simp at hk ⊢; omega)
      (by simpa using hlen) hf ho (by simpa using hpl) ha
    refine ⟨w', ?_, by rw [List.append_assoc]; exact g2, g3⟩
    simp only [List.length_append, List.length_cons, List.length_nil] at hlen hk
    obtain ⟨f, hfu⟩ : ∃ f, 61 - ns.length = f + 1 := ⟨60 - ns.length, by omega⟩
    have hfu2 : 61 - (m :: ns).length = f := by simp only [List.length_cons]; omega
    rw [hfu2] at g1
    have hidx : cutIdx (extendPath (pre ++ n) (x :: xs)) (m :: ns ++ [[]]) =
        (extendPath (pre ++ n) (x :: xs)).length ::
          cutIdx (extendPath (pre ++ n) (x :: xs ++ [m])) (ns ++ [[]]) := by
      rw [List.cons_append, cutIdx, hpath]
    rw [hidx] at g1
    rw [hfu, mkCut, hdel]
    simp only [hmem]
    rw [cString_cut _ _ h0p, hbelow]
    simp only
    rw [if_neg (by decide), if_neg (by decide)]
    exact g1

/-- Recursive creation of two or more missing directories given with a slash at the end. -/
theorem mkdirRecurse_slash (os : Os) (hq : os.quiet) (mode : Nat) (w : World) (pre : Bytes) (d : Loc)
    (n x : Bytes) (xs : List Bytes) (hf : Front os w.fs w.cwd pre d) (ho : OpenDir os w.fs d)
    (hn : ∀ y ∈ n :: x :: xs, PlainName y) (ha : Absent w.fs (d ++ [n]))
    (he : Enterable os (dirMode os mode)) (hlen : xs.length ≤ 59) :
    ∃ w', mkdirRecurse os mode (pre ++ joinNames (n :: x :: xs) ++ [47]) w = (-1, w') ∧
      w'.fs = mkChain w.fs d (dirMode os mode) (n :: x :: xs) ∧ w'.cwd = w.cwd := by
  have hpn := hn n List.mem_cons_self
  have hpl : ∀ y ∈ x :: xs, PlainName y := fun y hy => hn y (List.mem_cons_of_mem _ hy)
  have hx := hpl x List.mem_cons_self
  have ha0 : w.fs (d ++ [n]) = none := by simpa using ha []
  have e : extendPath (pre ++ n) (x :: xs) = pre ++ n ++ 47 :: joinNames (x :: xs) := by
    have := joinNames_cons x xs (pre ++ n ++ [47])
    rw [extendPath_cons]
    simpa using this.symm
  have h0 : 0 ∉ pre ++ n := by
    simp only [List.mem_append, not_or]; exact ⟨hf.1, hpn.2.2.2.2⟩
  have h0p : 0 ∉ extendPath (pre ++ n) (x :: xs) := extendPath_zero _ _ h0 hpl
  have hne : ¬ (splitPath (joinNames (x :: xs))).all (· = []) = true := by
    cases xs with
    | nil => simp [joinNames, splitPath_plain x hx.2.2.2.1, hx.1]
    | cons y ys =>
      rw [joinNames, splitPath_append, splitPath_plain x hx.2.2.2.1]
      · simp [hx.1]
      · simp
  have hb2 : osCreate os w.tick.tick (extendPath (pre ++ n) (x :: xs)) mode =
      (2, w.tick.tick.tick) := by
    rw [e]; exact mkdir_below os hq w.tick.tick pre d n _ mode hf ho.searchable hpn hne ha0
  have hb1 : osCreate os w.tick (extendPath (pre ++ n) (x :: xs) ++ [47]) mode =
      (2, w.tick.tick) := by
    rw [e, List.append_assoc, List.cons_append]
    refine mkdir_below os hq w.tick pre d n _ mode hf ho.searchable hpn ?_ ha0
    rw [show joinNames (x :: xs) ++ [47] = joinNames (x :: xs) ++ 47 :: [] from rfl,
      splitPath_append, List.all_append]
    simp only [Bool.and_eq_true, not_and]
    exact fun h => absurd h hne
  rw [mkdirRecurse, if_neg (by simp [hq.2.2]), mkdirRaw, joinNames_cons, hb1]
  simp only
  rw [if_neg (by decide)]
  have hdel : fileDelimiter (cString (extendPath (pre ++ n) (x :: xs) ++ [47])) =
      some (extendPath (pre ++ n) (x :: xs)).length := by
    rw [cString_cut_nil _ h0p, fileDelimiter,
      show extendPath (pre ++ n) (x :: xs) ++ [47] = extendPath (pre ++ n) (x :: xs) ++ 47 :: []
        from rfl, lastIndexOf_append _ _ _ (by simp)]
  have hmem : (extendPath (pre ++ n) (x :: xs) ++ [47]).set
      (extendPath (pre ++ n) (x :: xs)).length 0 =
      extendPath (pre ++ n) (x :: xs) ++ cutTail [[]] := by
    rw [show extendPath (pre ++ n) (x :: xs) ++ [47] = extendPath (pre ++ n) (x :: xs) ++ 47 :: []
        from rfl, set_at]; rfl
  obtain ⟨w', g1, g2, g3⟩ := mkCut_slash os hq mode he pre d n hpn xs.length w.tick.tick.tick
    (x :: xs) [] rfl (by simp only [List.append_nil, List.length_cons]; omega) hf ho
    (by simpa using hpl) ha
  refine ⟨w', ?_, by simpa [World.tick] using g2, g3⟩
  rw [mkCut, hdel]
  simp only [hmem]
  rw [cString_cut _ _ h0p, hb2]
  simp only
  rw [if_neg (by decide), if_neg (by decide)]
  exact g1

end Zwt
