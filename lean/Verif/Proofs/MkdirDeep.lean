import Verif.Proofs.Mkdir

/-! Creating more directories at once than the code has room for. -/

namespace Zwt

/-- One round of the first loop. -/
theorem mkCut_step (os : Os) (mode : Nat) (p : Bytes) (m : Bytes) (ms ns : List Bytes) (f : Nat) (w : World)
    (hp : 0 ∉ p) (hm : PlainName m) (hms : ∀ x ∈ ms, PlainName x) :
    mkCut os mode (f + 1) (cutIdx (extendPath p (ms ++ [m])) ns) (extendPath p (ms ++ [m]) ++ cutTail ns) w =
      match osCreate os w (extendPath p ms) mode with
      | (r, w) =>
        if r = -1 then (-1, w)
        else if r = 0 ∨ r = 1 then
          if ns.length + 1 < 62 then
            mkRestore os mode (cutIdx (extendPath p ms) (m :: ns)) (extendPath p ms ++ cutTail (m :: ns)) w
          else (-1, w)
        else mkCut os mode f (cutIdx (extendPath p ms) (m :: ns)) (extendPath p ms ++ cutTail (m :: ns)) w := by
  have h0p : 0 ∉ extendPath p ms := extendPath_zero _ _ hp hms
  have hpath := extendPath_snoc p ms m
  have h0' : 0 ∉ extendPath p ms ++ 47 :: m := by
    simp only [List.mem_append, List.mem_cons, not_or]
    exact ⟨h0p, by decide, hm.2.2.2.2⟩
  have hdel : fileDelimiter (cString (extendPath p (ms ++ [m]) ++ cutTail ns)) =
      some (extendPath p ms).length := by
    rw [hpath, cString_cut _ _ h0', fileDelimiter, lastIndexOf_append _ _ _ hm.2.2.2.1]
  have hmem : (extendPath p (ms ++ [m]) ++ cutTail ns).set (extendPath p ms).length 0 =
      extendPath p ms ++ cutTail (m :: ns) := by
    rw [hpath]
    simp only [cutTail, List.cons_append]
    rw [List.append_assoc _ (47 :: m), List.cons_append, set_at]
  have hidx : cutIdx (extendPath p ms) (m :: ns) =
      (extendPath p ms).length :: cutIdx (extendPath p (ms ++ [m])) ns := by
    rw [cutIdx, hpath]
  rw [mkCut, hdel]
  simp only [hmem]
  rw [cString_cut _ _ h0p, hidx]
  simp only [List.length_cons, cutIdx_length]

/-- `mkdir` below a missing directory. -/
theorem create_below (os : Os) (hq : os.quiet) (mode : Nat) (w : World) (pre : Bytes) (d : Loc) (n : Bytes)
    (hn : PlainName n) (hf : Front os w.fs w.cwd pre d) (ho : OpenDir os w.fs d) (ha : w.fs (d ++ [n]) = none)
    (x : Bytes) (xs : List Bytes) (hx : PlainName x) :
    osCreate os w (extendPath (pre ++ n) (x :: xs)) mode = (2, w.tick) := by
  have e : extendPath (pre ++ n) (x :: xs) = pre ++ n ++ 47 :: joinNames (x :: xs) := by
    have := joinNames_cons x xs (pre ++ n ++ [47])
    rw [extendPath_cons]
    simpa using this.symm
  rw [e]
  refine mkdir_below os hq w pre d n _ mode hf ho.searchable hn ?_ ha
  cases xs with
  | nil => simp [joinNames, splitPath_plain x hx.2.2.2.1, hx.1]
  | cons y ys =>
    rw [joinNames, splitPath_append, splitPath_plain x hx.2.2.2.1]
    · simp [hx.1]
    · simp

/-- What is left behind. -/
def deepLeft (fs : FS) (l : Loc) (mode count : Nat) : FS :=
  if count = 62 then fs.put l (.dir mode) else fs

theorem mkCut_deep (os : Os) (hq : os.quiet) (mode : Nat) (pre : Bytes) (d : Loc) (n : Bytes)
    (hn : PlainName n) (f : Nat) :
    ∀ (w : World) (ms ns : List Bytes), ms ≠ [] → ns.length + f = 62 → 62 ≤ (ms ++ ns).length →
    Front os w.fs w.cwd pre d → OpenDir os w.fs d → (∀ x ∈ ms, PlainName x) →
    w.fs (d ++ [n]) = none →
    ∃ w', mkCut os mode f (cutIdx (extendPath (pre ++ n) ms) ns)
        (extendPath (pre ++ n) ms ++ cutTail ns) w = (-1, w') ∧
      w'.fs = deepLeft w.fs (d ++ [n]) (dirMode os mode) (ms ++ ns).length ∧ w'.cwd = w.cwd := by
  induction f with
  | zero =>
    intro w ms ns hms hf hlen _ _ _ _
    refine ⟨w, rfl, ?_, rfl⟩
    have : 0 < ms.length := by cases ms with
      | nil => exact absurd rfl hms
      | cons => simp
    rw [deepLeft, if_neg (by rw [List.length_append]; omega)]
  | succ f ih =>
    intro w ms ns hne hfu hlen hf ho hpl ha
    obtain ⟨ms', m, rfl⟩ : ∃ ms' m, ms = ms' ++ [m] := by
      rcases List.eq_nil_or_concat ms with h | ⟨a, b, h⟩
      · exact absurd h hne
      · exact ⟨a, b, by simpa using h⟩
    have h0 : 0 ∉ pre ++ n := by
      simp only [List.mem_append, not_or]; exact ⟨hf.1, hn.2.2.2.2⟩
    have hpl' : ∀ x ∈ ms', PlainName x := fun x hx => hpl x (by simp [hx])
    rw [mkCut_step os mode (pre ++ n) m ms' ns f w h0 (hpl m (by simp)) hpl']
    cases ms' with
    | nil =>
      have hnew := mkdir_new os hq w pre d n mode hf ho hn ha
      simp only [List.nil_append, List.singleton_append, List.length_cons] at hlen ⊢
      rw [show extendPath (pre ++ n) [] = pre ++ n from rfl, hnew]
      simp only
      rw [if_neg (by decide), if_pos (.inl trivial), if_neg (by omega), deepLeft, if_pos (by omega)]
      exact ⟨_, rfl, rfl, rfl⟩
    | cons x xs =>
      rw [create_below os hq mode w pre d n hn hf ho ha x xs (hpl' x (by simp))]
      simp only
      rw [if_neg (by decide), if_neg (by decide)]
      obtain ⟨w', g1, g2, g3⟩ := ih w.tick (x :: xs) (m :: ns) (by simp)
        (by rw [List.length_cons]; omega) (by simpa using hlen) hf ho hpl' ha
      exact ⟨w', g1, by rw [g2, List.append_assoc]; rfl, g3⟩

/-- Recursive creation of too many directories. -/
theorem mkdirRecurse_deep (os : Os) (hq : os.quiet) (mode : Nat) (w : World) (pre : Bytes) (d : Loc)
    (n : Bytes) (ns : List Bytes) (hf : Front os w.fs w.cwd pre d) (ho : OpenDir os w.fs d)
    (hn : ∀ x ∈ n :: ns, PlainName x) (ha : w.fs (d ++ [n]) = none) (hlen : 62 ≤ ns.length) :
    ∃ w', mkdirRecurse os mode (pre ++ joinNames (n :: ns)) w = (-1, w') ∧
      w'.fs = deepLeft w.fs (d ++ [n]) (dirMode os mode) ns.length ∧ w'.cwd = w.cwd := by
  have hpn := hn n List.mem_cons_self
  have hpl : ∀ x ∈ ns, PlainName x := fun x hx => hn x (List.mem_cons_of_mem _ hx)
  rw [mkdirRecurse, if_neg (by simp [hq.2.2]), mkdirRaw, joinNames_cons]
  cases ns with
  | nil => simp at hlen
  | cons x xs =>
    rw [create_below os hq mode w.tick pre d n hpn hf ho ha x xs (hpl x (by simp))]
    simp only
    rw [if_neg (by decide)]
    have := mkCut_deep os hq mode pre d n hpn 62 w.tick.tick (x :: xs) [] (by simp) rfl
      (by simpa using hlen) hf ho hpl ha
    simpa [cutTail, cutIdx, World.tick] using this

end Zwt
