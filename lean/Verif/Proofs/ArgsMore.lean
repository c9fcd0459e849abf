import Verif.Proofs.Args

/-! When `ParseCommandLine` returns, and when it runs into the null pointer. -/

namespace Zwt

/-- The inner loop does not pass a name. -/
theorem skipLoop_stops {p : Parser} {a : Argv} {j : Nat} {x : Bytes} (hj : a[j]? = some (some x))
    (hx : p.find x ≠ none) (n i : Nat) (hij : i ≤ j)
    (hin : ∀ k, i ≤ k → k < j → ∃ s, a[k]? = some (some s)) :
    ∃ i', skipLoop p a n i = .ok i' ∧ i ≤ i' ∧ i' ≤ j := by
  induction n generalizing i with
  | zero => exact ⟨i, rfl, Nat.le_refl _, hij⟩
  | succ n ih =>
    obtain ⟨s, hs⟩ : ∃ s, a[i]? = some (some s) := by
      by_cases h : i = j
      · exact ⟨x, by rw [h]; exact hj⟩
      · exact hin i (Nat.le_refl _) (by omega)
    have hat : argAt a i = .ok s := by unfold argAt; rw [hs]
    unfold skipLoop
    rw [hat]
    dsimp only
    by_cases hf : p.find s = none
    · rw [if_pos hf]
      have hne : i ≠ j := by
        rintro rfl
        rw [hj] at hs
        cases hs
        exact hx hf
      obtain ⟨i', h1, h2, h3⟩ := ih (i + 1) (by omega) (fun k hk1 hk2 => hin k (by omega) hk2)
      exact ⟨i', h1, by omega, h3⟩
    · rw [if_neg hf]
      exact ih i hij hin

/-- A name comes, unless there is nothing left. -/
theorem endsInName_next {tbl : Bytes → Option (Nat × ArgType)} {hits : List Hit}
    {rest : List Bytes} (h : endsInName tbl hits rest = true) (hne : rest ≠ []) :
    ∃ u x v, rest = u ++ x :: v ∧ (∀ s ∈ u, tbl s = none) ∧ (tbl x).isSome = true := by
  induction rest with
  | nil => exact absurd rfl hne
  | cons a r ih =>
    cases ht : tbl a with
    | some kt => exact ⟨[], a, r, rfl, by simp, by rw [ht]; rfl⟩
    | none =>
      cases r with
      | nil => simp [endsInName, ht] at h
      | cons v r =>
        simp only [endsInName, ht] at h
        obtain ⟨u, x, w, hu, h1, h2⟩ := ih h (by simp)
        refine ⟨a :: u, x, w, by rw [hu]; rfl, ?_, h2⟩
        intro s hs
        rcases List.mem_cons.1 hs with rfl | hs
        · exact ht
        · exact h1 s hs

theorem endsInName_skip {tbl : Bytes → Option (Nat × ArgType)} {hits : List Hit}
    {u v : List Bytes} (hu : ∀ s ∈ u, tbl s = none) (hv : v ≠ [])
    (h : endsInName tbl hits (u ++ v) = true) : endsInName tbl hits v = true := by
  induction u with
  | nil => exact h
  | cons a u ih =>
    have ha := hu a (by simp)
    refine ih (fun s hs => hu s (by simp [hs])) ?_
    cases huv : u ++ v with
    | nil => simp_all
    | cons w r =>
      rw [List.cons_append, huv] at h
      simpa [endsInName, ha] using h

theorem Rel.obj {p q : Parser} {hits : List Hit} (h : Rel p hits q) (hs : p.sane) {n : Bytes}
    {k : Nat} (hk : p.find n = some k) : ∃ o o0, q.obj k = .ok o ∧ p.heap[k]? = some o0 ∧
      o = OptObj.after k hits o0 := by
  obtain ⟨o0, ho0, ha⟩ := hs n k hk
  refine ⟨OptObj.after k hits o0, o0, ?_, ho0, rfl⟩
  have := h.heap k
  rw [ho0, Option.map_some] at this
  unfold Parser.obj
  rw [this]
  dsimp only
  have hal : (OptObj.after k hits o0).alive = true := by
    unfold OptObj.after
    split <;> exact ha
  rw [if_pos hal]

/-- An option can always be taken, and the rest still ends in a name. -/
theorem takeOption_total {p q : Parser} {hits : List Hit} {kept rest : List Bytes} {a : Bytes}
    {stale : Argv} {k : Nat} (hrel : Rel p hits q) (hp : p.unused) (hs : p.sane)
    (hst : StaleOk (a :: rest) stale)
    (hk : p.find a = some k) (he : endsInName p.table hits (a :: rest) = true) :
    ∃ q' kept' rest' stale' hits',
      takeOption q k (mem kept (a :: rest) stale) (kept.length + (a :: rest).length) kept.length =
        .ok (q', mem kept' rest' stale', kept'.length + rest'.length, kept'.length) ∧
      StaleOk rest' stale' ∧ Rel p hits' q' ∧ rest'.length < (a :: rest).length ∧
      endsInName p.table hits' rest' = true := by
  obtain ⟨o, o0, hob, ho0, hoo⟩ := hrel.obj hs hk
  have htbl : p.table a = some (k, o0.kind) := by
    unfold Parser.table
    rw [hk, Option.bind_some, ho0, Option.map_some]
  have hf0 : o0.found = false := hp o0 (List.mem_of_getElem? ho0)
  -- it returns
  have hret : ∃ res, takeOption q k (mem kept (a :: rest) stale)
      (kept.length + (a :: rest).length) kept.length = .ok res := by
    unfold takeOption
    rw [hob]
    dsimp only
    split
    · exact ⟨_, rfl⟩
    · split
      · rename_i hlt
        cases rest with
        | nil => simp at hlt
        | cons v r =>
          have h1 : kept.length + (a :: v :: r).length - 1 - kept.length = (v :: r).length := by simp
          have h2 : kept.length + (a :: v :: r).length - 1 = kept.length + (v :: r).length := by simp
          rw [h1, h2, mem_shift]
          have hr : ∀ o K st, ∃ res, takeRight q k o (mem K (v :: r) st)
              (K.length + (v :: r).length) K.length = .ok res := by
            intro o K st
            rw [takeRight_eq]
            split <;> exact ⟨_, rfl⟩
          split
          · exact hr _ _ _
          · obtain ⟨st', _, heq⟩ := takeBoth_eq q k { o with found := true } kept r v
              (some ((a :: v :: r).getLast (by simp))) stale
            rw [heq]
            exact hr _ _ _
          · exact ⟨_, rfl⟩
      · exact ⟨_, rfl⟩
  obtain ⟨res, hres⟩ := hret
  obtain ⟨kept', rest', stale', hits', e1, e2, e3, e4, e5, e6⟩ :=
    takeOption_spec hrel hp hst hk hres
  obtain ⟨q', r2⟩ := res
  cases e1
  exact ⟨q', kept', rest', stale', hits', hres, e2, e3, e5, e6 he⟩

/-- The loop returns if the arguments end in a name. -/
theorem parseLoop_total {p : Parser} (hp : p.unused) (hs : p.sane) (fuel : Nat) {q : Parser}
    {hits : List Hit} {kept rest : List Bytes} {stale : Argv} (hrel : Rel p hits q)
    (hst : StaleOk rest stale) (he : endsInName p.table hits rest = true)
    (hfuel : rest.length < fuel) :
    ∃ r, parseLoop fuel q (mem kept rest stale) (kept.length + rest.length) kept.length = .ok r := by
  induction fuel generalizing q hits kept rest stale with
  | zero => omega
  | succ fuel ih =>
    cases hr : rest with
    | nil => exact ⟨(q, mem kept [] stale, kept.length + 0), by
        unfold parseLoop; rw [if_neg (by simp)]; rfl⟩
    | cons a r =>
      obtain ⟨u, x, v, huv, hu, hx⟩ := endsInName_next he (by rw [hr]; simp)
      have hxf : p.find x ≠ none := by
        intro h
        rw [table_none h] at hx
        cases hx
      have hx' : q.find x ≠ none := by rw [hrel.find]; exact hxf
      unfold parseLoop
      rw [if_pos (by simp), mem_at]
      dsimp only
      rw [← hr]
      obtain ⟨i, hi, hi1, hi2⟩ := skipLoop_stops (a := mem kept rest stale)
        (j := kept.length + u.length) (x := x) (p := q)
        (by rw [mem_get_rest _ _ _ _ (by rw [huv]; simp)]; simp [huv]) hx' a.length kept.length
        (by omega)
        (by
          intro k h1 h2
          refine ⟨rest[k - kept.length]'(by rw [huv]; simp; omega), ?_⟩
          have := mem_get_rest kept rest stale (k - kept.length) (by rw [huv]; simp; omega)
          rw [show kept.length + (k - kept.length) = k by omega] at this
          exact this)
      rw [hi]
      dsimp only
      obtain ⟨d, rfl⟩ : ∃ d, i = kept.length + d := ⟨i - kept.length, by omega⟩
      have hd : d ≤ u.length := by omega
      -- cut where the loop stopped
      have hcut : rest = u.take d ++ (u.drop d ++ x :: v) := by
        rw [← List.append_assoc, List.take_append_drop]; exact huv
      obtain ⟨y, w, hyw⟩ : ∃ y w, u.drop d ++ x :: v = y :: w := by
        cases h : u.drop d ++ x :: v with
        | nil => simp at h
        | cons y w => exact ⟨y, w, rfl⟩
      have hul : (u.take d).length = d := by rw [List.length_take]; omega
      have hnk : ∀ s ∈ u.take d, p.table s = none := fun s hs => hu s (List.mem_of_mem_take hs)
      rw [hcut, hyw] at he
      have he' := endsInName_skip hnk (by simp) he
      have hst' : StaleOk (y :: w) stale := by
        intro z hz hne
        have h0 : rest ≠ [] := by rw [hr]; simp
        rw [hst z hz h0]
        have h1 : rest.getLast? = (y :: w).getLast? := by
          rw [hcut, hyw, List.getLast?_append, List.getLast?_eq_some_getLast hne]; rfl
        rw [List.getLast?_eq_some_getLast h0, List.getLast?_eq_some_getLast hne] at h1
        exact h1
      have hlen : rest.length = d + (y :: w).length := by
        rw [hcut, hyw, List.length_append, hul]
      have hm : mem kept rest stale = mem (kept ++ u.take d) (y :: w) stale := by
        conv => lhs; rw [hcut, hyw, mem_split]
      have hk1 : kept.length + d = (kept ++ u.take d).length := by rw [List.length_append, hul]
      have hk2 : kept.length + rest.length = (kept ++ u.take d).length + (y :: w).length := by
        rw [List.length_append, hul]; omega
      rw [hm, hk2, hk1, mem_at]
      dsimp only
      cases hfy : q.find y with
      | none =>
        dsimp only
        have hty : p.table y = none := table_none (by rw [← hrel.find]; exact hfy)
        have hw : w ≠ [] := by
          rintro rfl
          simp [endsInName, hty] at he'
        have he2 : endsInName p.table hits w = true :=
          endsInName_skip (u := [y]) (by simpa using hty) hw he'
        have := ih (kept := kept ++ u.take d ++ [y]) hrel (rest := w) (stale := stale) (by
          intro z hz hne
          rw [hst' z hz (by simp), List.getLast_cons hne]) he2 (by
            have : w.length < (y :: w).length := by simp
            omega)
        obtain ⟨r', hr'⟩ := this
        refine ⟨r', ?_⟩
        rw [show y :: w = [y] ++ w from rfl, mem_split]
        have e1 : (kept ++ u.take d).length + ([y] ++ w).length =
            (kept ++ u.take d ++ [y]).length + w.length := by simp; omega
        have e2 : (kept ++ u.take d).length + 1 = (kept ++ u.take d ++ [y]).length := by
          simp [Nat.add_assoc]
        rw [e1, e2]
        exact hr'
      | some k =>
        dsimp only
        obtain ⟨q', kept', rest', stale', hits', e1, e2, e3, e4, e5⟩ :=
          takeOption_total (kept := kept ++ u.take d) hrel hp hs hst'
            (by rw [← hrel.find]; exact hfy) he'
        rw [e1]
        dsimp only
        exact ih e3 e2 e5 (by omega)

/-- A run of arguments that are not names. -/
theorem skipLoop_run {p : Parser} {a : Argv} (n i : Nat)
    (h : ∀ j, i ≤ j → j < i + n → ∃ s, a[j]? = some (some s) ∧ p.find s = none) :
    skipLoop p a n i = .ok (i + n) := by
  induction n generalizing i with
  | zero => rfl
  | succ n ih =>
    obtain ⟨s, hs, hf⟩ := h i (Nat.le_refl _) (by omega)
    unfold skipLoop
    have hat : argAt a i = .ok s := by unfold argAt; rw [hs]
    rw [hat]
    dsimp only
    rw [if_pos hf, ih (i + 1) (fun j h1 h2 => h j (by omega) (by omega))]
    congr 1
    omega

/-- The inner loop runs into the null pointer. -/
theorem skipLoop_null {p : Parser} {a : Argv} (m n i : Nat) (hn : m < n)
    (h : ∀ j, i ≤ j → j < i + m → ∃ s, a[j]? = some (some s) ∧ p.find s = none)
    (hend : a[i + m]? = some none) : skipLoop p a n i = .error .nullDeref := by
  induction m generalizing n i with
  | zero =>
    cases n with
    | zero => omega
    | succ n =>
      unfold skipLoop
      have hat : argAt a i = .error .nullDeref := by
        unfold argAt
        rw [Nat.add_zero] at hend
        rw [hend]
      rw [hat]
  | succ m ih =>
    cases n with
    | zero => omega
    | succ n =>
      obtain ⟨s, hs, hf⟩ := h i (Nat.le_refl _) (by omega)
      have hat : argAt a i = .ok s := by unfold argAt; rw [hs]
      unfold skipLoop
      rw [hat]
      dsimp only
      rw [if_pos hf]
      refine ih n (i + 1) (by omega) (fun j h1 h2 => h j (by omega) (by omega)) ?_
      rw [show i + 1 + m = i + (m + 1) by omega]
      exact hend

/-- A command line without names whose first argument has at least as many characters as there
are arguments. -/
theorem parse_null {p : Parser} (a : Bytes) (rest : List Bytes) (h : ∀ s ∈ a :: rest, p.find s = none)
    (hlen : (a :: rest).length ≤ a.length) : p.parse (a :: rest) = .error .nullDeref := by
  have hm : (a :: rest).map some ++ [none] = mem [] (a :: rest) [] := by simp [mem]
  have hrun : ∀ j, 0 ≤ j → j < 0 + (a :: rest).length →
      ∃ s, (mem [] (a :: rest) [])[j]? = some (some s) ∧ p.find s = none := by
    intro j _ hj
    rw [Nat.zero_add] at hj
    have := mem_get_rest [] (a :: rest) [] j hj
    rw [List.length_nil, Nat.zero_add] at this
    exact ⟨_, this, h _ (List.getElem_mem hj)⟩
  have hnull : (mem [] (a :: rest) [])[0 + (a :: rest).length]? = some none := by
    simp [mem]
  unfold Parser.parse
  rw [hm]
  unfold parseLoop
  rw [if_pos (by simp), show argAt (mem [] (a :: rest) []) 0 = .ok a from mem_at [] rest [] a]
  dsimp only
  rcases Nat.lt_or_ge (a :: rest).length a.length with hlt | hge
  · rw [skipLoop_null _ _ 0 hlt hrun hnull]
  · have he : a.length = (a :: rest).length := by omega
    rw [he, skipLoop_run _ 0 hrun]
    dsimp only
    have : argAt (mem [] (a :: rest) []) (0 + (a :: rest).length) = .error .nullDeref := by
      unfold argAt
      rw [hnull]
    rw [this]

end Zwt
