import Verif.Spec.Args

/-! `ParseCommandLine` follows `readArgs` whenever it returns. -/

namespace Zwt

theorem shiftDown_eq (A B T Y : Argv) (x y : Option Bytes) (h : x :: B = Y ++ [y]) :
    shiftDown (A ++ x :: (B ++ T)) A.length B.length = A ++ B ++ y :: T := by
  have h1 : (A ++ x :: (B ++ T)).take A.length = A := by simp
  have h2 : ((A ++ x :: (B ++ T)).drop (A.length + 1)).take B.length = B := by
    have : A ++ x :: (B ++ T) = (A ++ [x]) ++ (B ++ T) := by simp
    rw [this, show A.length + 1 = (A ++ [x]).length by simp, List.drop_left]
    simp
  have h3 : (A ++ x :: (B ++ T)).drop (A.length + B.length) = y :: T := by
    have h0 : A ++ x :: (B ++ T) = (A ++ Y) ++ y :: T := by
      have : x :: (B ++ T) = (x :: B) ++ T := rfl
      rw [this, h]
      simp
    have hl : (A ++ Y).length = A.length + B.length := by
      have := congrArg List.length h
      simp at this ⊢
      omega
    rw [h0, ← hl, List.drop_left]
  unfold shiftDown
  rw [h1, h2, h3]

theorem skipLoop_spec {p : Parser} {a : Argv} {n i i' : Nat} (h : skipLoop p a n i = .ok i') :
    i ≤ i' ∧ ∀ j, i ≤ j → j < i' → ∃ s, a[j]? = some (some s) ∧ p.find s = none := by
  induction n generalizing i with
  | zero => cases h; exact ⟨Nat.le_refl _, fun j h1 h2 => by omega⟩
  | succ n ih =>
    unfold skipLoop at h
    cases ha : argAt a i with
    | error e => rw [ha] at h; cases h
    | ok s =>
      rw [ha] at h
      dsimp only at h
      by_cases hs : p.find s = none
      · rw [if_pos hs] at h
        obtain ⟨h1, h2⟩ := ih h
        refine ⟨by omega, fun j hj1 hj2 => ?_⟩
        by_cases hj : j = i
        · subst hj
          refine ⟨s, ?_, hs⟩
          unfold argAt at ha
          split at ha <;> first | cases ha | skip
          rename_i h
          exact h
        · exact h2 j (by omega) hj2
      · rw [if_neg hs] at h
        exact ih h

/-- The parser after the options `hits`. -/
structure Rel (p : Parser) (hits : List Hit) (q : Parser) : Prop where
  map : q.map = p.map
  help : q.help = p.help ∧ q.maxHelp = p.maxHelp
  heap : ∀ k, q.heap[k]? = p.heap[k]?.map (OptObj.after k hits)

theorem Rel.find {p q : Parser} {hits : List Hit} (h : Rel p hits q) (n : Bytes) :
    q.find n = p.find n := by unfold Parser.find; rw [h.map]

theorem readArgs_skip (tbl : Bytes → Option (Nat × ArgType)) (kept : List Bytes) (hits : List Hit)
    (u v : List Bytes) (hu : ∀ s ∈ u, tbl s = none) :
    readArgs tbl kept hits (u ++ v) = readArgs tbl (kept ++ u) hits v := by
  induction u generalizing kept with
  | nil => simp
  | cons s u ih =>
    have hs := hu s (by simp)
    have ih := ih (kept ++ [s]) (fun x hx => hu x (by simp [hx]))
    rw [List.append_assoc] at ih
    show readArgs tbl kept hits (s :: (u ++ v)) = _
    cases huv : u ++ v with
    | nil =>
      have : u = [] ∧ v = [] := by simpa using huv
      obtain ⟨rfl, rfl⟩ := this
      simp [readArgs, hs]
    | cons w r =>
      rw [huv] at ih
      simp only [readArgs, hs]
      simpa using ih

theorem after_hit {k : Nat} {hits : List Hit} (hno : hits.any (·.obj == k) = false) (o : OptObj)
    (l r : Option Bytes) :
    OptObj.after k (hits ++ [⟨k, l, r⟩]) o =
      { o with found := true, right := r.getD o.right, left := l.getD o.left } := by
  have : hits.find? (·.obj == k) = none := by
    rw [List.find?_eq_none]
    intro h hh
    have := List.any_eq_false.1 hno h hh
    simpa using this
  simp [OptObj.after, List.find?_append, this]

theorem after_other {k j : Nat} (hj : j ≠ k) (hits : List Hit) (o : OptObj) (l r : Option Bytes) :
    OptObj.after j (hits ++ [⟨k, l, r⟩]) o = OptObj.after j hits o := by
  have hne : (k == j) = false := by simp; omega
  simp only [OptObj.after, List.find?_append, List.find?_cons, hne, List.find?_nil, Option.or_none]

theorem after_none {k : Nat} {hits : List Hit} (hno : hits.any (·.obj == k) = false) (o : OptObj) :
    OptObj.after k hits o = o := by
  have : hits.find? (·.obj == k) = none := by
    rw [List.find?_eq_none]
    intro h hh
    have := List.any_eq_false.1 hno h hh
    simpa using this
  simp [OptObj.after, this]

theorem after_found {k : Nat} {hits : List Hit} (hh : hits.any (·.obj == k) = true) (o : OptObj) :
    (OptObj.after k hits o).found = true := by
  unfold OptObj.after
  cases hf : hits.find? (·.obj == k) with
  | none =>
    rw [List.find?_eq_none] at hf
    obtain ⟨h, hm, he⟩ := List.any_eq_true.1 hh
    exact absurd he (by simpa using hf h hm)
  | some h => rfl

/-- Setting the object of a new hit. -/
theorem Rel.hit {p q : Parser} {hits : List Hit} {k : Nat} {o : OptObj} (h : Rel p hits q)
    (ho : p.heap[k]? = some o) (hno : hits.any (·.obj == k) = false) (l r : Option Bytes)
    (o' : OptObj)
    (ho' : o' = { o with found := true, right := r.getD o.right, left := l.getD o.left }) :
    Rel p (hits ++ [⟨k, l, r⟩]) { q with heap := q.heap.set k o' } := by
  refine ⟨h.map, h.help, fun j => ?_⟩
  by_cases hj : j = k
  · subst hj
    have hlen : j < q.heap.length := by
      have := h.heap j
      rw [ho] at this
      have hs : q.heap[j]? ≠ none := by rw [this]; simp
      rcases Nat.lt_or_ge j q.heap.length with h | h
      · exact h
      · exact absurd (List.getElem?_eq_none h) hs
    show (q.heap.set j o')[j]? = _
    rw [List.getElem?_set_self hlen, ho, Option.map_some, after_hit hno, ho']
  · show (q.heap.set k o')[j]? = _
    rw [List.getElem?_set_ne (by omega), h.heap j]
    cases p.heap[j]? with
    | none => rfl
    | some x => rw [Option.map_some, Option.map_some, after_other hj]

/-- The memory of `argv`: what is kept, what is not read yet, stale pointers, the null pointer. -/
def mem (kept rest : List Bytes) (stale : Argv) : Argv :=
  (kept.map some ++ rest.map some) ++ (stale ++ [none])

/-- Stale pointers all point to the last argument. -/
def StaleOk (rest : List Bytes) (stale : Argv) : Prop :=
  ∀ x ∈ stale, ∀ h : rest ≠ [], x = some (rest.getLast h)

theorem mem_at (kept rest : List Bytes) (stale : Argv) (v : Bytes) :
    argAt (mem kept (v :: rest) stale) kept.length = .ok v := by
  have : (mem kept (v :: rest) stale)[kept.length]? = some (some v) := by
    unfold mem
    rw [List.append_assoc, List.getElem?_append_right (by simp)]
    simp
  unfold argAt
  rw [this]

theorem mem_before (kept rest : List Bytes) (stale : Argv) (v : Bytes) :
    argAt (mem (kept ++ [v]) rest stale) kept.length = .ok v := by
  have : mem (kept ++ [v]) rest stale = mem kept (v :: rest) stale := by simp [mem]
  rw [this, mem_at]

/-- Removing the argument at the current place. -/
theorem mem_shift (kept rest : List Bytes) (stale : Argv) (a : Bytes) :
    shiftDown (mem kept (a :: rest) stale) kept.length rest.length =
      mem kept rest (some ((a :: rest).getLast (by simp)) :: stale) := by
  obtain ⟨Y, y, hY⟩ : ∃ Y y, a :: rest = Y ++ [y] := by
    rcases List.eq_nil_or_concat (a :: rest) with h | ⟨Y, y, h⟩
    · cases h
    · exact ⟨Y, y, by simpa using h⟩
  have hl : (a :: rest).getLast (by simp) = y := by
    have : (a :: rest).getLast? = some y := by rw [hY]; simp
    rw [List.getLast?_eq_some_getLast (by simp)] at this
    exact Option.some.inj this
  have h := shiftDown_eq (kept.map some) (rest.map some) (stale ++ [none]) (Y.map some) (some a)
    (some y) (by
      have := congrArg (List.map some) hY
      simpa using this)
  rw [List.length_map, List.length_map] at h
  unfold mem
  rw [hl]
  simpa using h

/-- Removing the argument in front of the current place. -/
theorem mem_shift_left (kept rest : List Bytes) (st : Argv) (v : Bytes) (s0 : Option Bytes) :
    shiftDown (mem (kept ++ [v]) rest (s0 :: st)) kept.length (rest.length + 1) =
      mem kept rest (s0 :: s0 :: st) := by
  have h := shiftDown_eq (kept.map some) (rest.map some ++ [s0]) (st ++ [none])
    (some v :: rest.map some) (some v) s0 rfl
  rw [List.length_map, List.length_append, List.length_map] at h
  unfold mem
  simpa using h

theorem takeRight_eq (q : Parser) (k : Nat) (o : OptObj) (kept r : List Bytes) (v : Bytes)
    (stale : Argv) :
    takeRight q k o (mem kept (v :: r) stale) (kept.length + (v :: r).length) kept.length =
      if dashed v then
        .ok ({ q with heap := q.heap.set k o }, mem kept (v :: r) stale,
          kept.length + (v :: r).length, kept.length)
      else
        .ok ({ q with heap := q.heap.set k { o with right := v } },
          mem kept r (some ((v :: r).getLast (by simp)) :: stale), kept.length + r.length,
          kept.length) := by
  unfold takeRight
  rw [mem_at]
  dsimp only
  split
  · rfl
  · rw [if_pos (by simp)]
    have h1 : kept.length + (v :: r).length - 1 - kept.length = r.length := by simp
    have h2 : kept.length + (v :: r).length - 1 = kept.length + r.length := by simp
    rw [h1, h2, mem_shift]

theorem takeBoth_eq (q : Parser) (k : Nat) (o : OptObj) (kept r : List Bytes) (v : Bytes)
    (s0 : Option Bytes) (st : Argv) :
    ∃ st', (st' = s0 :: st ∨ st' = s0 :: s0 :: st) ∧
    takeBoth q k o (mem kept (v :: r) (s0 :: st)) (kept.length + (v :: r).length) kept.length =
      takeRight q k { o with left := (leftOf .bothArg kept).2.getD o.left }
        (mem (leftOf .bothArg kept).1 (v :: r) st')
        ((leftOf .bothArg kept).1.length + (v :: r).length) (leftOf .bothArg kept).1.length := by
  rcases List.eq_nil_or_concat kept with rfl | ⟨K, w, hK⟩
  · exact ⟨s0 :: st, .inl rfl, rfl⟩
  · have hK : kept = K ++ [w] := by simpa using hK
    subst hK
    unfold takeBoth
    rw [if_neg (by simp)]
    have h1 : (K ++ [w]).length - 1 = K.length := by simp
    rw [h1, mem_before]
    dsimp only
    by_cases hw : dashed w
    · refine ⟨s0 :: st, .inl rfl, ?_⟩
      rw [if_pos hw]
      simp [leftOf, hw]
    · refine ⟨s0 :: s0 :: st, .inr rfl, ?_⟩
      rw [if_neg hw]
      have h2 : (K ++ [w]).length + (v :: r).length - (K ++ [w]).length + 1 =
          (v :: r).length + 1 := by simp
      have h3 : (K ++ [w]).length + (v :: r).length - 1 = K.length + (v :: r).length := by
        simp; omega
      rw [h2, h3, mem_shift_left]
      simp [leftOf, hw]

/-- Hits that agree on the options. -/
theorem endsInName_congr (tbl : Bytes → Option (Nat × ArgType)) (rest : List Bytes)
    {h1 h2 : List Hit} (h : h1.map (·.obj) = h2.map (·.obj)) :
    endsInName tbl h1 rest = endsInName tbl h2 rest := by
  induction hn : rest.length using Nat.strongRecOn generalizing rest h1 h2 with
  | ind n ih =>
    subst hn
    have hany : ∀ k, h1.any (·.obj == k) = h2.any (·.obj == k) := by
      intro k
      have e : ∀ l : List Hit, l.any (·.obj == k) = (l.map (·.obj)).any (· == k) := by
        intro l; rw [List.any_map]; rfl
      rw [e, e, h]
    match rest with
    | [] => rfl
    | [a] => rfl
    | a :: v :: r =>
      have happ : ∀ k a b c d, (h1 ++ [(⟨k, a, b⟩ : Hit)]).map (·.obj) =
          (h2 ++ [(⟨k, c, d⟩ : Hit)]).map (·.obj) := by
        intro k a b c d
        simp [h]
      simp only [endsInName]
      cases tbl a with
      | none => exact ih _ (by simp) _ h rfl
      | some kt =>
        obtain ⟨k, t⟩ := kt
        dsimp only
        rw [hany k]
        split
        · exact ih _ (by simp) _ h rfl
        · split
          · exact ih _ (by simp; omega) _ (happ _ _ _ _ _) rfl
          · exact ih _ (by simp) _ (happ _ _ _ _ _) rfl

/-- What one option does. -/
theorem takeOption_spec {p q : Parser} {hits : List Hit} {kept rest : List Bytes} {a : Bytes}
    {stale : Argv} {k : Nat} (hrel : Rel p hits q) (hp : p.unused) (hst : StaleOk (a :: rest) stale)
    (hk : p.find a = some k) {res : Parser × Argv × Nat × Nat}
    (h : takeOption q k (mem kept (a :: rest) stale) (kept.length + (a :: rest).length)
      kept.length = .ok res) :
    ∃ kept' rest' stale' hits', res.2 = (mem kept' rest' stale', kept'.length + rest'.length,
        kept'.length) ∧ StaleOk rest' stale' ∧ Rel p hits' res.1 ∧
      readArgs p.table kept hits (a :: rest) = readArgs p.table kept' hits' rest' ∧
      rest'.length < (a :: rest).length ∧
      (endsInName p.table hits (a :: rest) = true → endsInName p.table hits' rest' = true) := by
  unfold takeOption at h
  cases hob : q.obj k with
  | error e => rw [hob] at h; cases h
  | ok o =>
    rw [hob] at h
    dsimp only at h
    -- the object in the heap
    have hq : q.heap[k]? = some o := by
      unfold Parser.obj at hob
      split at hob
      · cases hob
      · split at hob
        · cases hob; assumption
        · cases hob
    obtain ⟨o0, ho0, hoo⟩ : ∃ o0, p.heap[k]? = some o0 ∧ o = OptObj.after k hits o0 := by
      have := hrel.heap k
      rw [hq] at this
      cases hpk : p.heap[k]? with
      | none => rw [hpk] at this; cases this
      | some o0 => rw [hpk] at this; exact ⟨o0, rfl, Option.some.inj this⟩
    have htbl : p.table a = some (k, o0.kind) := by
      unfold Parser.table
      rw [hk, Option.bind_some, ho0, Option.map_some]
    have hf0 : o0.found = false := hp o0 (List.mem_of_getElem? ho0)
    cases hany : hits.any (·.obj == k) with
    | true =>
      have hfo : o.found = true := by rw [hoo]; exact after_found hany o0
      rw [if_pos hfo] at h
      cases h
      refine ⟨kept ++ [a], rest, stale, hits, ?_, ?_, hrel, ?_, by simp, ?_⟩
      · simp [mem]; omega
      · intro x hx hr
        have := hst x hx (by simp)
        rw [this, List.getLast_cons hr]
      · cases rest with
        | nil => simp [readArgs, htbl, hany]
        | cons v r => simp [readArgs, htbl, hany]
      · intro he
        cases rest with
        | nil => rfl
        | cons v r => simpa [endsInName, htbl, hany] using he
    | false =>
      have hoe : o = o0 := by rw [hoo]; exact after_none hany o0
      subst hoe
      rw [if_neg (by simp [hf0])] at h
      have hhit := fun l r o' ho' => hrel.hit ho0 hany l r o' ho'
      cases rest with
      | nil =>
        rw [if_neg (by simp)] at h
        cases h
        refine ⟨kept, [], some a :: stale, hits ++ [⟨k, none, none⟩], ?_, ?_, ?_, ?_, by simp,
          fun _ => rfl⟩
        · simp [mem]
        · intro x _ hr; exact absurd rfl hr
        · exact hhit none none _ rfl
        · simp [readArgs, htbl, hany]
      | cons v r =>
        rw [if_pos (by simp)] at h
        have h1 : kept.length + (a :: v :: r).length - 1 - kept.length = (v :: r).length := by simp
        have h2 : kept.length + (a :: v :: r).length - 1 = kept.length + (v :: r).length := by
          simp
        rw [h1, h2, mem_shift] at h
        have hlast : (a :: v :: r).getLast (by simp) = (v :: r).getLast (by simp) := by simp
        rw [hlast] at h
        have hst1 : StaleOk (v :: r) (some ((v :: r).getLast (by simp)) :: stale) := by
          intro x hx hr
          rcases List.mem_cons.1 hx with rfl | hx
          · rfl
          · rw [hst x hx (by simp), hlast]
        -- common treatment of the two kinds with a value
        have hright : ∀ (K : List Bytes) (l : Option Bytes) (st : Argv),
            StaleOk (v :: r) st →
            takeRight q k { o with found := true, left := l.getD o.left } (mem K (v :: r) st)
              (K.length + (v :: r).length) K.length = .ok res →
            ∃ rest' stale' hits', res.2 = (mem K rest' stale', K.length + rest'.length, K.length) ∧
              StaleOk rest' stale' ∧ Rel p hits' res.1 ∧
              (if (!dashed v) then (rest' = r ∧ hits' = hits ++ [⟨k, l, some v⟩])
                else (rest' = v :: r ∧ hits' = hits ++ [⟨k, l, none⟩])) := by
          intro K l st hs hh
          rw [takeRight_eq] at hh
          by_cases hv : dashed v
          · rw [if_pos hv] at hh
            cases hh
            refine ⟨v :: r, st, _, rfl, hs, ?_, by rw [if_neg (by simp [hv])]; exact ⟨rfl, rfl⟩⟩
            exact hhit l none _ rfl
          · rw [if_neg hv] at hh
            cases hh
            refine ⟨r, _, _, rfl, ?_, ?_, by rw [if_pos (by simp [hv])]; exact ⟨rfl, rfl⟩⟩
            · intro x hx hr
              rcases List.mem_cons.1 hx with rfl | hx
              · rw [List.getLast_cons hr]
              · rw [hs x hx (by simp), List.getLast_cons hr]
            · exact hhit l (some v) _ rfl
        obtain ⟨kd, fo, ro, lo, al⟩ := o
        cases kd with
        | noArg =>
          dsimp only at h
          cases h
          refine ⟨kept, v :: r, _, hits ++ [⟨k, none, none⟩], rfl, hst1, hhit none none _ rfl, ?_,
            by simp, fun he => by simpa [endsInName, htbl, hany, ArgType.wantsRight] using he⟩
          simp [readArgs, htbl, hany, ArgType.wantsRight, leftOf]
        | leftArg =>
          dsimp only at h
          cases h
          refine ⟨kept, v :: r, _, hits ++ [⟨k, none, none⟩], rfl, hst1, hhit none none _ rfl, ?_,
            by simp, fun he => by simpa [endsInName, htbl, hany, ArgType.wantsRight] using he⟩
          simp [readArgs, htbl, hany, ArgType.wantsRight, leftOf]
        | rightArg =>
          dsimp only at h
          obtain ⟨rest', stale', hits', e1, e2, e3, e4⟩ := hright kept none _ hst1 h
          refine ⟨kept, rest', stale', hits', e1, e2, e3, ?_, ?_, ?_⟩
          · simp only [readArgs, htbl, hany, ArgType.wantsRight, leftOf, Bool.true_and]
            split at e4 <;> rename_i hv
            · rw [if_pos hv, e4.1, e4.2]; rfl
            · rw [if_neg hv, e4.1, e4.2]; rfl
          · split at e4 <;> rw [e4.1] <;> simp <;> omega
          · intro he
            simp only [endsInName, htbl, hany, ArgType.wantsRight, Bool.true_and] at he
            split at e4 <;> rename_i hv
            · rw [if_pos hv, if_neg (by simp)] at he
              rw [e4.1, e4.2, ← he]
            · rw [if_neg hv, if_neg (by simp)] at he
              rw [e4.1, e4.2, ← he]
        | bothArg =>
          dsimp only at h
          obtain ⟨st', hst', heq⟩ := takeBoth_eq q k ⟨.bothArg, true, ro, lo, al⟩ kept r v
            (some ((v :: r).getLast (by simp))) stale
          rw [heq] at h
          have hst2 : StaleOk (v :: r) st' := by
            rcases hst' with rfl | rfl
            · exact hst1
            · intro x hx hr
              rcases List.mem_cons.1 hx with rfl | hx
              · rfl
              · exact hst1 x hx hr
          obtain ⟨rest', stale', hits', e1, e2, e3, e4⟩ := hright _ _ _ hst2 h
          refine ⟨_, rest', stale', hits', e1, e2, e3, ?_, ?_, ?_⟩
          · simp only [readArgs, htbl, hany, ArgType.wantsRight, Bool.true_and]
            split at e4 <;> rename_i hv
            · rw [if_pos hv, e4.1, e4.2]; rfl
            · rw [if_neg hv, e4.1, e4.2]; rfl
          · split at e4 <;> rw [e4.1] <;> simp <;> omega
          · intro he
            simp only [endsInName, htbl, hany, ArgType.wantsRight, Bool.true_and] at he
            split at e4 <;> rename_i hv
            · rw [if_pos hv, if_neg (by simp)] at he
              rw [e4.1, e4.2, ← he]
              exact endsInName_congr _ _ (by simp)
            · rw [if_neg hv, if_neg (by simp)] at he
              rw [e4.1, e4.2, ← he]
              exact endsInName_congr _ _ (by simp)

theorem mem_length (kept rest : List Bytes) (stale : Argv) :
    (mem kept rest stale).length = kept.length + rest.length + stale.length + 1 := by
  simp [mem]; omega

theorem mem_get_rest (kept rest : List Bytes) (stale : Argv) (j : Nat) (hj : j < rest.length) :
    (mem kept rest stale)[kept.length + j]? = some (some rest[j]) := by
  unfold mem
  rw [List.append_assoc, List.getElem?_append_right (by simp), List.length_map,
    Nat.add_sub_cancel_left, List.getElem?_append_left (by simpa using hj)]
  simp [hj]

theorem mem_get_stale (kept rest : List Bytes) (stale : Argv) (j : Nat) (s : Bytes)
    (hj : kept.length + rest.length ≤ j) (h : (mem kept rest stale)[j]? = some (some s)) :
    some s ∈ stale := by
  unfold mem at h
  rw [List.getElem?_append_right (by simpa using hj)] at h
  have := List.mem_of_getElem? h
  simpa using this

theorem argAt_ok {a : Argv} {i : Nat} {s : Bytes} (h : argAt a i = .ok s) :
    a[i]? = some (some s) := by
  unfold argAt at h
  split at h <;> first | cases h | skip
  assumption

theorem mem_split (kept u v : List Bytes) (stale : Argv) :
    mem kept (u ++ v) stale = mem (kept ++ u) v stale := by simp [mem]

theorem table_none {p : Parser} {s : Bytes} (h : p.find s = none) : p.table s = none := by
  unfold Parser.table
  rw [h]; rfl

/-- The loop reads the arguments as `readArgs` does. -/
theorem parseLoop_spec {p : Parser} (hp : p.unused) (fuel : Nat) {q : Parser} {hits : List Hit}
    {kept rest : List Bytes} {stale : Argv} (hrel : Rel p hits q) (hst : StaleOk rest stale)
    {q' : Parser} {a' : Argv} {argc' : Nat}
    (h : parseLoop fuel q (mem kept rest stale) (kept.length + rest.length) kept.length =
      .ok (q', a', argc')) :
    a'.take argc' = (readArgs p.table kept hits rest).1.map some ∧
      Rel p (readArgs p.table kept hits rest).2 q' := by
  induction fuel generalizing q hits kept rest stale with
  | zero => cases h
  | succ fuel ih =>
    cases rest with
    | nil =>
      unfold parseLoop at h
      rw [if_neg (by simp)] at h
      cases h
      refine ⟨?_, by simpa [readArgs] using hrel⟩
      have h1 : (kept.map some).length = kept.length + ([] : List Bytes).length := by simp
      simp only [readArgs, mem]
      rw [List.append_assoc, ← h1, List.take_left]
    | cons a rest =>
      unfold parseLoop at h
      rw [if_pos (by simp), mem_at] at h
      dsimp only at h
      cases hsk : skipLoop q (mem kept (a :: rest) stale) a.length kept.length with
      | error e => rw [hsk] at h; cases h
      | ok i =>
        rw [hsk] at h
        dsimp only at h
        obtain ⟨hi1, hi2⟩ := skipLoop_spec hsk
        rcases Nat.lt_or_ge i (kept.length + (a :: rest).length) with hlt | hge
        · -- inside the arguments
          obtain ⟨d, rfl⟩ : ∃ d, i = kept.length + d := ⟨i - kept.length, by omega⟩
          have hd : d < (a :: rest).length := by omega
          obtain ⟨u, x, v, huv, hul⟩ : ∃ u x v, a :: rest = u ++ x :: v ∧ u.length = d := by
            refine ⟨(a :: rest).take d, (a :: rest)[d], (a :: rest).drop (d + 1), ?_, ?_⟩
            · rw [← List.drop_eq_getElem_cons hd, List.take_append_drop]
            · rw [List.length_take]; omega
          subst hul
          have hun : ∀ s ∈ u, q.find s = none := by
            intro s hs
            obtain ⟨j, hj, rfl⟩ := List.mem_iff_getElem.1 hs
            obtain ⟨s', hs', hf⟩ := hi2 (kept.length + j) (by omega) (by omega)
            rw [huv, mem_get_rest _ _ _ _ (by simp; omega)] at hs'
            rw [List.getElem_append_left hj] at hs'
            cases hs'
            exact hf
          have hread : readArgs p.table kept hits (a :: rest) =
              readArgs p.table (kept ++ u) hits (x :: v) := by
            rw [huv]
            exact readArgs_skip _ _ _ _ _ fun s hs => table_none (by rw [← hrel.find]; exact hun s hs)
          rw [hread]
          have hlen : kept.length + (a :: rest).length = (kept ++ u).length + (x :: v).length := by
            rw [huv]; simp; omega
          have hst' : StaleOk (x :: v) stale := by
            intro y hy hne
            rw [hst y hy (by simp)]
            have h1 : (a :: rest).getLast? = (x :: v).getLast? := by
              rw [huv, List.getLast?_append, List.getLast?_eq_some_getLast hne]; rfl
            rw [List.getLast?_eq_some_getLast (by simp), List.getLast?_eq_some_getLast hne] at h1
            exact h1
          rw [hlen, huv, mem_split, ← List.length_append, mem_at] at h
          dsimp only at h
          cases hfx : q.find x with
          | none =>
            rw [hfx] at h
            dsimp only at h
            have hx : p.table x = none := table_none (by rw [← hrel.find]; exact hfx)
            have h1 := readArgs_skip p.table (kept ++ u) hits [x] v (by simpa using hx)
            rw [List.singleton_append] at h1
            rw [h1]
            refine ih hrel (stale := stale) ?_ ?_
            · intro y hy hne
              rw [hst' y hy (by simp), List.getLast_cons hne]
            · rw [show x :: v = [x] ++ v from rfl, mem_split] at h
              have e1 : (kept ++ u).length + ([x] ++ v).length =
                  (kept ++ u ++ [x]).length + v.length := by simp; omega
              have e2 : (kept ++ u).length + 1 = (kept ++ u ++ [x]).length := by simp [Nat.add_assoc]
              rw [e1, e2] at h
              exact h
          | some k =>
            rw [hfx] at h
            dsimp only at h
            cases hto : takeOption q k (mem (kept ++ u) (x :: v) stale)
                ((kept ++ u).length + (x :: v).length) (kept ++ u).length with
            | error e => rw [hto] at h; cases h
            | ok res =>
              rw [hto] at h
              obtain ⟨kept', rest', stale', hits', e1, e2, e3, e4, e5, _⟩ :=
                takeOption_spec hrel hp hst' (by rw [← hrel.find]; exact hfx) hto
              obtain ⟨r1, r2⟩ := res
              cases e1
              rw [e4]
              exact ih e3 e2 h
        · -- past the arguments: only stale pointers are read
          have hall : ∀ s ∈ a :: rest, q.find s = none := by
            intro s hs
            obtain ⟨j, hj, rfl⟩ := List.mem_iff_getElem.1 hs
            obtain ⟨s', hs', hf⟩ := hi2 (kept.length + j) (by omega) (by omega)
            rw [mem_get_rest _ _ _ _ hj] at hs'
            cases hs'
            exact hf
          have hread : readArgs p.table kept hits (a :: rest) = (kept ++ a :: rest, hits) := by
            have := readArgs_skip p.table kept hits (a :: rest) [] fun s hs =>
              table_none (by rw [← hrel.find]; exact hall s hs)
            rw [List.append_nil] at this
            rw [this]
            simp [readArgs]
          cases hat : argAt (mem kept (a :: rest) stale) i with
          | error e => rw [hat] at h; cases h
          | ok s =>
            rw [hat] at h
            dsimp only at h
            have hs := mem_get_stale _ _ _ _ _ hge (argAt_ok hat)
            have hsl := hst _ hs (by simp)
            have hfs : q.find s = none := by
              cases hsl
              exact hall _ (List.getLast_mem _)
            rw [hfs] at h
            dsimp only at h
            cases fuel with
            | zero => cases h
            | succ fuel =>
              unfold parseLoop at h
              rw [if_neg (by omega)] at h
              cases h
              rw [hread]
              refine ⟨?_, hrel⟩
              have h1 : (kept.map some ++ (a :: rest).map some).length =
                  kept.length + (a :: rest).length := by simp
              unfold mem
              rw [← h1, List.take_left]
              simp

end Zwt
