import Verif.Proofs.ArgsMore

/-! Lemmas about reading arguments with plain tables, and about tables of options. -/

namespace Zwt

theorem behind_isSome {tbl : Bytes → Option (Nat × ArgType)} {k : Nat} (l : List Bytes) :
    (behind tbl k l).isSome = l.any (names tbl k) := by
  induction l with
  | nil => rfl
  | cons a l ih =>
    unfold behind
    by_cases h : names tbl k a = true
    · simp [h]
    · simp [h, ih]

theorem behind_skip {tbl : Bytes → Option (Nat × ArgType)} {k : Nat} {a : Bytes} {l : List Bytes}
    (h : names tbl k a = false) : behind tbl k (a :: l) = behind tbl k l := by
  rw [behind, if_neg (by simp [h])]

/-- What a plain table makes of arguments. -/
theorem readArgs_plain {tbl : Bytes → Option (Nat × ArgType)} (hpl : plainTable tbl)
    (kept : List Bytes) (hits : List Hit) (rest : List Bytes) (k : Nat) :
    (hits.any (·.obj == k) = true →
      (readArgs tbl kept hits rest).2.find? (·.obj == k) = hits.find? (·.obj == k)) ∧
    (hits.any (·.obj == k) = false →
      (readArgs tbl kept hits rest).2.find? (·.obj == k) =
        match rest.find? (names tbl k), behind tbl k rest with
        | some a, some b => some ⟨k, none, match b with
            | [] => none
            | v :: _ => if (tbl a).any (·.2.wantsRight) && !dashed v then some v else none⟩
        | _, _ => none) := by
  have hfa : ∀ hits : List Hit, hits.any (·.obj == k) = true →
      (hits.find? (·.obj == k)).isSome = true := by
    intro hits h; rw [List.find?_isSome]; simpa using h
  have hfn : ∀ hits : List Hit, hits.any (·.obj == k) = false →
      hits.find? (·.obj == k) = none := by
    intro hits h; rw [List.find?_eq_none]; simpa using h
  have hor : ∀ (hits : List Hit) x, hits.any (·.obj == k) = true →
      (hits ++ [x]).find? (·.obj == k) = hits.find? (·.obj == k) := by
    intro hits x h
    rw [List.find?_append]
    have := hfa hits h
    cases hh : hits.find? (·.obj == k) with
    | none => rw [hh] at this; cases this
    | some y => rfl
  have hleft : ∀ t : ArgType, t ≠ .bothArg → ∀ kept, leftOf t kept = (kept, none) := by
    intro t ht kept
    unfold leftOf
    cases t <;> first | rfl | exact absurd rfl ht
  induction hn : rest.length using Nat.strongRecOn generalizing rest kept hits with
  | ind n ih =>
    subst hn
    match rest with
    | [] => exact ⟨fun _ => rfl, fun h => hfn _ h⟩
    | [a] =>
      constructor
      · intro hk
        unfold readArgs
        cases ht : tbl a with
        | none => rfl
        | some kt =>
          obtain ⟨j, t⟩ := kt
          dsimp only
          split
          · rfl
          · exact hor _ _ hk
      · intro hk
        unfold readArgs
        cases ht : tbl a with
        | none => simp [names, ht, hfn _ hk]
        | some kt =>
          obtain ⟨j, t⟩ := kt
          dsimp only
          by_cases hjk : j = k
          · subst hjk
            simp [hk, names, ht, behind, hfn _ hk]
          · have : ¬ (names tbl k a = true) := by simp [names, ht, hjk]
            split
            · simp [this, hfn _ hk]
            · simp [this, hfn _ hk, List.find?_append, hjk]
    | a :: v :: rest =>
      have ih1 := fun kept hits => ih (v :: rest).length (by simp) kept hits (v :: rest) rfl
      have ih2 := fun kept hits => ih rest.length (by simp; omega) kept hits rest rfl
      constructor
      · intro hk
        unfold readArgs
        cases ht : tbl a with
        | none => exact (ih1 _ _).1 hk
        | some kt =>
          obtain ⟨j, t⟩ := kt
          dsimp only
          split
          · exact (ih1 _ _).1 hk
          · split
            · rw [(ih2 _ _).1 (by simp [hk]), hor _ _ hk]
            · rw [(ih1 _ _).1 (by simp [hk]), hor _ _ hk]
      · intro hk
        unfold readArgs
        cases ht : tbl a with
        | none =>
          have hna : names tbl k a = false := by simp [names, ht]
          dsimp only
          rw [(ih1 _ _).2 hk]
          simp [hna, behind]
        | some kt =>
          obtain ⟨j, t⟩ := kt
          obtain ⟨hda, htb⟩ := hpl a j t ht
          dsimp only
          rw [hleft t htb kept]
          by_cases hjk : j = k
          · subst hjk
            rw [if_neg (by simp [hk])]
            have hna : names tbl j a = true := by simp [names, ht]
            have hb : behind tbl j (a :: v :: rest) = some (v :: rest) := by
              rw [behind, if_pos hna]
            rw [hb, List.find?_cons_of_pos hna]
            dsimp only
            have hnew : ∀ r : Option Bytes, (hits ++ [(⟨j, none, r⟩ : Hit)]).find? (·.obj == j) =
                some ⟨j, none, r⟩ := by
              intro r
              rw [List.find?_append, hfn _ hk]; simp
            split
            · rename_i hc
              rw [(ih2 _ _).1 (by simp), hnew]
              simp only [ht, Option.any_some]
              rw [if_pos hc]
            · rename_i hc
              rw [(ih1 _ _).1 (by simp), hnew]
              simp only [ht, Option.any_some]
              rw [if_neg hc]
          · have hna : names tbl k a = false := by simp [names, ht, hjk]
            have hkk : ∀ l r, (hits ++ [(⟨j, l, r⟩ : Hit)]).any (·.obj == k) = false := by
              intro l r
              rw [List.any_append, hk]
              simp [hjk]
            rw [List.find?_cons_of_neg (by simp [hna]), behind_skip hna]
            split
            · exact (ih1 _ _).2 hk
            · split
              · rename_i hc
                have hv : dashed v = false := by
                  rw [Bool.and_eq_true] at hc
                  simpa using hc.2
                have hnv : names tbl k v = false := by
                  unfold names
                  cases htv : tbl v with
                  | none => rfl
                  | some kt =>
                    have := (hpl v kt.1 kt.2 htv).1
                    rw [hv] at this; cases this
                rw [(ih2 _ _).2 (hkk _ _), List.find?_cons_of_neg (by simp [hnv]), behind_skip hnv]
              · exact (ih1 _ _).2 (hkk _ _)

/-- What is left is a subsequence. -/
theorem readArgs_sublist (tbl : Bytes → Option (Nat × ArgType)) (kept : List Bytes)
    (hits : List Hit) (rest : List Bytes) :
    (readArgs tbl kept hits rest).1.Sublist (kept ++ rest) := by
  have hl : ∀ t k, (leftOf t k).1.Sublist k := by
    intro t k
    unfold leftOf
    split
    · split
      · exact List.Sublist.refl _
      · exact List.dropLast_sublist k
    · exact List.Sublist.refl _
  induction hn : rest.length using Nat.strongRecOn generalizing rest kept hits with
  | ind n ih =>
    subst hn
    match rest with
    | [] => simp [readArgs]
    | [a] =>
      unfold readArgs
      split
      · exact List.Sublist.refl _
      · split
        · exact List.Sublist.refl _
        · exact List.sublist_append_left _ _
    | a :: v :: rest =>
      have ih1 := fun kept hits => ih (v :: rest).length (by simp) kept hits (v :: rest) rfl
      have ih2 := fun kept hits => ih rest.length (by simp; omega) kept hits rest rfl
      have e : kept ++ a :: v :: rest = (kept ++ [a]) ++ v :: rest := by simp
      have e1 : (kept ++ v :: rest).Sublist (kept ++ a :: v :: rest) :=
        List.Sublist.append_left (List.sublist_cons_self _ _) _
      have e2 : (kept ++ rest).Sublist (kept ++ a :: v :: rest) :=
        List.Sublist.append_left
          ((List.sublist_cons_self _ _).trans (List.sublist_cons_self _ _)) _
      unfold readArgs
      split
      · rw [e]; exact ih1 _ _
      · split
        · rw [e]; exact ih1 _ _
        · split
          · exact ((ih2 _ _).trans (List.Sublist.append_right (hl _ _) _)).trans e2
          · exact ((ih1 _ _).trans (List.Sublist.append_right (hl _ _) _)).trans e1

/-! ### Names and objects -/

theorem find_mapPut (m : List (Bytes × Nat)) (n x : Bytes) (i : Nat) :
    ((mapPut m n i).find? (·.1 == x)).map (·.2) =
      if n = x then some i else (m.find? (·.1 == x)).map (·.2) := by
  unfold mapPut
  by_cases h : n = x
  · subst h; simp
  · rw [List.find?_cons_of_neg (by simpa using h), if_neg h, List.find?_filter]
    congr 2
    funext y
    by_cases hy : y.1 = x
    · simp [hy, Ne.symm h]
    · simp [hy]

/-- A parser whose names lead into the heap, and whose objects in the map are in the help list. -/
structure Parser.Wf (p : Parser) : Prop where
  bound : ∀ n j, p.find n = some j → j < p.heap.length
  help : ∀ h ∈ p.help, h.obj < p.heap.length
  listed : ∀ n j, p.find n = some j → ∃ h ∈ p.help, h.obj = j

/-- Dead objects stay dead. -/
def deadAt (heap : List OptObj) (j : Nat) : Prop := ∃ o, heap[j]? = some o ∧ o.alive = false

theorem deleteObj_cases {heap : List OptObj} {j : Nat} (hj : j < heap.length) :
    (deadAt heap j ∧ deleteObj heap j = .error .doubleFree) ∨
    (∃ heap', deleteObj heap j = .ok heap' ∧ heap'.length = heap.length ∧ deadAt heap' j ∧
      ∀ k, deadAt heap k → deadAt heap' k) := by
  unfold deleteObj
  rw [List.getElem?_eq_getElem hj]
  dsimp only
  by_cases ha : heap[j].alive = true
  · right
    rw [if_pos ha]
    refine ⟨_, rfl, by simp, ⟨_, by rw [List.getElem?_set_self hj], rfl⟩, ?_⟩
    rintro k ⟨o, ho, hd⟩
    by_cases hk : j = k
    · subst hk
      rw [List.getElem?_eq_getElem hj] at ho
      cases ho
      rw [hd] at ha; cases ha
    · exact ⟨o, by rw [List.getElem?_set_ne hk]; exact ho, hd⟩
  · left
    rw [if_neg ha]
    exact ⟨⟨_, List.getElem?_eq_getElem hj, by simpa using ha⟩, rfl⟩

/-- Entering names: either a double free, or the objects that had the names are dead. -/
theorem enterAll_cases {i : Nat} (ns : List Bytes) {p : Parser} (hi : i < p.heap.length)
    (hb : ∀ n j, p.find n = some j → j < p.heap.length) :
    Parser.enterAll i ns p = .error .doubleFree ∨
    ∃ p', Parser.enterAll i ns p = .ok p' ∧ p'.heap.length = p.heap.length ∧
      p'.help = p.help ∧ p'.maxHelp = p.maxHelp ∧
      (∀ k, deadAt p.heap k → deadAt p'.heap k) ∧
      (∀ n ∈ ns, ∀ j, p.find n = some j → j ≠ i → deadAt p'.heap j) ∧
      (∀ n, p'.find n = if n ∈ ns then some i else p.find n) := by
  induction ns generalizing p with
  | nil =>
    right
    exact ⟨p, rfl, rfl, rfl, rfl, fun _ h => h, by simp, by simp⟩
  | cons m ns ih =>
    unfold Parser.enterAll
    have key : p.enter i m = .error .doubleFree ∨ ∃ p1, p.enter i m = .ok p1 ∧
        p1.heap.length = p.heap.length ∧ p1.help = p.help ∧ p1.maxHelp = p.maxHelp ∧
        (∀ k, deadAt p.heap k → deadAt p1.heap k) ∧
        (∀ j, p.find m = some j → j ≠ i → deadAt p1.heap j) ∧
        (∀ n, p1.find n = if m = n then some i else p.find n) := by
      unfold Parser.enter
      cases hm : p.find m with
      | none =>
        right
        exact ⟨_, rfl, rfl, rfl, rfl, fun _ h => h, by simp,
          fun n => by unfold Parser.find; exact find_mapPut _ _ _ _⟩
      | some j =>
        dsimp only
        by_cases hji : j = i
        · right
          rw [if_neg (by simpa using hji)]
          refine ⟨_, rfl, rfl, rfl, rfl, fun _ h => h, ?_,
            fun n => by unfold Parser.find; exact find_mapPut _ _ _ _⟩
          intro j' hj' hne
          cases hj'
          exact absurd hji hne
        · rw [if_pos hji]
          rcases deleteObj_cases (hb m j hm) with ⟨_, he⟩ | ⟨heap', he, hl, hd, hmono⟩
          · left; rw [he]
          · right
            rw [he]
            refine ⟨_, rfl, hl, rfl, rfl, hmono, ?_,
              fun n => by unfold Parser.find; exact find_mapPut _ _ _ _⟩
            intro j' hj' _
            cases hj'
            exact hd
    rcases key with h | ⟨p1, h1, h2, h3, h3', h4, h5, h6⟩
    · left; rw [h]
    · rw [h1]
      dsimp only
      have hb1 : ∀ n j, p1.find n = some j → j < p1.heap.length := by
        intro n j hn
        rw [h6] at hn
        rw [h2]
        split at hn
        · cases hn; exact hi
        · exact hb n j hn
      rcases ih (p := p1) (by omega) hb1 with h | ⟨p', e1, e2, e3, e3', e4, e5, e6⟩
      · left; exact h
      · right
        refine ⟨p', e1, by omega, by rw [e3, h3], by rw [e3', h3'], fun k hk => e4 k (h4 k hk),
          ?_, ?_⟩
        · intro n hn j hj hne
          by_cases hmn : m = n
          · subst hmn
            exact e4 j (h5 j hj hne)
          · have hn' : n ∈ ns := by
              rcases List.mem_cons.1 hn with h | h
              · exact absurd h.symm hmn
              · exact h
            refine e5 n hn' j ?_ hne
            rw [h6, if_neg hmn]; exact hj
        · intro n
          rw [e6, h6]
          by_cases hmn : m = n
          · subst hmn; simp
          · by_cases hn : n ∈ ns
            · simp [hn]
            · simp [hn, hmn, Ne.symm hmn]

theorem find_heap (p : Parser) (h : List OptObj) (n : Bytes) :
    ({ p with heap := h } : Parser).find n = p.find n := rfl

/-- Adding an option. -/
theorem addOption_cases {p : Parser} (hw : p.Wf) (s : Bytes) (t : ArgType) (ht : t ≠ .leftArg)
    (dr dl : Option Bytes) :
    p.addOption s t dr dl = .error .doubleFree ∨
    ∃ p', p.addOption s t dr dl = .ok p' ∧ p'.heap.length = p.heap.length + 1 ∧
      p'.help = p.help ++ [⟨optionText s, (splitOption s).2.getD [], p.heap.length⟩] ∧
      p'.maxHelp = max p.maxHelp (helpStart s) ∧
      (∀ k, deadAt p.heap k → deadAt p'.heap k) ∧
      (∀ n ∈ optionNames t s, ∀ j, p.find n = some j → deadAt p'.heap j) ∧
      (∀ n, p'.find n = if n ∈ optionNames t s then some p.heap.length else p.find n) := by
  have hdead : ∀ (x : OptObj) k, deadAt p.heap k → deadAt (p.heap ++ [x]) k := by
    rintro x k ⟨o, ho, hd⟩
    have hk := (List.getElem?_eq_some_iff.1 ho).1
    exact ⟨o, by rw [List.getElem?_append_left hk]; exact ho, hd⟩
  have main : ∀ (x : OptObj), (
      match Parser.enterAll p.heap.length (optionNames t s) { p with heap := p.heap ++ [x] } with
      | .error e => .error e
      | .ok p' => .ok { p' with help := p'.help ++ [⟨optionText s, (splitOption s).2.getD [], p.heap.length⟩], maxHelp := max p'.maxHelp (helpStart s) } : Run Parser) = .error .doubleFree ∨ ∃ p', (
      match Parser.enterAll p.heap.length (optionNames t s) { p with heap := p.heap ++ [x] } with
      | .error e => .error e
      | .ok p' => .ok { p' with help := p'.help ++ [⟨optionText s, (splitOption s).2.getD [], p.heap.length⟩], maxHelp := max p'.maxHelp (helpStart s) } : Run Parser) = .ok p' ∧ p'.heap.length = p.heap.length + 1 ∧
      p'.help = p.help ++ [⟨optionText s, (splitOption s).2.getD [], p.heap.length⟩] ∧
      p'.maxHelp = max p.maxHelp (helpStart s) ∧
      (∀ k, deadAt p.heap k → deadAt p'.heap k) ∧
      (∀ n ∈ optionNames t s, ∀ j, p.find n = some j → deadAt p'.heap j) ∧
      (∀ n, p'.find n = if n ∈ optionNames t s then some p.heap.length else p.find n) := by
    intro x
    rcases enterAll_cases (i := p.heap.length) (optionNames t s)
      (p := { p with heap := p.heap ++ [x] }) (by simp) (by
        intro n j hn
        have := hw.bound n j hn
        simp; omega) with h | ⟨p', e1, e2, e3, e3', e4, e5, e6⟩
    · left; rw [h]
    · right
      rw [e1]
      refine ⟨_, rfl, by simpa using e2, by simp [e3], by simp [e3'],
        fun k hk => e4 k (hdead x k hk), ?_, e6⟩
      intro n hn j hj
      refine e5 n hn j hj ?_
      have := hw.bound n j hj
      omega
  unfold Parser.addOption
  cases t with
  | leftArg => exact absurd rfl ht
  | noArg => exact main _
  | rightArg => exact main _
  | bothArg => exact main _

theorem addOption_wf {p p' : Parser} (hw : p.Wf) {o : OptSpec}
    (h : p.addOption o.text o.type o.defRight o.defLeft = .ok p') : p'.Wf := by
  by_cases ht : o.type = .leftArg
  · rw [ht] at h
    unfold Parser.addOption at h
    cases h
    exact hw
  · rcases addOption_cases hw o.text o.type ht o.defRight o.defLeft with he |
      ⟨q, e1, e2, e3, _, _, _, e6⟩
    · rw [he] at h; cases h
    · rw [e1] at h
      cases h
      refine ⟨?_, ?_, ?_⟩
      · intro n j hn
        rw [e6] at hn
        split at hn
        · cases hn; omega
        · have := hw.bound n j hn; omega
      · intro x hx
        rw [e3] at hx
        rcases List.mem_append.1 hx with hx | hx
        · have := hw.help x hx; omega
        · rw [List.mem_singleton] at hx
          subst hx
          dsimp only; omega
      · intro n j hn
        rw [e6] at hn
        rw [e3]
        split at hn
        · cases hn
          exact ⟨⟨optionText o.text, (splitOption o.text).2.getD [], p.heap.length⟩, by simp, rfl⟩
        · obtain ⟨x, hx, hxj⟩ := hw.listed n j hn
          exact ⟨x, by simp [hx], hxj⟩

theorem new_wf : Parser.new.Wf :=
  ⟨by intro n j h; simp [Parser.new, Parser.find] at h, by simp [Parser.new],
    by intro n j h; simp [Parser.new, Parser.find] at h⟩

theorem addAll_wf (os : List OptSpec) {p p' : Parser} (hw : p.Wf)
    (h : Parser.addAll os p = .ok p') : p'.Wf := by
  induction os generalizing p with
  | nil => cases h; exact hw
  | cons o os ih =>
    unfold Parser.addAll at h
    cases ha : p.addOption o.text o.type o.defRight o.defLeft with
    | error e => rw [ha] at h; cases h
    | ok q =>
      rw [ha] at h
      exact ih (addOption_wf hw ha) h

/-- Clearing runs into a dead object. -/
theorem deleteAll_dead (hs : List HelpItem) (heap : List OptObj)
    (hb : ∀ h ∈ hs, h.obj < heap.length) {h : HelpItem} (hh : h ∈ hs) (hd : deadAt heap h.obj) :
    deleteAll hs heap = .error .doubleFree := by
  induction hs generalizing heap with
  | nil => cases hh
  | cons x hs ih =>
    unfold deleteAll
    rcases deleteObj_cases (hb x (by simp)) with ⟨_, he⟩ | ⟨heap', he, hl, hdx, hmono⟩
    · rw [he]
    · rw [he]
      dsimp only
      rcases List.mem_cons.1 hh with rfl | hh
      · exfalso
        obtain ⟨o, ho, ha⟩ := hd
        unfold deleteObj at he
        rw [ho] at he
        simp [ha] at he
      · exact ih heap' (fun y hy => by rw [hl]; exact hb y (by simp [hy])) hh (hmono _ hd)

/-- Redefining a name of an option. -/
theorem redefine {p : Parser} (hw : p.Wf) (o : OptSpec) {n : Bytes} (hn : n ∈ o.names) {j : Nat}
    (hj : p.find n = some j) :
    p.addOption o.text o.type o.defRight o.defLeft = .error .doubleFree ∨
    ∃ p', p.addOption o.text o.type o.defRight o.defLeft = .ok p' ∧ p'.Wf ∧
      p'.clear = .error .doubleFree := by
  have ht : o.type ≠ .leftArg := by
    intro h
    unfold OptSpec.names at hn
    rw [if_pos h] at hn
    cases hn
  have hn' : n ∈ optionNames o.type o.text := by
    unfold OptSpec.names at hn
    rwa [if_neg ht] at hn
  rcases addOption_cases hw o.text o.type ht o.defRight o.defLeft with he |
      ⟨q, e1, e2, e3, _, e4, e5, e6⟩
  · exact Or.inl he
  · right
    have hq := addOption_wf hw e1
    refine ⟨q, e1, hq, ?_⟩
    obtain ⟨x, hx, hxj⟩ := hw.listed n j hj
    unfold Parser.clear
    rw [deleteAll_dead q.help q.heap hq.help (h := x) (by rw [e3]; simp [hx])
      (by rw [hxj]; exact e5 n hn' j hj)]

/-! ### Tables without common names -/

/-- Every object alive, the help list naming each exactly once. -/
structure Parser.Good (p : Parser) : Prop where
  alive : ∀ o ∈ p.heap, o.alive = true ∧ o.found = false
  order : p.help.map (·.obj) = List.range p.heap.length

theorem enterAll_fresh {i : Nat} (ns : List Bytes) {p : Parser}
    (hf : ∀ n ∈ ns, p.find n = none ∨ p.find n = some i) :
    ∃ m, Parser.enterAll i ns p = .ok { p with map := m } := by
  induction ns generalizing p with
  | nil => exact ⟨p.map, rfl⟩
  | cons n ns ih =>
    unfold Parser.enterAll
    have key : p.enter i n = .ok { p with map := mapPut p.map n i } := by
      unfold Parser.enter
      rcases hf n (by simp) with h | h <;> rw [h]
      simp
    rw [key]
    dsimp only
    obtain ⟨m, hm⟩ := ih (p := { p with map := mapPut p.map n i }) (by
      intro x hx
      have : ({ p with map := mapPut p.map n i } : Parser).find x =
          if n = x then some i else p.find x := by
        unfold Parser.find; exact find_mapPut _ _ _ _
      rw [this]
      split
      · exact Or.inr rfl
      · exact hf x (by simp [hx]))
    exact ⟨m, hm⟩

/-- Adding an option none of whose names is known. -/
theorem addOption_good {p : Parser} (hw : p.Wf) (hg : p.Good) (o : OptSpec)
    (hf : ∀ n ∈ o.names, p.find n = none) :
    ∃ p', p.addOption o.text o.type o.defRight o.defLeft = .ok p' ∧ p'.Good ∧
      (∀ n, p'.find n ≠ none → n ∈ o.names ∨ p.find n ≠ none) ∧
      p'.heap.length = p.heap.length + if o.type = .leftArg then 0 else 1 := by
  by_cases ht : o.type = .leftArg
  · refine ⟨p, by rw [ht]; rfl, hg, fun n h => Or.inr h, by simp [ht]⟩
  · have hnm : o.names = optionNames o.type o.text := by
      unfold OptSpec.names; rw [if_neg ht]
    rw [hnm] at hf ⊢
    have main : ∀ x : OptObj, x.alive = true → x.found = false → ∃ m : List (Bytes × Nat),
        Parser.enterAll p.heap.length (optionNames o.type o.text) { p with heap := p.heap ++ [x] } =
          .ok { p with heap := p.heap ++ [x], map := m } ∧
        ∀ (a b : Bytes) c, Parser.Good ⟨p.heap ++ [x], m, p.help ++ [⟨a, b, p.heap.length⟩], c⟩ := by
      intro x hx hx2
      obtain ⟨m, hm⟩ := enterAll_fresh (i := p.heap.length) (optionNames o.type o.text)
        (p := { p with heap := p.heap ++ [x] }) (fun n hn => Or.inl (hf n hn))
      refine ⟨m, hm, fun a b c => ⟨?_, ?_⟩⟩
      · intro y hy
        rcases List.mem_append.1 hy with hy | hy
        · exact hg.alive y hy
        · rw [List.mem_singleton] at hy
          subst hy; exact ⟨hx, hx2⟩
      · simp [hg.order, List.range_succ]
    obtain ⟨q, hq, hqg, hql⟩ : ∃ p', p.addOption o.text o.type o.defRight o.defLeft = .ok p' ∧
        p'.Good ∧ p'.heap.length = p.heap.length + 1 := by
      unfold Parser.addOption
      cases hty : o.type with
      | leftArg => exact absurd hty ht
      | noArg =>
        rw [hty] at main
        obtain ⟨m, h1, h2⟩ := main
          { kind := .noArg, found := false,
            right := if ArgType.noArg = .rightArg then o.defRight.getD [] else [],
            left := if ArgType.noArg = .bothArg then o.defLeft.getD [] else [], alive := true }
          rfl rfl
        dsimp only
        rw [h1]
        exact ⟨_, rfl, h2 _ _ _, by simp⟩
      | rightArg =>
        rw [hty] at main
        obtain ⟨m, h1, h2⟩ := main
          { kind := .rightArg, found := false,
            right := if ArgType.rightArg = .rightArg then o.defRight.getD [] else [],
            left := if ArgType.rightArg = .bothArg then o.defLeft.getD [] else [], alive := true }
          rfl rfl
        dsimp only
        rw [h1]
        exact ⟨_, rfl, h2 _ _ _, by simp⟩
      | bothArg =>
        rw [hty] at main
        obtain ⟨m, h1, h2⟩ := main
          { kind := .bothArg, found := false,
            right := if ArgType.bothArg = .rightArg then o.defRight.getD [] else [],
            left := if ArgType.bothArg = .bothArg then o.defLeft.getD [] else [], alive := true }
          rfl rfl
        dsimp only
        rw [h1]
        exact ⟨_, rfl, h2 _ _ _, by simp⟩
    refine ⟨q, hq, hqg, ?_, by rw [hql, if_neg ht]⟩
    rcases addOption_cases hw o.text o.type ht o.defRight o.defLeft with he |
      ⟨q', e1, _, _, _, _, _, e6⟩
    · rw [he] at hq; cases hq
    · rw [e1] at hq
      cases hq
      intro n hn
      rw [e6] at hn
      split at hn
      · exact Or.inl (by assumption)
      · exact Or.inr hn

theorem addAll_good (os : List OptSpec) {p : Parser} (hw : p.Wf) (hg : p.Good)
    (hsep : Separate os) (hf : ∀ o ∈ os, ∀ n ∈ o.names, p.find n = none) :
    ∃ p', Parser.addAll os p = .ok p' ∧ p'.Wf ∧ p'.Good ∧
      p'.heap.length = p.heap.length + (os.filter (·.type ≠ .leftArg)).length := by
  induction os generalizing p with
  | nil => exact ⟨p, rfl, hw, hg, rfl⟩
  | cons o os ih =>
    obtain ⟨q, h1, h2, h3, h4⟩ := addOption_good hw hg o (hf o (by simp))
    unfold Separate at hsep
    rw [List.pairwise_cons] at hsep
    obtain ⟨p', e1, e2, e3, e4⟩ := ih (addOption_wf hw h1) h2 hsep.2 (by
      intro x hx n hn
      cases hq : q.find n with
      | none => rfl
      | some j =>
        rcases h3 n (by rw [hq]; simp) with h | h
        · exact absurd hn (hsep.1 x hx n h)
        · exact absurd (hf x (by simp [hx]) n hn) h)
    refine ⟨p', ?_, e2, e3, ?_⟩
    · unfold Parser.addAll; rw [h1]; exact e1
    · rw [e4, h4]
      by_cases ht : o.type = .leftArg
      · simp [ht]
      · simp [ht]; omega

theorem new_good : Parser.new.Good := ⟨by simp [Parser.new], by simp [Parser.new]⟩

/-- Good tables are sane and unused. -/
theorem Parser.Good.sane {p : Parser} (hw : p.Wf) (hg : p.Good) : p.sane := by
  intro n k hk
  have := hw.bound n k hk
  exact ⟨_, List.getElem?_eq_getElem this, (hg.alive _ (List.getElem_mem this)).1⟩

theorem Parser.Good.unused {p : Parser} (hg : p.Good) : p.unused := fun o ho => (hg.alive o ho).2

/-- Deleting every object once. -/
theorem deleteAll_once (hs : List HelpItem) (heap : List OptObj)
    (hn : (hs.map (·.obj)).Nodup) (ha : ∀ h ∈ hs, ∃ o, heap[h.obj]? = some o ∧ o.alive = true) :
    ∃ heap', deleteAll hs heap = .ok heap' ∧ heap'.length = heap.length ∧
      (∀ h ∈ hs, deadAt heap' h.obj) ∧ (∀ k, k ∉ hs.map (·.obj) → heap'[k]? = heap[k]?) := by
  induction hs generalizing heap with
  | nil => exact ⟨heap, rfl, rfl, by simp, fun _ _ => rfl⟩
  | cons h hs ih =>
    obtain ⟨o, ho, hal⟩ := ha h (by simp)
    rw [List.map_cons, List.nodup_cons] at hn
    have hlt := (List.getElem?_eq_some_iff.1 ho).1
    have he : deleteObj heap h.obj = .ok (heap.set h.obj { o with alive := false }) := by
      unfold deleteObj; rw [ho]; simp [hal]
    obtain ⟨heap', e1, e2, e3, e4⟩ := ih (heap.set h.obj { o with alive := false }) hn.2 (by
      intro x hx
      have hne : h.obj ≠ x.obj := fun e => hn.1 (by rw [e]; exact List.mem_map_of_mem hx)
      rw [List.getElem?_set_ne hne]
      exact ha x (by simp [hx]))
    refine ⟨heap', ?_, by rw [e2]; simp, ?_, ?_⟩
    · unfold deleteAll; rw [he]; exact e1
    · intro x hx
      rcases List.mem_cons.1 hx with rfl | hx
      · exact ⟨_, by rw [e4 _ hn.1, List.getElem?_set_self hlt], rfl⟩
      · exact e3 x hx
    · intro k hk
      rw [List.map_cons, List.mem_cons, not_or] at hk
      rw [e4 k hk.2, List.getElem?_set_ne (Ne.symm hk.1)]

/-! ### Help -/

theorem splitOption_text (s : Bytes) :
    (splitOption s).2 = none → optionText s = s := by
  induction s with
  | nil => intro _; rfl
  | cons c s ih =>
    unfold splitOption optionText
    intro h
    by_cases hc : c = 58
    · simp [hc] at h
    · have hb : (c != 58) = true := by simp [hc]
      rw [List.takeWhile_cons, if_pos hb]
      by_cases h2 : c = 44
      · simp [h2] at h
        rw [show List.takeWhile (fun x => x != 58) s = optionText s from rfl, ih h]
      · simp [hc, h2] at h
        rw [show List.takeWhile (fun x => x != 58) s = optionText s from rfl, ih h]

theorem optionText_le (s : Bytes) : (optionText s).length ≤ helpStart s := by
  unfold helpStart
  cases h : (splitOption s).2 with
  | none => rw [splitOption_text s h]; exact Nat.le_refl _
  | some x => exact Nat.le_succ _

/-- The help list fits. -/
def Parser.fits (p : Parser) : Prop := ∀ h ∈ p.help, h.option.length ≤ p.maxHelp

theorem addOption_fits {p p' : Parser} (hp : p.fits) {o : OptSpec}
    (h : p.addOption o.text o.type o.defRight o.defLeft = .ok p') : p'.fits := by
  have key : ∀ (i : Nat) ns (q q' : Parser), Parser.enterAll i ns q = .ok q' →
      q'.help = q.help ∧ q'.maxHelp = q.maxHelp := by
    intro i ns
    induction ns with
    | nil => intro q q' h; cases h; exact ⟨rfl, rfl⟩
    | cons n ns ih =>
      intro q q' h
      unfold Parser.enterAll at h
      cases he : q.enter i n with
      | error e => rw [he] at h; cases h
      | ok q1 =>
        rw [he] at h
        have h1 := ih q1 q' h
        have h2 : q1.help = q.help ∧ q1.maxHelp = q.maxHelp := by
          unfold Parser.enter at he
          split at he
          · cases he; exact ⟨rfl, rfl⟩
          · split at he
            · split at he
              · cases he
              · cases he; exact ⟨rfl, rfl⟩
            · cases he; exact ⟨rfl, rfl⟩
        exact ⟨h1.1.trans h2.1, h1.2.trans h2.2⟩
  have main : ∀ (x : OptObj), (
      match Parser.enterAll p.heap.length (optionNames o.type o.text)
        { p with heap := p.heap ++ [x] } with
      | .error e => .error e
      | .ok q => .ok ⟨q.heap, q.map,
          q.help ++ [⟨optionText o.text, (splitOption o.text).2.getD [], p.heap.length⟩],
          max q.maxHelp (helpStart o.text)⟩ : Run Parser) = .ok p' → p'.fits := by
    intro x h
    split at h
    · cases h
    · rename_i q hq
      cases h
      obtain ⟨h1, h2⟩ := key _ _ _ _ hq
      intro y hy
      dsimp only at hy ⊢
      rw [h1] at hy
      rw [h2]
      rcases List.mem_append.1 hy with hy | hy
      · have := hp y hy
        dsimp only; omega
      · rw [List.mem_singleton] at hy
        subst hy
        have := optionText_le o.text
        dsimp only; omega
  unfold Parser.addOption at h
  cases ht : o.type with
  | leftArg => rw [ht] at h; cases h; exact hp
  | noArg => rw [ht] at h main; exact main _ h
  | rightArg => rw [ht] at h main; exact main _ h
  | bothArg => rw [ht] at h main; exact main _ h

end Zwt
