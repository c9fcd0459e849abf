import Verif.Proofs.ArgsTable

/-! Lemmas: finding options in a table without common names. -/

namespace Zwt

/-- Adding an option none of whose names is known, exactly. -/
theorem addOption_exact {p : Parser} (hw : p.Wf) (hg : p.Good) (o : OptSpec) (ht : o.type ≠ .leftArg)
    (hf : ∀ n ∈ o.names, p.find n = none) :
    ∃ p', p.addOption o.text o.type o.defRight o.defLeft = .ok p' ∧ p'.Wf ∧ p'.Good ∧
      p'.heap = p.heap ++ [o.obj] ∧
      ∀ n, p'.find n = if n ∈ o.names then some p.heap.length else p.find n := by
  have hnm : o.names = optionNames o.type o.text := by
    unfold OptSpec.names; rw [if_neg ht]
  obtain ⟨q, h1, h2, h3, h4⟩ := addOption_good hw hg o hf
  refine ⟨q, h1, addOption_wf hw h1, h2, ?_, ?_⟩
  · obtain ⟨m, hm⟩ := enterAll_fresh (i := p.heap.length) (optionNames o.type o.text)
      (p := { p with heap := p.heap ++ [o.obj] }) (fun n hn => Or.inl (hf n (by rw [hnm]; exact hn)))
    unfold OptSpec.obj at hm ⊢
    unfold Parser.addOption at h1
    cases hty : o.type with
    | leftArg => exact absurd hty ht
    | noArg =>
      rw [hty] at h1 hm
      dsimp only at h1
      rw [hm] at h1
      cases h1; rfl
    | rightArg =>
      rw [hty] at h1 hm
      dsimp only at h1
      rw [hm] at h1
      cases h1; rfl
    | bothArg =>
      rw [hty] at h1 hm
      dsimp only at h1
      rw [hm] at h1
      cases h1; rfl
  · rcases addOption_cases hw o.text o.type ht o.defRight o.defLeft with he |
      ⟨q', e1, _, _, _, _, _, e6⟩
    · rw [he] at h1; cases h1
    · rw [e1] at h1
      cases h1
      rw [hnm]
      exact e6

/-- Every option has its object, found by exactly its names. -/
theorem addAll_lookup (os : List OptSpec) {p p' : Parser} (hw : p.Wf) (hg : p.Good)
    (hsep : Separate os) (hf : ∀ o ∈ os, ∀ n ∈ o.names, p.find n = none)
    (h : Parser.addAll os p = .ok p') :
    (∀ k < p.heap.length, p'.heap[k]? = p.heap[k]? ∧ ∀ n, p'.find n = some k ↔ p.find n = some k) ∧
    (∀ n, p'.find n ≠ none → p.find n ≠ none ∨ ∃ o ∈ os, n ∈ o.names) ∧
    (∀ o ∈ os, o.type ≠ .leftArg → ∃ k, p'.heap[k]? = some o.obj ∧
      ∀ n, p'.find n = some k ↔ n ∈ o.names) := by
  induction os generalizing p with
  | nil =>
    cases h
    exact ⟨fun k hk => ⟨rfl, fun n => Iff.rfl⟩, fun n hn => Or.inl hn, by simp⟩
  | cons o os ih =>
    have hsep' := hsep
    unfold Separate at hsep
    rw [List.pairwise_cons] at hsep
    unfold Parser.addAll at h
    by_cases ht : o.type = .leftArg
    · have he : p.addOption o.text o.type o.defRight o.defLeft = .ok p := by rw [ht]; rfl
      rw [he] at h
      obtain ⟨i1, i2, i3⟩ := ih hw hg hsep.2 (fun x hx => hf x (by simp [hx])) h
      refine ⟨i1, ?_, ?_⟩
      · intro n hn
        rcases i2 n hn with h | ⟨x, hx, hxn⟩
        · exact Or.inl h
        · exact Or.inr ⟨x, by simp [hx], hxn⟩
      · intro x hx hxt
        rcases List.mem_cons.1 hx with rfl | hx
        · exact absurd ht hxt
        · exact i3 x hx hxt
    · obtain ⟨q, e1, e2, e3, e4, e5⟩ := addOption_exact hw hg o ht (hf o (by simp))
      rw [e1] at h
      obtain ⟨i1, i2, i3⟩ := ih e2 e3 hsep.2 (by
        intro x hx n hn
        rw [e5, if_neg (fun hh => hsep.1 x hx n hh hn)]
        exact hf x (by simp [hx]) n hn) h
      have hlen : q.heap.length = p.heap.length + 1 := by rw [e4]; simp
      refine ⟨?_, ?_, ?_⟩
      · intro k hk
        obtain ⟨j1, j2⟩ := i1 k (by omega)
        refine ⟨by rw [j1, e4, List.getElem?_append_left hk], fun n => ?_⟩
        rw [j2, e5]
        by_cases hn : n ∈ o.names
        · rw [if_pos hn, hf o (by simp) n hn]
          constructor
          · intro h; cases h; omega
          · intro h; cases h
        · rw [if_neg hn]
      · intro n hn
        rcases i2 n hn with h | ⟨x, hx, hxn⟩
        · rw [e5] at h
          by_cases hno : n ∈ o.names
          · exact Or.inr ⟨o, by simp, hno⟩
          · rw [if_neg hno] at h
            exact Or.inl h
        · exact Or.inr ⟨x, by simp [hx], hxn⟩
      · intro x hx hxt
        rcases List.mem_cons.1 hx with rfl | hx
        · obtain ⟨j1, j2⟩ := i1 p.heap.length (by omega)
          refine ⟨p.heap.length, by rw [j1, e4]; simp, fun n => ?_⟩
          rw [j2, e5]
          by_cases hn : n ∈ x.names
          · simp [hn]
          · rw [if_neg hn]
            constructor
            · intro h
              have := hw.bound n _ h
              omega
            · intro h; exact absurd h hn
        · exact i3 x hx hxt

/-- A parser built from options without common names. -/
theorem built {os : List OptSpec} (hsep : Separate os) {p : Parser}
    (h : Parser.addAll os Parser.new = .ok p) : p.Wf ∧ p.Good ∧
      (∀ n k, p.find n = some k → ∃ o ∈ os, o.type ≠ .leftArg ∧ n ∈ o.names ∧
        p.heap[k]? = some o.obj) ∧
      ∀ o ∈ os, o.type ≠ .leftArg → ∃ k, p.heap[k]? = some o.obj ∧
        ∀ n, p.find n = some k ↔ n ∈ o.names := by
  have hf : ∀ o ∈ os, ∀ n ∈ o.names, Parser.new.find n = none := fun _ _ _ _ => rfl
  obtain ⟨p', e1, e2, e3, _⟩ := addAll_good os new_wf new_good hsep hf
  rw [h] at e1
  cases e1
  obtain ⟨_, i2, i3⟩ := addAll_lookup os new_wf new_good hsep hf h
  refine ⟨e2, e3, ?_, i3⟩
  intro n k hk
  rcases i2 n (by rw [hk]; simp) with hh | ⟨o, ho, hn⟩
  · exact absurd rfl hh
  · have ht : o.type ≠ .leftArg := by
      intro ht
      unfold OptSpec.names at hn
      rw [if_pos ht] at hn
      cases hn
    obtain ⟨k', hk1, hk2⟩ := i3 o ho ht
    rw [(hk2 n).2 hn] at hk
    cases hk
    exact ⟨o, ho, ht, hn, hk1⟩

theorem built_table {os : List OptSpec} (hsep : Separate os) {p : Parser}
    (h : Parser.addAll os Parser.new = .ok p) {o : OptSpec} (ho : o ∈ os) (ht : o.type ≠ .leftArg) :
    ∃ k, p.heap[k]? = some o.obj ∧ (∀ n, p.find n = some k ↔ n ∈ o.names) ∧
      ∀ a, names p.table k a = decide (a ∈ o.names) := by
  obtain ⟨_, _, h3, h4⟩ := built hsep h
  obtain ⟨k, hk1, hk2⟩ := h4 o ho ht
  refine ⟨k, hk1, hk2, fun a => ?_⟩
  rw [Bool.eq_iff_iff, decide_eq_true_iff, ← hk2 a]
  unfold names Parser.table
  cases hf : p.find a with
  | none => simp
  | some j =>
    obtain ⟨_, _, _, _, hj⟩ := h3 a j hf
    simp [hj]

theorem built_plain {os : List OptSpec} (hsep : Separate os) (hpl : Plain os) {p : Parser}
    (h : Parser.addAll os Parser.new = .ok p) : plainTable p.table := by
  obtain ⟨_, _, h3, _⟩ := built hsep h
  intro n k t hn
  unfold Parser.table at hn
  cases hf : p.find n with
  | none => rw [hf] at hn; cases hn
  | some j =>
    obtain ⟨o, ho, _, hno, hj⟩ := h3 n j hf
    rw [hf] at hn
    simp [hj] at hn
    obtain ⟨rfl, rfl⟩ := hn
    exact ⟨(hpl o ho).2 n hno, (hpl o ho).1⟩

theorem behind_eq {tbl : Bytes → Option (Nat × ArgType)} {k : Nat} {ns : List Bytes}
    (h : ∀ a, names tbl k a = decide (a ∈ ns)) (l : List Bytes) :
    behind tbl k l = afterName ns l := by
  induction l with
  | nil => rfl
  | cons a l ih =>
    unfold behind afterName
    rw [h a, ih]
    by_cases ha : a ∈ ns <;> simp [ha]

theorem afterName_isSome (ns : List Bytes) (l : List Bytes) :
    (afterName ns l).isSome = true ↔ ∃ a ∈ l, a ∈ ns := by
  induction l with
  | nil => simp [afterName]
  | cons a l ih =>
    unfold afterName
    by_cases ha : a ∈ ns
    · simp [ha]
    · simp [ha, ih]

/-- The result of parsing, whenever it returns. -/
theorem parse_spec {p p' : Parser} {args : List Bytes} {left : List (Option Bytes)}
    (hu : p.unused) (h : p.parse args = .ok (p', left)) :
    left = (readArgs p.table [] [] args).1.map some ∧
      Rel p (readArgs p.table [] [] args).2 p' := by
  unfold Parser.parse at h
  have hm : args.map some ++ [none] = mem [] args [] := by simp [mem]
  rw [hm] at h
  cases hl : parseLoop (args.length + 1) p (mem [] args []) args.length 0 with
  | error e => rw [hl] at h; cases h
  | ok r =>
    obtain ⟨q, a, argc⟩ := r
    rw [hl] at h
    cases h
    refine parseLoop_spec (p := p) hu (args.length + 1) (q := p) (hits := []) (kept := [])
      (rest := args) (stale := []) ⟨rfl, ⟨rfl, rfl⟩, fun k => ?_⟩ (by intro x hx; cases hx) ?_
    · cases p.heap[k]? with
      | none => rfl
      | some o => rfl
    · simpa using hl

theorem parse_total {p : Parser} {args : List Bytes} (hu : p.unused) (hs : p.sane)
    (he : endsInName p.table [] args = true) : ∃ r, p.parse args = .ok r := by
  have hm : args.map some ++ [none] = mem [] args [] := by simp [mem]
  obtain ⟨⟨q, a, argc⟩, hr⟩ := parseLoop_total hu hs (args.length + 1) (q := p) (hits := [])
    (kept := []) (rest := args) (stale := []) ⟨rfl, ⟨rfl, rfl⟩, fun k => by
      cases p.heap[k]? with
      | none => rfl
      | some o => rfl⟩ (by intro x hx; cases hx) he (by omega)
  unfold Parser.parse
  rw [hm]
  rw [List.length_nil, Nat.zero_add] at hr
  rw [hr]
  exact ⟨_, rfl⟩

/-! ### Crashing behind options -/

/-- Options with their values, then arguments that are not names. -/
theorem parseLoop_crash {p : Parser} (hu : p.unused) (hs : p.sane)
    (pairs : List (Bytes × Bytes)) (a : Bytes) (rest : List Bytes) (stale : Argv)
    (hst : StaleOk (a :: rest) stale)
    {q : Parser} {hits : List Hit} (hrel : Rel p hits q)
    (hval : ∀ x ∈ pairs, dashed x.2 = false)
    (hname : ∀ x ∈ pairs, ∃ k, p.table x.1 = some (k, .rightArg) ∧
      hits.any (·.obj == k) = false)
    (hdist : (pairs.map (fun x => p.find x.1)).Nodup)
    (hno : ∀ s ∈ a :: rest, p.find s = none)
    (hlen : (a :: rest).length + stale.length + 2 * pairs.length ≤ a.length) (fuel : Nat)
    (hfuel : pairs.length < fuel) :
    parseLoop fuel q (mem [] (pairs.flatMap (fun x => [x.1, x.2]) ++ a :: rest) stale)
      (pairs.flatMap (fun x => [x.1, x.2]) ++ a :: rest).length 0 = .error .nullDeref := by
  induction pairs generalizing q hits stale fuel with
  | nil =>
    cases fuel with
    | zero => omega
    | succ fuel =>
      simp only [List.flatMap_nil, List.nil_append]
      have hrun : ∀ j, 0 ≤ j → j < 0 + ((a :: rest).length + stale.length) →
          ∃ s, (mem [] (a :: rest) stale)[j]? = some (some s) ∧ q.find s = none := by
        intro j _ hj
        rw [Nat.zero_add] at hj
        by_cases hj1 : j < (a :: rest).length
        · have := mem_get_rest [] (a :: rest) stale j hj1
          rw [List.length_nil, Nat.zero_add] at this
          exact ⟨_, this, by rw [hrel.find]; exact hno _ (List.getElem_mem hj1)⟩
        · have hj2 : j - (a :: rest).length < stale.length := by omega
          have he : (mem [] (a :: rest) stale)[j]? = some (stale[j - (a :: rest).length]) := by
            unfold mem
            rw [List.getElem?_append_right (by simp at hj1 ⊢; omega)]
            rw [List.getElem?_append_left (by simp at hj2 ⊢; omega)]
            rw [List.getElem?_eq_getElem (by simp at hj2 ⊢; omega)]
            simp
          have hx := hst _ (List.getElem_mem hj2) (by simp)
          refine ⟨(a :: rest).getLast (by simp), by rw [he, hx], ?_⟩
          rw [hrel.find]
          exact hno _ (List.getLast_mem _)
      have hnull : (mem [] (a :: rest) stale)[0 + ((a :: rest).length + stale.length)]? =
          some none := by
        unfold mem
        rw [List.getElem?_append_right (by simp), List.getElem?_append_right (by simp)]
        simp
      unfold parseLoop
      rw [if_pos (by simp), show argAt (mem [] (a :: rest) stale) 0 = .ok a from mem_at [] rest _ a]
      dsimp only
      rcases Nat.lt_or_ge ((a :: rest).length + stale.length) a.length with hlt | hge
      · rw [skipLoop_null _ _ 0 hlt hrun hnull]
      · have he : a.length = (a :: rest).length + stale.length := by
          simp at hlen hge ⊢; omega
        rw [he, skipLoop_run _ 0 hrun]
        dsimp only
        have : argAt (mem [] (a :: rest) stale) (0 + ((a :: rest).length + stale.length)) =
            .error .nullDeref := by
          unfold argAt
          rw [hnull]
        rw [this]
  | cons x pairs ih =>
    obtain ⟨n, v⟩ := x
    cases fuel with
    | zero => simp at hfuel
    | succ fuel =>
      obtain ⟨k, htk, hhk⟩ := hname (n, v) (by simp)
      dsimp only at htk
      have hv : dashed v = false := hval (n, v) (by simp)
      obtain ⟨hfk, o, ho, hok⟩ : p.find n = some k ∧ ∃ o, p.heap[k]? = some o ∧
          o.kind = .rightArg := by
        unfold Parser.table at htk
        cases hf : p.find n with
        | none => rw [hf] at htk; cases htk
        | some j =>
          rw [hf] at htk
          cases hj : p.heap[j]? with
          | none => simp [hj] at htk
          | some o =>
            simp [hj] at htk
            obtain ⟨rfl, h2⟩ := htk
            exact ⟨rfl, o, hj, h2⟩
      generalize hR : pairs.flatMap (fun x => [x.1, x.2]) ++ a :: rest = R
      have hRne : R ≠ [] := by rw [← hR]; simp
      have hcat : ((n, v) :: pairs).flatMap (fun x => [x.1, x.2]) ++ a :: rest = n :: v :: R := by
        rw [← hR]; simp
      rw [hcat]
      unfold parseLoop
      rw [if_pos (by simp), show argAt (mem [] (n :: v :: R) stale) 0 = .ok n from mem_at [] _ _ n]
      dsimp only
      have hskip : ∀ m, skipLoop q (mem [] (n :: v :: R) stale) m 0 = .ok 0 := by
        intro m
        induction m with
        | zero => rfl
        | succ m ihm =>
          unfold skipLoop
          rw [show argAt (mem [] (n :: v :: R) stale) 0 = .ok n from mem_at [] _ _ n]
          dsimp only
          rw [if_neg (by rw [hrel.find, hfk]; simp), ihm]
      rw [hskip]
      dsimp only
      rw [show argAt (mem [] (n :: v :: R) stale) 0 = .ok n from mem_at [] _ _ n]
      dsimp only
      rw [hrel.find, hfk]
      dsimp only
      obtain ⟨o1, o0, hob, ho0, hoo⟩ := hrel.obj hs hfk
      rw [ho] at ho0
      cases ho0
      rw [after_none hhk] at hoo
      subst hoo
      have hnf : o1.found = false := hu o1 (List.mem_of_getElem? ho)
      have htake : takeOption q k (mem [] (n :: v :: R) stale) (n :: v :: R).length 0 =
          .ok ({ q with heap := q.heap.set k { o1 with found := true, right := v } },
            mem [] R (some ((v :: R).getLast (by simp)) :: some ((n :: v :: R).getLast (by simp)) :: stale),
            R.length, 0) := by
        unfold takeOption
        rw [hob]
        dsimp only
        rw [if_neg (by simp [hnf]), if_pos (by simp), hok]
        dsimp only
        have e1 : shiftDown (mem [] (n :: v :: R) stale) 0 ((n :: v :: R).length - 1 - 0) =
            mem [] (v :: R) (some ((n :: v :: R).getLast (by simp)) :: stale) := by
          have := mem_shift [] (v :: R) stale n
          simpa using this
        rw [e1]
        have e2 := takeRight_eq q k { o1 with found := true, kind := .rightArg } [] R v
          (some ((n :: v :: R).getLast (by simp)) :: stale)
        rw [hv] at e2
        rw [show ([] : List Bytes).length + (v :: R).length = (n :: v :: R).length - 1 by simp] at e2
        rw [show ([] : List Bytes).length = 0 from rfl] at e2
        obtain ⟨kd, fo, ro, lo, al⟩ := o1
        dsimp only at hok
        subst hok
        rw [e2]
        simp
      rw [htake]
      dsimp only
      have hl1 : ∀ (h : (v :: R) ≠ []), (v :: R).getLast h = R.getLast hRne :=
        fun h => List.getLast_cons hRne
      have hl2 : ∀ (h : (n :: v :: R) ≠ []), (n :: v :: R).getLast h = R.getLast hRne := by
        intro h
        rw [List.getLast_cons (by simp), hl1]
      have hl3 : R.getLast hRne = (a :: rest).getLast (by simp) := by
        have : R.getLast? = (a :: rest).getLast? := by
          rw [← hR, List.getLast?_append, List.getLast?_eq_some_getLast (by simp : a :: rest ≠ [])]
          rfl
        rw [List.getLast?_eq_some_getLast hRne,
          List.getLast?_eq_some_getLast (by simp : a :: rest ≠ [])] at this
        exact Option.some.inj this
      rw [hl1, hl2]
      have hdist' := hdist
      rw [List.map_cons, List.nodup_cons] at hdist'
      have := ih (some (R.getLast hRne) :: some (R.getLast hRne) :: stale) (by
          intro z hz hne
          rcases List.mem_cons.1 hz with rfl | hz
          · rw [hl3]
          · rcases List.mem_cons.1 hz with rfl | hz
            · rw [hl3]
            · exact hst z hz hne)
        (q := { q with heap := q.heap.set k { o1 with found := true, right := v } })
        (hits := hits ++ [⟨k, none, some v⟩])
        (hrel.hit ho hhk none (some v) _ rfl)
        (fun x hx => hval x (by simp [hx]))
        (by
          intro x hx
          obtain ⟨k', h1, h2⟩ := hname x (by simp [hx])
          refine ⟨k', h1, ?_⟩
          rw [List.any_append, h2]
          have hkk : k ≠ k' := by
            rintro rfl
            apply hdist'.1
            have : p.find x.1 = some k := by
              unfold Parser.table at h1
              cases hf : p.find x.1 with
              | none => rw [hf] at h1; cases h1
              | some j =>
                rw [hf] at h1
                cases hj : p.heap[j]? with
                | none => simp [hj] at h1
                | some o =>
                  simp [hj] at h1
                  rw [h1.1]
            rw [List.mem_map]
            exact ⟨x, hx, by rw [this, hfk]⟩
          simp [hkk])
        hdist'.2 (by simp at hlen ⊢; omega) fuel (by simp at hfuel; omega)
      rw [hR] at this
      exact this

end Zwt
