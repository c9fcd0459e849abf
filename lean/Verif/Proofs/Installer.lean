import Verif.Spec.Installer

/-! The installer's string handling. -/

namespace Zwt

theorem afterKey_some {key : Bytes} (hk : key ≠ []) : ∀ {text s : Bytes}, afterKey key text = some s →
    ∃ a, text = a ++ key ++ s ∧ ∀ a', a' ++ key <+: text → a.length ≤ a'.length
  | [], s, h => by rw [afterKey, if_neg hk] at h; cases h
  | c :: t, s, h => by
    rw [afterKey] at h
    by_cases hp : key.isPrefixOf (c :: t)
    · rw [if_pos hp] at h
      cases h
      obtain ⟨r, hr⟩ := List.isPrefixOf_iff_prefix.mp hp
      refine ⟨[], ?_, fun _ _ => Nat.zero_le _⟩
      rw [← hr, List.drop_left' rfl]
      rfl
    · rw [if_neg hp] at h
      obtain ⟨a, h1, h2⟩ := afterKey_some hk h
      refine ⟨c :: a, by rw [h1]; simp, ?_⟩
      intro a' ha'
      cases a' with
      | nil => exact absurd (List.isPrefixOf_iff_prefix.mpr ha') hp
      | cons x a' =>
        rw [List.cons_append, List.cons_prefix_cons] at ha'
        have := h2 a' ha'.2
        simp only [List.length_cons]
        omega

theorem afterKey_none {key : Bytes} (hk : key ≠ []) : ∀ {text : Bytes}, afterKey key text = none →
    ∀ a, ¬ a ++ key <+: text
  | [], _, a, hp => by
    have := hp.length_le
    have := List.length_pos_iff.2 hk
    simp only [List.length_append, List.length_nil] at *
    omega
  | c :: t, h, a, hp => by
    rw [afterKey] at h
    split at h
    · cases h
    · rename_i hn
      cases a with
      | nil => exact hn (List.isPrefixOf_iff_prefix.mpr hp)
      | cons x a =>
        rw [List.cons_append, List.cons_prefix_cons] at hp
        exact afterKey_none hk h a hp.2

theorem dropWhile_split (p : UInt8 → Bool) (s : Bytes) :
    ∃ ws, s = ws ++ s.dropWhile p ∧ (∀ c ∈ ws, p c = true) ∧
      ∀ c r, s.dropWhile p = c :: r → p c = false := by
  induction s with
  | nil => exact ⟨[], rfl, by simp, by simp⟩
  | cons x s ih =>
    obtain ⟨ws, h1, h2, h3⟩ := ih
    by_cases hx : p x = true
    · refine ⟨x :: ws, ?_, ?_, ?_⟩
      · rw [List.dropWhile_cons_of_pos hx, List.cons_append, ← h1]
      · simpa [hx] using h2
      · rw [List.dropWhile_cons_of_pos hx]; exact h3
    · refine ⟨[], ?_, by simp, ?_⟩
      · rw [List.dropWhile_cons_of_neg hx]; rfl
      · rw [List.dropWhile_cons_of_neg hx]
        intro c r h
        cases h
        simpa using hx

theorem takeWhile_split (p : UInt8 → Bool) (s : Bytes) :
    ∃ rest, s = s.takeWhile p ++ rest ∧ (∀ c ∈ s.takeWhile p, p c = true) ∧
      (rest = [] ∨ ∃ c r, rest = c :: r ∧ p c = false) := by
  refine ⟨s.dropWhile p, (List.takeWhile_append_dropWhile).symm, ?_, ?_⟩
  · intro c hc
    induction s with
    | nil => simp at hc
    | cons x s ih =>
      rw [List.takeWhile_cons] at hc
      split at hc
      · rename_i hx
        rcases List.mem_cons.mp hc with rfl | hc
        · exact hx
        · exact ih hc
      · simp at hc
  · obtain ⟨_, _, _, h⟩ := dropWhile_split p s
    cases hd : s.dropWhile p with
    | nil => exact .inl rfl
    | cons c r => exact .inr ⟨c, r, rfl, h c r hd⟩

theorem mem_stop (c : UInt8) : ([32, 9, 10, 13] : Bytes).contains c = true ↔ EndsValue c := by
  simp [EndsValue]

/-- The field functions on terminated arrays. -/
theorem fieldValue_field {env : AptEnv} (h1 : env.behind1 = some []) (h2 : env.behind2 = some [])
    {key text s : Bytes} (hk : key ≠ []) (h : afterKey key text = some s) :
    ∃ v, fieldValue env s = .ok v ∧ FieldOf key text v := by
  obtain ⟨a, e, hmin⟩ := afterKey_some hk h
  refine ⟨(s.dropWhile (([32, 9] : Bytes).contains ·)).takeWhile
    (!([32, 9, 10, 13] : Bytes).contains ·), ?_, ?_⟩
  · simp only [fieldValue, asString, h1, h2, List.append_nil]
  · obtain ⟨ws, w1, w2, w3⟩ := dropWhile_split (([32, 9] : Bytes).contains ·) s
    generalize s.dropWhile (([32, 9] : Bytes).contains ·) = u at w1 w3 ⊢
    obtain ⟨rest, r1, r2, r3⟩ := takeWhile_split (!([32, 9, 10, 13] : Bytes).contains ·) u
    generalize u.takeWhile (!([32, 9, 10, 13] : Bytes).contains ·) = v at r1 r2 ⊢
    refine ⟨a, ws, rest, ?_, hmin, ?_, ?_, ?_, ?_⟩
    · rw [e, w1, r1]; simp
    · intro c hc; simpa using w2 c hc
    · intro c hc he
      have := r2 c hc
      rw [(mem_stop c).mpr he] at this
      cases this
    · rcases r3 with h | ⟨c, r, h, hp⟩
      · exact .inl h
      · exact .inr ⟨c, r, h, (mem_stop c).mp (Bool.not_eq_false' .. ▸ hp)⟩
    · rintro rfl c r rfl
      have hw := w3 c r r1
      rcases r3 with h | ⟨c', r', h, hp⟩
      · cases h
      · cases h
        have he := (mem_stop c).mp (Bool.not_eq_false' .. ▸ hp)
        rcases he with he | he | he | he
        · subst he; simp at hw
        · subst he; simp at hw
        · exact .inl he
        · exact .inr he

/-- A field has one value. -/
theorem FieldOf.unique {key text v v' : Bytes} (h : FieldOf key text v) (h' : FieldOf key text v') :
    v = v' := by
  obtain ⟨a, ws, rest, e, m, f1, f2, f3, f4⟩ := h
  obtain ⟨a', ws', rest', e', m', g1, g2, g3, g4⟩ := h'
  have la : a.length = a'.length := by
    have p1 : a ++ key <+: text := ⟨ws ++ v ++ rest, by rw [e]; simp⟩
    have p2 : a' ++ key <+: text := ⟨ws' ++ v' ++ rest', by rw [e']; simp⟩
    have := m a' p2
    have := m' a p1
    omega
  have e2 : ws ++ (v ++ rest) = ws' ++ (v' ++ rest') := by
    have := e.symm.trans e'
    simp only [List.append_assoc] at this
    have := (List.append_inj this la).2
    exact List.append_cancel_left this
  have hno : ∀ {u t : Bytes}, (∀ c ∈ u, ¬ EndsValue c) → (t = [] ∨ ∃ c r, t = c :: r ∧ EndsValue c) →
      (u = [] → ∀ c r, t = c :: r → c = 10 ∨ c = 13) → ∀ c r, u ++ t = c :: r → ¬ (c = 32 ∨ c = 9) := by
    intro u t k1 k2 k3 c r hc hb
    cases u with
    | nil =>
      rcases k3 rfl c r hc with h | h <;> subst h <;> revert hb <;> decide
    | cons x u =>
      cases hc
      exact k1 c (by simp) (by rcases hb with h | h <;> simp [EndsValue, h])
  have e3 : v ++ rest = v' ++ rest' := by
    have hx := hno f2 f3 f4
    have hy := hno g2 g3 g4
    generalize v ++ rest = x at *
    generalize v' ++ rest' = y at *
    clear e e' m m' la f3 g3 f4 g4 f2 g2
    induction ws generalizing ws' with
    | nil =>
      cases ws' with
      | nil => simpa using e2
      | cons c ws' => exact absurd (g1 c (by simp)) (hx c _ (by simpa using e2))
    | cons b ws ih =>
      cases ws' with
      | nil => exact absurd (f1 b (by simp)) (hy b _ (by simpa using e2.symm))
      | cons c ws' =>
        simp only [List.cons_append, List.cons.injEq] at e2
        exact ih (fun c hc => f1 c (by simp [hc])) ws' (fun c hc => g1 c (by simp [hc])) e2.2
  clear e e' e2 m m' f4 g4 f1 g1 la
  induction v generalizing v' with
  | nil =>
    cases v' with
    | nil => rfl
    | cons c v' =>
      rcases f3 with rfl | ⟨d, r, rfl, hd⟩
      · simp at e3
      · simp only [List.nil_append, List.cons_append, List.cons.injEq] at e3
        exact absurd hd (g2 d (by rw [e3.1]; simp))
  | cons b v ih =>
    cases v' with
    | nil =>
      rcases g3 with rfl | ⟨d, r, rfl, hd⟩
      · simp at e3
      · simp only [List.nil_append, List.cons_append, List.cons.injEq] at e3
        exact absurd hd (f2 d (by rw [← e3.1]; simp))
    | cons c v' =>
      simp only [List.cons_append, List.cons.injEq] at e3
      rw [e3.1, ih (fun c hc => f2 c (by simp [hc])) (fun c hc => g2 c (by simp [hc])) e3.2]

/-- No field without the key. -/
theorem FieldOf.key {key text v : Bytes} (h : FieldOf key text v) (hk : key ≠ []) :
    ∃ s, afterKey key text = some s := by
  cases hs : afterKey key text with
  | some s => exact ⟨s, rfl⟩
  | none =>
    obtain ⟨a, ws, rest, e, _⟩ := h
    exact absurd ⟨ws ++ v ++ rest, by rw [e]; simp⟩ (afterKey_none hk hs a)

theorem FieldOf.length {key text v : Bytes} (h : FieldOf key text v) :
    key.length + v.length ≤ text.length := by
  obtain ⟨a, ws, rest, e, _⟩ := h
  have := congrArg List.length e
  simp only [List.length_append] at this
  omega

end Zwt
