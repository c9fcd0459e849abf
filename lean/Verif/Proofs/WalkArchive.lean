import Verif.Proofs.Walk
import Verif.Proofs.Forest

/-! Facts about selections, extra buffers, and the archive around the records. -/

namespace Zwt

variable {σ : Type}

/-! ### Selections -/

theorem accepted_append (a b : List (Bytes × Entry × Int)) :
    accepted (a ++ b) = accepted a ++ accepted b := by simp [accepted]

theorem accepted_cons (x : Bytes × Entry × Int) (b : List (Bytes × Entry × Int)) :
    accepted (x :: b) =
      if x.2.2 = 0 ∧ x.2.1.ty ≠ .other then (x.1, x.2.1) :: accepted b else accepted b := by
  unfold accepted
  by_cases h : x.2.2 = 0 ∧ x.2.1.ty ≠ .other
  · rw [List.filter_cons_of_pos (by simpa using h), if_pos h]; rfl
  · rw [List.filter_cons_of_neg (by simpa using h), if_neg h]

/-- What a traversal archives are the accepted entries, in order; if it fails there is one more,
the last. -/
theorem select_accepted (flt : Filter σ) (f : Forest) : ∀ (dir : Bytes) (fs : σ),
    ((select flt dir f fs).status ≠ .failed →
      (select flt dir f fs).forest.entries dir = accepted (select flt dir f fs).shown) := by
  induction f with
  | nil => intro dir fs _; rfl
  | file n m c r ih =>
    intro dir fs
    simp only [select, askFilter]
    by_cases h0 : (flt fs dir ⟨n, .file⟩).1 = 0
    · simp only [if_true, accepted_cons, h0]
      intro h; simp [Sel.add, Forest.entries, ih _ _ h]
    · by_cases h7 : (flt fs dir ⟨n, .file⟩).1 = 387
      · simp only [if_neg h0, if_pos h7, accepted_cons]
        simp [h7, Forest.entries, accepted]
      · simp only [if_neg h0, if_neg h7, accepted_cons]
        simpa [h0] using ih dir _
  | link n m c r ih =>
    intro dir fs
    simp only [select, askFilter]
    by_cases h0 : (flt fs dir ⟨n, .symlink⟩).1 = 0
    · simp only [if_true, accepted_cons, h0]
      intro h; simp [Sel.add, Forest.entries, ih _ _ h]
    · by_cases h7 : (flt fs dir ⟨n, .symlink⟩).1 = 387
      · simp only [if_neg h0, if_pos h7, accepted_cons]
        simp [h7, Forest.entries, accepted]
      · simp only [if_neg h0, if_neg h7, accepted_cons]
        simpa [h0] using ih dir _
  | dir n m s r ihs ih =>
    intro dir fs
    simp only [select, askFilter]
    by_cases h0 : (flt fs dir ⟨n, .dir⟩).1 = 0
    · simp only [if_true, accepted_cons, h0]
      simp only [ne_eq, reduceCtorEq, not_false_eq_true, and_self, if_true]
      unfold Sel.close
      cases hs : (select flt (pathOf dir n) s (flt fs dir ⟨n, .dir⟩).2).status with
      | done =>
        intro h
        simp only at h
        simp only [Forest.entries, accepted_append, ih _ _ h]
        rw [ihs _ _ (by simp [hs])]
        rfl
      | stopped =>
        intro h
        simp only [Forest.entries, List.append_nil]
        rw [ihs _ _ (by simp [hs])]
      | failed =>
        intro h
        exact absurd rfl h
    · by_cases h7 : (flt fs dir ⟨n, .dir⟩).1 = 387
      · simp only [if_neg h0, if_pos h7, accepted_cons]
        simp [h7, Forest.entries, accepted]
      · simp only [if_neg h0, if_neg h7, accepted_cons]
        simpa [h0] using ih dir _
  | other n r ih =>
    intro dir fs
    simp only [select, askFilter]
    by_cases h0 : (flt fs dir ⟨n, .other⟩).1 = 0
    · simp only [if_true, accepted_cons, h0]
      simpa using ih dir _
    · by_cases h7 : (flt fs dir ⟨n, .other⟩).1 = 387
      · simp only [if_neg h0, if_pos h7, accepted_cons]
        simp [Forest.entries, accepted]
      · simp only [if_neg h0, if_neg h7, accepted_cons]
        simpa [h0] using ih dir _
  | bad n r ih =>
    intro dir fs
    simp only [select, askFilter]
    by_cases h0 : (flt fs dir ⟨n, .file⟩).1 = 0
    · simp [if_pos h0]
    · by_cases h7 : (flt fs dir ⟨n, .file⟩).1 = 387
      · simp only [if_neg h0, if_pos h7, accepted_cons]
        simp [h7, Forest.entries, accepted]
      · simp only [if_neg h0, if_neg h7, accepted_cons]
        simpa [h0] using ih dir _

/-- The history of filter calls in terms of results: a stop request ends it, and it ends so only
then; a failure is that of an accepted file, the last one shown. -/
structure History (s : Sel σ) : Prop where
  stop : ∀ l1 x l2, s.shown = l1 ++ x :: l2 → x.2.2 = 387 → l2 = []
  stopped : s.status = .stopped ↔ ∃ x, s.shown.getLast? = some x ∧ x.2.2 = 387
  failed : s.status = .failed → ∃ x, s.shown.getLast? = some x ∧ x.2.2 = 0 ∧ x.2.1.ty = .file

theorem cons_split {α} {a : α} {l l1 l2 : List α} {x : α} (h : a :: l = l1 ++ x :: l2) :
    (l1 = [] ∧ a = x ∧ l = l2) ∨ ∃ l1', l1 = a :: l1' ∧ l = l1' ++ x :: l2 := by
  cases l1 with
  | nil => simp at h; exact .inl ⟨rfl, h.1, h.2⟩
  | cons b l1 =>
    simp only [List.cons_append, List.cons.injEq] at h
    exact .inr ⟨l1, by rw [h.1], h.2⟩

theorem History.cons {s : Sel σ} (h : History s) (x : Bytes × Entry × Int) (h7 : x.2.2 ≠ 387) :
    History { s with shown := x :: s.shown } := by
  obtain ⟨a, b, c⟩ := h
  refine ⟨?_, ?_, ?_⟩
  · intro l1 y l2 he hy
    rcases cons_split he with ⟨rfl, rfl, rfl⟩ | ⟨l1', rfl, he'⟩
    · exact absurd hy h7
    · exact a l1' y l2 he' hy
  · simp only
    rw [b]
    constructor
    · rintro ⟨y, hy, h⟩
      refine ⟨y, ?_, h⟩
      rw [List.getLast?_cons, hy]; rfl
    · rintro ⟨y, hy, h⟩
      rw [List.getLast?_cons] at hy
      cases hl : s.shown.getLast? with
      | none => rw [hl] at hy; simp at hy; subst hy; exact absurd h h7
      | some z => rw [hl] at hy; simp at hy; subst hy; exact ⟨z, rfl, h⟩
  · intro h
    obtain ⟨y, hy, h⟩ := c h
    refine ⟨y, ?_, h⟩
    simp only [List.getLast?_cons, hy]; rfl

/-- Asking the filter. -/
theorem History.ask {flt : Filter σ} {dir : Bytes} {e : Entry} {fs : σ} {skip take : σ → Sel σ}
    (hs : ∀ fs, History (skip fs)) (ht : ∀ fs, (flt fs dir e).1 = 0 →
      History { take (flt fs dir e).2 with
        shown := (dir, e, (flt fs dir e).1) :: (take (flt fs dir e).2).shown }) :
    History (askFilter flt dir e fs skip take) := by
  unfold askFilter
  by_cases h0 : (flt fs dir e).1 = 0
  · simp only [if_pos h0]
    exact ht fs h0
  · by_cases h7 : (flt fs dir e).1 = 387
    · simp only [if_neg h0, if_pos h7]
      refine ⟨?_, ?_, ?_⟩
      · intro l1 x l2 he _
        rcases cons_split he with ⟨rfl, rfl, rfl⟩ | ⟨l1', rfl, he'⟩
        · rfl
        · simp at he'
      · simp [h7]
      · simp
    · simp only [if_neg h0, if_neg h7]
      exact (hs _).cons _ h7

theorem History.nil (fs : σ) : History (⟨.nil, fs, .done, []⟩ : Sel σ) :=
  ⟨by simp, by simp, by simp⟩

theorem getLast?_append_some {α} {a b : List α} {x : α} (h : b.getLast? = some x) :
    (a ++ b).getLast? = some x := by
  rw [getLast?_append_ne (by intro hb; simp [hb] at h), h]

theorem History.close {s : Sel σ} {go : σ → Sel σ} (hs : History s) (hgo : ∀ fs, History (go fs))
    (n : Bytes) (m : Nat) : History (s.close n m go) := by
  obtain ⟨a, b, c⟩ := hs
  unfold Sel.close
  cases hst : s.status with
  | stopped => rw [hst] at b c; exact ⟨a, b, c⟩
  | failed => rw [hst] at b c; exact ⟨a, b, c⟩
  | done =>
    obtain ⟨a', b', c'⟩ := hgo s.fs
    have hn : ∀ x ∈ s.shown, x.2.2 ≠ 387 := by
      intro x hx h7
      obtain ⟨l1, l2, he⟩ := List.append_of_mem hx
      have := a l1 x l2 he h7
      subst this
      have : s.status = .stopped := b.mpr ⟨x, by rw [he]; simp, h7⟩
      rw [this] at hst
      cases hst
    refine ⟨?_, ?_, ?_⟩
    · intro l1 x l2 he hx
      rcases List.append_eq_append_iff.mp he with ⟨t, h1, h2⟩ | ⟨t, h1, h2⟩
      · exact a' t x l2 h2 hx
      · cases t with
        | nil => exact a' [] x l2 (by simpa using h2.symm) hx
        | cons y t =>
          simp only [List.cons_append, List.cons.injEq] at h2
          obtain ⟨rfl, _⟩ := h2
          exact absurd hx (hn x (by rw [h1]; simp))
    · simp only
      rw [b']
      constructor
      · rintro ⟨y, hy, h⟩
        exact ⟨y, getLast?_append_some hy, h⟩
      · rintro ⟨y, hy, h⟩
        rw [List.getLast?_append] at hy
        cases hl : (go s.fs).shown.getLast? with
        | none =>
          rw [hl] at hy
          exact absurd h (hn y (List.mem_of_getLast? (by simpa using hy)))
        | some z => rw [hl] at hy; simp at hy; subst hy; exact ⟨z, rfl, h⟩
    · intro h
      obtain ⟨y, hy, h⟩ := c' h
      exact ⟨y, getLast?_append_some hy, h⟩

theorem History.add {s : Sel σ} (h : History s) (f : Forest → Forest) : History (s.add f) :=
  ⟨h.stop, h.stopped, h.failed⟩

theorem select_history (flt : Filter σ) (f : Forest) : ∀ (dir : Bytes) (fs : σ),
    History (select flt dir f fs) := by
  induction f with
  | nil => intro dir fs; exact History.nil fs
  | file n m c r ih =>
    intro dir fs
    exact History.ask (ih dir) fun fs h => ((ih dir _).add _).cons _ (by simp [h])
  | link n m c r ih =>
    intro dir fs
    exact History.ask (ih dir) fun fs h => ((ih dir _).add _).cons _ (by simp [h])
  | dir n m s r ihs ih =>
    intro dir fs
    exact History.ask (ih dir) fun fs h => ((ihs _ _).close (ih dir) _ _).cons _ (by simp [h])
  | other n r ih =>
    intro dir fs
    exact History.ask (ih dir) fun fs h => (ih dir _).cons _ (by simp [h])
  | bad n r ih =>
    intro dir fs
    refine History.ask (ih dir) fun fs h => ⟨?_, ?_, ?_⟩
    · intro l1 x l2 he _
      rcases cons_split he with ⟨rfl, rfl, rfl⟩ | ⟨l1', rfl, he'⟩
      · rfl
      · simp at he'
    · simp [h]
    · intro _; exact ⟨_, rfl, h, rfl⟩

/-! ### Extra buffers -/

theorem extraRoot_good (env : Env) (henv : env.ok) (w : W σ) (x : Extra) (hx : x.fits) :
    ∃ new, extraRoot env w x = .ok (0, { w with out := w.out ++ new }) ∧
      (∀ b ∈ new, b.length < U32) ∧
      Encodes (.file x.path x.mode x.content .nil) new.flatten := by
  obtain ⟨item, p, q, a1, a2, a3, a4, a5⟩ := asFile_good w (m := env.itemMem w.out.length)
    (content := x.content) (pieces := [x.content]) (henv _) hx.path hx.mode
    (by have := hx.content; omega) (by simp)
  refine ⟨_, a1, ?_, ?_⟩
  · have h1 := hx.path
    have h2 := hx.content
    simp only [List.mem_append, List.mem_cons, List.not_mem_nil, or_false]
    rintro b (((rfl | rfl | rfl) | rfl) | rfl) <;> simp only [U32] <;> omega
  · simpa using a5 .nil [] .nil

theorem extras_root_good (env : Env) (henv : env.ok) (xs : List Extra) (hx : ∀ x ∈ xs, x.fits)
    (w : W σ) :
    ∃ new, extras (extraRoot env) xs w = .ok (true, { w with out := w.out ++ new }) ∧
      (∀ b ∈ new, b.length < U32) ∧ Encodes (rootForest xs) new.flatten := by
  induction xs generalizing w with
  | nil => exact ⟨[], by simp [extras], by simp, .nil⟩
  | cons x xs ih =>
    obtain ⟨n1, a1, a2, a3⟩ := extraRoot_good env henv w x (hx x List.mem_cons_self)
    obtain ⟨n2, b1, b2, b3⟩ := ih (fun y hy => hx y (List.mem_cons_of_mem _ hy))
      { w with out := w.out ++ n1 }
    refine ⟨n1 ++ n2, ?_, ?_, ?_⟩
    · simp only [extras, a1, ne_eq, not_true_eq_false, if_false, b1, List.append_assoc]
    · intro b hb
      rcases List.mem_append.mp hb with h | h
      · exact a2 b h
      · exact b2 b h
    · rw [List.flatten_append]
      exact a3.append b3

theorem extraParts_good (env : Env) (henv : env.ok) (content : Bytes)
    (hc : content.length < 2 ^ 32) (rest : List Bytes) : ∀ (name : Bytes) (w : W σ),
    name.length + 8 < 2 ^ 32 → (∀ p ∈ rest, p.length + 8 < 2 ^ 32) →
    ∃ new, extraParts env content name rest w = .ok (0, { w with out := w.out ++ new }) ∧
      (∀ b ∈ new, b.length < U32) ∧ Encodes (nest 0o644 content name rest) new.flatten := by
  induction rest with
  | nil =>
    intro name w hn _
    exact extraRoot_good env henv w ⟨name, content, MODE_0644⟩ ⟨hn, hc, (by decide : MODE_0644 < 2 ^ 32)⟩
  | cons next rest ih =>
    intro name w hn hr
    obtain ⟨k, k1, k2, k3, k4⟩ := putItem_ok w (itemPlain (env.itemMem w.out.length) name 0
      K_DIR_START) hn
    obtain ⟨s1, s2⟩ := itemPlain_fields (mode := 0) (kind := K_DIR_START)
      (henv w.out.length) hn (by decide)
    obtain ⟨e1, e2⟩ := itemPlain_fields (mode := 0) (kind := K_DIR_END)
      (henv w.out.length) hn (by decide)
    simp only [itemFields, ItemFields.mk.injEq] at s2 e2
    obtain ⟨_, _, f3, f4, f5, f6⟩ := s2
    obtain ⟨_, _, _, _, _, g6⟩ := e2
    obtain ⟨new, p1, p2, p3⟩ := ih next { w with
      out := w.out ++ [itemPlain (env.itemMem w.out.length) name 0 K_DIR_START, name,
        List.replicate k 0] } (hr next List.mem_cons_self)
      (fun p hp => hr p (List.mem_cons_of_mem _ hp))
    refine ⟨[itemPlain (env.itemMem w.out.length) name 0 K_DIR_START, name, List.replicate k 0] ++
      new ++ [itemPlain (env.itemMem w.out.length) name 0 K_DIR_END], ?_, ?_, ?_⟩
    · simp only [extraParts, k4, p1, W.put]
      simp
    · simp only [List.mem_append, List.mem_cons, List.not_mem_nil, or_false]
      rintro x (((rfl | rfl | rfl) | hx) | rfl)
      all_goals first
        | exact p2 x hx
        | (simp only [U32, List.length_replicate]; omega)
    · have e : ([itemPlain (env.itemMem w.out.length) name 0 K_DIR_START, name,
          List.replicate k 0] ++ new ++
          [itemPlain (env.itemMem w.out.length) name 0 K_DIR_END]).flatten =
          itemPlain (env.itemMem w.out.length) name 0 K_DIR_START ++ name ++
          List.replicate k 0 ++ new.flatten ++
          itemPlain (env.itemMem w.out.length) name 0 K_DIR_END ++ [] := by simp
      rw [e]
      exact .dir s1 f6 (by rw [f5]; exact uInt_of_lt (by decide)) f3 (by rw [f4, k3]; simp)
        ⟨k, k1, k2, rfl⟩ p3 e1 g6 .nil

/-- The parts of a path: put together with `'/'` they are the path, and none contains one. -/
theorem splitSlash_spec (path : Bytes) :
    path = (splitSlash path).1 ++ ((splitSlash path).2.map (47 :: ·)).flatten ∧
      (∀ p ∈ (splitSlash path).1 :: (splitSlash path).2, 47 ∉ p) := by
  induction path with
  | nil => simp [splitSlash]
  | cons c cs ih =>
    obtain ⟨h1, h2⟩ := ih
    unfold splitSlash
    by_cases hc : c = 47
    · subst hc
      simp only [if_true]
      refine ⟨?_, ?_⟩
      · simp only [List.map_cons, List.flatten_cons, List.nil_append, List.cons_append]
        rw [← h1]
      · intro p hp
        rcases List.mem_cons.mp hp with rfl | hp
        · simp
        · exact h2 p hp
    · simp only [if_neg hc]
      refine ⟨?_, ?_⟩
      · simp only [List.cons_append]
        rw [← h1]
      · intro p hp
        rcases List.mem_cons.mp hp with rfl | hp
        · intro h
          rcases List.mem_cons.mp h with h | h
          · exact hc h.symm
          · exact h2 _ List.mem_cons_self h
        · exact h2 p (List.mem_cons_of_mem _ hp)

theorem splitSlash_le (path : Bytes) :
    ∀ p ∈ (splitSlash path).1 :: (splitSlash path).2, p.length ≤ path.length := by
  induction path with
  | nil => simp [splitSlash]
  | cons c cs ih =>
    unfold splitSlash
    by_cases hc : c = 47
    · simp only [if_pos hc]
      intro p hp
      rcases List.mem_cons.mp hp with rfl | hp
      · simp
      · have := ih p hp; simp only [List.length_cons]; omega
    · simp only [if_neg hc]
      intro p hp
      rcases List.mem_cons.mp hp with rfl | hp
      · have := ih _ List.mem_cons_self; simp only [List.length_cons]; omega
      · have := ih p (List.mem_cons_of_mem _ hp); simp only [List.length_cons]; omega

theorem extras_nested_good (env : Env) (henv : env.ok) (xs : List Extra) (hx : ∀ x ∈ xs, x.fits)
    (w : W σ) :
    ∃ new, extras (extraNested env) xs w = .ok (true, { w with out := w.out ++ new }) ∧
      (∀ b ∈ new, b.length < U32) ∧
      ∃ f, NestedTree (fun _ => 0o644) xs f ∧ Encodes f new.flatten := by
  induction xs generalizing w with
  | nil => exact ⟨[], by simp [extras], by simp, .nil, .nil, .nil⟩
  | cons x xs ih =>
    have hf := hx x List.mem_cons_self
    have hp := hf.path
    have hle := splitSlash_le x.path
    obtain ⟨n1, a1, a2, a3⟩ := extraParts_good env henv x.content hf.content (splitSlash x.path).2
      (splitSlash x.path).1 w (by have := hle _ List.mem_cons_self; omega)
      (fun p h => by have := hle p (List.mem_cons_of_mem _ h); omega)
    obtain ⟨n2, b1, b2, f, b3, b4⟩ := ih (fun y hy => hx y (List.mem_cons_of_mem _ hy))
      { w with out := w.out ++ n1 }
    obtain ⟨sp1, sp2⟩ := splitSlash_spec x.path
    refine ⟨n1 ++ n2, ?_, ?_, _, .cons sp1 sp2 b3, ?_⟩
    · have a1' : extraNested env w x = .ok (0, { w with out := w.out ++ n1 }) := a1
      simp only [extras, a1', ne_eq, not_true_eq_false, if_false, b1, List.append_assoc]
    · intro b hb
      rcases List.mem_append.mp hb with h | h
      · exact a2 b h
      · exact b2 b h
    · rw [List.flatten_append]
      exact a3.append b4

/-! ### The session around the records -/

variable {D : Deflater} {plain : Bytes → Bytes}

/-- Buffers written one after the other into a session. -/
theorem writes_good (C : DeflateOK D plain) (ws : List Bytes) (hws : ∀ b ∈ ws, b.length < U32)
    (s : CS D) (c : Bytes) (hr : C.Rep s.z c s.log.flatten) (hb : 0 < s.bufSize)
    (hl : ∃ b, s.log.getLast? = some b ∧ (b.length < s.bufSize → plain s.log.flatten = c)) :
    ∃ s' n0 rets, (∀ fuel, n0 ≤ fuel → compressRun fuel (ws.map .compress) s = .ok (rets, s')) ∧
      C.Rep s'.z (c ++ ws.flatten) s'.log.flatten ∧ s'.bufSize = s.bufSize ∧
      ∃ b, s'.log.getLast? = some b ∧ (b.length < s.bufSize → plain s'.log.flatten = c ++ ws.flatten) := by
  induction ws generalizing s c with
  | nil => exact ⟨s, 0, [], fun _ _ => rfl, by simpa using hr, rfl, by simpa using hl⟩
  | cons x ws ih =>
    obtain ⟨s1, new, n1, h1, h2, h3, h4, h5, h6⟩ := compress_good C s c x hr hb
    rw [take_uInt (hws x List.mem_cons_self)] at h2 h6
    have hl1 : ∃ b, s1.log.getLast? = some b ∧
        (b.length < s1.bufSize → plain s1.log.flatten = c ++ x) := by
      by_cases hx : x = []
      · subst hx
        have hs1 : s1 = s := by
          have := h1 (n1 + 1) (by omega)
          simp [compress, compressLoop] at this
          exact this.symm
        subst hs1
        simpa using hl
      · obtain ⟨b, b1, b2⟩ := h6 hx
        rw [h3]
        exact ⟨b, by rw [h4]; exact getLast?_append_some b1, b2⟩
    obtain ⟨s', n2, rets, g1, g2, g3, g4⟩ := ih (fun b hb => hws b (List.mem_cons_of_mem _ hb)) s1
      (c ++ x) h2 (by omega) hl1
    refine ⟨s', max n1 n2, 0 :: rets, ?_, by simpa using g2, by rw [g3, h3], ?_⟩
    · intro fuel hf
      simp only [List.map_cons, compressRun, h1 fuel (by omega), g1 fuel (by omega)]
    · rw [h3] at g4
      simpa using g4

/-- Header and buffers. -/
theorem session_writes_good (C : DeflateOK D plain) (kind : Nat) (level : Int) (z : D.τ)
    (hz : D.init level = some z) (junk : Bytes) (hj : junk.length = 120) (ws : List Bytes)
    (hws : ∀ b ∈ ws, b.length < U32) :
    ∃ s0 s n0 rets, (∀ fuel, n0 ≤ fuel →
        CS.create D fuel kind level DEF_CHUNK_SIZE junk = .ok (some s0) ∧
        compressRun fuel (ws.map .compress) s0 = .ok (rets, s)) ∧
      (C.Fits → Open plain s.log.flatten) ∧
      plain s.log.flatten <+: headerBytes VERSION kind junk ++ ws.flatten ∧
      ∃ b, s.log.getLast? = some b ∧ (b.length < DEF_CHUNK_SIZE →
        plain s.log.flatten = headerBytes VERSION kind junk ++ ws.flatten) := by
  have hB : uInt DEF_CHUNK_SIZE = DEF_CHUNK_SIZE := uInt_of_lt (by decide)
  obtain ⟨s0, n1, h1, h2, h3, h4, h5⟩ := CS.create_good C kind level z hz DEF_CHUNK_SIZE
    (by rw [hB]; decide) junk hj
  rw [hB] at h3
  obtain ⟨s, n2, rets, g1, g2, g3, g4⟩ := writes_good C ws hws s0 _ h2 (by rw [h3]; decide) h5
  rw [h3] at g4
  exact ⟨s0, s, max n1 n2, rets, fun f hf => ⟨h1 f (by omega), g1 f (by omega)⟩,
    fun hF => C.isOpen hF g2, C.sound g2, g4⟩

end Zwt
