import Verif.Spec.Tools
import Verif.Proofs.ArgsLookup
import Verif.Proofs.WalkMore

/-! Lemmas about the programs. -/

namespace Zwt

/-! ### compressdir -/

theorem compressdir_separate : Separate compressdirOpts := by unfold Separate; decide +kernel

theorem compressdir_plain : Plain compressdirOpts := by unfold Plain; decide +kernel

theorem compressdir_parser : compressdirParser = Parser.addAll compressdirOpts Parser.new := by
  decide +kernel

theorem compressdir_built : ∃ p, Parser.addAll compressdirOpts Parser.new = .ok p := by
  obtain ⟨p, h, _⟩ := addAll_good compressdirOpts new_wf new_good compressdir_separate
    (fun _ _ _ _ => rfl)
  exact ⟨p, h⟩

/-! ### Writing at offsets -/

theorem pwrite_nil (old : Bytes) (off : Nat) : pwrite old off [] = old := by simp [pwrite]

theorem pwrite_length (old : Bytes) (off : Nat) (d : Bytes) (hd : d ≠ []) :
    (pwrite old off d).length = max old.length (off + d.length) := by
  unfold pwrite overwrite
  rw [if_neg hd]
  simp only [List.length_append, List.length_take, List.length_drop, List.length_replicate]
  omega

theorem pwrite_pwrite (old : Bytes) (off : Nat) (d e : Bytes) :
    pwrite (pwrite old off d) (off + d.length) e = pwrite old off (d ++ e) := by
  by_cases hd : d = []
  · subst hd; simp [pwrite_nil]
  by_cases he : e = []
  · subst he; simp [pwrite_nil]
  have hl := pwrite_length old off d hd
  have hz : off + d.length - (pwrite old off d).length = 0 := by omega
  rw [pwrite, if_neg he, hz, List.replicate_zero, List.append_nil]
  unfold pwrite
  rw [if_neg hd, if_neg (by simp [hd])]
  generalize hX : old ++ List.replicate (off - old.length) 0 = X
  have hXl : off ≤ X.length := by rw [← hX]; simp; omega
  unfold overwrite
  have h1 : (X.take off ++ d).length = off + d.length := by
    simp only [List.length_append, List.length_take]; omega
  rw [List.take_left' h1]
  have h2 : (X.take off ++ d ++ X.drop (off + d.length)).drop (off + d.length + e.length) =
      X.drop (off + d.length + e.length) := by
    rw [List.drop_append, h1, List.drop_eq_nil_of_le (by omega), List.nil_append, List.drop_drop]
    congr 1
    omega
  rw [h2, List.length_append]
  simp [Nat.add_assoc]

theorem pwrites_eq (ds : List Bytes) (old : Bytes) (off : Nat) :
    pwrites old off ds = pwrite old off ds.flatten := by
  induction ds generalizing old off with
  | nil => simp [pwrites, pwrite_nil]
  | cons d ds ih => rw [pwrites, ih, pwrite_pwrite, List.flatten_cons]

theorem blocks_flatten (n : Nat) (b : Bytes) (h : b.length ≤ n) : (blocks n b).flatten = b := by
  induction n generalizing b with
  | zero =>
    have : b = [] := List.eq_nil_of_length_eq_zero (by omega)
    subst this; rfl
  | succ n ih =>
    unfold blocks
    by_cases hb : b = []
    · subst hb; simp
    · rw [if_neg hb, List.flatten_cons, ih _ (by
        have : 0 < b.length := List.length_pos_iff.2 hb
        rw [List.length_drop]
        have : 0 < VC_BUFFER_SIZE := by decide
        omega), List.take_append_drop]

/-- The copy is a copy. -/
theorem copy_eq (exe : Bytes) : pwrites [] 0 (blocks exe.length exe) = exe := by
  rw [pwrites_eq, blocks_flatten _ _ (Nat.le_refl _)]
  unfold pwrite overwrite
  by_cases h : exe = []
  · simp [h]
  · simp [h]

/-- Writing behind the end of a file. -/
theorem pwrite_far (old : Bytes) (off : Nat) (d : Bytes) (hd : d ≠ []) (h : old.length ≤ off) :
    pwrite old off d = old ++ List.replicate (off - old.length) 0 ++ d := by
  unfold pwrite overwrite
  rw [if_neg hd]
  have hl : (old ++ List.replicate (off - old.length) (0 : UInt8)).length = off := by
    simp; omega
  rw [List.take_of_length_le (by omega), List.drop_eq_nil_of_le (by omega), List.append_nil]

/-! ### The filter of the self extractor -/

theorem selfFilter_dir (exe out : Bytes) (s : SelfFs) (d n : Bytes) :
    selfFilter exe out s d ⟨n, .dir⟩ = (0, s) := by simp [selfFilter]

theorem selfFilter_ne (exe out : Bytes) (s : SelfFs) (d : Bytes) (e : Entry) :
    (selfFilter exe out s d e).1 = 0 ∨ (selfFilter exe out s d e).1 = 1 := by
  unfold selfFilter
  split
  · exact Or.inr rfl
  · split
    · exact Or.inr rfl
    · exact Or.inl rfl

/-- The answers of the filter on a list of entries. -/
def answers (exe out : Bytes) : SelfFs → List (Bytes × Entry) → List (Bytes × Entry × Int) × SelfFs
  | s, [] => ([], s)
  | s, x :: xs =>
    let r := selfFilter exe out s x.1 x.2
    let t := answers exe out r.2 xs
    ((x.1, x.2, r.1) :: t.1, t.2)

theorem answers_append (exe out : Bytes) (s : SelfFs) (l m : List (Bytes × Entry)) :
    answers exe out s (l ++ m) =
      ((answers exe out s l).1 ++ (answers exe out (answers exe out s l).2 m).1,
        (answers exe out (answers exe out s l).2 m).2) := by
  induction l generalizing s with
  | nil => rfl
  | cons x l ih => simp [answers, ih]

theorem ask_answers (exe out dir : Bytes) (e : Entry) (l : List (Bytes × Entry)) (s : SelfFs)
    (skip take : SelfFs → Sel SelfFs)
    (hs : (askFilter (selfFilter exe out) dir e s skip take).status ≠ .failed)
    (h1 : ∀ s', (skip s').status ≠ .failed → (skip s').status = .done ∧
      (skip s').shown = (answers exe out s' l).1 ∧ (skip s').fs = (answers exe out s' l).2)
    (h2 : ∀ s', (take s').status ≠ .failed → (take s').status = .done ∧
      (take s').shown = (answers exe out s' l).1 ∧ (take s').fs = (answers exe out s' l).2) :
    (askFilter (selfFilter exe out) dir e s skip take).status = .done ∧
    (askFilter (selfFilter exe out) dir e s skip take).shown =
      (answers exe out s ((dir, e) :: l)).1 ∧
    (askFilter (selfFilter exe out) dir e s skip take).fs =
      (answers exe out s ((dir, e) :: l)).2 := by
  unfold askFilter at hs ⊢
  dsimp only at hs ⊢
  rcases selfFilter_ne exe out s dir e with h0 | h0
  · rw [if_pos h0] at hs ⊢
    obtain ⟨a, b, c⟩ := h2 _ hs
    refine ⟨a, ?_, c⟩
    dsimp only [answers]
    rw [b, h0]
  · rw [if_neg (by rw [h0]; decide), if_neg (by rw [h0]; decide)] at hs ⊢
    obtain ⟨a, b, c⟩ := h1 _ hs
    refine ⟨a, ?_, c⟩
    dsimp only [answers]
    rw [b, h0]

/-- All entries of the tree are shown, unless an unreadable one is accepted. -/
theorem select_answers (exe out : Bytes) (f : Forest) (dir : Bytes) (s : SelfFs)
    (h : (select (selfFilter exe out) dir f s).status ≠ .failed) :
    (select (selfFilter exe out) dir f s).status = .done ∧
    (select (selfFilter exe out) dir f s).shown = (answers exe out s (f.entries dir)).1 ∧
    (select (selfFilter exe out) dir f s).fs = (answers exe out s (f.entries dir)).2 := by
  induction f generalizing dir s with
  | nil => exact ⟨rfl, rfl, rfl⟩
  | file n m c r ih =>
    exact ask_answers _ _ _ _ _ _ _ _ h (fun s' => ih dir s') (fun s' => ih dir s')
  | link n m t r ih =>
    exact ask_answers _ _ _ _ _ _ _ _ h (fun s' => ih dir s') (fun s' => ih dir s')
  | other n r ih =>
    exact ask_answers _ _ _ _ _ _ _ _ h (fun s' => ih dir s') (fun s' => ih dir s')
  | bad n r ih =>
    exact ask_answers _ _ _ _ _ _ _ _ h (fun s' => ih dir s') (fun s' h' => absurd rfl h')
  | dir n m sub r ihs ih =>
    have e0 : (selfFilter exe out s dir ⟨n, .dir⟩).1 = 0 := by rw [selfFilter_dir]
    have key : ∀ skip skip' take : SelfFs → Sel SelfFs,
        askFilter (selfFilter exe out) dir ⟨n, .dir⟩ s skip take =
          askFilter (selfFilter exe out) dir ⟨n, .dir⟩ s skip' take := by
      intro skip skip' take
      unfold askFilter
      dsimp only
      rw [if_pos e0, if_pos e0]
    have main : ∀ s', ((select (selfFilter exe out) (pathOf dir n) sub s').close n m
        (select (selfFilter exe out) dir r)).status ≠ .failed →
        ((select (selfFilter exe out) (pathOf dir n) sub s').close n m
          (select (selfFilter exe out) dir r)).status = .done ∧
        ((select (selfFilter exe out) (pathOf dir n) sub s').close n m
          (select (selfFilter exe out) dir r)).shown =
          (answers exe out s' (sub.entries (pathOf dir n) ++ r.entries dir)).1 ∧
        ((select (selfFilter exe out) (pathOf dir n) sub s').close n m
          (select (selfFilter exe out) dir r)).fs =
          (answers exe out s' (sub.entries (pathOf dir n) ++ r.entries dir)).2 := by
      intro s' h'
      unfold Sel.close at h' ⊢
      cases hst : (select (selfFilter exe out) (pathOf dir n) sub s').status with
      | failed => rw [hst] at h'; exact absurd rfl h'
      | stopped =>
        have := (ihs (pathOf dir n) s' (by rw [hst]; decide)).1
        rw [hst] at this; cases this
      | done =>
        obtain ⟨_, b, c⟩ := ihs (pathOf dir n) s' (by rw [hst]; decide)
        rw [hst] at h'
        dsimp only at h' ⊢
        rw [c] at h' ⊢
        obtain ⟨d1, d2, d3⟩ := ih dir _ h'
        rw [answers_append]
        exact ⟨d1, by rw [b, d2], d3⟩
    unfold select at h ⊢
    rw [key _ (fun s' => (select (selfFilter exe out) (pathOf dir n) sub s').close n m
      (select (selfFilter exe out) dir r))] at h ⊢
    exact ask_answers _ _ _ _ _ _ _ _ h main main

/-- What the filter accepts: all but the first entry with the name of the program and the first with
the name of the output. -/
theorem answers_accepted (exe out : Bytes) (l : List (Bytes × Entry)) (s : SelfFs) :
    ((answers exe out s l).1.filter (fun x => x.2.2 = 0)).map (fun x => (x.1, x.2.1)) =
      (if s.out then
        ((if s.own then l.eraseP (isNamed exe) else l).eraseP (isNamed out))
      else (if s.own then l.eraseP (isNamed exe) else l)) := by
  induction l generalizing s with
  | nil => simp [answers]
  | cons x l ih =>
    obtain ⟨d, n, t⟩ := x
    obtain ⟨so, su⟩ := s
    have hx : ∀ a : Bytes, isNamed a (d, ⟨n, t⟩) = (decide (t ≠ .dir ∧ a = n)) := by
      intro a
      unfold isNamed
      rw [Bool.eq_iff_iff]
      simp
      intro _
      exact eq_comm
    have hm : ∀ r : Int × SelfFs, selfFilter exe out ⟨so, su⟩ d ⟨n, t⟩ = r →
        ((answers exe out ⟨so, su⟩ ((d, ⟨n, t⟩) :: l)).1.filter (fun x => x.2.2 = 0)).map
          (fun x => (x.1, x.2.1)) =
        (if r.1 = 0 then [(d, ⟨n, t⟩)] else []) ++
          ((answers exe out r.2 l).1.filter (fun x => x.2.2 = 0)).map (fun x => (x.1, x.2.1)) := by
      intro r hr
      simp only [answers, hr]
      by_cases h0 : r.1 = 0
      · simp [h0]
      · simp [h0]
    by_cases h1 : so = true ∧ t ≠ .dir ∧ exe = n
    · have hf : selfFilter exe out ⟨so, su⟩ d ⟨n, t⟩ = (1, ⟨false, su⟩) := by
        unfold selfFilter; rw [if_pos h1]
      rw [hm _ hf, ih]
      have hn : isNamed exe (d, ⟨n, t⟩) = true := by rw [hx]; simpa using h1.2
      rw [List.eraseP_cons_of_pos hn]
      obtain ⟨rfl, _⟩ := h1
      cases su <;> simp
    · by_cases h2 : su = true ∧ t ≠ .dir ∧ out = n
      · have hf : selfFilter exe out ⟨so, su⟩ d ⟨n, t⟩ = (1, ⟨so, false⟩) := by
          unfold selfFilter; rw [if_neg h1, if_pos h2]
        rw [hm _ hf, ih]
        have hn : isNamed out (d, ⟨n, t⟩) = true := by rw [hx]; simpa using h2.2
        obtain ⟨rfl, h3⟩ := h2
        cases so with
        | false => simp [List.eraseP_cons_of_pos hn]
        | true =>
          have hn2 : ¬ isNamed exe (d, ⟨n, t⟩) = true := by
            rw [hx]
            intro hh
            exact h1 ⟨rfl, by simpa using hh⟩
          simp [List.eraseP_cons_of_pos hn, List.eraseP_cons_of_neg hn2]
      · have hf : selfFilter exe out ⟨so, su⟩ d ⟨n, t⟩ = (0, ⟨so, su⟩) := by
          unfold selfFilter; rw [if_neg h1, if_neg h2]
        rw [hm _ hf, ih]
        have hn1 : so = true → ¬ isNamed exe (d, ⟨n, t⟩) = true := by
          intro hs
          rw [hx]
          intro hh
          exact h1 ⟨hs, by simpa using hh⟩
        have hn2 : su = true → ¬ isNamed out (d, ⟨n, t⟩) = true := by
          intro hs
          rw [hx]
          intro hh
          exact h2 ⟨hs, by simpa using hh⟩
        cases so <;> cases su
        · simp
        · simp [List.eraseP_cons_of_neg (hn2 rfl)]
        · simp [List.eraseP_cons_of_neg (hn1 rfl)]
        · simp [List.eraseP_cons_of_neg (hn1 rfl), List.eraseP_cons_of_neg (hn2 rfl)]

end Zwt
