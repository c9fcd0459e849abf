import Verif.Spec.Ledger

/-! Reasoning about acquisitions and releases. -/

namespace Zwt

/-- `m`, started with what is held being (a permutation of) `P`, ends in one of the faults of `E`
or with what is held satisfying `Q`. -/
def Tri (E : Fault → Prop) (P : List (Nat × Res)) (m : LM α) (Q : α → List (Nat × Res) → Prop) :
    Prop :=
  ∀ l : Led, l.live.Perm P →
    match m l with
    | .ok (a, l') => Q a l'.live
    | .error e => E e

variable {E : Fault → Prop} {P : List (Nat × Res)} {α β : Type}

theorem Tri.pure {a : α} {Q : α → List (Nat × Res) → Prop} (h : ∀ x, x.Perm P → Q a x) :
    Tri E P (pure a : LM α) Q := fun l hl => h _ hl

theorem LM.bind_ok {m : LM α} {f : α → LM β} {l l' : Led} {a : α} (h : m l = .ok (a, l')) :
    (m >>= f) l = f a l' := by
  show (match m l with | .error e => .error e | .ok (a, l) => f a l : Run (β × Led)) = _
  rw [h]

theorem Tri.bind {m : LM α} {f : α → LM β} {R : α → List (Nat × Res) → Prop}
    {Q : β → List (Nat × Res) → Prop} (hm : Tri E P m R)
    (hf : ∀ a x, R a x → Tri E x (f a) Q) : Tri E P (m >>= f) Q := by
  intro l hl
  have h := hm l hl
  show match (match m l with | .error e => .error e | .ok (a, l) => f a l : Run (β × Led)) with
    | .ok (a, l') => Q a l'.live
    | .error e => E e
  cases hml : m l with
  | error e => rw [hml] at h; exact h
  | ok r =>
    rw [hml] at h
    exact hf r.1 r.2.live h r.2 (List.Perm.refl _)

theorem Tri.perm {P' : List (Nat × Res)} {m : LM α} {Q : α → List (Nat × Res) → Prop}
    (h : Tri E P m Q) (hp : P'.Perm P) : Tri E P' m Q := fun l hl => h l (hl.trans hp)

theorem Tri.mono {m : LM α} {Q R : α → List (Nat × Res) → Prop} (h : Tri E P m Q)
    (hqr : ∀ a x, Q a x → R a x) : Tri E P m R := by
  intro l hl
  have := h l hl
  cases hml : m l with
  | error e => rw [hml] at this; exact this
  | ok r => rw [hml] at this; exact hqr _ _ this

theorem Tri.acquire {o : Oracle} {r : Res} {f : Option Nat → LM β}
    {Q : β → List (Nat × Res) → Prop}
    (hs : ∀ id, Tri E ((id, r) :: P) (f (some id)) Q)
    (hn : (∃ n, o n = false) → Tri E P (f none) Q) :
    Tri E P (Zwt.acquire o r >>= f) Q := by
  intro l hl
  by_cases h : o l.tick
  · rw [LM.bind_ok (a := some l.tick) (l' := ⟨l.tick + 1, (l.tick, r) :: l.live⟩)
      (by simp [Zwt.acquire, h])]
    exact hs l.tick _ (hl.cons _)
  · rw [LM.bind_ok (a := none) (l' := ⟨l.tick + 1, l.live⟩) (by simp [Zwt.acquire, h])]
    exact hn ⟨l.tick, by simpa using h⟩ _ hl

theorem Tri.ask {o : Oracle} {f : Bool → LM β} {Q : β → List (Nat × Res) → Prop}
    (h : ∀ b, Tri E P (f b) Q) : Tri E P (Zwt.ask o >>= f) Q := by
  intro l hl
  exact h _ { l with tick := l.tick + 1 } hl

theorem Tri.ask' {o : Oracle} {f : Bool → LM β} {Q : β → List (Nat × Res) → Prop}
    (h : ∀ b, (b = true ∨ ∃ n, o n = false) → Tri E P (f b) Q) : Tri E P (Zwt.ask o >>= f) Q := by
  intro l hl
  refine h (o l.tick) ?_ { l with tick := l.tick + 1 } hl
  cases hb : o l.tick with
  | true => exact .inl rfl
  | false => exact .inr ⟨_, hb⟩

theorem Tri.releaseOnly {r : Res} {id : Nat} {R : List (Nat × Res)} (hp : P.Perm ((id, r) :: R)) :
    Tri E P (Zwt.release r id) (fun _ x => x.Perm R) := by
  intro l hl
  have hp := hl.trans hp
  have hm : (id, r) ∈ l.live := hp.mem_iff.2 (by simp)
  unfold Zwt.release
  simp only [hm, if_true]
  have := hp.erase (id, r)
  simpa using this

theorem Tri.release {r : Res} {id : Nat} {R : List (Nat × Res)} {f : Unit → LM β}
    {Q : β → List (Nat × Res) → Prop} (hp : P.Perm ((id, r) :: R)) (h : Tri E R (f ()) Q) :
    Tri E P (Zwt.release r id >>= f) Q :=
  Tri.bind (Tri.releaseOnly hp) (fun _ _ hx => h.perm hx)

theorem Tri.fault {e : Fault} {Q : α → List (Nat × Res) → Prop} (h : E e) :
    Tri E P (fault e : LM α) Q := fun _ _ => h

theorem Tri.ite {c : Prop} [Decidable c] {m n : LM α} {Q : α → List (Nat × Res) → Prop}
    (hm : c → Tri E P m Q) (hn : ¬ c → Tri E P n Q) : Tri E P (if c then m else n) Q := by
  by_cases h : c
  · rw [if_pos h]; exact hm h
  · rw [if_neg h]; exact hn h

/-! ### Compression -/

theorem tri_destroyCS {s : Nat × Nat} :
    Tri E ((s.2, .zlib) :: (s.1, .block) :: P) (ledDestroyCS s) (fun _ x => x.Perm P) :=
  Tri.release (List.Perm.refl _) (Tri.releaseOnly (List.Perm.refl _))

theorem tri_createCS {o : Oracle} : Tri E P (ledCreateCS o) (fun s x =>
    match s with
    | none => x.Perm P
    | some s => x.Perm ((s.2, .zlib) :: (s.1, .block) :: P)) := by
  refine Tri.acquire (fun s => ?_) (fun _ => Tri.pure fun x hx => hx)
  refine Tri.acquire (fun z => ?_) ?_
  · refine Tri.ask (fun b => ?_)
    refine Tri.ite (fun _ => Tri.pure fun x hx => hx) (fun _ => ?_)
    exact Tri.bind (tri_destroyCS (s := (s, z))) (fun _ _ hx => Tri.pure fun y hy => hy.trans hx)
  · exact fun _ => Tri.release (List.Perm.refl _) (Tri.pure fun x hx => hx)

theorem tri_compressFile {o : Oracle} :
    Tri (· = .nullDeref) P (ledCompressFile o) (fun _ x => x.Perm P) := by
  refine Tri.acquire (fun bi => ?_) (fun _ => Tri.pure fun x hx => hx)
  refine Tri.acquire (fun bo => ?_) (fun _ => Tri.release (List.Perm.refl _) (Tri.pure fun x hx => hx))
  refine Tri.bind tri_createCS (fun s x hx => ?_)
  cases s with
  | none => exact Tri.fault rfl
  | some s =>
    refine Tri.perm (Tri.ask (fun b => ?_)) hx
    refine Tri.bind tri_destroyCS (fun _ y hy => ?_)
    refine Tri.release hy (Tri.release (List.Perm.refl _) (Tri.pure fun x hx => hx))

theorem tri_visitFile {o : Oracle} : Tri E P (ledVisitFile o) (fun _ x => x.Perm P) := by
  refine Tri.acquire (fun f => ?_) (fun _ => Tri.pure fun x hx => hx)
  refine Tri.ask (fun b => ?_)
  exact Tri.ite (fun _ => Tri.releaseOnly (List.Perm.refl _))
    (fun _ => Tri.releaseOnly (List.Perm.refl _))

theorem tri_visitLink {o : Oracle} :
    Tri (· = .processExit) P (ledVisitLink o) (fun _ x => x.Perm P) := by
  refine Tri.acquire (fun f => ?_) (fun _ => Tri.fault rfl)
  refine Tri.ask (fun b => ?_)
  exact Tri.ite (fun _ => Tri.releaseOnly (List.Perm.refl _)) (fun _ => Tri.fault rfl)

theorem Tri.skip {o : Oracle} {m n : LM Unit} (hm : Tri E P m (fun _ x => x.Perm P))
    (hn : Tri E P n (fun _ x => x.Perm P)) :
    Tri E P (do
      if ← Zwt.ask o then Pure.pure ()
      else
        if ← Zwt.ask o then Pure.pure () else m
        n) (fun _ x => x.Perm P) := by
  refine Tri.ask (fun b => Tri.ite (fun _ => Tri.pure fun x hx => hx) (fun _ => ?_))
  refine Tri.ask (fun b => ?_)
  refine Tri.ite (fun _ => hn) (fun _ => ?_)
  exact Tri.bind hm (fun _ x hx => hn.perm hx)

theorem tri_walk {o : Oracle} (t : Tour) :
    Tri (· = .processExit) P (ledWalk o t) (fun _ x => x.Perm P) := by
  induction t with
  | done => exact Tri.pure fun x hx => hx
  | file rest ih => exact Tri.skip tri_visitFile ih
  | link rest ih => exact Tri.skip tri_visitLink ih
  | dir sub rest ihs ih => exact Tri.skip ihs ih
  | other rest ih => exact ih

theorem tri_extras {o : Oracle} (n : Nat) : Tri E P (ledExtras o n) (fun _ x => x.Perm P) := by
  induction n with
  | zero => exact Tri.pure fun x hx => hx
  | succ n ih =>
    exact Tri.ask fun b => Tri.ite (fun _ => ih) (fun _ => Tri.pure fun x hx => hx)

theorem tri_compressDir {o : Oracle} (n : Nat) (t : Tour) :
    Tri (· = .processExit) P (ledCompressDir o n t) (fun ret x =>
      x.Perm P ∨ ret = 1 ∧ ∃ a b, x.Perm ((a, .block) :: (b, .block) :: P)) := by
  refine Tri.acquire (fun bo => ?_) (fun _ => Tri.pure fun x hx => .inl hx)
  refine Tri.acquire (fun bi => ?_)
    (fun _ => Tri.release (List.Perm.refl _) (Tri.pure fun x hx => .inl hx))
  refine Tri.bind tri_createCS (fun s x hx => ?_)
  cases s with
  | none => exact Tri.pure fun y hy => .inr ⟨rfl, bi, bo, hy.trans hx⟩
  | some s =>
    refine Tri.perm ?_ hx
    refine Tri.bind (tri_extras n) (fun b y hy => Tri.perm (Tri.ite (fun _ => ?_) (fun _ => ?_)) hy)
    · refine Tri.bind (tri_walk t) (fun _ y hy => Tri.perm ?_ hy)
      refine Tri.bind tri_destroyCS (fun _ y hy => ?_)
      refine Tri.release hy (Tri.release (List.Perm.refl _) ?_)
      exact Tri.ask fun b => Tri.pure fun x hx => .inl hx
    · refine Tri.bind tri_destroyCS (fun _ y hy => ?_)
      exact Tri.release hy (Tri.release (List.Perm.refl _) (Tri.pure fun x hx => .inl hx))

/-! ### Extraction -/

theorem tri_createDS {o : Oracle} : Tri E P (ledCreateDS o) (fun s x =>
    match s with
    | none => (x.Perm P ∨ ∃ a, x.Perm ((a, .block) :: P)) ∧ ∃ n, o n = false
    | some s => x.Perm ((s.2, .zlib) :: (s.1, .block) :: P)) := by
  refine Tri.acquire (fun s => ?_) (fun hn => Tri.pure fun x hx => ⟨.inl hx, hn⟩)
  refine Tri.acquire (fun z => ?_) (fun hn => Tri.pure fun x hx => ⟨.inr ⟨s, hx⟩, hn⟩)
  exact Tri.pure fun x hx => hx

theorem tri_mkdir {o : Oracle} :
    Tri E P (ledMkdir o) (fun b x => x.Perm P ∧ (b = true ∨ ∃ n, o n = false)) := by
  refine Tri.acquire (fun p => ?_) (fun h => Tri.pure fun x hx => ⟨hx, .inr h⟩)
  refine Tri.ask' fun b hb => ?_
  exact Tri.release (List.Perm.refl _) (Tri.pure fun x hx => ⟨hx, hb⟩)

/-- A resource behind a pointer that may be null. -/
def heldAt (r : Res) (p : Option Nat) : List (Nat × Res) := p.toList.map (·, r)

/-- What is held in state `s`. -/
def Hold.now (h : Hold) (s : LState) : List (Nat × Res) :=
  heldAt .stream h.fp ++ (heldAt .block h.name ++ (heldAt .block h.dir ++
    (if s = .inFile then heldAt .fd h.fd else [])))

/-- Invariant of the steps made so far: `names` are names that got lost. -/
structure Hold.Inv (o : Oracle) (h : Hold) (s : LState) (evs : List LEv) (P x : List (Nat × Res)) : Prop where
  live : ∃ names : List Nat, x.Perm (h.now s ++ (names.map (·, .block) ++ P)) ∧
    names.length ≤ evs.count .name ∧ (names = [] ∨ ∃ n, o n = false)
  path : .drStart ∈ evs → h.dir.isSome = true ∨ ∃ n, o n = false
  dir : .drStart ∉ evs → s = .start ∨ s = .blob
  fresh : s = .start → h = ⟨none, none, none, none⟩
  blob : s = .blob → h.dir = none ∧ h.name = none
  noFp : s = .idle ∨ s = .inFile → h.fp = none

theorem tri_releaseOpt {r : Res} {p : Option Nat} {R : List (Nat × Res)}
    (hp : P.Perm (heldAt r p ++ R)) : Tri E P (releaseOpt r p) (fun _ x => x.Perm R) := by
  cases p with
  | none => exact Tri.pure fun x hx => hx.trans hp
  | some id => exact Tri.releaseOnly hp

theorem Tri.acquireAt {o : Oracle} {r : Res} {f : Option Nat → LM β}
    {Q : β → List (Nat × Res) → Prop} (h : ∀ p, Tri E (heldAt r p ++ P) (f p) Q) :
    Tri E P (Zwt.acquire o r >>= f) Q :=
  Tri.acquire (fun id => h (some id)) (fun _ => h none)

theorem Tri.acquireAt' {o : Oracle} {r : Res} {f : Option Nat → LM β}
    {Q : β → List (Nat × Res) → Prop}
    (h : ∀ p, (p.isSome = true ∨ ∃ n, o n = false) → Tri E (heldAt r p ++ P) (f p) Q) :
    Tri E P (Zwt.acquire o r >>= f) Q :=
  Tri.acquire (fun id => h (some id) (.inl rfl)) (fun hn => h none (.inr hn))

/-- Faults of an extraction that concern its resources. -/
def XFault (e : Fault) : Prop := e = .nullDeref ∨ e = .assertFail

/-- What one step does. -/
theorem tri_event {o : Oracle} {h : Hold} {s s' : LState} {e : LEv} {evs : List LEv}
    {P x : List (Nat × Res)} (hs : s.step e = some s') (hi : h.Inv o s evs P x) :
    Tri XFault x (ledEvent o h e) (fun h' y => h'.Inv o s' (evs ++ [e]) P y) := by
  obtain ⟨⟨names, hx, hn, hnm⟩, hpa, hd, hf, hb, hp⟩ := hi
  have hcnt : ∀ a : Nat × Res, _ := fun a => hx.count_eq a
  simp only [Hold.now, List.count_append] at hcnt
  cases s <;> cases e <;> simp only [LState.step, Option.some.injEq, reduceCtorEq] at hs <;>
    subst hs
  case start.flStart =>
    have := hf rfl
    subst this
    refine Tri.acquireAt fun p => Tri.pure fun y hy => ?_
    refine ⟨⟨names, hy.trans ?_, ?_, hnm⟩, ?_, ?_, ?_, ?_, ?_⟩
    · refine List.perm_iff_count.2 fun a => ?_
      have := hcnt a
      simp [Hold.now, heldAt, List.count_append] at this ⊢
      omega
    all_goals simp_all
  case start.drStart =>
    have := hf rfl
    subst this
    refine Tri.bind tri_mkdir fun b y hy => ?_
    obtain ⟨hy, hb⟩ := hy
    refine Tri.ite (fun _ => ?_) (fun _ => ?_)
    · refine Tri.acquireAt' fun p hp => Tri.pure fun z hz => ?_
      refine ⟨⟨names, hz.trans ?_, ?_, hnm⟩, ?_, ?_, ?_, ?_, ?_⟩
      · refine List.perm_iff_count.2 fun a => ?_
        have := hcnt a
        have := hy.count_eq a
        simp [Hold.now, heldAt, List.count_append] at this ⊢
        simp [heldAt] at *
        omega
      all_goals simp_all
    · refine Tri.pure fun z hz => ?_
      refine ⟨⟨names, hz.trans ?_, ?_, hnm⟩, ?_, ?_, ?_, ?_, ?_⟩
      · refine List.perm_iff_count.2 fun a => ?_
        have := hcnt a
        have := hy.count_eq a
        simp [Hold.now, heldAt, List.count_append] at this ⊢
        simp [heldAt] at *
        omega
      all_goals simp_all
  case blob.flRead =>
    refine Tri.ite (fun _ => Tri.fault (.inl rfl)) fun _ => Tri.pure fun y hy => ?_
    refine ⟨⟨names, hy.trans ?_, ?_, hnm⟩, ?_, ?_, ?_, ?_, ?_⟩
    · refine List.perm_iff_count.2 fun a => ?_
      have := hcnt a
      simp [Hold.now, List.count_append] at this ⊢
      omega
    all_goals simp_all
  case idle.linkItem =>
    refine Tri.pure fun y hy => ?_
    refine ⟨⟨names, hy.trans ?_, ?_, hnm⟩, ?_, ?_, ?_, ?_, ?_⟩
    · refine List.perm_iff_count.2 fun a => ?_
      have := hcnt a
      simp [Hold.now, List.count_append] at this ⊢
      omega
    all_goals simp_all
  case idle.symLink =>
    refine Tri.pure fun y hy => ?_
    refine ⟨⟨names, hy.trans ?_, ?_, hnm⟩, ?_, ?_, ?_, ?_, ?_⟩
    · refine List.perm_iff_count.2 fun a => ?_
      have := hcnt a
      simp [Hold.now, List.count_append] at this ⊢
      omega
    all_goals simp_all
  case inFile.fileRead =>
    refine Tri.pure fun y hy => ?_
    refine ⟨⟨names, hy.trans ?_, ?_, hnm⟩, ?_, ?_, ?_, ?_, ?_⟩
    · refine List.perm_iff_count.2 fun a => ?_
      have := hcnt a
      simp [Hold.now, List.count_append] at this ⊢
      omega
    all_goals simp_all
  case idle.dirEnd =>
    refine Tri.ite (fun _ => Tri.fault (.inl rfl)) fun _ => Tri.ask fun b => ?_
    refine Tri.ite (fun _ => Tri.pure fun y hy => ?_) fun _ => Tri.fault (.inr rfl)
    refine ⟨⟨names, hy.trans ?_, ?_, hnm⟩, ?_, ?_, ?_, ?_, ?_⟩
    · refine List.perm_iff_count.2 fun a => ?_
      have := hcnt a
      simp [Hold.now, List.count_append] at this ⊢
      omega
    all_goals simp_all
  case idle.fileItem =>
    refine Tri.acquireAt fun p => Tri.pure fun y hy => ?_
    refine ⟨⟨names, hy.trans ?_, ?_, hnm⟩, ?_, ?_, ?_, ?_, ?_⟩
    · refine List.perm_iff_count.2 fun a => ?_
      have := hcnt a
      simp [Hold.now, List.count_append] at this ⊢
      omega
    all_goals simp_all
  case inFile.fileEnd =>
    refine Tri.bind (tri_releaseOpt (R := h.now .idle ++ (names.map (·, .block) ++ P)) ?_)
      fun _ y hy => Tri.pure fun z hz => ?_
    · refine List.perm_iff_count.2 fun a => ?_
      have := hcnt a
      simp [Hold.now, List.count_append] at this ⊢
      omega
    · refine ⟨⟨names, hz.trans hy, ?_, hnm⟩, ?_, ?_, ?_, ?_, ?_⟩
      all_goals simp_all
  case idle.name =>
    refine Tri.acquire (fun p => ?_)
      (fun hno => Tri.ask fun b => Tri.ite (fun _ => ?_) (fun _ => ?_))
    · refine Tri.bind (tri_releaseOpt
        (R := ({ h with name := some p } : Hold).now .idle ++ (names.map (·, .block) ++ P)) ?_)
        fun _ y hy => Tri.pure fun z hz => ?_
      · refine List.perm_iff_count.2 fun a => ?_
        have := hcnt a
        rw [show ((p, Res.block) :: x) = heldAt .block (some p) ++ x from rfl]
        simp only [Hold.now, List.count_append, reduceCtorEq, if_false] at this ⊢
        omega
      · refine ⟨⟨names, hz.trans hy, ?_, hnm⟩, ?_, ?_, ?_, ?_, ?_⟩
        · simp; omega
        all_goals simp_all
    · refine Tri.bind (tri_releaseOpt
        (R := ({ h with name := none } : Hold).now .idle ++ (names.map (·, .block) ++ P)) ?_)
        fun _ y hy => Tri.pure fun z hz => ?_
      · refine List.perm_iff_count.2 fun a => ?_
        have := hcnt a
        simp only [Hold.now, List.count_append, reduceCtorEq, if_false] at this ⊢
        simp [heldAt] at *
        omega
      · refine ⟨⟨names, hz.trans hy, ?_, hnm⟩, ?_, ?_, ?_, ?_, ?_⟩
        · simp; omega
        all_goals simp_all
    · refine Tri.pure fun z hz => ?_
      refine ⟨⟨h.name.toList ++ names, hz.trans ?_, ?_, .inr hno⟩, ?_, ?_, ?_, ?_, ?_⟩
      · refine List.perm_iff_count.2 fun a => ?_
        have := hcnt a
        simp only [Hold.now, List.count_append, reduceCtorEq, if_false, List.map_append] at this ⊢
        rw [show h.name.toList.map (·, Res.block) = heldAt .block h.name from rfl]
        simp [heldAt] at *
        omega
      · have : h.name.toList.length ≤ 1 := by cases h.name <;> simp
        simp [List.count_append]
        omega
      all_goals simp_all
  case idle.dirItem =>
    refine Tri.acquire (fun p => ?_) (fun hno => Tri.pure fun y hy => ?_)
    · refine Tri.bind (tri_releaseOpt
        (R := ({ h with dir := some p } : Hold).now .idle ++ (names.map (·, .block) ++ P)) ?_)
        fun _ y hy => Tri.bind (tri_mkdir (P := y)) fun _ u hu => Tri.pure fun z hz => ?_
      · refine List.perm_iff_count.2 fun a => ?_
        have := hcnt a
        rw [show ((p, Res.block) :: x) = heldAt .block (some p) ++ x from rfl]
        simp only [Hold.now, List.count_append, reduceCtorEq, if_false] at this ⊢
        omega
      · refine ⟨⟨names, (hz.trans hu.1).trans hy, ?_, hnm⟩, ?_, ?_, ?_, ?_, ?_⟩
        all_goals simp_all
    · refine ⟨⟨names, hy.trans ?_, ?_, hnm⟩, ?_, ?_, ?_, ?_, ?_⟩
      · refine List.perm_iff_count.2 fun a => ?_
        have := hcnt a
        simp [Hold.now, List.count_append] at this ⊢
        omega
      all_goals simp_all

theorem LState.run_append {s : LState} {a b : List LEv} :
    s.run (a ++ b) = (s.run a).bind (·.run b) := by
  induction a generalizing s with
  | nil => rfl
  | cons e a ih =>
    show (s.step e).bind (fun s' => s'.run (a ++ b)) = ((s.step e).bind (fun s' => s'.run a)).bind _
    cases s.step e with
    | none => rfl
    | some s' => exact ih

/-- What several steps do. -/
theorem tri_events {o : Oracle} {es : List LEv} {h : Hold} {s s' : LState} {evs : List LEv}
    {P x : List (Nat × Res)} (hs : s.run es = some s') (hi : h.Inv o s evs P x) :
    Tri XFault x (ledEvents o h es) (fun h' y => h'.Inv o s' (evs ++ es) P y) := by
  induction es generalizing h s evs x with
  | nil =>
    cases hs
    refine Tri.pure fun y hy => ?_
    rw [List.append_nil]
    obtain ⟨names, hx, hn⟩ := hi.live
    exact { hi with live := ⟨names, hy.trans hx, hn⟩ }
  | cons e es ih =>
    cases hst : s.step e with
    | none => simp [LState.run, hst] at hs
    | some s1 =>
      have hs : s1.run es = some s' := by simpa [LState.run, hst] using hs
      refine Tri.bind (tri_event hst hi) fun h1 y hy => ?_
      have := ih hs hy
      simpa using this

/-- What the loop does. -/
theorem tri_rounds {o : Oracle} {rounds : List (List LEv)} {h : Hold} {s s' : LState}
    {evs : List LEv} {P x : List (Nat × Res)} (hs : s.run rounds.flatten = some s')
    (hi : h.Inv o s evs P x) :
    Tri XFault x (ledRounds o h rounds) (fun r y =>
      (r.2 = rounds.length ∨ ∃ n, o n = false) ∧
      ∃ s1, s.run (rounds.take r.2).flatten = some s1 ∧
        r.1.Inv o s1 (evs ++ (rounds.take r.2).flatten) P y) := by
  have hstop : ∀ (h : Hold) (s : LState) (evs : List LEv) (x y : List (Nat × Res)),
      h.Inv o s evs P x → y.Perm x → h.Inv o s evs P y := by
    intro h s evs x y hi hy
    obtain ⟨names, hx, hn⟩ := hi.live
    exact { hi with live := ⟨names, hy.trans hx, hn⟩ }
  induction rounds generalizing h s evs x with
  | nil =>
    refine Tri.pure fun y hy => ⟨.inl rfl, s, rfl, ?_⟩
    simpa using hstop _ _ _ _ _ hi hy
  | cons es rest ih =>
    rw [List.flatten_cons, LState.run_append] at hs
    cases hr1 : s.run es with
    | none => simp [hr1] at hs
    | some s1 =>
      have hs1 : s1.run rest.flatten = some s' := by simpa [hr1] using hs
      refine Tri.ask' fun b hb => Tri.ite (fun _ => ?_) (fun hbf => ?_)
      · refine Tri.bind (tri_events hr1 hi) fun h1 y hy => ?_
        refine Tri.ask' fun b hb => Tri.ite (fun _ => ?_) (fun hbf => ?_)
        · refine Tri.bind (ih hs1 hy) fun r z hz => Tri.pure fun u hu => ?_
          obtain ⟨hl, s2, hs2, hi2⟩ := hz
          refine ⟨by simpa using hl, s2, ?_, ?_⟩
          · rw [List.take_succ_cons, List.flatten_cons, LState.run_append, hr1]
            exact hs2
          · rw [List.take_succ_cons, List.flatten_cons, ← List.append_assoc]
            exact hstop _ _ _ _ _ hi2 hu
        · refine Tri.pure fun u hu => ⟨.inr (hb.resolve_left hbf), s1, ?_, ?_⟩
          · simpa using hr1
          · simpa using hstop _ _ _ _ _ hy hu
      · refine Tri.pure fun u hu => ⟨.inr (hb.resolve_left hbf), s, rfl, ?_⟩
        simpa using hstop _ _ _ _ _ hi hu

/-- What an extraction leaves behind: names lost, the directory's path, an open descriptor. -/
structure Left (o : Oracle) (evs : List LEv) (P x : List (Nat × Res)) : Prop where
  live : ∃ names paths fds : List Nat,
    x.Perm (names.map (·, .block) ++ (paths.map (·, .block) ++ (fds.map (·, .fd) ++ P))) ∧
    names.length ≤ evs.count .name ∧ (names = [] ∨ ∃ n, o n = false) ∧
    paths.length ≤ 1 ∧ (.drStart ∉ evs → paths = []) ∧
    (.drStart ∈ evs → paths ≠ [] ∨ ∃ n, o n = false) ∧
    fds.length ≤ 1 ∧ (fds = [] ∨ LState.start.run evs = some .inFile)

theorem tri_destroyDS {s : Nat × Nat} {name : Option Nat} :
    Tri E (heldAt .block name ++ ((s.2, .zlib) :: (s.1, .block) :: P)) (ledDestroyDS s name)
      (fun _ x => x.Perm P) :=
  Tri.bind (tri_releaseOpt (List.Perm.refl _))
    (fun _ _ hx => Tri.perm (Tri.release (List.Perm.refl _) (Tri.releaseOnly (List.Perm.refl _))) hx)

theorem tri_extract {o : Oracle} {rounds : List (List LEv)} {s : LState}
    (hs : LState.start.run rounds.flatten = some s) :
    Tri XFault P (ledExtract o rounds) (fun n x =>
      (n = rounds.length ∨ ∃ n, o n = false) ∧
      (Left o (rounds.take n).flatten P x ∨
        n = 0 ∧ (∃ n, o n = false) ∧ ∃ a, x.Perm ((a, .block) :: P))) := by
  have hnil : ∀ x : List (Nat × Res), x.Perm P → Left o [] P x := fun x hx =>
    ⟨[], [], [], by simpa using hx, by simp, .inl rfl, by simp, by simp, by simp, by simp, .inl rfl⟩
  refine Tri.acquire (fun bo => ?_)
    (fun hn => Tri.pure fun x hx => ⟨.inr hn, .inl (by simpa using hnil x hx)⟩)
  refine Tri.acquire (fun bi => ?_) (fun hn => Tri.release (List.Perm.refl _)
    (Tri.pure fun x hx => ⟨.inr hn, .inl (by simpa using hnil x hx)⟩))
  refine Tri.bind (tri_createDS (o := o)) (fun sn x hx => ?_)
  cases sn with
  | none =>
    obtain ⟨hx, hno⟩ := hx
    rcases hx with hx | ⟨a, hx⟩
    · refine Tri.perm ?_ hx
      exact Tri.release (List.Perm.refl _) (Tri.release (List.Perm.refl _)
        (Tri.pure fun x hx => ⟨.inr hno, .inl (by simpa using hnil x hx)⟩))
    · refine Tri.perm ?_ hx
      refine Tri.release (R := (bo, .block) :: (a, .block) :: P) ?_ (Tri.release (List.Perm.refl _)
        (Tri.pure fun x hx => ⟨.inr hno, .inr ⟨rfl, hno, a, hx⟩⟩))
      refine List.perm_iff_count.2 fun c => ?_
      simp only [List.count_cons]
      omega
  | some s0 =>
    refine Tri.perm ?_ hx
    refine Tri.bind (tri_rounds (evs := []) (P := (s0.2, .zlib) :: (s0.1, .block) ::
      (bi, .block) :: (bo, .block) :: P) hs ?_) (fun r y hy => ?_)
    · refine ⟨⟨[], by simp [Hold.now, heldAt], by simp, .inl rfl⟩, by simp, by simp, by simp,
        by simp, by simp⟩
    · obtain ⟨hl, s1, hs1, ⟨⟨names, hp, hn, hnm⟩, hpa, hd, hf, hb, hfp⟩⟩ := hy
      rw [List.nil_append] at hn hpa hd
      refine Tri.bind (tri_releaseOpt (R := heldAt .block r.1.name ++ ((s0.2, .zlib) ::
        (s0.1, .block) :: (bi, .block) :: (bo, .block) :: (names.map (·, .block) ++
          (heldAt .block r.1.dir ++ ((if s1 = .inFile then heldAt .fd r.1.fd else []) ++ P)))))
          ?_) (fun _ z hz => Tri.perm ?_ hz)
      · refine List.perm_iff_count.2 fun c => ?_
        have := hp.count_eq c
        simp only [Hold.now, List.count_append, List.count_cons] at this ⊢
        omega
      · refine Tri.bind tri_destroyDS (fun _ z hz => Tri.perm ?_ hz)
        refine Tri.release (List.Perm.refl _) (Tri.release (List.Perm.refl _)
          (Tri.pure fun u hu => ⟨hl, .inl ⟨names, r.1.dir.toList,
            (if s1 = .inFile then r.1.fd.toList else []), hu.trans ?_, hn, hnm, ?_, ?_, ?_, ?_, ?_⟩⟩))
        · refine List.perm_iff_count.2 fun c => ?_
          simp only [heldAt, List.count_append]
          split <;> simp
        · cases r.1.dir <;> simp
        · intro h
          rcases hd h with h | h
          · rw [hf h]; rfl
          · rw [(hb h).1]; rfl
        · intro h
          rcases hpa h with h | h
          · left
            intro hc
            cases hdir : r.1.dir with
            | none => rw [hdir] at h; cases h
            | some d => rw [hdir] at hc; cases hc
          · exact .inr h
        · split
          · cases r.1.fd <;> simp
          · simp
        · by_cases h : s1 = .inFile
          · subst h; exact .inr hs1
          · rw [if_neg h]; exact .inl rfl

theorem tri_extractFile {o : Oracle} {rounds : List (List LEv)} {s : LState}
    (hs : LState.start.run rounds.flatten = some s) :
    Tri XFault P (ledExtractFile o rounds) (fun n x =>
      (n = rounds.length ∨ ∃ n, o n = false) ∧
      (Left o (rounds.take n).flatten P x ∨
        n = 0 ∧ (∃ n, o n = false) ∧ ∃ a, x.Perm ((a, .block) :: P))) := by
  refine Tri.acquire (fun f => ?_) (fun hn => Tri.pure fun x hx => ⟨.inr hn, .inl
    ⟨[], [], [], by simpa using hx, by simp, .inl rfl, by simp, by simp, by simp, by simp, .inl rfl⟩⟩)
  refine Tri.bind (tri_extract hs) (fun n x hx => ?_)
  obtain ⟨hl, hx⟩ := hx
  rcases hx with ⟨names, paths, fds, hp, hr⟩ | ⟨hn, hno, a, hp⟩
  · refine Tri.release (R := names.map (·, .block) ++ (paths.map (·, .block) ++
      (fds.map (·, .fd) ++ P))) ?_ (Tri.pure fun x hx => ⟨hl, .inl ⟨names, paths, fds, hx, hr⟩⟩)
    refine List.perm_iff_count.2 fun c => ?_
    have := hp.count_eq c
    simp only [List.count_append, List.count_cons] at this ⊢
    omega
  · refine Tri.release (R := (a, .block) :: P) ?_
      (Tri.pure fun x hx => ⟨hl, .inr ⟨hn, hno, a, hx⟩⟩)
    refine List.perm_iff_count.2 fun c => ?_
    have := hp.count_eq c
    simp only [List.count_cons] at this ⊢
    omega

end Zwt
