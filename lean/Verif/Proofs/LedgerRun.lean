import Verif.Proofs.Ledger
import Verif.Proofs.HLEnd
import Verif.Spec.Held
import Verif.Props.Resources

/-! The account of resources follows the callbacks of an extraction. -/

namespace Zwt

/-- From answer number `t` on, the oracle answers `as`. -/
def Answers (o : Oracle) (t : Nat) (as : List Bool) : Prop := ∀ i x, as[i]? = some x → o (t + i) = x

theorem Answers.left {o : Oracle} {t : Nat} {as bs : List Bool} (h : Answers o t (as ++ bs)) :
    Answers o t as := fun i x hi => h i x (by
  have := (List.getElem?_eq_some_iff.1 hi).1
  rw [List.getElem?_append_left this]; exact hi)

theorem Answers.right {o : Oracle} {t : Nat} {as bs : List Bool} (h : Answers o t (as ++ bs)) :
    Answers o (t + as.length) bs := fun i x hi => by
  rw [Nat.add_assoc]
  refine h _ x ?_
  rw [List.getElem?_append_right (by omega)]
  simpa using hi

/-- With some answers, `m` started in `l` ends well, and so that `Q`. -/
def Sim {α : Type} (m : Oracle → LM α) (l : Led) (Q : α → Led → Prop) : Prop :=
  ∃ as a l', l'.tick = l.tick + as.length ∧ Q a l' ∧
    ∀ o, Answers o l.tick as → m o l = .ok (a, l')

theorem Sim.pure {α : Type} {a : α} {l : Led} {Q : α → Led → Prop} (h : Q a l) :
    Sim (fun _ => (Pure.pure a : LM α)) l Q := ⟨[], a, l, rfl, h, fun _ _ => rfl⟩

theorem Sim.bind {α β : Type} {m : Oracle → LM α} {f : Oracle → α → LM β} {l : Led}
    {R : α → Led → Prop} {Q : β → Led → Prop} (hm : Sim m l R)
    (hf : ∀ a l', R a l' → Sim (fun o => f o a) l' Q) : Sim (fun o => m o >>= f o) l Q := by
  obtain ⟨as, a, l1, ht, hR, hm⟩ := hm
  obtain ⟨bs, b, l2, ht2, hQ, hf⟩ := hf a l1 hR
  refine ⟨as ++ bs, b, l2, by rw [ht2, ht, List.length_append]; omega, hQ, fun o ho => ?_⟩
  show (m o >>= f o) l = _
  rw [LM.bind_ok (hm o ho.left)]
  exact hf o (by rw [ht]; exact ho.right)

theorem Sim.acquire {β : Type} {r : Res} {f : Oracle → Option Nat → LM β} {l : Led}
    {Q : β → Led → Prop}
    (h : ∀ id t, Sim (fun o => f o (some id)) ⟨t, (id, r) :: l.live⟩ Q) :
    Sim (fun o => Zwt.acquire o r >>= f o) l Q := by
  refine Sim.bind (R := fun a l' => ∃ id, a = some id ∧ l'.live = (id, r) :: l.live)
    ⟨[true], some l.tick, ⟨l.tick + 1, (l.tick, r) :: l.live⟩, rfl, ⟨_, rfl, rfl⟩, fun o ho => ?_⟩ ?_
  · have : o l.tick = true := ho 0 true rfl
    simp [Zwt.acquire, this]
  · rintro _ ⟨t, _⟩ ⟨id, rfl, rfl⟩
    exact h id t

theorem Sim.acquireNot {β : Type} {r : Res} {f : Oracle → Option Nat → LM β} {l : Led}
    {Q : β → Led → Prop} (h : ∀ t, Sim (fun o => f o none) ⟨t, l.live⟩ Q) :
    Sim (fun o => Zwt.acquire o r >>= f o) l Q := by
  refine Sim.bind (R := fun a l' => a = none ∧ l'.live = l.live)
    ⟨[false], none, ⟨l.tick + 1, l.live⟩, rfl, ⟨rfl, rfl⟩, fun o ho => ?_⟩ ?_
  · have : o l.tick = false := ho 0 false rfl
    simp [Zwt.acquire, this]
  · rintro _ ⟨t, _⟩ ⟨rfl, rfl⟩
    exact h t

theorem Sim.ask {β : Type} (b : Bool) {f : Oracle → Bool → LM β} {l : Led} {Q : β → Led → Prop}
    (h : ∀ t, Sim (fun o => f o b) ⟨t, l.live⟩ Q) : Sim (fun o => Zwt.ask o >>= f o) l Q := by
  refine Sim.bind (R := fun a l' => a = b ∧ l'.live = l.live)
    ⟨[b], b, ⟨l.tick + 1, l.live⟩, rfl, ⟨rfl, rfl⟩, fun o ho => ?_⟩ ?_
  · have : o l.tick = b := ho 0 b rfl
    simp [Zwt.ask, this]
  · rintro _ ⟨t, _⟩ ⟨rfl, rfl⟩
    exact h t

theorem Sim.releaseOnly {r : Res} {id : Nat} {l : Led} {R : List (Nat × Res)}
    (hp : l.live.Perm ((id, r) :: R)) : Sim (fun _ => Zwt.release r id) l (fun _ l' => l'.live.Perm R) := by
  refine ⟨[], (), { l with live := l.live.erase (id, r) }, rfl, ?_, fun o _ => ?_⟩
  · simpa using hp.erase (id, r)
  · have hm : (id, r) ∈ l.live := hp.mem_iff.2 (by simp)
    simp [Zwt.release, hm]

theorem Sim.release {β : Type} {r : Res} {id : Nat} {f : Oracle → Unit → LM β} {l : Led}
    {R : List (Nat × Res)} {Q : β → Led → Prop} (hp : l.live.Perm ((id, r) :: R))
    (h : ∀ t x, x.Perm R → Sim (fun o => f o ()) ⟨t, x⟩ Q) :
    Sim (fun o => Zwt.release r id >>= f o) l Q := by
  refine Sim.bind (R := fun _ l' => l'.live.Perm R)
    ⟨[], (), { l with live := l.live.erase (id, r) }, rfl, ?_, fun o _ => ?_⟩ ?_
  · simpa using hp.erase (id, r)
  · have hm : (id, r) ∈ l.live := hp.mem_iff.2 (by simp)
    simp [Zwt.release, hm]
  · rintro _ ⟨t, x⟩ hx
    exact h t x hx

theorem Sim.releaseOpt {β : Type} {r : Res} {i : Option Nat} {f : Oracle → Unit → LM β} {l : Led}
    {R : List (Nat × Res)} {Q : β → Led → Prop} (hp : l.live.Perm (heldAt r i ++ R))
    (h : ∀ t x, x.Perm R → Sim (fun o => f o ()) ⟨t, x⟩ Q) :
    Sim (fun o => Zwt.releaseOpt r i >>= f o) l Q := by
  cases i with
  | none => exact Sim.bind (R := fun _ l' => l' = l) (Sim.pure rfl) (by rintro _ _ rfl; exact h _ _ hp)
  | some id => exact Sim.release hp h

theorem Sim.mkdir {β : Type} (b : Bool) {f : Oracle → Bool → LM β} {l : Led} {Q : β → Led → Prop}
    (h : ∀ t x, x.Perm l.live → Sim (fun o => f o b) ⟨t, x⟩ Q) :
    Sim (fun o => ledMkdir o >>= f o) l Q := by
  refine Sim.bind (R := fun a l' => a = b ∧ l'.live.Perm l.live) ?_ ?_
  · refine Sim.acquire fun id t => Sim.ask b fun t => Sim.release (List.Perm.refl _) fun t x hx => ?_
    exact Sim.pure ⟨rfl, hx⟩
  · rintro _ ⟨t, x⟩ ⟨rfl, hx⟩
    exact h t x hx

/-- What the account and the state of the callbacks have in common. -/
structure Agree (h : HL) (k : Hold) (live base : List (Nat × Res)) : Prop where
  fp : k.fp.isSome = h.fpOut.isSome
  dir : k.dir.isSome = h.dirPath.isSome
  fd : (h.fd = .bad ∧ k.fd = none) ∨ (h.fd = .closed ∧ k.fd.isSome) ∨ (h.fd.isOpen ∧ k.fd.isSome)
  live : live.Perm (heldAt .stream k.fp ++ (heldAt .block k.name ++ (heldAt .block k.dir ++
    ((if h.fd.isOpen then heldAt .fd k.fd else []) ++ base))))

/-- What is known at a point of the protocol. -/
def LState.Fits : LState → HL → Prop
  | .start, h => h.fpOut = none ∧ h.dirPath = none ∧ h.fd = .bad
  | .blob, h => h.dirPath = none ∧ h.fd = .bad
  | .idle, h => h.fpOut = none ∧ h.fd.isOpen = false
  | .inFile, h => h.fpOut = none

theorem Agree.swap {h : HL} {k : Hold} {x y base : List (Nat × Res)} (ha : Agree h k x base)
    (hp : y.Perm x) : Agree h k y base := { ha with live := hp.trans ha.live }

theorem sim_event {os : Os} {out : Bytes} {h h' : HL} {k : Hold} {s s' : LState} {e : Ev} {l : Led}
    {base : List (Nat × Res)} (hs : s.step e.led = some s') (hf : s.Fits h)
    (hr : hlEvent os out h e = .ok h') (ha : Agree h k l.live base) :
    s'.Fits h' ∧ Sim (fun o => ledEvent o k e.led) l (fun k' l' => Agree h' k' l'.live base) := by
  obtain ⟨a1, a2, a3, a4⟩ := ha
  cases e with
  | flStart =>
    have hst : s = .start ∧ s' = .blob := by cases s <;> cases hs; exact ⟨rfl, rfl⟩
    obtain ⟨rfl, rfl⟩ := hst
    obtain ⟨f1, f2, f3⟩ := hf
    have k1 : k.fp = none := by simpa [f1] using a1
    simp only [hlEvent, hlFileStart] at hr
    split at hr
    · cases hr
      refine ⟨⟨f2, f3⟩, ?_⟩
      refine Sim.acquireNot fun t => Sim.pure ⟨rfl, a2, a3, ?_⟩
      rw [k1] at a4
      exact a4
    · cases hr
      refine ⟨⟨f2, f3⟩, ?_⟩
      refine Sim.acquire fun id t => Sim.pure ⟨rfl, a2, a3, ?_⟩
      rw [k1] at a4
      exact a4.cons _
  | flRead d =>
    have hst : s = .blob ∧ s' = .blob := by cases s <;> cases hs; exact ⟨rfl, rfl⟩
    obtain ⟨rfl, rfl⟩ := hst
    simp only [hlEvent, hlFileData] at hr
    split at hr
    · cases hr
    · rename_i f hfp
      cases hr
      refine ⟨hf, ?_⟩
      have hk : k.fp ≠ none := by intro hc; rw [hc, hfp] at a1; cases a1
      show Sim (fun _ => if k.fp = none then fault .nullDeref else Pure.pure k) l _
      rw [if_neg hk]
      exact Sim.pure ⟨by rw [a1, hfp]; rfl, a2, a3, a4⟩
  | drStart =>
    have hst : s = .start ∧ s' = .idle := by cases s <;> cases hs; exact ⟨rfl, rfl⟩
    obtain ⟨rfl, rfl⟩ := hst
    obtain ⟨f1, f2, f3⟩ := hf
    have k2 : k.dir = none := by simpa [f2] using a2
    have f4 : h.fd.isOpen = false := by rw [f3]; rfl
    simp only [hlEvent, hlDirStart] at hr
    split at hr
    · cases hr
      refine ⟨⟨f1, f4⟩, ?_⟩
      refine Sim.mkdir false fun t x hx => ?_
      exact Sim.pure ⟨a1, a2, a3, hx.trans a4⟩
    · split at hr
      · cases hr
        refine ⟨⟨f1, f4⟩, ?_⟩
        refine Sim.mkdir true fun t x hx => Sim.acquireNot fun t => ?_
        refine Sim.pure ⟨a1, rfl, a3, ?_⟩
        rw [k2] at a4
        exact hx.trans a4
      · cases hr
        refine ⟨⟨f1, f4⟩, ?_⟩
        refine Sim.mkdir true fun t x hx => Sim.acquire fun id t => ?_
        refine Sim.pure ⟨a1, rfl, a3, ?_⟩
        rw [k2] at a4
        refine List.perm_iff_count.2 fun c => ?_
        have := (hx.trans a4).count_eq c
        simp only [heldAt, Option.toList_none, Option.toList_some, List.map_cons, List.map_nil,
          List.count_append, List.count_cons, List.count_nil] at this ⊢
        omega
  | itemStart ft name item =>
    simp only [hlEvent, hlItemStart] at hr
    cases ft with
    | dir =>
      have hst : s = .idle ∧ s' = .idle := by cases s <;> cases hs; exact ⟨rfl, rfl⟩
      obtain ⟨rfl, rfl⟩ := hst
      simp only [hlDirItem] at hr
      split at hr
      · cases hr
        refine ⟨hf, ?_⟩
        exact Sim.acquireNot fun t => Sim.pure ⟨a1, a2, a3, a4⟩
      · split at hr
        · cases hr
        · cases hr
          refine ⟨hf, ?_⟩
          refine Sim.acquire fun id t => ?_
          refine Sim.releaseOpt (R := (id, .block) :: (heldAt .stream k.fp ++ (heldAt .block k.name ++
            ((if h.fd.isOpen then heldAt .fd k.fd else []) ++ base)))) ?_ fun t x hx => ?_
          · refine List.perm_iff_count.2 fun c => ?_
            have := a4.count_eq c
            simp only [List.count_append, List.count_cons] at this ⊢
            omega
          · refine Sim.mkdir true fun t y hy => ?_
            refine Sim.pure ⟨a1, rfl, a3, (hy.trans hx).trans ?_⟩
            refine List.perm_iff_count.2 fun c => ?_
            simp only [heldAt, Option.toList_some, List.map_cons, List.map_nil,
              List.count_append, List.count_cons, List.count_nil]
            omega
    | file =>
      have hst : s = .idle ∧ s' = .inFile := by cases s <;> cases hs; exact ⟨rfl, rfl⟩
      obtain ⟨rfl, rfl⟩ := hst
      obtain ⟨f1, f2⟩ := hf
      rw [f2] at a4
      simp only [hlFileItem] at hr
      split at hr
      · cases hr
      · split at hr
        · cases hr
          refine ⟨f1, Sim.acquireNot fun t => Sim.pure ⟨a1, a2, .inl ⟨rfl, rfl⟩, ?_⟩⟩
          exact a4
        · cases hr
          refine ⟨f1, Sim.acquire fun id t => Sim.pure ⟨a1, a2, .inr (.inr ⟨rfl, rfl⟩), ?_⟩⟩
          refine List.perm_iff_count.2 fun c => ?_
          have := a4.count_eq c
          simp only [heldAt, Fd.isOpen, Bool.false_eq_true, if_false, if_true, Option.toList_some,
            List.map_cons, List.map_nil,
            List.count_append, List.count_cons, List.count_nil] at this ⊢
          omega
    | _ =>
      have hst : s = .idle ∧ s' = .idle := by cases s <;> cases hs; exact ⟨rfl, rfl⟩
      obtain ⟨rfl, rfl⟩ := hst
      cases hr
      exact ⟨hf, Sim.pure ⟨a1, a2, a3, a4⟩⟩
  | fileRead d =>
    have hst : s = .inFile ∧ s' = .inFile := by cases s <;> cases hs; exact ⟨rfl, rfl⟩
    obtain ⟨rfl, rfl⟩ := hst
    simp only [hlEvent, hlFileRead] at hr
    split at hr
    · cases hr
      exact ⟨hf, Sim.pure ⟨a1, a2, a3, a4⟩⟩
    · cases hr
    · rename_i f hfd
      cases hr
      rw [hfd] at a3 a4
      exact ⟨hf, Sim.pure ⟨a1, a2, .inr (.inr ⟨rfl, by
        rcases a3 with ⟨h, _⟩ | ⟨h, _⟩ | ⟨_, h⟩
        · cases h
        · cases h
        · exact h⟩), a4⟩⟩
  | fileEnd =>
    have hst : s = .inFile ∧ s' = .idle := by cases s <;> cases hs; exact ⟨rfl, rfl⟩
    obtain ⟨rfl, rfl⟩ := hst
    simp only [hlEvent, hlFileEnd] at hr
    split at hr
    · rename_i hfd
      cases hr
      refine ⟨⟨hf, by rw [hfd]; rfl⟩, ?_⟩
      have hk : k.fd = none := by
        rcases a3 with ⟨_, h⟩ | ⟨h, _⟩ | ⟨h, _⟩
        · exact h
        · rw [hfd] at h; cases h
        · rw [hfd] at h; cases h
      refine Sim.releaseOpt (R := l.live) (by rw [hk]; exact List.Perm.refl _) fun t x hx => ?_
      exact Sim.pure ⟨a1, a2, a3, hx.trans a4⟩
    · cases hr
    · rename_i f hfd
      cases hr
      rw [hfd] at a3 a4
      refine ⟨⟨hf, rfl⟩, ?_⟩
      refine Sim.releaseOpt (R := heldAt .stream k.fp ++ (heldAt .block k.name ++
        (heldAt .block k.dir ++ base))) ?_ fun t x hx => ?_
      · refine List.perm_iff_count.2 fun c => ?_
        have := a4.count_eq c
        simp only [Fd.isOpen, if_true, List.count_append] at this ⊢
        omega
      · refine Sim.pure ⟨a1, a2, .inr (.inl ⟨rfl, ?_⟩), by simpa [Fd.isOpen] using hx⟩
        rcases a3 with ⟨h, _⟩ | ⟨h, _⟩ | ⟨_, h⟩
        · cases h
        · cases h
        · exact h
  | dirEnd =>
    have hst : s = .idle ∧ s' = .idle := by cases s <;> cases hs; exact ⟨rfl, rfl⟩
    obtain ⟨rfl, rfl⟩ := hst
    simp only [hlEvent, hlDirEnd] at hr
    split at hr
    · cases hr
    · rename_i p hp
      split at hr
      · cases hr
      · cases hr
        refine ⟨hf, ?_⟩
        have hk : k.dir ≠ none := by intro hc; rw [hc, hp] at a2; cases a2
        show Sim (fun o => if k.dir = none then fault .nullDeref
          else Zwt.ask o >>= fun b => if b = true then Pure.pure k else fault .assertFail) l _
        simp only [if_neg hk]
        refine Sim.ask true fun t => ?_
        exact Sim.pure ⟨a1, by rw [a2, hp]; rfl, a3, a4⟩
  | symLink t af =>
    have hst : s = .idle ∧ s' = .idle := by cases s <;> cases hs; exact ⟨rfl, rfl⟩
    obtain ⟨rfl, rfl⟩ := hst
    have key : h'.fpOut = h.fpOut ∧ h'.dirPath = h.dirPath ∧ h'.fd = h.fd := by
      simp only [hlEvent, hlSymLink] at hr
      repeat' split at hr
      all_goals cases hr
      all_goals exact ⟨rfl, rfl, rfl⟩
    obtain ⟨k1, k2, k3⟩ := key
    refine ⟨⟨by rw [k1]; exact hf.1, by rw [k3]; exact hf.2⟩, Sim.pure ?_⟩
    exact ⟨by rw [k1]; exact a1, by rw [k2]; exact a2, by rw [k3]; exact a3, by rw [k3]; exact a4⟩

/-- What the returned enumerator and the absence of an error say. -/
def LState.Said : LState → HL → Prop
  | .start, h => h.ret = CT_NONE
  | .blob, h => h.ret ≠ CT_DIRECTORY
  | .idle, h => h.ret ≠ CT_FILE ∧ (h.ret = CT_DIRECTORY → h.dirPath.isSome) ∧
      (h.hasError = false → h.dirPath.isSome)
  | .inFile, h => (h.ret ≠ CT_FILE ∧ (h.ret = CT_DIRECTORY → h.dirPath.isSome) ∧
      (h.hasError = false → h.dirPath.isSome)) ∧ (h.hasError = false → h.fd.isOpen)

theorem said_event {os : Os} {out : Bytes} {h h' : HL} {s s' : LState} {e : Ev}
    (hs : s.step e.led = some s') (hf : s.Said h) (hr : hlEvent os out h e = .ok h') :
    s'.Said h' := by
  cases e with
  | flStart =>
    have hst : s = .start ∧ s' = .blob := by cases s <;> cases hs; exact ⟨rfl, rfl⟩
    obtain ⟨rfl, rfl⟩ := hst
    have hf : h.ret = CT_NONE := hf
    simp only [hlEvent, hlFileStart] at hr
    split at hr
    · cases hr
      show h.ret ≠ CT_DIRECTORY
      rw [hf]; decide
    · cases hr
      show CT_FILE ≠ CT_DIRECTORY
      decide
  | flRead d =>
    have hst : s = .blob ∧ s' = .blob := by cases s <;> cases hs; exact ⟨rfl, rfl⟩
    obtain ⟨rfl, rfl⟩ := hst
    simp only [hlEvent, hlFileData] at hr
    split at hr <;> cases hr
    exact hf
  | drStart =>
    have hst : s = .start ∧ s' = .idle := by cases s <;> cases hs; exact ⟨rfl, rfl⟩
    obtain ⟨rfl, rfl⟩ := hst
    have hf : h.ret = CT_NONE := hf
    have hn : h.ret ≠ CT_FILE ∧ h.ret ≠ CT_DIRECTORY := by rw [hf]; decide
    simp only [hlEvent, hlDirStart] at hr
    split at hr
    · cases hr
      exact ⟨hn.1, fun hc => absurd hc hn.2, fun hc => by cases hc⟩
    · split at hr
      · cases hr
        exact ⟨hn.1, fun hc => absurd hc hn.2, fun hc => by cases hc⟩
      · cases hr
        exact ⟨by show CT_DIRECTORY ≠ CT_FILE; decide, fun _ => rfl, fun _ => rfl⟩
  | itemStart ft name item =>
    simp only [hlEvent, hlItemStart] at hr
    cases ft with
    | dir =>
      have hst : s = .idle ∧ s' = .idle := by cases s <;> cases hs; exact ⟨rfl, rfl⟩
      obtain ⟨rfl, rfl⟩ := hst
      simp only [hlDirItem] at hr
      split at hr
      · cases hr
        exact ⟨hf.1, hf.2.1, fun hc => by cases hc⟩
      · split at hr <;> cases hr
        exact ⟨hf.1, fun _ => rfl, fun _ => rfl⟩
    | file =>
      have hst : s = .idle ∧ s' = .inFile := by cases s <;> cases hs; exact ⟨rfl, rfl⟩
      obtain ⟨rfl, rfl⟩ := hst
      simp only [hlFileItem] at hr
      split at hr
      · cases hr
      · split at hr <;> cases hr
        · exact ⟨⟨hf.1, hf.2.1, fun hc => by cases hc⟩, fun hc => by cases hc⟩
        · exact ⟨hf, fun _ => rfl⟩
    | _ =>
      have hst : s = .idle ∧ s' = .idle := by cases s <;> cases hs; exact ⟨rfl, rfl⟩
      obtain ⟨rfl, rfl⟩ := hst
      cases hr
      exact hf
  | fileRead d =>
    have hst : s = .inFile ∧ s' = .inFile := by cases s <;> cases hs; exact ⟨rfl, rfl⟩
    obtain ⟨rfl, rfl⟩ := hst
    simp only [hlEvent, hlFileRead] at hr
    split at hr <;> cases hr
    · exact hf
    · exact ⟨hf.1, fun _ => rfl⟩
  | fileEnd =>
    have hst : s = .inFile ∧ s' = .idle := by cases s <;> cases hs; exact ⟨rfl, rfl⟩
    obtain ⟨rfl, rfl⟩ := hst
    simp only [hlEvent, hlFileEnd] at hr
    split at hr <;> cases hr <;> exact hf.1
  | dirEnd =>
    have hst : s = .idle ∧ s' = .idle := by cases s <;> cases hs; exact ⟨rfl, rfl⟩
    obtain ⟨rfl, rfl⟩ := hst
    simp only [hlEvent, hlDirEnd] at hr
    split at hr
    · cases hr
    · split at hr <;> cases hr
      exact ⟨hf.1, fun _ => rfl, fun _ => rfl⟩
  | symLink t af =>
    have hst : s = .idle ∧ s' = .idle := by cases s <;> cases hs; exact ⟨rfl, rfl⟩
    obtain ⟨rfl, rfl⟩ := hst
    have key : h'.ret = h.ret ∧ h'.dirPath = h.dirPath ∧ h'.hasError = h.hasError := by
      simp only [hlEvent, hlSymLink] at hr
      repeat' split at hr
      all_goals cases hr
      all_goals exact ⟨rfl, rfl, rfl⟩
    obtain ⟨k1, k2, k3⟩ := key
    exact ⟨by rw [k1]; exact hf.1, by rw [k1, k2]; exact hf.2.1, by rw [k2, k3]; exact hf.2.2⟩

theorem sim_name {h : HL} {k : Hold} {l : Led} {base : List (Nat × Res)}
    (ha : Agree h k l.live base) :
    Sim (fun o => ledEvent o k .name) l (fun k' l' => Agree h k' l'.live base) := by
  obtain ⟨a1, a2, a3, a4⟩ := ha
  refine Sim.acquire fun id t => ?_
  refine Sim.releaseOpt (R := (id, .block) :: (heldAt .stream k.fp ++ (heldAt .block k.dir ++
    ((if h.fd.isOpen then heldAt .fd k.fd else []) ++ base)))) ?_ fun t x hx => ?_
  · refine List.perm_iff_count.2 fun c => ?_
    have := a4.count_eq c
    simp only [List.count_append, List.count_cons] at this ⊢
    omega
  · refine Sim.pure ⟨a1, a2, a3, hx.trans ?_⟩
    refine List.perm_iff_count.2 fun c => ?_
    simp only [heldAt, Option.toList_some, List.map_cons, List.map_nil,
      List.count_append, List.count_cons, List.count_nil]
    omega

/-- The steps `st` are the callbacks `evs`, with reallocations of the name between them. -/
abbrev StepsOf (st : List LEv) (evs : List Ev) : Prop := st.filter (· ≠ .name) = evs.map Ev.led

theorem Ev.led_ne_name (e : Ev) : e.led ≠ .name := by
  cases e with
  | itemStart ft n i => cases ft <;> exact LEv.noConfusion
  | _ => exact LEv.noConfusion

theorem sim_events {os : Os} {out : Bytes} {st : List LEv} {evs : List Ev} {h h' : HL} {k : Hold}
    {s s' : LState} {l : Led} {base : List (Nat × Res)} (hst : StepsOf st evs)
    (hs : s.run (evs.map Ev.led) = some s') (hf : s.Fits h)
    (hr : hlEvents os out h evs = .ok h') (ha : Agree h k l.live base) :
    s'.Fits h' ∧ Sim (fun o => ledEvents o k st) l (fun k' l' => Agree h' k' l'.live base) := by
  induction st generalizing evs h k s l with
  | nil =>
    have : evs = [] := by
      have h0 : ([] : List LEv) = evs.map Ev.led := hst
      exact List.map_eq_nil_iff.1 h0.symm
    subst this
    cases hs
    cases hr
    exact ⟨hf, Sim.pure ha⟩
  | cons x st ih =>
    by_cases hx : x = .name
    · subst hx
      have hst' : StepsOf st evs := by simpa [StepsOf] using hst
      have hfit : s'.Fits h' := (ih hst' hs hf hr ha).1
      exact ⟨hfit, Sim.bind (sim_name ha) fun k' l' ha' => (ih hst' hs hf hr ha').2⟩
    · have hst' : x :: st.filter (· ≠ .name) = evs.map Ev.led := by
        rw [← hst, List.filter_cons]
        simp [hx]
      cases evs with
      | nil => cases hst'
      | cons e evs =>
        rw [List.map_cons] at hst'
        obtain ⟨h1, h2⟩ := List.cons.inj hst'
        subst h1
        rw [List.map_cons] at hs
        cases hstep : s.step e.led with
        | none => simp [LState.run, hstep] at hs
        | some s1 =>
          have hs1 : s1.run (evs.map Ev.led) = some s' := by simpa [LState.run, hstep] using hs
          unfold hlEvents at hr
          split at hr
          · cases hr
          · rename_i h1 he
            have hev := sim_event hstep hf he ha
            obtain ⟨as, k1, l1, _, ha1, _⟩ := hev.2
            refine ⟨(ih h2 hs1 hev.1 hr ha1).1, Sim.bind hev.2 fun k' l' ha' => ?_⟩
            exact (ih h2 hs1 hev.1 hr ha').2

theorem said_events {os : Os} {out : Bytes} {evs : List Ev} {h h' : HL} {s s' : LState}
    (hs : s.run (evs.map Ev.led) = some s') (hf : s.Said h)
    (hr : hlEvents os out h evs = .ok h') : s'.Said h' := by
  induction evs generalizing h s with
  | nil => cases hs; cases hr; exact hf
  | cons e evs ih =>
    rw [List.map_cons] at hs
    cases hstep : s.step e.led with
    | none => simp [LState.run, hstep] at hs
    | some s1 =>
      have hs1 : s1.run (evs.map Ev.led) = some s' := by simpa [LState.run, hstep] using hs
      unfold hlEvents at hr
      split at hr
      · cases hr
      · rename_i h1 he
        exact ih hs1 (said_event hstep hf he) hr

theorem stepsOf_split {a b : List LEv} {evs : List Ev} (h : StepsOf (a ++ b) evs) :
    ∃ e1 e2, evs = e1 ++ e2 ∧ StepsOf a e1 ∧ StepsOf b e2 := by
  rw [StepsOf, List.filter_append] at h
  obtain ⟨e1, e2, rfl, h1, h2⟩ := List.map_eq_append_iff.1 h.symm
  exact ⟨e1, e2, rfl, h1.symm, h2.symm⟩

theorem hlEvents_split {os : Os} {out : Bytes} {a b : List Ev} {h h' : HL}
    (hr : hlEvents os out h (a ++ b) = .ok h') :
    ∃ h1, hlEvents os out h a = .ok h1 ∧ hlEvents os out h1 b = .ok h' := by
  induction a generalizing h with
  | nil => exact ⟨h, rfl, hr⟩
  | cons e a ih =>
    simp only [List.cons_append, hlEvents] at hr ⊢
    split at hr
    · cases hr
    · exact ih hr

theorem sim_rounds {os : Os} {out : Bytes} {rounds : List (List LEv)} {evs : List Ev} {h h' : HL}
    {k : Hold} {s s' : LState} {l : Led} {base : List (Nat × Res)}
    (hst : StepsOf rounds.flatten evs) (hs : s.run (evs.map Ev.led) = some s') (hf : s.Fits h)
    (hr : hlEvents os out h evs = .ok h') (ha : Agree h k l.live base) :
    Sim (fun o => ledRounds o k rounds) l
      (fun r l' => r.2 = rounds.length ∧ Agree h' r.1 l'.live base) := by
  induction rounds generalizing evs h k s l with
  | nil =>
    have : evs = [] := by
      have h0 : ([] : List LEv) = evs.map Ev.led := hst
      exact List.map_eq_nil_iff.1 h0.symm
    subst this
    cases hr
    exact Sim.pure ⟨rfl, ha⟩
  | cons es rest ih =>
    rw [List.flatten_cons] at hst
    obtain ⟨e1, e2, rfl, st1, st2⟩ := stepsOf_split hst
    obtain ⟨h1, r1, r2⟩ := hlEvents_split hr
    rw [List.map_append, LState.run_append] at hs
    cases hs1 : s.run (e1.map Ev.led) with
    | none => simp [hs1] at hs
    | some s1 =>
      have hs2 : s1.run (e2.map Ev.led) = some s' := by simpa [hs1] using hs
      refine Sim.ask true fun t => ?_
      have hev := sim_events (l := ⟨t, l.live⟩) st1 hs1 hf r1 ha
      refine Sim.bind hev.2 fun k' l' ha' => ?_
      refine Sim.ask true fun t => ?_
      refine Sim.bind (ih (l := ⟨t, l'.live⟩) st2 hs2 hev.1 r2 ha') fun r l'' hr => ?_
      exact Sim.pure ⟨by simp [hr.1], hr.2⟩

/-- The steps of a whole extraction. -/
theorem sim_extractFile {os : Os} {out : Bytes} {w : World} {rounds : List (List LEv)}
    {evs : List Ev} {h : HL} {s : LState} (l : Led) (hst : StepsOf rounds.flatten evs)
    (hs : LState.start.run (evs.map Ev.led) = some s)
    (hr : hlEvents os out (HL.init w) evs = .ok h) :
    Sim (fun o => ledExtractFile o rounds) l (fun n l' => n = rounds.length ∧
      ∃ extra, l'.live.Perm (extra ++ l.live) ∧ extra.map (·.2) = h.left) := by
  refine Sim.acquire fun f t => ?_
  refine Sim.bind (R := fun n l' => n = rounds.length ∧
    ∃ extra, l'.live.Perm ((f, .stream) :: (extra ++ l.live)) ∧ extra.map (·.2) = h.left) ?_ ?_
  · refine Sim.acquire fun bo t => Sim.acquire fun bi t => ?_
    refine Sim.bind (R := fun sn l' => ∃ s0 : Nat × Nat, sn = some s0 ∧ l'.live =
      (s0.2, .zlib) :: (s0.1, .block) :: (bi, .block) :: (bo, .block) :: (f, .stream) :: l.live)
      (Sim.acquire fun a t => Sim.acquire fun z t => Sim.pure ⟨_, rfl, rfl⟩) ?_
    rintro _ ⟨t, _⟩ ⟨s0, rfl, rfl⟩
    refine Sim.bind (sim_rounds (base := (s0.2, .zlib) :: (s0.1, .block) :: (bi, .block) ::
      (bo, .block) :: (f, .stream) :: l.live) hst hs (s := .start) ⟨rfl, rfl, rfl⟩ hr
      ⟨rfl, rfl, .inl ⟨rfl, rfl⟩, List.Perm.refl _⟩) ?_
    rintro ⟨k, n⟩ ⟨t, x⟩ ⟨hn, a1, a2, a3, a4⟩
    refine Sim.releaseOpt a4 fun t y hy => ?_
    refine Sim.bind (R := fun _ l' => l'.live.Perm ((bi, .block) :: (bo, .block) :: (f, .stream) ::
      (heldAt .block k.dir ++ ((if h.fd.isOpen then heldAt .fd k.fd else []) ++ l.live)))) ?_ ?_
    · refine Sim.releaseOpt (R := (s0.2, .zlib) :: (s0.1, .block) :: (bi, .block) :: (bo, .block) ::
        (f, .stream) :: (heldAt .block k.dir ++ ((if h.fd.isOpen then heldAt .fd k.fd else []) ++
          l.live))) ?_ fun t z hz => ?_
      · refine hy.trans (List.perm_iff_count.2 fun c => ?_)
        simp only [List.count_append, List.count_cons]
        omega
      · refine Sim.release hz fun t z hz => ?_
        exact Sim.releaseOnly hz
    · rintro _ ⟨t, z⟩ hz
      refine Sim.release hz fun t z hz => Sim.release hz fun t z hz => Sim.pure ⟨hn, ?_⟩
      refine ⟨heldAt .block k.dir ++ (if h.fd.isOpen then heldAt .fd k.fd else []), ?_, ?_⟩
      · simpa using hz
      · rw [List.map_append, HL.left]
        congr 1
        · cases hk : k.dir with
          | none => rw [hk] at a2; simp [heldAt, ← a2]
          | some d => rw [hk] at a2; simp [heldAt, ← a2]
        · by_cases ho : h.fd.isOpen
          · rw [if_pos ho, if_pos ho]
            cases hk : k.fd with
            | some d => rfl
            | none =>
              exfalso
              rcases a3 with ⟨h1, _⟩ | ⟨h1, _⟩ | ⟨_, h1⟩
              · rw [h1] at ho; cases ho
              · rw [h1] at ho; cases ho
              · rw [hk] at h1; cases h1
          · rw [if_neg ho, if_neg ho]; rfl
  · rintro n ⟨t, x⟩ ⟨hn, extra, hp, he⟩
    refine Sim.release hp fun t x hx => Sim.pure ⟨hn, extra, hx, he⟩

/-- Some oracle gives these answers. -/
theorem Sim.runs {α : Type} {m : Oracle → LM α} {l : Led} {Q : α → Led → Prop} (h : Sim m l Q) :
    ∃ o a l', m o l = .ok (a, l') ∧ Q a l' := by
  obtain ⟨as, a, l', _, hQ, hm⟩ := h
  refine ⟨fun n => as.getD (n - l.tick) true, a, l', hm _ fun i x hi => ?_, hQ⟩
  show as.getD (l.tick + i - l.tick) true = x
  rw [Nat.add_sub_cancel_left, List.getD_eq_getElem?_getD, hi]
  rfl

theorem LogKind.state {P : Bytes} {log : List Ev} (h : LogKind P log) :
    ∃ s, LState.start.run (log.map Ev.led) = some s := by
  cases h with
  | none => exact ⟨.start, rfl⟩
  | @file ds _ _ _ _ _ =>
    refine ⟨.blob, ?_⟩
    show LState.blob.run ((ds.map Ev.flRead).map Ev.led) = some .blob
    rename_i a b c d e
    clear a b c d e
    induction ds with
    | nil => rfl
    | cons d ds ih => exact ih
  | @dir evs _ _ _ hp =>
    obtain ⟨p', hp'⟩ := Option.isSome_iff_exists.1 hp
    exact ⟨p'.led, C34_steps_in_order hp'⟩

/-- What is left, by the point the steps got to. -/
theorem left_of {h : HL} {s : LState} (hf : s.Fits h) (hs : s.Said h) :
    (h.hasError = false → h.left = s.keeps) ∧ (h.ret = CT_FILE → h.left = []) ∧
      (h.ret = CT_DIRECTORY → .block ∈ h.left) := by
  cases s with
  | start =>
    have hs : h.ret = CT_NONE := hs
    obtain ⟨_, f2, f3⟩ := hf
    have hl : h.left = [] := by simp [HL.left, f2, f3, Fd.isOpen]
    exact ⟨fun _ => hl, fun _ => hl, fun hc => by rw [hs] at hc; cases hc⟩
  | blob =>
    obtain ⟨f2, f3⟩ := hf
    have hl : h.left = [] := by simp [HL.left, f2, f3, Fd.isOpen]
    exact ⟨fun _ => hl, fun _ => hl, fun hc => absurd hc hs⟩
  | idle =>
    obtain ⟨_, f2⟩ := hf
    obtain ⟨s1, s2, s3⟩ := hs
    exact ⟨fun he => by simp [HL.left, f2, s3 he, LState.keeps], fun hc => absurd hc s1,
      fun hc => by simp [HL.left, s2 hc]⟩
  | inFile =>
    obtain ⟨⟨s1, s2, s3⟩, s4⟩ := hs
    exact ⟨fun he => by simp [HL.left, s4 he, s3 he, LState.keeps], fun hc => absurd hc s1,
      fun hc => by simp [HL.left, s2 hc]⟩

end Zwt
