import Verif.Spec.Live
import Verif.Proofs.WalkMore
import Verif.Proofs.WalkHistory

/-! The walk that meets its own output, beside the walk over files at rest. -/

namespace Zwt

variable {σ : Type} {D : Deflater} {own : Own} {seen : List Bytes → Run Bytes}

/-- What is in the file stays there. -/
def OnlyGrows (seen : List Bytes → Run Bytes) : Prop :=
  ∀ {o o' c c'}, o <+: o' → seen o = .ok c → seen o' = .ok c' → c <+: c'

theorem readOwn_eq (hg : OnlyGrows seen) : ∀ (fuel off : Nat) (w w' : W σ),
    readOwn seen fuel off w = .ok w' → (∀ c, seen w.out = .ok c → off ≤ c.length) →
    ∃ o c, w.out <+: o ∧ o <+: w'.out ∧ seen o = .ok c ∧ off ≤ c.length ∧
      (readFile (c.drop off) false).2 = false ∧
      w' = { w with out := w.out ++ (readFile (c.drop off) false).1 } := by
  intro fuel
  induction fuel with
  | zero => intro off w w' h; simp [readOwn] at h
  | succ n ih =>
    intro off w w' h hoff
    simp only [readOwn] at h
    split at h
    · cases h
    · rename_i c hc
      have hoc := hoff c hc
      split at h
      · rename_i hlt
        cases h
        have hl : (c.drop off).length < DEF_CHUNK_SIZE := by
          simp only [List.length_take] at hlt; omega
        have ht : (c.drop off).take DEF_CHUNK_SIZE = c.drop off := List.take_of_length_le (by omega)
        refine ⟨w.out, c, List.prefix_refl _, List.prefix_append _ _, hc, hoc, ?_⟩
        rw [ht, readFile, if_pos hl]
        exact ⟨rfl, rfl⟩
      · rename_i hge
        have hl : ¬ (c.drop off).length < DEF_CHUNK_SIZE := by
          simp only [List.length_take] at hge; omega
        obtain ⟨o, c2, i1, i2, i3, i4, i5, i6⟩ := ih _ _ _ h (fun c2 hc2 => by
          have := (hg (List.prefix_append w.out _) hc hc2).length_le
          simp only [List.length_drop] at hl
          omega)
        have hp : w.out <+: o := (List.prefix_append _ _).trans i1
        obtain ⟨t, rfl⟩ := hg hp hc i3
        have hd : (c ++ t).drop off = c.drop off ++ t := by
          rw [List.drop_append, show off - c.length = 0 by omega, List.drop_zero]
        have hl2 : ¬ ((c ++ t).drop off).length < DEF_CHUNK_SIZE := by
          rw [hd, List.length_append]; omega
        refine ⟨o, c ++ t, hp, i2, i3, by rw [List.length_append]; omega, ?_⟩
        rw [readFile, if_neg hl2]
        simp only [List.drop_drop]
        refine ⟨i5, ?_⟩
        rw [i6]
        simp only [W.put, List.append_assoc, List.cons_append, List.nil_append]
        rw [hd, List.take_append_of_le_length (by omega)]

/-- A file system that differs from `env` only in the output file. -/
def Own.but (own : Own) (env : Env) (g : Bytes → Option FileObs) : Prop :=
  ∀ p, own.path p = false → g p = env.fopen p

theorem Own.freeze_but (own : Own) (env : Env) (f : FileObs) :
    own.but env (own.freeze env f).fopen := by
  intro p hp; simp [Own.freeze, hp]

/-- What the walk found in the output file. -/
def Own.Snap (own : Own) (seen : List Bytes → Run Bytes) (f : FileObs) (out : List Bytes) : Prop :=
  ∃ o1 o2 c1 c2, o1 <+: o2 ∧ o2 <+: out ∧ seen o1 = .ok c1 ∧ seen o2 = .ok c2 ∧
    f = ⟨some (own.mode, c1.length), c2, false⟩

theorem Own.Snap.mono {f : FileObs} {out out' : List Bytes} (h : own.Snap seen f out)
    (hp : out <+: out') : own.Snap seen f out' := by
  obtain ⟨o1, o2, c1, c2, h1, h2, h3⟩ := h
  exact ⟨o1, o2, c1, c2, h1, h2.trans hp, h3⟩

/-- From `w` to `w'`, beside a run over files at rest. -/
def Tracks (own : Own) (seen : List Bytes → Run Bytes) (env : Env) (w w' : W σ)
    (run : (Bytes → Option FileObs) → Prop) : Prop :=
  ∃ new, w'.shown = w.shown ++ new ∧ w.out <+: w'.out ∧
    (new.countP own.met = 0 → ∀ g, own.but env g → run g) ∧
    (new.countP own.met = 1 → ∃ f, own.Snap seen f w'.out ∧ run (own.freeze env f).fopen)

theorem Tracks.leaf {env : Env} {w w' : W σ} {run : (Bytes → Option FileObs) → Prop}
    {new : List (Bytes × Entry × Int)} (h1 : w'.shown = w.shown ++ new)
    (h2 : w.out <+: w'.out) (h3 : new.countP own.met = 0) (h4 : ∀ g, own.but env g → run g) :
    Tracks own seen env w w' run :=
  ⟨new, h1, h2, fun _ => h4, fun h => by omega⟩

theorem Tracks.trans {env : Env} {w w1 w2 : W σ} {r1 r2 r : (Bytes → Option FileObs) → Prop}
    (h1 : Tracks own seen env w w1 r1) (h2 : Tracks own seen env w1 w2 r2)
    (h : ∀ g, own.but env g → r1 g → r2 g → r g) : Tracks own seen env w w2 r := by
  obtain ⟨n1, a1, a2, a3, a4⟩ := h1
  obtain ⟨n2, b1, b2, b3, b4⟩ := h2
  refine ⟨n1 ++ n2, by rw [b1, a1, List.append_assoc], a2.trans b2, ?_, ?_⟩
  · intro hc g hg
    rw [List.countP_append] at hc
    exact h g hg (a3 (by omega) g hg) (b3 (by omega) g hg)
  · intro hc
    rw [List.countP_append] at hc
    by_cases h0 : n1.countP own.met = 0
    · obtain ⟨f, hs, hr⟩ := b4 (by omega)
      exact ⟨f, hs, h _ (own.freeze_but env f) (a3 h0 _ (own.freeze_but env f)) hr⟩
    · obtain ⟨f, hs, hr⟩ := a4 (by omega)
      exact ⟨f, hs.mono b2, h _ (own.freeze_but env f) hr (b3 (by omega) _ (own.freeze_but env f))⟩

theorem putItem_shown {w w' : W σ} {item name : Bytes} (h : w.putItem item name = .ok w') :
    w'.shown = w.shown := by
  unfold W.putItem at h
  split at h
  · cases h
  · cases h; rfl

theorem asFile_shown {w w' : W σ} {m name : Bytes} {mode size : Nat} {ps : List Bytes} {rerr : Bool}
    {ret : Int} (h : asFile w m name mode size ps rerr = .ok (ret, w')) : w'.shown = w.shown := by
  unfold asFile at h
  split at h
  · cases h
  · rename_i w1 hw1
    have hp := putItem_shown hw1
    simp only at h
    split at h
    · cases h; exact hp
    · split at h
      · cases h
      · cases h; exact hp

/-- The output file met once. -/
theorem visitOwn_eq (hg : OnlyGrows seen) {env : Env} {fuel : Nat} {name : Bytes} {w w' : W σ} {ret : Int}
    (h : visitOwn own seen fuel env name w = .ok (ret, w')) :
    ∃ f, own.Snap seen f w'.out ∧ w.out <+: w'.out ∧ w'.shown = w.shown ∧
      ∀ path g, g path = some f → visitFile { env with fopen := g } path name w = .ok (ret, w') := by
  unfold visitOwn at h
  split at h
  · cases h
  · rename_i c1 hc1
    split at h
    · cases h
    · rename_i w1 hw1
      split at h
      · cases h
      · rename_i w2 hw2
        split at h
        · cases h
        · rename_i pad hpad
          cases h
          have hp := putItem_out hw1
          obtain ⟨o, c2, i1, i2, i3, _, i5, i6⟩ := readOwn_eq hg _ _ _ _ hw2 (fun _ _ => Nat.zero_le _)
          rw [List.drop_zero] at i5 i6
          have hout : w.out <+: (w2.put pad).out := by
            rw [i6]
            exact (hp.trans (List.prefix_append _ _)).trans (List.prefix_append _ _)
          refine ⟨⟨some (own.mode, c1.length), c2, false⟩,
            ⟨w.out, o, c1, c2, hp.trans i1, i2.trans (List.prefix_append _ _), hc1, i3, rfl⟩, hout, ?_, ?_⟩
          · rw [i6]
            have := putItem_shown hw1
            exact this
          · intro path g hgp
            simp only [visitFile, hgp, asFile, hw1, i5, hpad]
            rw [i6]
            simp

theorem visitFile_but {env : Env} {g : Bytes → Option FileObs} {path name : Bytes} {w : W σ}
    (h : g path = env.fopen path) :
    visitFile { env with fopen := g } path name w = visitFile env path name w := by
  simp only [visitFile, h]

theorem visitFile_grows {env : Env} {path name : Bytes} {w w' : W σ} {ret : Int}
    (h : visitFile env path name w = .ok (ret, w')) : w'.shown = w.shown ∧ w.out <+: w'.out := by
  unfold visitFile at h
  split at h
  · cases h; exact ⟨rfl, List.prefix_refl _⟩
  · split at h
    · cases h; exact ⟨rfl, List.prefix_refl _⟩
    · exact ⟨asFile_shown h, asFile_out h⟩

theorem visitLink_grows {env : Env} {path name : Bytes} {w w' : W σ} {ret : Int}
    (h : visitLink env path name w = .ok (ret, w')) : w'.shown = w.shown ∧ w.out <+: w'.out := by
  unfold visitLink at h
  simp only at h
  split at h
  · cases h
  · split at h
    · cases h
    · split at h
      · cases h
      · rename_i hw1
        have hp := putItem_out hw1
        split at h
        · cases h
        · cases h
          have hs := putItem_shown hw1
          refine ⟨hs, ?_⟩
          simp only [W.put, List.append_assoc]
          exact hp.trans (List.prefix_append _ _)

theorem iterate_tracks {env : Env} {cb : Entry → W σ → Run (Int × W σ)}
    {cb' : (Bytes → Option FileObs) → Entry → W σ → Run (Int × W σ)}
    (h : ∀ e w ret w', cb e w = .ok (ret, w') →
      Tracks own seen env w w' (fun g => cb' g e w = .ok (ret, w'))) (es : List Entry) :
    ∀ (w w' : W σ), iterate cb es w = .ok w' →
      Tracks own seen env w w' (fun g => iterate (cb' g) es w = .ok w') := by
  induction es with
  | nil =>
    intro w w' hi
    cases hi
    exact .leaf (new := []) (by simp) (List.prefix_refl _) rfl (fun _ _ => rfl)
  | cons e es ih =>
    intro w w' hi
    simp only [iterate] at hi
    split at hi
    · cases hi
    · rename_i ret w1 h1
      split at hi
      · rename_i hret
        cases hi
        obtain ⟨new, a1, a2, a3, a4⟩ := h _ _ _ _ h1
        refine ⟨new, a1, a2, fun hc g hg => ?_, fun hc => ?_⟩
        · show iterate (cb' g) (e :: es) w = _
          rw [iterate_cons (a3 hc g hg), if_pos hret]
        · obtain ⟨f, b1, b2⟩ := a4 hc
          exact ⟨f, b1, by show iterate (cb' _) (e :: es) w = _; rw [iterate_cons b2, if_pos hret]⟩
      · rename_i hret
        refine (h _ _ _ _ h1).trans (ih _ _ hi) (fun g _ r1 r2 => ?_)
        rw [iterate_cons r1, if_neg hret]
        exact r2

theorem visitLive_tracks (hg : OnlyGrows seen) (env : Env) (flt : Filter σ) (fuel : Nat) :
    ∀ (dir : Bytes) (e : Entry) (w : W σ) (ret : Int) (w' : W σ),
      visitLive own seen env flt fuel dir e w = .ok (ret, w') →
      Tracks own seen env w w'
        (fun g => visit { env with fopen := g } flt fuel dir e w = .ok (ret, w')) := by
  induction fuel with
  | zero => intro dir e w ret w' h; simp [visitLive] at h
  | succ n ih =>
    intro dir e w ret w' h
    simp only [visitLive] at h
    split at h
    · rename_i h1
      cases h
      exact .leaf (new := []) (by simp) (List.prefix_refl _) rfl (fun _ _ => by simp only [visit, if_pos h1])
    · rename_i h1
      split at h
      · rename_i h2
        cases h
        exact .leaf (new := []) (by simp) (List.prefix_refl _) rfl
          (fun _ _ => by simp only [visit, if_neg h1, if_pos h2])
      · rename_i h2
        split at h
        · rename_i h3
          have hm : [(dir, e, (flt w.fs dir e).1)].countP own.met = 0 := by
            simp [Own.met, h3]
          split at h
          · rename_i h4
            cases h
            exact .leaf (new := [(dir, e, (flt w.fs dir e).1)]) rfl (List.prefix_refl _) hm
              (fun _ _ => by simp only [visit, if_neg h1, if_neg h2, if_pos h3, if_pos h4])
          · rename_i h4
            cases h
            exact .leaf (new := [(dir, e, (flt w.fs dir e).1)]) rfl (List.prefix_refl _) hm
              (fun _ _ => by simp only [visit, if_neg h1, if_neg h2, if_pos h3, if_neg h4])
        · rename_i h3
          have hz : (flt w.fs dir e).1 = 0 := Decidable.not_not.mp h3
          simp only [visit, if_neg h1, if_neg h2, if_neg h3]
          split at h
          · rename_i h4
            obtain ⟨f, i1, i2, i3, i4⟩ := visitOwn_eq hg h
            refine ⟨[(dir, e, (flt w.fs dir e).1)], i3, i2, fun hc => ?_, fun _ => ⟨f, i1, ?_⟩⟩
            · simp [Own.met, hz, h4.1, h4.2] at hc
            · simp only [visitEntry, h4.1]
              exact i4 _ _ (by simp [Own.freeze, h4.2])
          · rename_i h4
            have hm : [(dir, e, (flt w.fs dir e).1)].countP own.met = 0 := by
              rw [List.countP_eq_zero]
              intro x hx hm
              cases List.mem_singleton.mp hx
              simp only [Own.met, Bool.and_eq_true, decide_eq_true_eq] at hm
              exact h4 ⟨hm.1.2, hm.2⟩
            refine (Tracks.leaf (new := [(dir, e, (flt w.fs dir e).1)]) (run := fun _ => True) (w' := w.ask flt dir e)
              rfl (List.prefix_refl _) hm (fun _ _ => trivial)).trans (r2 := fun g =>
                visitEntry { env with fopen := g } (fun path w => iterate
                  (visit { env with fopen := g } flt n path) ((env.list path).getD []) w) dir e
                  (w.ask flt dir e) = .ok (ret, w')) ?_ (fun g _ _ h => h)
            generalize w.ask flt dir e = w at h
            unfold visitEntry at h
            split at h
            · rename_i hty
              simp only [visitEntry, hty]
              unfold visitDir at h
              simp only at h
              split at h
              · cases h
              · rename_i w1 hw1
                split at h
                · cases h
                · rename_i w2 hw2
                  cases h
                  refine (Tracks.leaf (new := []) (run := fun _ => True) (w' := w1) (by rw [putItem_shown hw1]; simp)
                    (putItem_out hw1) rfl (fun _ _ => trivial)).trans
                    ((iterate_tracks (fun e w ret w' hv => ih _ e w ret w' hv) _ _ _ hw2).trans
                      (Tracks.leaf (new := []) (run := fun _ => True) (w' := w2.put _) (by simp [W.put])
                        (List.prefix_append _ _) rfl (fun _ _ => trivial)) (fun g _ h _ => h)) ?_
                  intro g _ _ hr
                  simp only [visitDir, hw1, hr]
            · rename_i hty
              simp only [visitEntry, hty]
              have hp : own.path (joinPath dir e.name) = false := by
                cases hq : own.path (joinPath dir e.name) with
                | false => rfl
                | true => exact absurd ⟨hty, hq⟩ h4
              obtain ⟨k1, k2⟩ := visitFile_grows h
              exact .leaf (new := []) (by rw [k1]; simp) k2 rfl
                (fun g hb => by rw [visitFile_but (hb _ hp)]; exact h)
            · rename_i hty
              simp only [visitEntry, hty]
              obtain ⟨k1, k2⟩ := visitLink_grows h
              exact .leaf (new := []) (by rw [k1]; simp) k2 rfl (fun g hb => h)
            · rename_i hty
              simp only [visitEntry, hty]
              cases h
              exact .leaf (new := []) (by simp) (List.prefix_refl _) rfl (fun _ _ => rfl)

/-! The other direction. -/

/-- `w'` comes later than `w`. -/
def W.Le (w w' : W σ) : Prop := w.out <+: w'.out ∧ w.shown <+: w'.shown

theorem W.Le.refl (w : W σ) : w.Le w := ⟨List.prefix_refl _, List.prefix_refl _⟩

theorem W.Le.trans {w w1 w2 : W σ} (h1 : w.Le w1) (h2 : w1.Le w2) : w.Le w2 :=
  ⟨h1.1.trans h2.1, h1.2.trans h2.2⟩

/-- The output file has not been met, or was empty all the time. -/
def Own.Quiet (own : Own) (seen : List Bytes → Run Bytes) (g : Bytes → Option FileObs) (w : W σ) : Prop :=
  (∀ x ∈ w.shown, own.met x = false) ∨
    ((∀ p, own.path p = true → g p = some ⟨some (own.mode, 0), [], false⟩) ∧
      ∀ o, o <+: w.out → seen o = .ok [])

theorem Own.Quiet.before {g : Bytes → Option FileObs} {w w' : W σ} (h : own.Quiet seen g w') (hl : w.Le w') :
    own.Quiet seen g w :=
  h.imp (fun h x hx => h x (hl.2.subset hx)) (fun h => ⟨h.1, fun o ho => h.2 o (ho.trans hl.1)⟩)

/-- The run `live` does what the run over files at rest did. -/
def Follows (own : Own) (seen : List Bytes → Run Bytes) (g : Bytes → Option FileObs) (w w' : W σ)
    (live : Prop) : Prop :=
  w.Le w' ∧ (own.Quiet seen g w' → live)

theorem Follows.trans {g : Bytes → Option FileObs} {w w1 w2 : W σ} {p q r : Prop}
    (h1 : Follows own seen g w w1 p) (h2 : Follows own seen g w1 w2 q) (h : p → q → r) :
    Follows own seen g w w2 r :=
  ⟨h1.1.trans h2.1, fun hc => h (h1.2 (hc.before h2.1)) (h2.2 hc)⟩

theorem iterate_follows {g : Bytes → Option FileObs} {cb cb' : Entry → W σ → Run (Int × W σ)}
    (h : ∀ e w ret w', cb e w = .ok (ret, w') →
      Follows own seen g w w' (cb' e w = .ok (ret, w'))) (es : List Entry) :
    ∀ (w w' : W σ), iterate cb es w = .ok w' →
      Follows own seen g w w' (iterate cb' es w = .ok w') := by
  induction es with
  | nil =>
    intro w w' hi
    cases hi
    exact ⟨.refl _, fun _ => rfl⟩
  | cons e es ih =>
    intro w w' hi
    simp only [iterate] at hi
    split at hi
    · cases hi
    · rename_i ret w1 h1
      split at hi
      · rename_i hret
        cases hi
        exact ⟨(h _ _ _ _ h1).1, fun hc => by rw [iterate_cons ((h _ _ _ _ h1).2 hc), if_pos hret]⟩
      · rename_i hret
        refine (h _ _ _ _ h1).trans (ih _ _ hi) (fun r1 r2 => ?_)
        rw [iterate_cons r1, if_neg hret]
        exact r2

theorem readFile_nil : readFile [] false = ([[]], false) := by
  rw [readFile, if_pos (by decide)]; rfl

/-- The output file met empty. -/
theorem visitOwn_empty {env : Env} {g : Bytes → Option FileObs} {fuel : Nat} {path name : Bytes}
    {w w' : W σ} {ret : Int} (hgp : g path = some ⟨some (own.mode, 0), [], false⟩)
    (hs : ∀ o, o <+: w'.out → seen o = .ok [])
    (h : visitFile { env with fopen := g } path name w = .ok (ret, w')) :
    visitOwn own seen (fuel + 1) env name w = .ok (ret, w') := by
  have hw := (visitFile_grows h).2
  simp only [visitFile, hgp, readFile_nil, asFile] at h
  split at h
  · cases h
  · rename_i w1 hw1
    simp only [Bool.false_eq_true, if_false] at h
    split at h
    · cases h
    · rename_i pad hpad
      cases h
      have h1 : seen w1.out = .ok [] := hs _ (by
        simp only [W.put, List.append_assoc]
        exact List.prefix_append _ _)
      simp only [visitOwn, hs _ hw, List.length_nil, hw1, readOwn, h1, List.drop_nil, List.take_nil]
      rw [if_pos (by decide)]
      simp only [hpad, W.put]

theorem visit_follows (env : Env) (g : Bytes → Option FileObs) (hb : own.but env g) (flt : Filter σ)
    (fuel : Nat) : ∀ (dir : Bytes) (e : Entry) (w : W σ) (ret : Int) (w' : W σ),
      visit { env with fopen := g } flt fuel dir e w = .ok (ret, w') →
      Follows own seen g w w' (visitLive own seen env flt fuel dir e w = .ok (ret, w')) := by
  induction fuel with
  | zero => intro dir e w ret w' h; simp [visit] at h
  | succ n ih =>
    intro dir e w ret w' h
    simp only [visit] at h
    split at h
    · rename_i h1
      cases h
      exact ⟨.refl _, fun _ => by simp only [visitLive, if_pos h1]⟩
    · rename_i h1
      split at h
      · rename_i h2
        cases h
        exact ⟨.refl _, fun _ => by simp only [visitLive, if_neg h1, if_pos h2]⟩
      · rename_i h2
        split at h
        · rename_i h3
          split at h
          · rename_i h4
            cases h
            exact ⟨⟨List.prefix_refl _, List.prefix_append _ _⟩,
              fun _ => by simp only [visitLive, if_neg h1, if_neg h2, if_pos h3, if_pos h4]⟩
          · rename_i h4
            cases h
            exact ⟨⟨List.prefix_refl _, List.prefix_append _ _⟩,
              fun _ => by simp only [visitLive, if_neg h1, if_neg h2, if_pos h3, if_neg h4]⟩
        · rename_i h3
          have hz : (flt w.fs dir e).1 = 0 := Decidable.not_not.mp h3
          have hle : w.Le (w.ask flt dir e) := ⟨List.prefix_refl _, List.prefix_append _ _⟩
          simp only [visitLive, if_neg h1, if_neg h2, if_neg h3]
          by_cases h4 : e.ty = .file ∧ own.path (joinPath dir e.name) = true
          · rw [if_pos h4]
            simp only [visitEntry, h4.1] at h
            have hgr := visitFile_grows h
            refine ⟨hle.trans ⟨hgr.2, by rw [hgr.1]; exact List.prefix_refl _⟩, fun hc => ?_⟩
            rcases hc with hc | ⟨hc1, hc2⟩
            · have := hc (dir, e, (flt w.fs dir e).1) (by rw [hgr.1]; simp [W.ask])
              simp [Own.met, hz, h4.1, h4.2] at this
            · exact visitOwn_empty (hc1 _ h4.2) hc2 h
          · rw [if_neg h4]
            refine Follows.trans (p := True) (w1 := w.ask flt dir e) ⟨hle, fun _ => trivial⟩
              (q := _) ?_ (fun _ h => h)
            generalize w.ask flt dir e = w at h
            unfold visitEntry at h
            split at h
            · rename_i hty
              simp only [visitEntry, hty]
              unfold visitDir at h
              simp only at h
              split at h
              · cases h
              · rename_i w1 hw1
                split at h
                · cases h
                · rename_i w2 hw2
                  cases h
                  have l1 : w.Le w1 := ⟨putItem_out hw1, by rw [putItem_shown hw1]; exact List.prefix_refl _⟩
                  have := iterate_follows (own := own) (seen := seen) (g := g)
                    (fun e w ret w' hv => ih _ e w ret w' hv) _ _ _ hw2
                  refine Follows.trans (p := True) ⟨l1, fun _ => trivial⟩ (this.trans (q := True)
                    (r := iterate _ _ _ = _) (w2 := w2.put _)
                    ⟨⟨List.prefix_append _ _, List.prefix_refl _⟩, fun _ => trivial⟩ (fun h _ => h)) ?_
                  intro _ hr
                  simp only [visitDir, hw1, hr]
            · rename_i hty
              simp only [visitEntry, hty]
              have hp : own.path (joinPath dir e.name) = false := by
                cases hq : own.path (joinPath dir e.name) with
                | false => rfl
                | true => exact absurd ⟨hty, hq⟩ h4
              have hgr := visitFile_grows h
              rw [visitFile_but (hb _ hp)] at h
              exact ⟨⟨hgr.2, by rw [hgr.1]; exact List.prefix_refl _⟩, fun _ => h⟩
            · rename_i hty
              simp only [visitEntry, hty]
              have hgr := visitLink_grows h
              exact ⟨⟨hgr.2, by rw [hgr.1]; exact List.prefix_refl _⟩, fun _ => h⟩
            · rename_i hty
              simp only [visitEntry, hty]
              cases h
              exact ⟨.refl _, fun _ => rfl⟩

/-! ### Whole calls -/

theorem extraParts_but {env : Env} {g : Bytes → Option FileObs} {content : Bytes} (rest : List Bytes) :
    ∀ (name : Bytes) (w : W σ), extraParts { env with fopen := g } content name rest w =
      extraParts env content name rest w := by
  induction rest with
  | nil => intro name w; rfl
  | cons a rest ih => intro name w; simp only [extraParts, ih]

theorem dirExtras_but {env : Env} {g : Bytes → Option FileObs} {fn : DirFn} {w : W σ} :
    dirExtras { env with fopen := g } fn w = dirExtras env fn w := by
  cases fn with
  | plain => rfl
  | root xs => rfl
  | nested xs =>
    have : extraNested (σ := σ) { env with fopen := g } = extraNested env := by
      funext w x; exact extraParts_but _ _ _
    simp only [dirExtras, this]

theorem extraParts_shown {env : Env} {content : Bytes} (rest : List Bytes) :
    ∀ {name : Bytes} {w w' : W σ} {ret : Int}, extraParts env content name rest w = .ok (ret, w') →
      w'.shown = w.shown := by
  induction rest with
  | nil => intro name w w' ret h; exact asFile_shown h
  | cons a rest ih =>
    intro name w w' ret h
    simp only [extraParts] at h
    split at h
    · cases h
    · rename_i w1 h1
      split at h
      · cases h
      · rename_i w2 h2
        cases h
        have := ih h2
        rw [putItem_shown h1] at this
        exact this

theorem extras_shown {one : W σ → Extra → Run (Int × W σ)}
    (hone : ∀ w x ret w', one w x = .ok (ret, w') → w'.shown = w.shown) (xs : List Extra) :
    ∀ {w w' : W σ} {b : Bool}, extras one xs w = .ok (b, w') → w'.shown = w.shown := by
  induction xs with
  | nil => intro w w' b h; cases h; rfl
  | cons x xs ih =>
    intro w w' b h
    simp only [extras] at h
    split at h
    · cases h
    · rename_i ret w1 h1
      split at h
      · cases h; exact hone _ _ _ _ h1
      · rw [ih h, hone _ _ _ _ h1]

theorem dirExtras_shown {env : Env} {fn : DirFn} {w w' : W σ} {b : Bool}
    (h : dirExtras env fn w = .ok (b, w')) : w'.shown = w.shown := by
  cases fn with
  | plain => cases h; rfl
  | root xs => exact extras_shown (fun w x ret w' h => asFile_shown h) xs h
  | nested xs => exact extras_shown (fun w x ret w' h => extraParts_shown _ h) xs h

theorem dirWritesLive_tracks (hg : OnlyGrows seen) {env : Env} {flt : Filter σ} {fuel : Nat} {fn : DirFn}
    {dir : Bytes} {fs : σ} {ret : Int} {w : W σ}
    (h : dirWritesLive own seen env flt fuel fn dir fs = .ok (ret, w)) :
    (w.shown.countP own.met = 0 → ∀ g, own.but env g →
      dirWrites { env with fopen := g } flt fuel fn dir fs = .ok (ret, w)) ∧
    (w.shown.countP own.met = 1 → ∃ f, own.Snap seen f w.out ∧
      dirWrites (own.freeze env f) flt fuel fn dir fs = .ok (ret, w)) := by
  unfold dirWritesLive at h
  split at h
  · cases h
  · rename_i w1 hw1
    cases h
    have hsh := dirExtras_shown hw1
    refine ⟨fun _ g _ => ?_, fun hc => ?_⟩
    · simp only [dirWrites, dirExtras_but, hw1]
    · rw [hsh] at hc; cases hc
  · rename_i w1 hw1
    have hsh := dirExtras_shown hw1
    simp only at hsh
    split at h
    · cases h
    · rename_i w2 hw2
      cases h
      obtain ⟨new, a1, _, a3, a4⟩ := iterate_tracks (own := own) (seen := seen) (env := env)
        (cb' := fun g => visit { env with fopen := g } flt fuel dir)
        (fun e w ret w' hv => visitLive_tracks hg env flt fuel dir e w ret w' hv) _ _ _ hw2
      rw [hsh, List.nil_append] at a1
      rw [a1]
      refine ⟨fun hc g hb => ?_, fun hc => ?_⟩
      · have hr := a3 hc g hb
        simp only at hr
        simp only [dirWrites, dirExtras_but, hw1, walk, hr]
      · obtain ⟨f, b1, b2⟩ := a4 hc
        refine ⟨f, b1, ?_⟩
        have e0 : own.freeze env f = { env with fopen := (own.freeze env f).fopen } := rfl
        rw [e0]
        simp only [dirWrites, dirExtras_but, hw1, walk, b2]

theorem dirWrites_follows {env : Env} {g : Bytes → Option FileObs} (hb : own.but env g) {flt : Filter σ}
    {fuel : Nat} {fn : DirFn} {dir : Bytes} {fs : σ} {ret : Int} {w : W σ}
    (h : dirWrites { env with fopen := g } flt fuel fn dir fs = .ok (ret, w))
    (hc : own.Quiet seen g w) : dirWritesLive own seen env flt fuel fn dir fs = .ok (ret, w) := by
  unfold dirWrites at h
  rw [dirExtras_but] at h
  split at h
  · cases h
  · rename_i w1 hw1
    simp only [dirWritesLive, hw1]
    exact h
  · rename_i w1 hw1
    simp only [walk] at h
    split at h
    · cases h
    · rename_i w2 hw2
      cases h
      have := (iterate_follows (own := own) (seen := seen) (g := g)
        (fun e w ret w' hv => visit_follows env g hb flt fuel dir e w ret w' hv) _ _ _ hw2).2 hc
      simp only [dirWritesLive, hw1, this]

/-! ### The session -/

theorem compressLoop_log (fuel : Nat) : ∀ {s s' : CS D} {inp : Bytes} {ret : Int},
    compressLoop fuel s inp = .ok (ret, s') → s.log <+: s'.log := by
  induction fuel with
  | zero => intro s s' inp ret h; simp [compressLoop] at h
  | succ n ih =>
    intro s s' inp ret h
    simp only [compressLoop] at h
    split at h
    · cases h; exact List.prefix_refl _
    · split at h
      · cases h; exact List.prefix_refl _
      · exact (List.prefix_append _ _).trans (ih h)

theorem compressRun_log (fuel : Nat) (ops : List COp) : ∀ {s s' : CS D} {rets : List Int},
    compressRun fuel ops s = .ok (rets, s') → s.log <+: s'.log := by
  induction ops with
  | nil => intro s s' rets h; cases h; exact List.prefix_refl _
  | cons op ops ih =>
    intro s s' rets h
    cases op with
    | setBuffer n => exact ih (s := s.setBuffer n) h
    | compress data =>
      simp only [compressRun] at h
      split at h
      · cases h
      · rename_i h1
        split at h
        · cases h
        · rename_i h2
          cases h
          exact (compressLoop_log _ h1).trans (ih h2)

theorem flatten_prefix {l l' : List Bytes} (h : l <+: l') : l.flatten <+: l'.flatten := by
  obtain ⟨t, rfl⟩ := h
  rw [List.flatten_append]
  exact List.prefix_append _ _

/-- The archive begins with what had been written when only `o` had been passed on. -/
theorem compressRun_prefix {fuel : Nat} {o out : List Bytes} (hp : o <+: out) {s s' : CS D}
    {rets : List Int} (h : compressRun fuel (out.map .compress) s = .ok (rets, s')) :
    ∃ r1 s1, compressRun fuel (o.map .compress) s = .ok (r1, s1) ∧ s1.log.flatten <+: s'.log.flatten := by
  obtain ⟨t, rfl⟩ := hp
  rw [List.map_append, compressRun_append] at h
  split at h
  · cases h
  · rename_i r1 s1 h1
    split at h
    · cases h
    · rename_i h2
      cases h
      exact ⟨r1, s1, h1, flatten_prefix (compressRun_log _ _ h2)⟩

theorem ownContent_grows (hst : own.Stream) (fuel : Nat) (s : CS D) : OnlyGrows (ownContent own fuel s) := by
  intro o o' c c' hp h h'
  unfold ownContent at h h'
  split at h'
  · cases h'
  · rename_i r' s' hs'
    cases h'
    obtain ⟨r1, s1, h1, t, h2⟩ := compressRun_prefix hp hs'
    rw [h1] at h
    cases h
    rw [← h2]
    have hle : own.shown s1.log.flatten.length ≤ own.shown (s1.log.flatten ++ t).length :=
      hst.mono (by rw [List.length_append]; omega)
    have h3 := hst.le s1.log.flatten.length
    generalize own.shown s1.log.flatten.length = a at *
    generalize own.shown (s1.log.flatten ++ t).length = b at *
    rw [← List.take_append_of_le_length h3, ← Nat.min_eq_left hle, ← List.take_take]
    exact List.take_prefix _ _

/-! ### The output file that outgrows the reading -/

theorem compressLoop_fault (fuel : Nat) : ∀ {s : CS D} {inp : Bytes} {e : Fault},
    compressLoop fuel s inp = .error e → e = .outOfFuel := by
  induction fuel with
  | zero => intro s inp e h; cases h; rfl
  | succ n ih =>
    intro s inp e h
    simp only [compressLoop] at h
    split at h
    · cases h
    · split at h
      · cases h
      · exact ih h

theorem compressRun_fault (fuel : Nat) (ops : List COp) : ∀ {s : CS D} {e : Fault},
    compressRun fuel ops s = .error e → e = .outOfFuel := by
  induction ops with
  | nil => intro s e h; cases h
  | cons op ops ih =>
    intro s e h
    cases op with
    | setBuffer n => exact ih (s := s.setBuffer n) h
    | compress data =>
      simp only [compressRun] at h
      split at h
      · rename_i h1
        cases h
        exact compressLoop_fault _ h1
      · split at h
        · rename_i h2; cases h; exact ih h2
        · cases h

theorem ownContent_error {fuel : Nat} {s : CS D} {out : List Bytes} {e : Fault}
    (h : ownContent own fuel s out = .error e) : e = .outOfFuel := by
  unfold ownContent at h
  split at h
  · rename_i h1; cases h; exact compressRun_fault _ _ h1
  · cases h

theorem compressLoop_buf (fuel : Nat) : ∀ {s s' : CS D} {inp : Bytes} {ret : Int},
    compressLoop fuel s inp = .ok (ret, s') → s'.bufSize = s.bufSize := by
  induction fuel with
  | zero => intro s s' inp ret h; simp [compressLoop] at h
  | succ n ih =>
    intro s s' inp ret h
    simp only [compressLoop] at h
    split at h
    · cases h; rfl
    · split at h
      · cases h; rfl
      · have := ih h
        exact this

/-- A file that stays ahead of the reader is read for ever. -/
theorem readOwn_endless (herr : ∀ o e, seen o = .error e → e = .outOfFuel)
    (hgrow : ∀ o c p c', seen o = .ok c → p.length = DEF_CHUNK_SIZE → seen (o ++ [p]) = .ok c' →
      c.length + DEF_CHUNK_SIZE ≤ c'.length) (fuel : Nat) : ∀ (off : Nat) (w : W σ),
    (∀ c, seen w.out = .ok c → off + DEF_CHUNK_SIZE ≤ c.length) →
    readOwn seen fuel off w = .error .outOfFuel := by
  induction fuel with
  | zero => intro off w _; rfl
  | succ n ih =>
    intro off w h
    simp only [readOwn]
    split
    · rename_i e he; rw [herr _ _ he]
    · rename_i c hc
      have hl : ((c.drop off).take DEF_CHUNK_SIZE).length = DEF_CHUNK_SIZE := by
        have := h c hc
        simp only [List.length_take, List.length_drop]; omega
      rw [if_neg (by omega)]
      refine ih _ _ (fun c' hc' => ?_)
      have h1 := h c hc
      have h2 := hgrow _ _ _ _ hc hl hc'
      omega

theorem NoShrink.run (hD : NoShrink D) (fuel : Nat) (out : List Bytes)
    (ho : ∀ b ∈ out, b.length ≤ 524288) : ∀ {s s' : CS D} {rets : List Int}, s.bufSize = 524288 →
    compressRun fuel (out.map .compress) s = .ok (rets, s') →
    s'.bufSize = 524288 ∧ s.log.flatten.length + out.flatten.length ≤ s'.log.flatten.length := by
  induction out with
  | nil => intro s s' rets hb h; cases h; exact ⟨hb, by simp⟩
  | cons b out ih =>
    intro s s' rets hb h
    simp only [List.map_cons, compressRun] at h
    split at h
    · cases h
    · rename_i ret s1 h1
      split at h
      · cases h
      · rename_i h2
        cases h
        have := hD _ _ _ _ _ hb (ho b List.mem_cons_self) h1
        obtain ⟨i1, i2⟩ := ih (fun x hx => ho x (List.mem_cons_of_mem _ hx))
          ((compressLoop_buf _ h1).trans hb) h2
        refine ⟨i1, ?_⟩
        rw [List.flatten_cons, List.length_append]
        omega

theorem ownContent_ahead (hD : NoShrink D) (hfl : own.Flushes) {fuel : Nat} {s : CS D}
    (hb : s.bufSize = 524288) {o : List Bytes} (ho : ∀ b ∈ o, b.length ≤ 524288)
    (hlen : 524288 ≤ o.flatten.length) {c : Bytes} (h : ownContent own fuel s o = .ok c)
    (hst : own.Stream) : 524288 ≤ c.length := by
  unfold ownContent at h
  split at h
  · cases h
  · rename_i s1 h1
    cases h
    have h2 := (hD.run fuel o ho hb h1).2
    have h3 := hfl 0 s1.log.flatten.length (by omega)
    have h4 := hst.le s1.log.flatten.length
    rw [List.length_take]
    omega

theorem compressRun_buf (fuel : Nat) (out : List Bytes) : ∀ {s s' : CS D} {rets : List Int},
    compressRun fuel (out.map .compress) s = .ok (rets, s') → s'.bufSize = s.bufSize := by
  induction out with
  | nil => intro s s' rets h; cases h; rfl
  | cons b out ih =>
    intro s s' rets h
    simp only [List.map_cons, compressRun] at h
    split at h
    · cases h
    · rename_i h1
      split at h
      · cases h
      · rename_i h2
        cases h
        rw [ih h2, compressLoop_buf _ h1]

theorem ownContent_step (hD : NoShrink D) (hfl : own.Flushes) (hst : own.Stream) {fuel : Nat} {s : CS D}
    (hb : s.bufSize = 524288) (o : List Bytes) (c p c' : Bytes)
    (h : ownContent own fuel s o = .ok c) (hp : p.length = DEF_CHUNK_SIZE)
    (h' : ownContent own fuel s (o ++ [p]) = .ok c') : c.length + DEF_CHUNK_SIZE ≤ c'.length := by
  unfold ownContent at h h'
  rw [List.map_append, compressRun_append] at h'
  split at h
  · cases h
  · rename_i s1 h1
    rw [h1] at h'
    cases h
    simp only [List.map_cons, List.map_nil, compressRun] at h'
    cases h2 : compress fuel s1 p with
    | error e => rw [h2] at h'; cases h'
    | ok r =>
      obtain ⟨ret, s2⟩ := r
      rw [h2] at h'
      cases h'
      have h3 := hD _ _ _ _ _ ((compressRun_buf _ _ h1).trans hb) (by rw [hp]; decide) h2
      rw [hp] at h3
      have h4 := hfl _ _ h3
      have h5 := hst.le s2.log.flatten.length
      have h6 := hst.le s1.log.flatten.length
      simp only [List.length_take, DEF_CHUNK_SIZE]
      omega

theorem readFile_pieces (data : Bytes) (err : Bool) :
    ∀ b ∈ (readFile data err).1, b.length ≤ 524288 := by
  induction hn : data.length using Nat.strongRecOn generalizing data with
  | _ n ih =>
    subst hn
    rw [readFile]
    by_cases h : data.length < DEF_CHUNK_SIZE
    · rw [if_pos h]
      simp only [DEF_CHUNK_SIZE] at h
      cases err <;> simp; omega
    · rw [if_neg h]
      intro b hb
      rcases List.mem_cons.mp hb with rfl | hb
      · simp only [List.length_take, DEF_CHUNK_SIZE]; omega
      · exact ih (data.drop DEF_CHUNK_SIZE).length
          (by simp only [List.length_drop, DEF_CHUNK_SIZE] at *; omega) _ rfl b hb

/-! ### The output file is not met -/

theorem iterate_congr {cb cb' : Entry → W σ → Run (Int × W σ)} (es : List Entry)
    (h : ∀ e ∈ es, ∀ w, cb e w = cb' e w) : ∀ w, iterate cb es w = iterate cb' es w := by
  induction es with
  | nil => intro w; rfl
  | cons e es ih =>
    intro w
    have hi := ih (fun x hx => h x (List.mem_cons_of_mem _ hx))
    simp only [iterate, h e List.mem_cons_self w, hi]

theorem visitLive_eq (env : Env) (flt : Filter σ)
    (hno : ∀ d es e, env.list d = some es → e ∈ es → e.ty = .file → own.path (joinPath d e.name) = false)
    (fuel : Nat) : ∀ (dir : Bytes), ∀ e ∈ (env.list dir).getD [], ∀ (w : W σ),
      visitLive own seen env flt fuel dir e w = visit env flt fuel dir e w := by
  induction fuel with
  | zero => intro dir e _ w; rfl
  | succ n ih =>
    intro dir e he w
    have hsub : (fun path (w : W σ) => iterate (visitLive own seen env flt n path)
        ((env.list path).getD []) w) =
        (fun path w => iterate (visit env flt n path) ((env.list path).getD []) w) := by
      funext path w
      exact iterate_congr _ (fun e he w => ih path e he w) w
    have hf : ¬ (e.ty = .file ∧ own.path (joinPath dir e.name) = true) := by
      rintro ⟨h1, h2⟩
      cases hl : env.list dir with
      | none => rw [hl] at he; cases he
      | some es =>
        rw [hl] at he
        rw [hno dir es e hl he h1] at h2
        cases h2
    simp only [visitLive, visit, if_neg hf, hsub]

end Zwt
