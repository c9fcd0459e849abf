import Verif.Model.Current
import Verif.Spec.Current

/-! Lemmas on the parser with the current file data. -/

namespace Zwt

/-- Without the file data. -/
def uncur (r : Run (DirSt × List (Ev × FileData))) : Run (DirSt × List Ev) :=
  match r with
  | .error e => .error e
  | .ok (s, evs) => .ok (s, evs.map (·.1))

theorem headerSwitch_cur (ok : AllocOracle) (s : DirSt) :
    (headerSwitchCur ok s).1 = (headerSwitch ok s).1 ∧
      (headerSwitchCur ok s).2.map (·.1) = (headerSwitch ok s).2 := by
  simp only [headerSwitchCur, headerSwitch]
  repeat' split
  all_goals exact ⟨rfl, rfl⟩

theorem dirBody_cur (ok : AllocOracle) (rc : DirSt → Bytes → Run (DirSt × List (Ev × FileData)))
    (s : DirSt) (buf : Bytes) :
    uncur (dirBodyCur ok rc s buf) = dirBody ok (fun s b => uncur (rc s b)) s buf := by
  have hnext : ∀ (c : Prop) [Decidable c] (s' : DirSt) (b : Bytes) (evs : List (Ev × FileData)),
      uncur (if c then
        match rc s' b with
          | .error e => .error e
          | .ok (s'', evs') => .ok (s'', evs ++ evs')
        else .ok (s', evs)) =
      if c then
        match uncur (rc s' b) with
          | .error e => .error e
          | .ok (s'', evs') => .ok (s'', evs.map (·.1) ++ evs')
        else .ok (s', evs.map (·.1)) := by
    intro c _ s' b evs
    split
    · cases rc s' b with
      | error e => rfl
      | ok p => simp [uncur]
    · rfl
  unfold dirBodyCur dirBody
  simp only
  split
  · rfl
  cases hst : s.stage with
  | header =>
    simp only
    split
    · cases memcpyAt s.item s.offset (buf.take (sub64 s.secSize s.offset)) with
      | error e => rfl
      | ok item =>
        simp only
        refine (hnext _ _ _ _).trans ?_
        rw [(headerSwitch_cur ok _).1, (headerSwitch_cur ok _).2]
        split
        · cases uncur (rc _ _) <;> rfl
        · rfl
    · cases memcpyAt s.item s.offset buf <;> rfl
  | filename =>
    simp only
    cases s.name with
    | none => rfl
    | some nm =>
      simp only
      split
      · cases memcpyAt nm s.offset (buf.take (sub64 s.secSize s.offset)) with
        | error e => rfl
        | ok nm' =>
          simp only
          split
          · exact hnext _ _ _ _
          split
          · exact hnext _ _ _ _
          split
          · exact hnext _ _ _ _
          rfl
      · cases memcpyAt nm s.offset buf <;> rfl
  | readfile =>
    simp only
    split
    · split
      · exact hnext _ _ _ _
      · rfl
    · rfl
  | fileGap =>
    simp only
    split
    · split
      · exact hnext _ _ _ _
      · rfl
    · rfl
  | symLinkGap =>
    simp only
    split
    · split
      · exact hnext _ _ _ _
      · rfl
    · rfl
  | symLink =>
    simp only
    split
    · split
      · exact hnext _ _ _ _
      · rfl
    · rfl

theorem dirData_cur (ok : AllocOracle) (n : Nat) : ∀ (s : DirSt) (buf : Bytes),
    uncur (dirDataCur ok n s buf) = dirData ok n s buf := by
  induction n with
  | zero => intros; rfl
  | succ n ih =>
    intro s buf
    rw [dirDataCur, dirBody_cur, dirData]
    congr 1
    funext s b
    exact ih s b

theorem dirFeed_cur (ok : AllocOracle) (bs : List Bytes) : ∀ s : DirSt,
    uncur (dirFeedCur ok s bs) = dirFeed ok s bs := by
  induction bs with
  | nil => intro s; rfl
  | cons b bs ih =>
    intro s
    have h := dirData_cur ok (depthFor b.length) s b
    rw [dirFeedCur, dirFeed, ← h]
    cases dirDataCur ok (depthFor b.length) s b with
    | error e => rfl
    | ok p =>
      obtain ⟨s', evs⟩ := p
      simp only [uncur]
      rw [← ih s']
      cases dirFeedCur ok s' bs with
      | error e => rfl
      | ok p => simp [uncur]

/-- The entry announced last, after one more callback. -/
def curUpd (last : Option (FType × Bytes)) : Ev → Option (FType × Bytes)
  | .itemStart ft nm _ => some (ft, nm)
  | _ => last

/-- What holds between the state and the entry announced last. -/
def CurTracks (s : DirSt) (last : Option (FType × Bytes)) : Prop :=
  s.hasError = false →
    match s.stage with
    | .header => s.name = last.map (·.2)
    | .filename => True
    | _ => ∃ nm, last = some (s.fileType, nm) ∧ s.name = some nm

/-- What holds in a callback. -/
def Fitting (last : Option (FType × Bytes)) (e : Ev) (c : FileData) : Prop :=
  c.deepness = 0 ∧
  if e = .dirEnd then c.type = .dir ∧ c.name = last.map (·.2)
  else ∃ ft nm, curUpd last e = some (ft, nm) ∧ c.type = ft ∧ c.name = some nm

/-- The callbacks, one after the other. -/
def FitAll : Option (FType × Bytes) → List (Ev × FileData) → Prop
  | _, [] => True
  | last, (e, c) :: r => Fitting last e c ∧ FitAll (curUpd last e) r

def curUpdAll (last : Option (FType × Bytes)) (evs : List (Ev × FileData)) : Option (FType × Bytes) :=
  evs.foldl (fun l x => curUpd l x.1) last

theorem FitAll.append {evs : List (Ev × FileData)} : ∀ {last : Option (FType × Bytes)} {more},
    FitAll last evs → FitAll (curUpdAll last evs) more → FitAll last (evs ++ more) := by
  induction evs with
  | nil => intro last more _ h; exact h
  | cons x evs ih => rintro last more ⟨h1, h2⟩ h; exact ⟨h1, ih h2 h⟩

theorem curUpdAll_append (last : Option (FType × Bytes)) (a b : List (Ev × FileData)) :
    curUpdAll last (a ++ b) = curUpdAll (curUpdAll last a) b := by simp [curUpdAll]

/-- A function that keeps this up. -/
def CurKept (rc : DirSt → Bytes → Run (DirSt × List (Ev × FileData))) : Prop :=
  ∀ s last buf s' evs, CurTracks s last → rc s buf = .ok (s', evs) →
    FitAll last evs ∧ CurTracks s' (curUpdAll last evs)

theorem cur_next_kept {rc : DirSt → Bytes → Run (DirSt × List (Ev × FileData))} (hr : CurKept rc) {c : Prop}
    [Decidable c] {s s' : DirSt} {b : Bytes} {evs out : List (Ev × FileData)}
    {last : Option (FType × Bytes)} (h1 : FitAll last evs) (h2 : CurTracks s (curUpdAll last evs))
    (h : (if c then
        match rc s b with
          | .error e => .error e
          | .ok (s'', evs') => .ok (s'', evs ++ evs')
        else .ok (s, evs)) = (.ok (s', out) : Run _)) :
    FitAll last out ∧ CurTracks s' (curUpdAll last out) := by
  split at h
  · cases hrc : rc s b with
    | error e => rw [hrc] at h; cases h
    | ok p =>
      rw [hrc] at h
      simp only [Except.ok.injEq, Prod.mk.injEq] at h
      obtain ⟨k1, k2⟩ := hr _ _ _ _ _ h2 hrc
      rw [← h.1, ← h.2]
      exact ⟨h1.append k1, by rw [curUpdAll_append]; exact k2⟩
  · simp only [Except.ok.injEq, Prod.mk.injEq] at h
    rw [← h.1, ← h.2]
    exact ⟨h1, h2⟩

theorem dirBody_kept (ok : AllocOracle) {rc : DirSt → Bytes → Run (DirSt × List (Ev × FileData))}
    (hr : CurKept rc) : CurKept (dirBodyCur ok rc) := by
  intro s last buf s' out hT h
  unfold dirBodyCur at h
  simp only at h
  split at h
  · simp only [Except.ok.injEq, Prod.mk.injEq] at h
    rw [← h.1, ← h.2]
    exact ⟨trivial, hT⟩
  rename_i he
  have he : s.hasError = false := by simpa using he
  have hT' := hT he
  cases hst : s.stage with
  | header =>
    rw [hst] at h hT'
    simp only at h hT'
    split at h
    · split at h
      · cases h
      · rename_i item _
        refine cur_next_kept hr ?_ ?_ h
        · simp only [headerSwitchCur]
          repeat' split
          all_goals first | trivial | exact ⟨⟨rfl, by rw [if_pos rfl]; exact ⟨rfl, hT'⟩⟩, trivial⟩
        · simp only [headerSwitchCur, fileHeaderClosing]
          repeat' split
          all_goals simp [CurTracks, curUpdAll, curUpd, hst, hT']
    · split at h
      · cases h
      · simp only [Except.ok.injEq, Prod.mk.injEq] at h
        rw [← h.1, ← h.2]
        exact ⟨trivial, fun _ => by simp only [hst]; exact hT'⟩
  | filename =>
    rw [hst] at h
    simp only at h
    split at h
    · cases h
    · rename_i nm _
      split at h
      · split at h
        · cases h
        · rename_i nm' _
          have hfit : FitAll last [(Ev.itemStart s.fileType nm' s.item, curFile { s with name := some nm' })] :=
            ⟨⟨rfl, by rw [if_neg (by simp)]; exact ⟨_, _, rfl, rfl, rfl⟩⟩, trivial⟩
          split at h
          · refine cur_next_kept hr hfit ?_ h; exact fun _ => ⟨nm', rfl, rfl⟩
          split at h
          · refine cur_next_kept hr hfit ?_ h; exact fun _ => rfl
          split at h
          · refine cur_next_kept hr hfit ?_ h; exact fun _ => ⟨nm', rfl, rfl⟩
          simp only [Except.ok.injEq, Prod.mk.injEq] at h
          rw [← h.1, ← h.2]
          exact ⟨trivial, fun h => by cases h⟩
      · split at h
        · cases h
        · simp only [Except.ok.injEq, Prod.mk.injEq] at h
          rw [← h.1, ← h.2]
          exact ⟨trivial, fun _ => by simp only [hst]⟩
  | readfile =>
    rw [hst] at h hT'
    simp only at h hT'
    obtain ⟨nm, h1, h2⟩ := hT'
    have hfit : ∀ d, Fitting last (.fileRead d) (curFile s) := fun d =>
      ⟨rfl, by rw [if_neg (by simp)]; exact ⟨_, _, h1, rfl, h2⟩⟩
    split at h
    · split at h
      · refine cur_next_kept hr ?_ ?_ h
        · exact ⟨hfit _, ⟨rfl, by rw [if_neg (by simp)]; exact ⟨_, _, h1, rfl, h2⟩⟩, trivial⟩
        · exact fun _ => ⟨nm, h1, h2⟩
      · cases h
    · simp only [Except.ok.injEq, Prod.mk.injEq] at h
      rw [← h.1, ← h.2]
      exact ⟨⟨hfit _, trivial⟩, fun _ => by simp only [hst]; exact ⟨nm, h1, h2⟩⟩
  | fileGap =>
    rw [hst] at h hT'
    simp only at h hT'
    obtain ⟨nm, h1, h2⟩ := hT'
    split at h
    · split at h
      · refine cur_next_kept hr (evs := []) trivial ?_ h; exact fun _ => by simp [curUpdAll, h1, h2]
      · cases h
    · simp only [Except.ok.injEq, Prod.mk.injEq] at h
      rw [← h.1, ← h.2]
      exact ⟨trivial, fun _ => by simp only [hst]; exact ⟨nm, h1, h2⟩⟩
  | symLinkGap =>
    rw [hst] at h hT'
    simp only at h hT'
    obtain ⟨nm, h1, h2⟩ := hT'
    split at h
    · split at h
      · refine cur_next_kept hr (evs := []) trivial ?_ h; exact fun _ => by simp [curUpdAll, h1, h2]
      · cases h
    · simp only [Except.ok.injEq, Prod.mk.injEq] at h
      rw [← h.1, ← h.2]
      exact ⟨trivial, fun _ => by simp only [hst]; exact ⟨nm, h1, h2⟩⟩
  | symLink =>
    rw [hst] at h hT'
    simp only at h hT'
    obtain ⟨nm, h1, h2⟩ := hT'
    split at h
    · split at h
      · refine cur_next_kept hr ?_ ?_ h
        · exact ⟨⟨rfl, by rw [if_neg (by simp)]; exact ⟨_, _, h1, rfl, h2⟩⟩, trivial⟩
        · exact fun _ => ⟨nm, h1, h2⟩
      · cases h
    · simp only [Except.ok.injEq, Prod.mk.injEq] at h
      rw [← h.1, ← h.2]
      exact ⟨trivial, fun _ => by simp only [hst]; exact ⟨nm, h1, h2⟩⟩

theorem dirData_kept (ok : AllocOracle) (n : Nat) : CurKept (dirDataCur ok n) := by
  induction n with
  | zero => intro s last buf s' evs _ h; cases h
  | succ n ih => exact dirBody_kept ok ih

theorem dirFeed_kept (ok : AllocOracle) (bs : List Bytes) : ∀ s last s' evs, CurTracks s last →
    dirFeedCur ok s bs = .ok (s', evs) → FitAll last evs ∧ CurTracks s' (curUpdAll last evs) := by
  induction bs with
  | nil =>
    intro s last s' evs hT h
    simp only [dirFeedCur, Except.ok.injEq, Prod.mk.injEq] at h
    rw [← h.1, ← h.2]
    exact ⟨trivial, hT⟩
  | cons b bs ih =>
    intro s last s' evs hT h
    rw [dirFeedCur] at h
    cases h1 : dirDataCur ok (depthFor b.length) s b with
    | error e => rw [h1] at h; cases h
    | ok p =>
      obtain ⟨s1, e1⟩ := p
      rw [h1] at h
      simp only at h
      obtain ⟨a1, a2⟩ := dirData_kept ok _ _ _ _ _ _ hT h1
      cases h2 : dirFeedCur ok s1 bs with
      | error e => rw [h2] at h; cases h
      | ok p =>
        rw [h2] at h
        simp only [Except.ok.injEq, Prod.mk.injEq] at h
        obtain ⟨b1, b2⟩ := ih _ _ _ _ a2 h2
        rw [← h.1, ← h.2]
        exact ⟨a1.append b1, by rw [curUpdAll_append]; exact b2⟩

theorem lastStarted_cons (e : Ev) (es : List Ev) :
    lastStarted (e :: es) = (lastStarted es).orElse fun _ => curUpd none e := by
  cases h : lastStarted es <;> cases e <;> simp [lastStarted, h, curUpd]

theorem lastStarted_append (a b : List Ev) :
    lastStarted (a ++ b) = (lastStarted b).orElse fun _ => lastStarted a := by
  induction a with
  | nil => cases h : lastStarted b <;> simp [lastStarted, h]
  | cons x a ih =>
    rw [List.cons_append, lastStarted_cons, ih, lastStarted_cons]
    cases lastStarted b <;> rfl

theorem curUpdAll_eq (evs : List (Ev × FileData)) : ∀ last, curUpdAll last evs =
    (lastStarted (evs.map (·.1))).orElse fun _ => last := by
  induction evs with
  | nil => intro last; rfl
  | cons x evs ih =>
    intro last
    show curUpdAll (curUpd last x.1) evs = _
    rw [ih, List.map_cons, lastStarted_cons]
    cases lastStarted (evs.map (·.1)) with
    | some y => rfl
    | none => cases hx : x.1 <;> simp [curUpd]

theorem FitAll.split {pre post : List (Ev × FileData)} {e : Ev} {c : FileData} :
    ∀ {last : Option (FType × Bytes)}, FitAll last (pre ++ (e, c) :: post) →
      Fitting (curUpdAll last pre) e c := by
  induction pre with
  | nil => intro last h; exact h.1
  | cons x pre ih => intro last h; exact ih h.2

end Zwt
