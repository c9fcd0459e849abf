import Verif.Spec.Alike
import Verif.Proofs.Walk

/-! Two runs on the same file system with other uninitialised memory. -/

namespace Zwt

variable {σ : Type}

theorem AllAlike.refl (l : List Bytes) : AllAlike l l := by
  induction l with
  | nil => exact .nil
  | cons b l ih => exact .cons (.same b) ih

theorem AllAlike.append {a a' b b' : List Bytes} (h : AllAlike a a') (h' : AllAlike b b') :
    AllAlike (a ++ b) (a' ++ b') := by
  induction h with
  | nil => exact h'
  | cons x _ ih => exact .cons x ih

theorem AllAlike.length_eq {a b : List Bytes} (h : AllAlike a b) : a.length = b.length := by
  induction h with
  | nil => rfl
  | cons _ _ ih => simp [ih]

theorem Alike.length_eq {a b : Bytes} (h : Alike a b) : a.length = b.length := by
  cases h <;> simp <;> omega

/-- The two runs have got to the same point. -/
structure SameRun (w w' : W σ) : Prop where
  fs : w.fs = w'.fs
  hasError : w.hasError = w'.hasError
  shouldExit : w.shouldExit = w'.shouldExit
  shown : w.shown = w'.shown
  out : AllAlike w.out w'.out

theorem SameRun.put {w w' : W σ} (h : SameRun w w') {b b' : Bytes} (hb : Alike b b') :
    SameRun (w.put b) (w'.put b') :=
  ⟨h.fs, h.hasError, h.shouldExit, h.shown, h.out.append (.cons hb .nil)⟩

theorem SameRun.puts {w w' : W σ} (h : SameRun w w') (l : List Bytes) :
    SameRun { w with out := w.out ++ l } { w' with out := w'.out ++ l } :=
  ⟨h.fs, h.hasError, h.shouldExit, h.shown, h.out.append (.refl l)⟩

/-- Two results. -/
inductive SameRes {α : Type} : Run (α × W σ) → Run (α × W σ) → Prop
  | err (e : Fault) : SameRes (.error e) (.error e)
  | ok (a : α) {w w' : W σ} : SameRun w w' → SameRes (.ok (a, w)) (.ok (a, w'))

inductive SameW : Run (W σ) → Run (W σ) → Prop
  | err (e : Fault) : SameW (.error e) (.error e)
  | ok {w w' : W σ} : SameRun w w' → SameW (.ok w) (.ok w')

theorem itemSized_alike {m m' : Bytes} (h : m.length = 40) (h' : m'.length = 40) (name : Bytes)
    (mode kind size : Nat) : Alike (itemSized m name mode kind size) (itemSized m' name mode kind size) := by
  refine .sized ?_ (by simp [h]) (by simp [h'])
  simp only [List.length_append, leEnc_length]

theorem itemPlain_alike {m m' : Bytes} (h : m.length = 40) (h' : m'.length = 40) (name : Bytes)
    (mode kind : Nat) (hk : kind = 1 ∨ kind = 2) :
    Alike (itemPlain m name mode kind) (itemPlain m' name mode kind) := by
  unfold itemPlain itemBytes
  simp only [List.append_assoc]
  have e : ∀ (a b c d e f g : Bytes), a ++ (b ++ (c ++ (d ++ (e ++ (f ++ g))))) =
      (a ++ b) ++ (c ++ d ++ e ++ f) ++ g := by simp
  rw [e, e]
  refine .dir ?_ ?_ ?_ ?_ (by simp [h]) (by simp [h'])
  · simp only [List.length_append, leEnc_length]
  · simp only [List.length_append, leEnc_length]
  · simp only [List.length_append, leEnc_length]
  · rw [List.getLast?_append]
    rcases hk with rfl | rfl
    · exact .inl rfl
    · exact .inr rfl

theorem putItem_same {w w' : W σ} (h : SameRun w w') {it it' : Bytes} (hi : Alike it it') (name : Bytes) :
    SameW (w.putItem it name) (w'.putItem it' name) := by
  unfold W.putItem
  cases padding U32 (norm32 (nameLen32 name)) (nameLen32 name) with
  | error e => exact .err e
  | ok pad => exact .ok (((h.put hi).put (.same _)).put (.same _))

theorem asFile_same {w w' : W σ} (h : SameRun w w') {m m' : Bytes} (hm : m.length = 40)
    (hm' : m'.length = 40) (name : Bytes) (mode size : Nat) (pieces : List Bytes) (rerr : Bool) :
    SameRes (asFile w m name mode size pieces rerr) (asFile w' m' name mode size pieces rerr) := by
  have := putItem_same h (itemSized_alike hm hm' name mode K_FILE size) name
  unfold asFile
  generalize w.putItem _ name = a at this ⊢
  generalize w'.putItem _ name = b at this ⊢
  cases this with
  | err e => exact .err e
  | ok h =>
    have h2 := h.puts pieces
    dsimp only
    split
    · exact .ok _ ⟨h2.fs, rfl, h2.shouldExit, h2.shown, h2.out⟩
    · cases padding U64 (norm64 (u64 size)) (u64 size) with
      | error e => exact .err e
      | ok pad => exact .ok _ (h2.put (.same _))

theorem iterate_same {cb cb' : Entry → W σ → Run (Int × W σ)}
    (hcb : ∀ e w w', SameRun w w' → SameRes (cb e w) (cb' e w')) (es : List Entry) :
    ∀ w w', SameRun w w' → SameW (iterate cb es w) (iterate cb' es w') := by
  induction es with
  | nil => intro w w' h; exact .ok h
  | cons e es ih =>
    intro w w' h
    have := hcb e w w' h
    simp only [iterate]
    generalize cb e w = a at this ⊢
    generalize cb' e w' = b at this ⊢
    cases this with
    | err f => exact .err f
    | ok r h =>
      dsimp only
      split
      · exact .ok h
      · exact ih _ _ h

theorem visitLink_same {env env' : Env} (V : SameView env env') (path name : Bytes) {w w' : W σ}
    (h : SameRun w w') : SameRes (visitLink env path name w) (visitLink env' path name w') := by
  unfold visitLink
  rw [V.lstat, V.readlink]
  dsimp only
  cases env'.readlink path with
  | none => exact .err _
  | some target =>
    dsimp only
    split
    · exact .err _
    · rename_i hsz
      have := putItem_same h (itemSized_alike (V.item w.out.length).1 (V.item w'.out.length).2 name
        (env'.lstat path).1 K_SYM_LINK (env'.lstat path).2) name
      generalize w.putItem _ name = a at this ⊢
      generalize w'.putItem _ name = b at this ⊢
      cases this with
      | err e => exact .err e
      | @ok w1 w1' h =>
        dsimp only
        cases padding U64 (norm64 (u64 (env'.lstat path).2)) (u64 (env'.lstat path).2) with
        | error e => exact .err e
        | ok pad =>
          refine .ok _ ((h.put ?_).put (.same _))
          rw [List.take_append, List.take_append]
          refine .target ?_
          have := V.target w1.out.length
          rw [h.out.length_eq] at this ⊢
          simp [this]

theorem visitDir_same {env env' : Env} (V : SameView env env') {sub sub' : Bytes → W σ → Run (W σ)}
    (hs : ∀ p w w', SameRun w w' → SameW (sub p w) (sub' p w')) (path name : Bytes) {w w' : W σ}
    (h : SameRun w w') : SameRes (visitDir env sub path name w) (visitDir env' sub' path name w') := by
  unfold visitDir
  rw [V.statMode]
  dsimp only
  have := putItem_same h (itemPlain_alike (V.item w.out.length).1 (V.item w'.out.length).2 name
    (env'.statMode path) K_DIR_START (.inl rfl)) name
  generalize w.putItem _ name = a at this ⊢
  generalize w'.putItem _ name = b at this ⊢
  cases this with
  | err e => exact .err e
  | @ok w1 w1' h1 =>
    dsimp only
    have := hs path w1 w1' h1
    generalize sub path w1 = a at this ⊢
    generalize sub' path w1' = b at this ⊢
    cases this with
    | err e => exact .err e
    | ok h2 =>
      exact .ok _ (h2.put (itemPlain_alike (V.item w.out.length).1 (V.item w'.out.length).2 name
        (env'.statMode path) K_DIR_END (.inr rfl)))

theorem visit_same {env env' : Env} (V : SameView env env') (flt : Filter σ) (fuel : Nat) :
    ∀ dir e w w', SameRun w w' → SameRes (visit env flt fuel dir e w) (visit env' flt fuel dir e w') := by
  induction fuel with
  | zero => intro dir e w w' h; exact .err _
  | succ fuel ih =>
    intro dir e w w' h
    have hask : SameRun (w.ask flt dir e) (w'.ask flt dir e) :=
      ⟨by simp [W.ask, h.fs], h.hasError, h.shouldExit, by simp [W.ask, h.fs, h.shown], h.out⟩
    rw [visit, visit, h.hasError, h.shouldExit, h.fs]
    split
    · exact .ok _ h
    · split
      · exact .ok _ h
      · split
        · split
          · exact .ok _ ⟨hask.fs, hask.hasError, rfl, hask.shown, hask.out⟩
          · exact .ok _ hask
        · unfold visitEntry
          cases e.ty with
          | dir =>
            refine visitDir_same V ?_ _ _ hask
            intro p w w' h
            rw [V.list]
            exact iterate_same (ih p) _ _ _ h
          | file =>
            dsimp only
            unfold visitFile
            rw [V.fopen]
            cases env'.fopen (joinPath dir e.name) with
            | none => exact .ok _ ⟨hask.fs, rfl, hask.shouldExit, hask.shown, hask.out⟩
            | some f =>
              dsimp only
              cases f.fstat with
              | none => exact .ok _ ⟨hask.fs, rfl, hask.shouldExit, hask.shown, hask.out⟩
              | some ms =>
                exact asFile_same hask (V.item _).1 (V.item _).2 _ _ _ _ _
          | symlink => exact visitLink_same V _ _ hask
          | other => exact .ok _ hask

theorem extraParts_same {env env' : Env} (V : SameView env env') (content : Bytes) (rest : List Bytes) :
    ∀ (name : Bytes) (w w' : W σ), SameRun w w' →
      SameRes (extraParts env content name rest w) (extraParts env' content name rest w') := by
  induction rest with
  | nil =>
    intro name w w' h
    exact asFile_same h (V.item _).1 (V.item _).2 _ _ _ _ _
  | cons next rest ih =>
    intro name w w' h
    simp only [extraParts]
    have := putItem_same h (itemPlain_alike (V.item w.out.length).1 (V.item w'.out.length).2 name
      0 K_DIR_START (.inl rfl)) name
    generalize w.putItem _ name = a at this ⊢
    generalize w'.putItem _ name = b at this ⊢
    cases this with
    | err e => exact .err e
    | @ok w1 w1' h1 =>
      dsimp only
      have := ih next w1 w1' h1
      generalize extraParts env content next rest w1 = a at this ⊢
      generalize extraParts env' content next rest w1' = b at this ⊢
      cases this with
      | err e => exact .err e
      | ok r h2 =>
        exact .ok _ (h2.put (itemPlain_alike (V.item w.out.length).1 (V.item w'.out.length).2 name
          0 K_DIR_END (.inr rfl)))

theorem extras_same {one one' : W σ → Extra → Run (Int × W σ)}
    (ho : ∀ x w w', SameRun w w' → SameRes (one w x) (one' w' x)) (xs : List Extra) :
    ∀ w w', SameRun w w' → SameRes (extras one xs w) (extras one' xs w') := by
  induction xs with
  | nil => intro w w' h; exact .ok _ h
  | cons x xs ih =>
    intro w w' h
    have := ho x w w' h
    simp only [extras]
    generalize one w x = a at this ⊢
    generalize one' w' x = b at this ⊢
    cases this with
    | err f => exact .err f
    | ok r h =>
      dsimp only
      split
      · exact .ok _ h
      · exact ih _ _ h

theorem dirWrites_same {env env' : Env} (V : SameView env env') (flt : Filter σ) (fuel : Nat)
    (fn : DirFn) (dir : Bytes) (fs : σ) :
    SameRes (dirWrites env flt fuel fn dir fs) (dirWrites env' flt fuel fn dir fs) := by
  have h0 : SameRun (σ := σ) ⟨fs, false, false, [], []⟩ ⟨fs, false, false, [], []⟩ :=
    ⟨rfl, rfl, rfl, rfl, .nil⟩
  have : SameRes (dirExtras env fn ⟨fs, false, false, [], []⟩)
      (dirExtras env' fn ⟨fs, false, false, [], []⟩) := by
    cases fn with
    | plain => exact .ok _ h0
    | root xs =>
      rw [dirExtras, dirExtras]
      refine extras_same (fun x w w' h => ?_) xs _ _ h0
      unfold extraRoot
      exact asFile_same h (V.item _).1 (V.item _).2 _ _ _ _ _
    | nested xs =>
      rw [dirExtras, dirExtras]
      refine extras_same (fun x w w' h => ?_) xs _ _ h0
      unfold extraNested
      exact extraParts_same V _ _ _ _ _ h
  unfold dirWrites
  generalize dirExtras env fn _ = a at this ⊢
  generalize dirExtras env' fn _ = b at this ⊢
  cases this with
  | err e => exact .err e
  | @ok r w w' h =>
    cases r with
    | false => exact .ok _ h
    | true =>
      dsimp only
      have := iterate_same (visit_same V flt fuel dir) ((env.list dir).getD []) w w' h
      unfold walk
      rw [V.list] at this ⊢
      generalize iterate (visit env flt fuel dir) _ w = a at this ⊢
      generalize iterate (visit env' flt fuel dir) _ w' = b at this ⊢
      cases this with
      | err e => exact .err e
      | ok h =>
        dsimp only
        rw [h.hasError]
        exact .ok _ h

end Zwt
