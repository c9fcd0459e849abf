import Verif.Spec.WinDisk
import Verif.Proofs.Win
import Verif.Proofs.Disk
import Verif.Proofs.WalkMore

/-! Compression on Windows is compression on Unix with a filter that refuses links. -/

namespace Zwt

variable {σ : Type}

/-- Equal but for the history of the calls of the filter. -/
inductive WLike : Run (Int × W σ) → Run (Int × W σ) → Prop
  | error (e : Fault) : WLike (.error e) (.error e)
  | ok (r : Int) (w : W σ) (s : List (Bytes × Entry × Int)) :
      WLike (.ok (r, w)) (.ok (r, { w with shown := s }))

inductive WLike1 : Run (W σ) → Run (W σ) → Prop
  | error (e : Fault) : WLike1 (.error e) (.error e)
  | ok (w : W σ) (s : List (Bytes × Entry × Int)) : WLike1 (.ok w) (.ok { w with shown := s })

theorem putItem_like (w : W σ) (s : List (Bytes × Entry × Int)) (item name : Bytes) :
    WLike1 (w.putItem item name) (W.putItem { w with shown := s } item name) := by
  simp only [W.putItem, W.put]
  split
  · exact .error _
  · exact .ok _ s

theorem asFile_like (w : W σ) (s : List (Bytes × Entry × Int)) (m name : Bytes) (mode size : Nat)
    (ps : List Bytes) (rerr : Bool) :
    WLike (asFile w m name mode size ps rerr) (asFile { w with shown := s } m name mode size ps rerr) := by
  simp only [asFile, W.putItem, W.put]
  cases padding U32 (norm32 (nameLen32 name)) (nameLen32 name) with
  | error e => exact .error e
  | ok pad =>
    cases rerr with
    | true => exact .ok _ _ s
    | false =>
      cases padding U64 (norm64 (u64 size)) (u64 size) with
      | error e => exact .error e
      | ok pad2 => exact .ok _ _ s

theorem visitFile_like (env : Env) (path name : Bytes) (w : W σ) (s : List (Bytes × Entry × Int)) :
    WLike (visitFile env path name w) (visitFile env path name { w with shown := s }) := by
  simp only [visitFile]
  cases env.fopen path with
  | none => exact .ok _ _ s
  | some f =>
    cases hf : f.fstat with
    | none => simp only [hf]; exact .ok _ { w with hasError := true } s
    | some ms => simp only [hf]; exact asFile_like w s _ _ _ _ _ _

theorem visitDir_like (env : Env) {sub sub' : Bytes → W σ → Run (W σ)} (path name : Bytes) (w : W σ)
    (s : List (Bytes × Entry × Int))
    (h : ∀ w s, WLike1 (sub path w) (sub' path { w with shown := s })) :
    WLike (visitDir env sub path name w) (visitDir env sub' path name { w with shown := s }) := by
  simp only [visitDir]
  have h1 := putItem_like w s (itemPlain (env.itemMem w.out.length) name (env.statMode path) K_DIR_START) name
  generalize w.putItem _ name = a at h1 ⊢
  generalize W.putItem { w with shown := s } _ name = b at h1 ⊢
  cases h1 with
  | error e => exact .error e
  | ok w1 s1 =>
    have h2 := h w1 s1
    simp only
    generalize sub path w1 = a at h2 ⊢
    generalize sub' path { w1 with shown := s1 } = b at h2 ⊢
    cases h2 with
    | error e => exact .error e
    | ok w2 s2 => exact .ok _ _ s2

theorem iterate_like {cb cb' : Entry → W σ → Run (Int × W σ)}
    (h : ∀ e w s, WLike (cb e w) (cb' e { w with shown := s })) : ∀ (es : List Entry) (w : W σ) s,
    WLike1 (iterate cb es w) (iterate cb' es { w with shown := s }) := by
  intro es
  induction es with
  | nil => intro w s; exact .ok w s
  | cons e es ih =>
    intro w s
    have h1 := h e w s
    rw [iterate, iterate]
    generalize cb e w = a at h1 ⊢
    generalize cb' e { w with shown := s } = b at h1 ⊢
    cases h1 with
    | error f => exact .error f
    | ok r w1 s1 =>
      simp only
      by_cases hr : r = EXIT_ALL
      · rw [if_pos hr, if_pos hr]; exact .ok _ _
      · rw [if_neg hr, if_neg hr]; exact ih _ _

/-- `lstat` and `readlink` are not called. -/
def Env.sameFiles (env env' : Env) : Prop :=
  env'.list = env.list ∧ env'.statMode = env.statMode ∧ env'.fopen = env.fopen ∧
    env'.itemMem = env.itemMem

theorem winVisit_like {env env' : Env} (he : env.sameFiles env') (flt : Filter σ) : ∀ (fuel : Nat) (dir : Bytes)
    (e : Entry) (w : W σ) (s : List (Bytes × Entry × Int)),
    WLike (winVisit env flt fuel dir e w) (visit env' flt.noLinks fuel dir e { w with shown := s }) := by
  obtain ⟨e1, e2, e3, e4⟩ := he
  intro fuel
  induction fuel with
  | zero => intro dir e w s; exact .error _
  | succ fuel ih =>
    intro dir e w s
    have hsub : ∀ (path : Bytes) (w : W σ) s,
        WLike1 (iterate (winVisit env flt fuel path) ((env.list path).getD []) w)
        (iterate (visit env' flt.noLinks fuel path) ((env'.list path).getD []) { w with shown := s }) := by
      intro path w s
      rw [e1]
      exact iterate_like (fun e w s => ih path e w s) _ w s
    rw [winVisit, visit]
    simp only
    by_cases h1 : w.hasError = true ∨ w.shouldExit = true
    · rw [if_pos h1, if_pos h1]; exact .ok _ _ _
    rw [if_neg h1, if_neg h1]
    by_cases h2 : isDot e.name = true
    · rw [if_pos h2, if_pos h2]; exact .ok _ _ _
    rw [if_neg h2, if_neg h2]
    by_cases h3 : (flt w.fs dir e).1 = 0
    · rw [if_neg (by simp [h3])]
      by_cases h4 : e.ty = .symlink
      · have hf : flt.noLinks w.fs dir e = (1, (flt w.fs dir e).2) := by
          rw [Filter.noLinks, if_pos ⟨h3, h4⟩]
        rw [hf, if_pos (by simp), if_neg (by simp [EXIT_ALL])]
        simp only [winVisitEntry, h4, W.ask, hf]
        exact .ok _ _ _
      · have hf : flt.noLinks w.fs dir e = flt w.fs dir e := by
          rw [Filter.noLinks, if_neg (fun h => h4 h.2)]
        rw [if_neg (by rw [hf]; simp [h3])]
        simp only [winVisitEntry, visitEntry, W.ask, hf]
        cases hty : e.ty with
        | dir =>
          have := visitDir_like env
            (sub := fun path w => iterate (winVisit env flt fuel path) ((env.list path).getD []) w)
            (sub' := fun path w => iterate (visit env' flt.noLinks fuel path) ((env'.list path).getD []) w)
            (joinPath dir e.name) e.name
            { w with fs := (flt w.fs dir e).2, shown := w.shown ++ [(dir, e, (flt w.fs dir e).1)] }
            (s ++ [(dir, e, (flt w.fs dir e).1)]) (fun w s => hsub _ w s)
          simp only [visitDir, e2, e4] at this ⊢
          exact this
        | file =>
          have := visitFile_like env (joinPath dir e.name) e.name
            { w with fs := (flt w.fs dir e).2, shown := w.shown ++ [(dir, e, (flt w.fs dir e).1)] }
            (s ++ [(dir, e, (flt w.fs dir e).1)])
          simp only [visitFile, e3, e4] at this ⊢
          exact this
        | symlink => exact absurd hty h4
        | other => exact .ok _ _ _
    · have hf : flt.noLinks w.fs dir e = flt w.fs dir e := by
        rw [Filter.noLinks, if_neg (fun h => h3 h.1)]
      rw [hf, if_pos h3, if_pos h3]
      by_cases h4 : (flt w.fs dir e).1 = EXIT_ALL
      · rw [if_pos h4, if_pos h4]
        simp only [W.ask, hf]
        exact .ok _ _ _
      · rw [if_neg h4, if_neg h4]
        simp only [W.ask, hf]
        exact .ok _ _ _

/-- The extra buffers do not depend on the platform, except the mode of nested ones. -/
theorem winCompressDir_eq (D : Deflater) {env env' : Env} (he : env.sameFiles env') (flt : Filter σ)
    (fuel : Nat) {fn : DirFn} (hfn : ∀ xs, fn ≠ .nested xs) (dir : Bytes) (fs : σ) (level : Int)
    (junk : Bytes) :
    winCompressDir D env flt fuel fn dir fs level junk =
      compressDir D env' flt.noLinks fuel fn dir fs level junk := by
  have hw : WLike (winDirWrites env flt fuel fn dir fs) (dirWrites env' flt.noLinks fuel fn dir fs) := by
    have hx : winDirExtras env fn (⟨fs, false, false, [], []⟩ : W σ) =
        dirExtras env' fn ⟨fs, false, false, [], []⟩ := by
      cases fn with
      | plain => rfl
      | root xs =>
        have : (extraRoot env : W σ → Extra → Run (Int × W σ)) = extraRoot env' := by
          funext w x
          simp only [extraRoot, he.2.2.2]
        simp only [winDirExtras, dirExtras, this]
      | nested xs => exact absurd rfl (hfn xs)
    rw [winDirWrites, dirWrites, hx]
    cases dirExtras env' fn (⟨fs, false, false, [], []⟩ : W σ) with
    | error e => exact .error e
    | ok x =>
      obtain ⟨b, w⟩ := x
      cases b with
      | false => exact .ok _ w w.shown
      | true =>
        have h := iterate_like (fun e w s => winVisit_like he flt fuel dir e w s) ((env.list dir).getD [])
          w w.shown
        simp only [walk]
        rw [he.1]
        generalize iterate (winVisit env flt fuel dir) _ w = a at h ⊢
        have e0 : ({ w with shown := w.shown } : W σ) = w := rfl
        rw [e0] at h
        generalize iterate (visit env' flt.noLinks fuel dir) _ w = b at h ⊢
        cases h with
        | error e => exact .error e
        | ok w s => exact .ok _ w s
  rw [winCompressDir, compressDir]
  generalize winDirWrites env flt fuel fn dir fs = a at hw ⊢
  generalize dirWrites env' flt.noLinks fuel fn dir fs = b at hw ⊢
  generalize CS.create D fuel CT_DIRECTORY level DEF_CHUNK_SIZE junk = c
  match c with
  | .error e => rfl
  | .ok none => rfl
  | .ok (some s) =>
    cases hw with
    | error e => rfl
    | ok r w s => rfl

end Zwt
