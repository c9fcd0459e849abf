import Verif.Proofs.WalkHistory

/-! The recursion of the directory functions ends. -/

namespace Zwt

variable {σ : Type}

/-- The result `a` is also `b`, and not for lack of fuel. -/
def DepthSettled {α : Type} (a b : Run α) : Prop := a = b ∧ a ≠ .error .outOfFuel

theorem padding_fueled (m n l : Nat) : padding m n l ≠ .error .outOfFuel := by
  simp only [padding]
  generalize (if l ≤ n then n - l else n + m - l) = d
  split <;> simp

theorem putItem_fueled (w : W σ) (item name : Bytes) : w.putItem item name ≠ .error .outOfFuel := by
  unfold W.putItem
  split
  · rename_i e h; intro hc; cases hc; exact padding_fueled _ _ _ h
  · simp

theorem asFile_fueled (w : W σ) (m name : Bytes) (mode size : Nat) (ps : List Bytes) (r : Bool) :
    asFile w m name mode size ps r ≠ .error .outOfFuel := by
  unfold asFile
  split
  · rename_i e h; intro hc; cases hc; exact putItem_fueled _ _ _ h
  · dsimp only
    split
    · simp
    · split
      · rename_i e h; intro hc; cases hc; exact padding_fueled _ _ _ h
      · simp

theorem visitFile_fueled (env : Env) (path name : Bytes) (w : W σ) :
    visitFile env path name w ≠ .error .outOfFuel := by
  unfold visitFile
  split
  · simp
  · split
    · simp
    · exact asFile_fueled _ _ _ _ _ _ _

theorem visitLink_fueled (env : Env) (path name : Bytes) (w : W σ) :
    visitLink env path name w ≠ .error .outOfFuel := by
  unfold visitLink
  dsimp only
  split
  · simp
  · split
    · simp
    · split
      · rename_i e h; intro hc; cases hc; exact putItem_fueled _ _ _ h
      · split
        · rename_i e h; intro hc; cases hc; exact padding_fueled _ _ _ h
        · simp

theorem iterate_steady {cb cb' : Entry → W σ → Run (Int × W σ)} (es : List Entry)
    (h : ∀ e ∈ es, ∀ w, DepthSettled (cb e w) (cb' e w)) (w : W σ) :
    DepthSettled (iterate cb es w) (iterate cb' es w) := by
  induction es generalizing w with
  | nil => exact ⟨rfl, by simp [iterate]⟩
  | cons e es ih =>
    obtain ⟨h1, h2⟩ := h e List.mem_cons_self w
    simp only [DepthSettled, iterate]
    rw [← h1]
    cases hc : cb e w with
    | error f =>
      refine ⟨rfl, fun hf => h2 (hc.trans ?_)⟩
      cases hf; rfl
    | ok r =>
      obtain ⟨ret, w'⟩ := r
      dsimp only
      by_cases hr : ret = EXIT_ALL
      · rw [if_pos hr, if_pos hr]; exact ⟨rfl, by simp⟩
      · rw [if_neg hr, if_neg hr]
        exact ih (fun e he => h e (List.mem_cons_of_mem _ he)) w'

theorem visitEntry_steady (env : Env) {sub sub' : Bytes → W σ → Run (W σ)} (dir : Bytes) (e : Entry)
    (h : e.ty = .dir → ∀ w, DepthSettled (sub (joinPath dir e.name) w) (sub' (joinPath dir e.name) w))
    (w : W σ) : DepthSettled (visitEntry env sub dir e w) (visitEntry env sub' dir e w) := by
  unfold visitEntry
  cases ht : e.ty with
  | dir =>
    dsimp only
    simp only [DepthSettled, visitDir]
    cases hp : w.putItem (itemPlain (env.itemMem w.out.length) e.name
        (env.statMode (joinPath dir e.name)) K_DIR_START) e.name with
    | error f =>
      refine ⟨rfl, fun hf => putItem_fueled _ _ _ (hp.trans ?_)⟩
      cases hf; rfl
    | ok w' =>
      obtain ⟨h1, h2⟩ := h ht w'
      dsimp only
      rw [← h1]
      cases hs : sub (joinPath dir e.name) w' with
      | error f =>
        refine ⟨rfl, fun hf => h2 (hs.trans ?_)⟩
        cases hf; rfl
      | ok w'' => exact ⟨rfl, by simp⟩
  | file => exact ⟨rfl, visitFile_fueled _ _ _ _⟩
  | symlink => exact ⟨rfl, visitLink_fueled _ _ _ _⟩
  | other => exact ⟨rfl, by simp⟩

theorem joinPath_length (dir name : Bytes) :
    (joinPath dir name).length = min 4094 (dir.length + 1 + name.length) := by
  simp only [joinPath, MAX_PATH_MIN1, List.length_take, List.length_append, List.length_cons]
  omega

/-- Levels enough for what a path of this length may still be followed by. -/
def Levels (n : Nat) (dir : Bytes) : Prop := 1 ≤ n ∧ 4096 ≤ dir.length + 2 * n

theorem visit_steady (env : Env) (flt : Filter σ)
    (hname : ∀ p es, env.list p = some es → ∀ e ∈ es, e.name ≠ [])
    (hcut : ∀ p es, env.list p = some es → 4094 ≤ p.length → ∀ e ∈ es, e.ty = .dir → isDot e.name)
    (n : Nat) : ∀ (m : Nat) (dir : Bytes) (es : List Entry) (e : Entry) (w : W σ),
      Levels n dir → Levels m dir → env.list dir = some es → e ∈ es →
      DepthSettled (visit env flt n dir e w) (visit env flt m dir e w) := by
  induction n with
  | zero => intro m dir es e w h; have := h.1; omega
  | succ n ih =>
    intro m dir es e w hn hm hes he
    obtain ⟨m, rfl⟩ : ∃ m', m = m' + 1 := ⟨m - 1, by have := hm.1; omega⟩
    simp only [DepthSettled, visit]
    by_cases h1 : w.hasError ∨ w.shouldExit
    · rw [if_pos h1, if_pos h1]; exact ⟨rfl, by simp⟩
    rw [if_neg h1, if_neg h1]
    by_cases h2 : isDot e.name = true
    · rw [if_pos h2, if_pos h2]; exact ⟨rfl, by simp⟩
    rw [if_neg h2, if_neg h2]
    by_cases h3 : (flt w.fs dir e).1 ≠ 0
    · rw [if_pos h3, if_pos h3]
      refine ⟨rfl, ?_⟩
      by_cases h4 : (flt w.fs dir e).1 = EXIT_ALL
      · rw [if_pos h4]; simp
      · rw [if_neg h4]; simp
    rw [if_neg h3, if_neg h3]
    refine visitEntry_steady env dir e (fun ht w' => ?_) _
    have hlen : dir.length < 4094 := by
      rcases Nat.lt_or_ge dir.length 4094 with h | h
      · exact h
      · exact absurd (hcut _ _ hes h e he ht) h2
    have hnl : 1 ≤ e.name.length := by
      have := hname _ _ hes e he
      cases hc : e.name with
      | nil => exact absurd hc this
      | cons _ _ => simp
    have hj := joinPath_length dir e.name
    have a1 : Levels n (joinPath dir e.name) := by
      unfold Levels at *; omega
    have a2 : Levels m (joinPath dir e.name) := by
      unfold Levels at *; omega
    cases hl : env.list (joinPath dir e.name) with
    | none => exact ⟨rfl, by simp [iterate]⟩
    | some es' =>
      exact iterate_steady es' (fun e' he' w'' => ih m _ es' e' w'' a1 a2 hl he') w'

theorem extraRoot_fueled (env : Env) (w : W σ) (x : Extra) :
    extraRoot env w x ≠ .error .outOfFuel := asFile_fueled _ _ _ _ _ _ _

theorem extraParts_fueled (env : Env) (content : Bytes) (rest : List Bytes) :
    ∀ (name : Bytes) (w : W σ), extraParts env content name rest w ≠ .error .outOfFuel := by
  induction rest with
  | nil => intro name w; exact extraRoot_fueled _ _ _
  | cons next rest ih =>
    intro name w
    simp only [extraParts]
    split
    · rename_i e h; intro hc; cases hc; exact putItem_fueled _ _ _ h
    · split
      · rename_i e h; intro hc; cases hc; exact ih _ _ h
      · simp

theorem extras_fueled {one : W σ → Extra → Run (Int × W σ)}
    (h : ∀ w x, one w x ≠ .error .outOfFuel) (xs : List Extra) :
    ∀ w, extras one xs w ≠ .error .outOfFuel := by
  induction xs with
  | nil => intro w; simp [extras]
  | cons x xs ih =>
    intro w
    simp only [extras]
    split
    · rename_i e h1; intro hc; cases hc; exact h _ _ h1
    · split
      · simp
      · exact ih _

theorem dirExtras_fueled (env : Env) (fn : DirFn) (w : W σ) :
    dirExtras env fn w ≠ .error .outOfFuel := by
  cases fn with
  | plain => simp [dirExtras]
  | root xs => exact extras_fueled (fun _ _ => extraRoot_fueled _ _ _) xs w
  | nested xs => exact extras_fueled (fun _ _ => extraParts_fueled _ _ _ _ _) xs w

theorem dirWrites_steady (env : Env) (flt : Filter σ)
    (hname : ∀ p es, env.list p = some es → ∀ e ∈ es, e.name ≠ [])
    (hcut : ∀ p es, env.list p = some es → 4094 ≤ p.length → ∀ e ∈ es, e.ty = .dir → isDot e.name)
    (fn : DirFn) (dir : Bytes) (fs : σ) {n m : Nat} (hn : Levels n dir) (hm : Levels m dir) :
    DepthSettled (dirWrites env flt n fn dir fs) (dirWrites env flt m fn dir fs) := by
  simp only [DepthSettled, dirWrites]
  cases hx : dirExtras env fn (⟨fs, false, false, [], []⟩ : W σ) with
  | error e =>
    refine ⟨rfl, fun hf => dirExtras_fueled env fn _ (hx.trans ?_)⟩
    cases hf; rfl
  | ok r =>
    obtain ⟨b, w⟩ := r
    cases b with
    | false => exact ⟨rfl, by simp⟩
    | true =>
      have key : DepthSettled (walk env flt n dir w) (walk env flt m dir w) := by
        unfold walk
        cases hl : env.list dir with
        | none => exact ⟨rfl, by simp [iterate]⟩
        | some es =>
          exact iterate_steady es (fun e he w' =>
            visit_steady env flt hname hcut n m dir es e w' hn hm hl he) w
      obtain ⟨h1, h2⟩ := key
      dsimp only
      rw [← h1]
      cases hw : walk env flt n dir w with
      | error e =>
        refine ⟨rfl, fun hf => h2 (hw.trans ?_)⟩
        cases hf; rfl
      | ok w' => exact ⟨rfl, by simp⟩

end Zwt
