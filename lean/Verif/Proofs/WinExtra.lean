import Verif.Proofs.WinDisk
import Verif.Proofs.WalkHistory
import Verif.Props.Win

/-! Extra buffers on Windows. -/

namespace Zwt

variable {σ : Type} {plain : Bytes → Bytes} {D : Deflater}

theorem winExtraParts_good (env : Env) (henv : env.ok) (content : Bytes)
    (hc : content.length < 2 ^ 32) (rest : List Bytes) : ∀ (name : Bytes) (w : W σ),
    name.length + 8 < 2 ^ 32 → (∀ p ∈ rest, p.length + 8 < 2 ^ 32) →
    ∃ new, winExtraParts env content name rest w = .ok (0, { w with out := w.out ++ new }) ∧
      (∀ b ∈ new, b.length < U32) ∧ Encodes (nest 0o600 content name rest) new.flatten := by
  induction rest with
  | nil =>
    intro name w hn _
    exact extraRoot_good env henv w ⟨name, content, MODE_WIN⟩ ⟨hn, hc, (by decide : MODE_WIN < 2 ^ 32)⟩
  | cons next rest ih =>
    intro name w hn hr
    obtain ⟨k, k1, k2, k3, k4⟩ := putItem_ok w (itemPlain (env.itemMem w.out.length) name 0
      K_DIR_START) hn
    obtain ⟨s1, s2⟩ := itemPlain_fields (mode := 0) (kind := K_DIR_START)
      (henv w.out.length) hn (by decide)
    obtain ⟨e1, e2⟩ := itemPlain_fields (mode := 0) (kind := K_DIR_END)
      (henv w.out.length) hn (by decide)
    simp only [itemFields, ItemFields.mk.injEq] at s2 e2
    obtain ⟨_, _, f3, f4, f5, f6⟩ := s2
    obtain ⟨_, _, _, _, _, g6⟩ := e2
    obtain ⟨new, p1, p2, p3⟩ := ih next { w with
      out := w.out ++ [itemPlain (env.itemMem w.out.length) name 0 K_DIR_START, name,
        List.replicate k 0] } (hr next List.mem_cons_self)
      (fun p hp => hr p (List.mem_cons_of_mem _ hp))
    refine ⟨[itemPlain (env.itemMem w.out.length) name 0 K_DIR_START, name, List.replicate k 0] ++
      new ++ [itemPlain (env.itemMem w.out.length) name 0 K_DIR_END], ?_, ?_, ?_⟩
    · simp only [winExtraParts, k4, p1, W.put]
      simp
    · simp only [List.mem_append, List.mem_cons, List.not_mem_nil, or_false]
      rintro x (((rfl | rfl | rfl) | hx) | rfl)
      all_goals first
        | exact p2 x hx
        | (simp only [U32, List.length_replicate]; omega)
    · have e : ([itemPlain (env.itemMem w.out.length) name 0 K_DIR_START, name,
          List.replicate k 0] ++ new ++
          [itemPlain (env.itemMem w.out.length) name 0 K_DIR_END]).flatten =
          itemPlain (env.itemMem w.out.length) name 0 K_DIR_START ++ name ++
          List.replicate k 0 ++ new.flatten ++
          itemPlain (env.itemMem w.out.length) name 0 K_DIR_END ++ [] := by simp
      rw [e]
      exact .dir s1 f6 (by rw [f5]; exact uInt_of_lt (by decide)) f3 (by rw [f4, k3]; simp)
        ⟨k, k1, k2, rfl⟩ p3 e1 g6 .nil

theorem winExtras_nested_good (env : Env) (henv : env.ok) (xs : List Extra) (hx : ∀ x ∈ xs, x.fits)
    (w : W σ) :
    ∃ new, extras (winExtraNested env) xs w = .ok (true, { w with out := w.out ++ new }) ∧
      (∀ b ∈ new, b.length < U32) ∧
      ∃ f, NestedTree (fun _ => 0o600) xs f ∧ Encodes f new.flatten := by
  induction xs generalizing w with
  | nil => exact ⟨[], by simp [extras], by simp, .nil, .nil, .nil⟩
  | cons x xs ih =>
    have hf := hx x List.mem_cons_self
    have hp := hf.path
    have hle := splitSlash_le x.path
    obtain ⟨n1, a1, a2, a3⟩ := winExtraParts_good env henv x.content hf.content (splitSlash x.path).2
      (splitSlash x.path).1 w (by have := hle _ List.mem_cons_self; omega)
      (fun p h => by have := hle p (List.mem_cons_of_mem _ h); omega)
    obtain ⟨n2, b1, b2, f, b3, b4⟩ := ih (fun y hy => hx y (List.mem_cons_of_mem _ hy))
      { w with out := w.out ++ n1 }
    obtain ⟨sp1, sp2⟩ := splitSlash_spec x.path
    refine ⟨n1 ++ n2, ?_, ?_, _, .cons sp1 sp2 b3, ?_⟩
    · have a1' : winExtraNested env w x = .ok (0, { w with out := w.out ++ n1 }) := a1
      simp only [extras, a1', ne_eq, not_true_eq_false, if_false, b1, List.append_assoc]
    · intro b hb
      rcases List.mem_append.mp hb with h | h
      · exact a2 b h
      · exact b2 b h
    · rw [List.flatten_append]
      exact a3.append b4

/-- An archive with nested extra buffers, made on Windows. -/
theorem winCompressDir_nested (C : DeflateOK D plain) {env env' : Env} (he : env.sameFiles env')
    (henv : env.ok) (flt : Filter σ) (xs : List Extra) (hxs : ∀ x ∈ xs, x.fits) {dir : Bytes}
    {es : List Entry} {f : Forest} (hl : env'.list dir = some es) (hm : Mirror env' dir es f) (fs : σ)
    (level : Int) (z : D.τ) (hz : D.init level = some z) (junk : Bytes) (hj : junk.length = 120)
    (hst : (select flt.noLinks dir f fs).status ≠ .failed) :
    ∃ n0 log g, NestedTree (fun _ => 0o600) xs g ∧ (∀ fuel, n0 ≤ fuel →
        winCompressDir D env flt fuel (.nested xs) dir fs level junk = .ok (0, log)) ∧
      (C.Fits → Open plain log.flatten) ∧
      IsArchive plain junk (g ++ (select flt.noLinks dir f fs).forest) log := by
  have henv' : env'.ok := fun k => by rw [he.2.2.2]; exact henv k
  obtain ⟨new, a1, a2, g, a3, a4⟩ := winExtras_nested_good env henv xs hxs ⟨fs, false, false, [], []⟩
  simp only [List.nil_append] at a1
  obtain ⟨n1, hw⟩ := walk_good env' henv' flt.noLinks hm
  obtain ⟨w1, b1, b2⟩ := hw n1 (Nat.le_refl _) ⟨fs, false, false, new, []⟩ ⟨rfl, rfl⟩
  obtain ⟨new', p1, p2, p3⟩ := b2.out hst
  obtain ⟨s0, s, n2, rets, c1, c0, c2, c3⟩ := session_writes_good C CT_DIRECTORY level z hz junk hj
    w1.out (by
      rw [p1]
      intro x hx
      rcases List.mem_append.mp hx with hx | hx
      · exact a2 x hx
      · exact p3 x hx)
  refine ⟨max n1 n2, s.log, g, a3, fun fuel hf => ?_, c0, _, ?_, c2, c3⟩
  · have hit := iterate_mono (fun e w r h => visit_mono env' flt.noLinks (show n1 ≤ fuel by omega) dir e w r h)
      es _ _ b1
    have hlike := iterate_like (fun e w s => winVisit_like he flt fuel dir e w s) es
      (⟨fs, false, false, new, []⟩ : W σ) []
    rw [show ({ (⟨fs, false, false, new, []⟩ : W σ) with shown := [] } : W σ) = ⟨fs, false, false, new, []⟩
      from rfl, hit] at hlike
    have hes : (env.list dir).getD [] = es := by rw [← he.1, hl]; rfl
    have herr : w1.hasError = false := by
      have := b2.err
      rw [this]
      simp [hst]
    obtain ⟨w, hwo, hww⟩ : ∃ w, w.out = w1.out ∧
        winDirWrites env flt fuel (.nested xs) dir fs = .ok (0, w) := by
      rw [winDirWrites]
      simp only [winDirExtras, a1, hes]
      generalize iterate (winVisit env flt fuel dir) es _ = X at hlike ⊢
      cases hlike with
      | ok w s =>
        refine ⟨w, rfl, ?_⟩
        simp only at herr
        simp [herr]
    simp only [winCompressDir, (c1 fuel (by omega)).1, hww, hwo, (c1 fuel (by omega)).2]
  · rw [p1, List.flatten_append]
    exact a4.append p2

end Zwt
