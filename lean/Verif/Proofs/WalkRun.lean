import Verif.Proofs.WalkHistory

/-! The directory functions as a whole. -/

namespace Zwt

variable {σ : Type} {D : Deflater} {plain : Bytes → Bytes}

/-- The tree of the extra buffers, as the code writes it. -/
def DirFn.Tree : DirFn → Forest → Prop
  | .plain, f => f = .nil
  | .root xs, f => f = rootForest xs
  | .nested xs, f => NestedTree (fun _ => 0o644) xs f

/-- Extra buffers within the limits of the format. -/
def DirFn.fits : DirFn → Prop
  | .plain => True
  | .root xs => ∀ x ∈ xs, x.fits
  | .nested xs => ∀ x ∈ xs, x.fits

theorem dirWrites_good (env : Env) (henv : env.ok) (flt : Filter σ) (fn : DirFn) (hfn : fn.fits)
    {dir : Bytes} {es : List Entry} {f : Forest} (hl : env.list dir = some es)
    (hm : Mirror env dir es f) (fs : σ) :
    ∃ n0 g, fn.Tree g ∧ ∀ fuel, n0 ≤ fuel → ∃ w, dirWrites env flt fuel fn dir fs =
        .ok (if (select flt dir f fs).status = .failed then 2 else 0, w) ∧
      w.fs = (select flt dir f fs).fs ∧ w.shown = (select flt dir f fs).shown ∧
      ((select flt dir f fs).status ≠ .failed → (∀ b ∈ w.out, b.length < U32) ∧
        Encodes (g ++ (select flt dir f fs).forest) w.out.flatten) := by
  obtain ⟨n0, hw⟩ := walk_good env henv flt hm
  have hex : ∃ g new, fn.Tree g ∧ dirExtras env fn ⟨fs, false, false, [], []⟩ =
        .ok (true, ⟨fs, false, false, new, []⟩) ∧ (∀ b ∈ new, b.length < U32) ∧
      Encodes g new.flatten := by
    cases fn with
    | plain => exact ⟨.nil, [], rfl, rfl, by simp, .nil⟩
    | root xs =>
      obtain ⟨new, a, b, c⟩ := extras_root_good env henv xs hfn ⟨fs, false, false, [], []⟩
      exact ⟨_, new, rfl, by simpa [dirExtras] using a, b, c⟩
    | nested xs =>
      obtain ⟨new, a, b, f, c, d⟩ := extras_nested_good env henv xs hfn ⟨fs, false, false, [], []⟩
      exact ⟨f, new, c, by simpa [dirExtras] using a, b, d⟩
  obtain ⟨g, new, hg, a, b, c⟩ := hex
  refine ⟨n0, g, hg, fun fuel hf => ?_⟩
  obtain ⟨w, h1, h2⟩ := hw fuel hf ⟨fs, false, false, new, []⟩ ⟨rfl, rfl⟩
  refine ⟨w, ?_, h2.fs, by simpa using h2.shown, fun hne => ?_⟩
  · simp only [dirWrites, a, walk, hl, Option.getD_some, h1, h2.err]
    simp
  · obtain ⟨new', p1, p2, p3⟩ := h2.out hne
    rw [p1]
    refine ⟨?_, ?_⟩
    · intro x hx
      rcases List.mem_append.mp hx with hx | hx
      · exact b x hx
      · exact p3 x hx
    · rw [List.flatten_append]
      exact c.append p2

theorem compressDir_good (C : DeflateOK D plain) (env : Env) (henv : env.ok) (flt : Filter σ)
    (fn : DirFn) (hfn : fn.fits) {dir : Bytes} {es : List Entry} {f : Forest}
    (hl : env.list dir = some es) (hm : Mirror env dir es f) (fs : σ) (level : Int) (z : D.τ)
    (hz : D.init level = some z) (junk : Bytes) (hj : junk.length = 120)
    (hst : (select flt dir f fs).status ≠ .failed) :
    ∃ n0 log g, fn.Tree g ∧ (∀ fuel, n0 ≤ fuel →
        compressDir D env flt fuel fn dir fs level junk = .ok (0, log)) ∧
      (C.Fits → Open plain log.flatten) ∧
      IsArchive plain junk (g ++ (select flt dir f fs).forest) log := by
  obtain ⟨n1, g, hg, hw⟩ := dirWrites_good env henv flt fn hfn hl hm fs
  obtain ⟨w, b1, _, _, b4⟩ := hw n1 (Nat.le_refl _)
  rw [if_neg hst] at b1
  obtain ⟨b5, b6⟩ := b4 hst
  obtain ⟨s0, s, n2, rets, c1, c0, c2, c3⟩ := session_writes_good C CT_DIRECTORY level z hz junk hj
    w.out b5
  refine ⟨max n1 n2, s.log, g, hg, fun fuel hf => ?_, c0, _, b6, c2, c3⟩
  simp only [compressDir, (c1 fuel (by omega)).1, (c1 fuel (by omega)).2,
    dirWrites_mono env flt (by omega : n1 ≤ fuel) b1]

end Zwt
