import Verif.Spec.SelfWin
import Verif.Model.SelfWin
import Verif.Proofs.SelfDisk
import Verif.Proofs.WinDisk

/-! The self extractor on Windows: what is packed. -/

namespace Zwt

/-! ### The filter -/

/-- What is packed on Windows. -/
def winPackable (exe out : Bytes) (d : Bytes) (e : Entry) : Bool :=
  packable exe out d e && noLink d e

theorem select_selfWin {exe out : Bytes} (hne : exe ≠ out) (f : Forest) :
    ∀ (dir : Bytes) (s : SelfFs), f.readable (winPackable exe out) dir → f.named exe ≤ s.own.toNat →
      f.named out ≤ s.out.toNat →
      (select (selfFilter exe out).noLinks dir f s).status = .done ∧
      (select (selfFilter exe out).noLinks dir f s).forest = f.prune (winPackable exe out) dir ∧
      (select (selfFilter exe out).noLinks dir f s).fs.own.toNat + f.named exe = s.own.toNat ∧
      (select (selfFilter exe out).noLinks dir f s).fs.out.toNat + f.named out = s.out.toNat := by
  induction f with
  | nil => intro dir s _ _ _; exact ⟨rfl, rfl, rfl, rfl⟩
  | file n m c r ih =>
    rintro dir ⟨a, b⟩ hp h1 h2
    simp only [Forest.named] at h1 h2
    simp only [select, askFilter, selfFilter, Filter.noLinks, Forest.prune, winPackable, packable,
      Forest.named, noLink]
    by_cases e1 : n = exe
    · subst e1
      simp only [if_true, hne, if_false, Nat.zero_add] at h1 h2
      cases a with
      | false => simp at h1
      | true =>
        obtain ⟨i1, i2, i3, i4⟩ := ih dir ⟨false, b⟩ hp (by simp at h1 ⊢; omega) h2
        simp only [Bool.toNat_false] at i3
        simp only [selfFilter, Filter.noLinks, winPackable, packable, noLink] at i1 i2 i3 i4
        simp [i1, i2, i4, hne]
        omega
    · by_cases e2 : n = out
      · subst e2
        simp only [if_true, e1, if_false, Nat.zero_add] at h1 h2
        cases b with
        | false => simp at h2
        | true =>
          obtain ⟨i1, i2, i3, i4⟩ := ih dir ⟨a, false⟩ hp h1 (by simp at h2 ⊢; omega)
          simp only [Bool.toNat_false] at i4
          simp [i1, i2, i3, e1, hne, winPackable, packable]
          omega
      · simp only [e1, e2, if_false, Nat.zero_add] at h1 h2
        obtain ⟨i1, i2, i3, i4⟩ := ih dir ⟨a, b⟩ hp h1 h2
        simp [Ne.symm e1, Ne.symm e2, e1, e2, Sel.add, i1, i2, i3, i4]
  | link n m c r ih =>
    rintro dir ⟨a, b⟩ hp h1 h2
    simp only [Forest.named] at h1 h2
    simp only [select, askFilter, selfFilter, Filter.noLinks, Forest.prune, winPackable, packable,
      Forest.named, noLink]
    by_cases e1 : n = exe
    · subst e1
      simp only [if_true, hne, if_false, Nat.zero_add] at h1 h2
      cases a with
      | false => simp at h1
      | true =>
        obtain ⟨i1, i2, i3, i4⟩ := ih dir ⟨false, b⟩ hp (by simp at h1 ⊢; omega) h2
        simp only [Bool.toNat_false] at i3
        simp only [selfFilter, Filter.noLinks, winPackable, packable, noLink] at i1 i2 i3 i4
        simp [i1, i2, i4, hne]
        omega
    · by_cases e2 : n = out
      · subst e2
        simp only [if_true, e1, if_false, Nat.zero_add] at h1 h2
        cases b with
        | false => simp at h2
        | true =>
          obtain ⟨i1, i2, i3, i4⟩ := ih dir ⟨a, false⟩ hp h1 (by simp at h2 ⊢; omega)
          simp only [Bool.toNat_false] at i4
          simp [i1, i2, i3, e1, hne, winPackable, packable]
          omega
      · simp only [e1, e2, if_false, Nat.zero_add] at h1 h2
        obtain ⟨i1, i2, i3, i4⟩ := ih dir ⟨a, b⟩ hp h1 h2
        simp [Ne.symm e1, Ne.symm e2, e1, e2, Sel.add, i1, i2, i3, i4]
  | dir n m s r ihs ih =>
    rintro dir t hp h1 h2
    have hf : (selfFilter exe out).noLinks t dir ⟨n, .dir⟩ = (0, t) := by simp [selfFilter, Filter.noLinks]
    have hk : winPackable exe out dir ⟨n, .dir⟩ = true := by simp [winPackable, packable, noLink]
    simp only [Forest.named] at h1 h2
    obtain ⟨j1, j2, j3, j4⟩ := ihs (pathOf dir n) t (hp.1 hk) (by omega) (by omega)
    obtain ⟨i1, i2, i3, i4⟩ := ih dir (select (selfFilter exe out).noLinks (pathOf dir n) s t).fs hp.2
      (by omega) (by omega)
    simp only [select, askFilter, hf, hk, Forest.prune, Forest.named, if_true, Sel.close, j1]
    exact ⟨i1, by rw [i2, j2], by omega, by omega⟩
  | other n r ih =>
    rintro dir ⟨a, b⟩ hp h1 h2
    simp only [Forest.named] at h1 h2
    simp only [select, askFilter, selfFilter, Filter.noLinks, Forest.prune, winPackable, packable,
      Forest.named, noLink]
    by_cases e1 : n = exe
    · subst e1
      simp only [if_true, hne, if_false, Nat.zero_add] at h1 h2
      cases a with
      | false => simp at h1
      | true =>
        obtain ⟨i1, i2, i3, i4⟩ := ih dir ⟨false, b⟩ hp (by simp at h1 ⊢; omega) h2
        simp only [Bool.toNat_false] at i3
        simp only [selfFilter, Filter.noLinks, winPackable, packable, noLink] at i1 i2 i3 i4
        simp [i1, i2, i4, hne]
        omega
    · by_cases e2 : n = out
      · subst e2
        simp only [if_true, e1, if_false, Nat.zero_add] at h1 h2
        cases b with
        | false => simp at h2
        | true =>
          obtain ⟨i1, i2, i3, i4⟩ := ih dir ⟨a, false⟩ hp h1 (by simp at h2 ⊢; omega)
          simp only [Bool.toNat_false] at i4
          simp [i1, i2, i3, e1, hne, winPackable, packable]
          omega
      · simp only [e1, e2, if_false, Nat.zero_add] at h1 h2
        obtain ⟨i1, i2, i3, i4⟩ := ih dir ⟨a, b⟩ hp h1 h2
        simp [Ne.symm e1, Ne.symm e2, e1, e2, Sel.add, i1, i2, i3, i4]
  | bad n r ih =>
    rintro dir ⟨a, b⟩ ⟨hk, hp⟩ h1 h2
    simp only [Forest.named] at h1 h2
    simp only [select, askFilter, selfFilter, Filter.noLinks, Forest.prune, Forest.named]
    by_cases e1 : n = exe
    · subst e1
      simp only [if_true, hne, if_false, Nat.zero_add] at h1 h2
      cases a with
      | false => simp at h1
      | true =>
        obtain ⟨i1, i2, i3, i4⟩ := ih dir ⟨false, b⟩ hp (by simp at h1 ⊢; omega) h2
        simp only [Bool.toNat_false] at i3
        simp only [selfFilter, Filter.noLinks] at i1 i2 i3 i4
        simp [i1, i2, i4, hne]
        omega
    · by_cases e2 : n = out
      · subst e2
        simp only [if_true, e1, if_false, Nat.zero_add] at h1 h2
        cases b with
        | false => simp at h2
        | true =>
          obtain ⟨i1, i2, i3, i4⟩ := ih dir ⟨a, false⟩ hp h1 (by simp at h2 ⊢; omega)
          simp only [Bool.toNat_false] at i4
          simp [i1, i2, i3, e1, hne]
          omega
      · simp [winPackable, packable, noLink, e1, e2] at hk

/-! ### The drive without the files in use -/

/-- The entry is not one of the files in use. -/
def unused (win : Win) (cwd : Loc) (used : List Loc) (dir : Bytes) (e : Entry) : Bool :=
  match winLocate win cwd (dir ++ 47 :: e.name) with
  | none => true
  | some l => decide (l ∉ used)

/-- What is seen of the rest. -/
def Env.hide (env : Env) (win : Win) (cwd : Loc) (used : List Loc) : Env :=
  { env with list := fun p => (env.list p).map (·.filter (unused win cwd used p)) }

theorem WFS.omit_tree {fs : WFS} (ht : fs.tree) {used : List Loc}
    (hu : ∀ l ∈ used, ∃ ro c, fs l = some (.file ro c)) : (fs.omit used).tree := by
  intro l k n h
  simp only [WFS.omit] at h ⊢
  split at h
  · cases h
  · have := ht l k n h
    rw [if_neg, this]
    intro hl
    obtain ⟨ro, c, hx⟩ := hu l hl
    rw [this] at hx; cases hx

theorem WFS.omit_some {fs : WFS} {used : List Loc} {l : Loc} {n : WNode}
    (h : (fs.omit used) l = some n) : fs l = some n ∧ l ∉ used := by
  simp only [WFS.omit] at h
  split at h
  · cases h
  · exact ⟨h, by assumption⟩

theorem WShowsBut.hide {win : Win} {w : WWorld} {env : Env} {used : List Loc}
    (H : WShowsBut win w env used) :
    WShows win { w with fs := w.fs.omit used } (env.hide win w.cwd used) where
  list p l hp hloc hd := by
    obtain ⟨hd, _⟩ := WFS.omit_some hd
    obtain ⟨es, h1, h2⟩ := H.list p l hp hloc hd
    refine ⟨es.filter (unused win w.cwd used p), by simp only [Env.hide, h1, Option.map_some], ?_, ?_, ?_, ?_⟩
    · exact h2.once.sublist ((List.filter_sublist).map _)
    · intro a ha b hb
      exact h2.apart a (List.mem_filter.1 ha).1 b (List.mem_filter.1 hb).1
    · intro e he
      obtain ⟨he, hu⟩ := List.mem_filter.1 he
      rcases h2.real e he with h | h | ⟨hw, h⟩
      · exact .inl h
      · exact .inr (.inl h)
      · have hx := winLocate_child win w.cwd p l e.name hw hloc
        simp only [unused, hx, decide_eq_true_eq] at hu
        refine .inr (.inr ⟨hw, ?_⟩)
        simp only [WFS.omit, if_neg hu]
        exact h
    · intro k n hk
      obtain ⟨hk, hnu⟩ := WFS.omit_some hk
      obtain ⟨e, he, hw, rfl⟩ := h2.all k n hk
      have hx := winLocate_child win w.cwd p l e.name hw hloc
      refine ⟨e, List.mem_filter.2 ⟨he, ?_⟩, hw, rfl⟩
      simp only [unused, hx, decide_eq_true_eq]
      exact hnu
  stat p l hp hloc hd := H.stat p l hp hloc (WFS.omit_some hd).1
  open' p l ro c hp hloc hf hc := H.open' p l ro c hp hloc (WFS.omit_some hf).1 hc (WFS.omit_some hf).2

theorem WArchivable.hide {win : Win} {w : WWorld} {env : Env} {p : Bytes} {l : Loc} {used : List Loc}
    (hu : ∀ l ∈ used, ∃ ro c, w.fs l = some (.file ro c)) (A : WArchivable win w env p l) :
    WArchivable win { w with fs := w.fs.omit used } (env.hide win w.cwd used) p l where
  leads := A.leads
  isDir := by
    simp only [WFS.omit]
    rw [if_neg, A.isDir]
    intro h
    obtain ⟨ro, c, hx⟩ := hu l h
    rw [A.isDir] at hx; cases hx
  files q ro c h := A.files q ro c (WFS.omit_some h).1
  top := A.top
  short ns es e hn hl he hw := by
    simp only [Env.hide, Option.map_eq_some_iff] at hl
    obtain ⟨es', h1, rfl⟩ := hl
    exact A.short ns es' e hn h1 (List.mem_filter.1 he).1 hw

/-! ### Directories below -/

/-- `es` is the listing of the directory `ns` below `p`. -/
structure WAt (win : Win) (w : WWorld) (env : Env) (p : Bytes) (l : Loc) (ns : List Bytes)
    (es : List Entry) : Prop where
  names : ∀ x ∈ ns, WinName win x
  list : env.list (p ++ slashed ns) = some es
  lists : WLists win w.fs (l ++ ns.map win.same) es
  loc : winLocate win w.cwd (p ++ slashed ns) = some (l ++ ns.map win.same)

variable {win : Win} {w : WWorld} {env : Env} {used : List Loc} {p : Bytes} {l : Loc}

theorem WAt.at {ns : List Bytes} {es : List Entry} (h : WAt win w env p l ns es) {x : Bytes}
    (hx : WinName win x) :
    winLocate win w.cwd (p ++ slashed ns ++ 47 :: x) = some (l ++ ns.map win.same ++ [win.same x]) :=
  winLocate_child win w.cwd _ _ x hx h.loc

theorem WAt.named {ns : List Bytes} {es : List Entry} (h : WAt win w env p l ns es) {e : Entry} (he : e ∈ es)
    (hd : e.name ≠ [46] ∧ e.name ≠ [46, 46]) : WinName win e.name := by
  rcases h.lists.real e he with h | h | h
  · exact absurd h hd.1
  · exact absurd h hd.2
  · exact h.1

theorem WAt.child (H : WShowsBut win w env used) (A : WArchivable win w env p l) {ns : List Bytes}
    {es es' : List Entry} (h : WAt win w env p l ns es) {e : Entry} (he : e ∈ es) (hty : e.ty = .dir)
    (hw : WinName win e.name) (hl : env.list (pathOf (p ++ slashed ns) e.name) = some es') :
    WAt win w env p l (ns ++ [e.name]) es' := by
  have e1 : pathOf (p ++ slashed ns) e.name = p ++ slashed (ns ++ [e.name]) := by
    rw [slashed_snoc]; simp [pathOf]
  have e2 : l ++ (ns ++ [e.name]).map win.same = l ++ ns.map win.same ++ [win.same e.name] := by simp
  have hloc := h.at hw
  have hlen := A.short ns es e h.names h.list he hw
  have hd : w.fs (l ++ ns.map win.same ++ [win.same e.name]) = some .dir := by
    rcases h.lists.real e he with h | h | ⟨_, ⟨h, _⟩ | ⟨n, h, h'⟩⟩
    · exact absurd h hw.1.2.1
    · exact absurd h hw.1.2.2.1
    · rw [hty] at h; cases h
    · rw [hty] at h'
      cases n with
      | dir => exact h
      | file => cases h'
  have e3 : p ++ slashed ns ++ 47 :: e.name = p ++ slashed (ns ++ [e.name]) := by
    rw [slashed_snoc]; simp
  have hlen' : (p ++ slashed (ns ++ [e.name])).length ≤ 240 := by
    rw [← e3]
    have : (p ++ slashed ns).length + 1 + e.name.length ≤ 240 := hlen
    simp only [List.length_append, List.length_cons] at this ⊢
    omega
  rw [e3, ← e2] at hloc
  rw [← e2] at hd
  obtain ⟨es'', k1, k2⟩ := H.list _ _ hlen' hloc hd
  rw [e1, k1] at hl
  cases hl
  refine ⟨?_, k1, k2, hloc⟩
  intro x hx
  rcases List.mem_append.1 hx with hx | hx
  · exact h.names x hx
  · simp only [List.mem_singleton] at hx; subst hx; exact hw

/-! ### With the files in use -/

/-- The tree without the files in use is what the filter makes of the whole. -/
structure Unhid (env : Env) (keep : Bytes → Entry → Bool) (dir : Bytes) (es : List Entry)
    (g f : Forest) : Prop where
  mirror : Mirror env dir es f
  readable : f.readable keep dir
  prune : f.prune keep dir = g.prune noLink dir
  names : f.names = g.names
  proper : g.proper → f.proper

theorem Unhid.skip {exe out : Bytes} (H : WShowsBut win w env used) (A : WArchivable win w env p l)
    (hu : ∀ l ∈ used, ∃ ro c, w.fs l = some (.file ro c)) {ns : List Bytes} {es0 : List Entry}
    (h : WAt win w env p l ns es0)
    (hsp : ∀ e ∈ es0, WinName win e.name → e.ty ≠ .dir →
      l ++ ns.map win.same ++ [win.same e.name] ∈ used → e.name = exe ∨ e.name = out)
    {g : Forest} {es : List Entry} : ∀ pre : List Entry, (∀ e ∈ pre, e ∈ es0) →
    (∀ e ∈ pre, ¬ unused win w.cwd used (p ++ slashed ns) e = true) →
    (∃ f, Unhid env (winPackable exe out) (p ++ slashed ns) es g f) →
    ∃ f, Unhid env (winPackable exe out) (p ++ slashed ns) (pre ++ es) g f := by
  intro pre
  induction pre with
  | nil => intro _ _ h; exact h
  | cons e pre ih =>
    intro hm hun hx
    obtain ⟨f, F⟩ := ih (fun a ha => hm a (List.mem_cons_of_mem _ ha))
      (fun a ha => hun a (List.mem_cons_of_mem _ ha)) hx
    have he := hm e List.mem_cons_self
    have hue := hun e List.mem_cons_self
    obtain ⟨name, ty⟩ := e
    by_cases hdot : name = [46] ∨ name = [46, 46]
    · exact ⟨f, .dot hdot F.mirror, F.readable, F.prune, F.names, F.proper⟩
    · simp only [not_or] at hdot
      have hw := h.named he hdot
      have hloc := h.at hw
      simp only [unused, hloc, decide_eq_true_eq, Classical.not_not] at hue
      obtain ⟨ro, c, hf⟩ := hu _ hue
      have hty : ty = .file := by
        rcases h.lists.real _ he with h | h | ⟨_, ⟨_, h⟩ | ⟨n, h, h'⟩⟩
        · exact absurd h hdot.1
        · exact absurd h hdot.2
        · rw [hf] at h; cases h
        · rw [hf] at h; cases h; exact h'
      subst hty
      have hnm := hsp _ he hw (by simp) hue
      have hlen := A.short ns es0 _ h.names h.list he hw
      have hlen' : (p ++ slashed ns).length + 1 + name.length ≤ 240 := hlen
      refine ⟨.bad name f, .bad ⟨hdot, ?_, by omega, by decide⟩ (.inl ?_) F.mirror, ⟨?_, F.readable⟩,
        F.prune, F.names, F.proper⟩
      · simp only [pathOf, List.length_append, List.length_cons] at hlen' ⊢; omega
      · exact H.shut _ _ (by simp only [pathOf, List.length_append, List.length_cons] at hlen' ⊢; omega) hloc hue
      · rcases hnm with rfl | rfl <;> simp [winPackable, packable]

theorem unhide {exe out : Bytes} (H : WShowsBut win w env used) (A : WArchivable win w env p l)
    (hu : ∀ l ∈ used, ∃ ro c, w.fs l = some (.file ro c))
    (hsp : ∀ ns es, WAt win w env p l ns es → ∀ e ∈ es, WinName win e.name → e.ty ≠ .dir →
      (l ++ ns.map win.same ++ [win.same e.name] ∈ used ↔ e.name = exe ∨ e.name = out))
    {dir : Bytes} {es1 : List Entry} {g : Forest} (hm : Mirror (env.hide win w.cwd used) dir es1 g) :
    ∀ (ns : List Bytes) (es0 es : List Entry), dir = p ++ slashed ns → WAt win w env p l ns es0 →
      (∀ e ∈ es, e ∈ es0) → es.filter (unused win w.cwd used dir) = es1 → g.pure →
      ∃ f, Unhid env (winPackable exe out) dir es g f := by
  have kept : ∀ {ns : List Bytes} {es0 : List Entry} (_ : WAt win w env p l ns es0) {e : Entry} (_ : e ∈ es0)
      (_ : WinName win e.name) (_ : e.ty ≠ .dir) (_ : unused win w.cwd used (p ++ slashed ns) e = true),
      e.name ≠ exe ∧ e.name ≠ out := by
    intro ns es0 h e he hw hty hun
    have hloc := h.at hw
    simp only [unused, hloc, decide_eq_true_eq] at hun
    rw [← not_or]
    exact fun hx => hun ((hsp ns es0 h e he hw hty).2 hx)
  induction hm with
  | nil =>
    intro ns es0 es hdir h hsub hfil _
    subst hdir
    rw [List.filter_eq_nil_iff] at hfil
    have := Unhid.skip (exe := exe) (out := out) H A hu h
      (fun e he hw hty hx => (hsp ns es0 h e he hw hty).1 hx) (g := .nil) (es := []) es hsub hfil
      ⟨.nil, .nil, trivial, rfl, rfl, id⟩
    rwa [List.append_nil] at this
  | dot hd _ ih =>
    intro ns es0 es hdir h hsub hfil hp
    rw [List.filter_eq_cons_iff] at hfil
    obtain ⟨pre, post, rfl, f1, f2, f3⟩ := hfil
    obtain ⟨f, F⟩ := ih ns es0 post hdir h (fun e he => hsub e (by simp [he])) f3 hp
    subst hdir
    exact Unhid.skip H A hu h (fun e he hw hty hx => (hsp ns es0 h e he hw hty).1 hx) pre
      (fun e he => hsub e (by simp [he])) f1
      ⟨f, .dot hd F.mirror, F.readable, F.prune, F.names, F.proper⟩
  | file h1 h2 h3 _ ih =>
    intro ns es0 es hdir h hsub hfil hp
    rw [List.filter_eq_cons_iff] at hfil
    obtain ⟨pre, post, rfl, f1, f2, f3⟩ := hfil
    obtain ⟨f, F⟩ := ih ns es0 post hdir h (fun e he => hsub e (by simp [he])) f3 hp
    subst hdir
    have he := hsub _ (List.mem_append_right pre List.mem_cons_self)
    have hk := kept h he (h.named he h1.notDot) (by simp) f2
    simp only at hk
    refine Unhid.skip H A hu h (fun e he hw hty hx => (hsp ns es0 h e he hw hty).1 hx) pre
      (fun e he => hsub e (by simp [he])) f1
      ⟨.file _ _ _ f, .file h1 h2 h3 F.mirror, F.readable, ?_, ?_, ?_⟩
    · simp [Forest.prune, F.prune, winPackable, packable, noLink, hk]
    · simp [Forest.names, F.names]
    · exact fun ⟨a, b, c⟩ => ⟨a, by rw [F.names]; exact b, F.proper c⟩
  | bad => intro _ _ _ _ _ _ _ hp; cases hp
  | link h1 h2 h3 h4 _ ih =>
    intro ns es0 es hdir h hsub hfil hp
    rw [List.filter_eq_cons_iff] at hfil
    obtain ⟨pre, post, rfl, f1, f2, f3⟩ := hfil
    obtain ⟨f, F⟩ := ih ns es0 post hdir h (fun e he => hsub e (by simp [he])) f3 hp
    subst hdir
    refine Unhid.skip H A hu h (fun e he hw hty hx => (hsp ns es0 h e he hw hty).1 hx) pre
      (fun e he => hsub e (by simp [he])) f1
      ⟨.link _ _ _ f, .link h1 h2 h3 h4 F.mirror, F.readable, ?_, ?_, ?_⟩
    · simp [Forest.prune, F.prune, winPackable, noLink]
    · simp [Forest.names, F.names]
    · exact fun ⟨a, b, c, d, e⟩ => ⟨a, by rw [F.names]; exact b, c, d, F.proper e⟩
  | dir h1 h2 h3 _ _ ihs ih =>
    intro ns es0 es hdir h hsub hfil hp
    rw [List.filter_eq_cons_iff] at hfil
    obtain ⟨pre, post, rfl, f1, f2, f3⟩ := hfil
    obtain ⟨f, F⟩ := ih ns es0 post hdir h (fun e he => hsub e (by simp [he])) f3 hp.2
    subst hdir
    have he := hsub _ (List.mem_append_right pre List.mem_cons_self)
    have hw := h.named he h1.notDot
    simp only [Env.hide, Option.map_eq_some_iff] at h3
    obtain ⟨es', k1, k2⟩ := h3
    have hc := h.child H A he rfl hw k1
    obtain ⟨s, S⟩ := ihs _ es' es' (by rw [slashed_snoc]; simp [pathOf]) hc (fun _ h => h) k2 hp.1
    refine Unhid.skip H A hu h (fun e he hw hty hx => (hsp ns es0 h e he hw hty).1 hx) pre
      (fun e he => hsub e (by simp [he])) f1
      ⟨.dir _ _ s f, .dir h1 h2 k1 S.mirror F.mirror, ⟨fun _ => S.readable, F.readable⟩, ?_, ?_, ?_⟩
    · simp [Forest.prune, F.prune, S.prune, winPackable, packable, noLink]
    · simp [Forest.names, F.names]
    · exact fun ⟨a, b, c, d⟩ => ⟨a, by rw [F.names]; exact b, S.proper c, F.proper d⟩
  | other => intro _ _ _ _ _ _ _ hp; cases hp

/-! ### One file of a name -/

theorem prefix_snoc_inj {α : Type} {a d : List α} {x y : α} (h1 : a ++ [x] <+: d) (h2 : a ++ [y] <+: d) :
    x = y := by
  obtain ⟨s, rfl⟩ := h1
  obtain ⟨t, h⟩ := h2
  simp only [List.append_assoc, List.append_cancel_left_eq, List.singleton_append, List.cons.injEq] at h
  exact h.1.symm

theorem named_sole {x : Bytes} {d : Loc} (H : WShowsBut win w env used) (A : WArchivable win w env p l)
    (hs : WSole win env p l x d) {dir : Bytes} {es : List Entry} {f : Forest} (hm : Mirror env dir es f) :
    ∀ (ns : List Bytes) (es0 : List Entry), dir = p ++ slashed ns → WAt win w env p l ns es0 →
      (∀ e ∈ es, e ∈ es0) → (es.map (·.name)).Nodup →
      f.named x ≤ 1 ∧ (0 < f.named x →
        (l ++ ns.map win.same = d ∧ ∃ e ∈ es, e.name = x) ∨
        ∃ e ∈ es, WinName win e.name ∧ l ++ ns.map win.same ++ [win.same e.name] <+: d) := by
  have one : ∀ {ns : List Bytes} {es0 es : List Entry} {n : Bytes} {ty : EType} {k : Nat}
      (_ : WAt win w env p l ns es0) (_ : ∀ e ∈ (⟨n, ty⟩ :: es : List Entry), e ∈ es0)
      (_ : ((⟨n, ty⟩ :: es : List Entry).map (·.name)).Nodup) (_ : n ≠ [46] ∧ n ≠ [46, 46])
      (_ : ty ≠ .dir)
      (_ : k ≤ 1 ∧ (0 < k → (l ++ ns.map win.same = d ∧ ∃ e ∈ es, e.name = x) ∨
        ∃ e ∈ es, WinName win e.name ∧ l ++ ns.map win.same ++ [win.same e.name] <+: d)),
      (if n = x then 1 else 0) + k ≤ 1 ∧ (0 < (if n = x then 1 else 0) + k →
        (l ++ ns.map win.same = d ∧ ∃ e ∈ (⟨n, ty⟩ :: es : List Entry), e.name = x) ∨
        ∃ e ∈ (⟨n, ty⟩ :: es : List Entry), WinName win e.name ∧
          l ++ ns.map win.same ++ [win.same e.name] <+: d) := by
    intro ns es0 es n ty k h hsub hnd hdot hty ⟨i1, i2⟩
    by_cases e : n = x
    · subst e
      have he := hsub _ List.mem_cons_self
      have hd := (hs ns es0 _ h.names h.list he (h.named he hdot) hty).1 rfl
      refine ⟨?_, fun _ => .inl ⟨hd, _, List.mem_cons_self, rfl⟩⟩
      simp only [if_true]
      have : k = 0 := by
        refine Nat.eq_zero_of_not_pos fun hk => ?_
        rcases i2 hk with ⟨_, e', he', hx⟩ | ⟨e', _, _, hx⟩
        · simp only [List.map_cons, List.nodup_cons] at hnd
          exact hnd.1 (List.mem_map.2 ⟨e', he', hx⟩)
        · have := hx.length_le
          rw [← hd] at this
          simp at this
          omega
      omega
    · simp only [e, if_false, Nat.zero_add]
      refine ⟨i1, fun hk => ?_⟩
      rcases i2 hk with ⟨a, e', he', hx⟩ | ⟨e', he', hx⟩
      · exact .inl ⟨a, e', List.mem_cons_of_mem _ he', hx⟩
      · exact .inr ⟨e', List.mem_cons_of_mem _ he', hx⟩
  induction hm with
  | nil => intro _ _ _ _ _ _; exact ⟨Nat.zero_le _, fun h => absurd h (by simp [Forest.named])⟩
  | dot hd _ ih =>
    intro ns es0 hdir h hsub hnd
    simp only [List.map_cons, List.nodup_cons] at hnd
    obtain ⟨i1, i2⟩ := ih ns es0 hdir h (fun e he => hsub e (List.mem_cons_of_mem _ he)) hnd.2
    refine ⟨i1, fun hk => ?_⟩
    rcases i2 hk with ⟨a, e', he', hx⟩ | ⟨e', he', hx⟩
    · exact .inl ⟨a, e', List.mem_cons_of_mem _ he', hx⟩
    · exact .inr ⟨e', List.mem_cons_of_mem _ he', hx⟩
  | file h1 _ _ _ ih =>
    intro ns es0 hdir h hsub hnd
    exact one h hsub hnd h1.notDot (by simp)
      (ih ns es0 hdir h (fun e he => hsub e (List.mem_cons_of_mem _ he)) (by
        simp only [List.map_cons, List.nodup_cons] at hnd; exact hnd.2))
  | bad h1 _ _ ih =>
    intro ns es0 hdir h hsub hnd
    exact one h hsub hnd h1.notDot (by simp)
      (ih ns es0 hdir h (fun e he => hsub e (List.mem_cons_of_mem _ he)) (by
        simp only [List.map_cons, List.nodup_cons] at hnd; exact hnd.2))
  | link h1 _ _ _ _ ih =>
    intro ns es0 hdir h hsub hnd
    exact one h hsub hnd h1.notDot (by simp)
      (ih ns es0 hdir h (fun e he => hsub e (List.mem_cons_of_mem _ he)) (by
        simp only [List.map_cons, List.nodup_cons] at hnd; exact hnd.2))
  | other h1 _ ih =>
    intro ns es0 hdir h hsub hnd
    exact one h hsub hnd h1.notDot (by simp)
      (ih ns es0 hdir h (fun e he => hsub e (List.mem_cons_of_mem _ he)) (by
        simp only [List.map_cons, List.nodup_cons] at hnd; exact hnd.2))
  | @dir dir name mode es es' sub f h1 h2 h3 _ _ ihs ih =>
    intro ns es0 hdir h hsub hnd
    subst hdir
    simp only [List.map_cons, List.nodup_cons] at hnd
    have he := hsub _ List.mem_cons_self
    have hw := h.named he h1.notDot
    have hc := h.child H A he rfl hw h3
    obtain ⟨j1, j2⟩ := ihs _ es' (by rw [slashed_snoc]; simp [pathOf]) hc (fun _ h => h) hc.lists.once
    obtain ⟨i1, i2⟩ := ih ns es0 rfl h (fun e he => hsub e (List.mem_cons_of_mem _ he)) hnd.2
    have e2 : l ++ (ns ++ [name]).map win.same = l ++ ns.map win.same ++ [win.same name] := by simp
    have hsub' : 0 < sub.named x → l ++ ns.map win.same ++ [win.same name] <+: d := by
      intro hk
      rcases j2 hk with ⟨a, _⟩ | ⟨_, _, _, a⟩
      · simp only [e2] at a
        rw [← a]; exact List.prefix_rfl
      · simp only [e2] at a
        exact (List.prefix_append _ _).trans a
    simp only [Forest.named]
    refine ⟨?_, fun hk => ?_⟩
    · by_cases hk : 0 < sub.named x
      · have : f.named x = 0 := by
          refine Nat.eq_zero_of_not_pos fun hf => ?_
          have hpre := hsub' hk
          rcases i2 hf with ⟨a, _⟩ | ⟨e', he', hw', a⟩
          · have := hpre.length_le
            rw [← a] at this
            simp at this
            omega
          · have hsame := prefix_snoc_inj hpre a
            have := h.lists.apart _ he _ (hsub _ (List.mem_cons_of_mem _ he')) hw hw' hsame
            exact hnd.1 (List.mem_map.2 ⟨e', he', this.symm⟩)
        omega
      · omega
    · by_cases hk' : 0 < sub.named x
      · exact .inr ⟨_, List.mem_cons_self, hw, hsub' hk'⟩
      · rcases i2 (by omega) with ⟨a, e', he', hx⟩ | ⟨e', he', hx⟩
        · exact .inl ⟨a, e', List.mem_cons_of_mem _ he', hx⟩
        · exact .inr ⟨e', List.mem_cons_of_mem _ he', hx⟩

end Zwt
