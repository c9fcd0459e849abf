import Verif.Proofs.Win

/-! Creation of several directories on Windows. -/

namespace Zwt

theorem winLocate_extend (win : Win) (cwd : Loc) (ns : List Bytes) : ∀ (p : Bytes) (l : Loc),
    (∀ n ∈ ns, WinName win n) → winLocate win cwd p = some l →
    winLocate win cwd (extendPath p ns) = some (l ++ ns.map win.same) := by
  induction ns with
  | nil => intro p l _ h; simpa [extendPath] using h
  | cons n ns ih =>
    intro p l hn h
    rw [extendPath_cons, ih _ _ (fun x hx => hn x (List.mem_cons_of_mem _ hx))
      (winLocate_child win cwd p l n (hn n List.mem_cons_self) h)]
    simp

/-- A chain of new directories. -/
def winChain (fs : WFS) (l : Loc) : List Bytes → WFS
  | [] => fs
  | k :: ks => winChain (fs.put (l ++ [k]) .dir) (l ++ [k]) ks

theorem winChain_at (ks : List Bytes) : ∀ (fs : WFS) (l x : Loc),
    winChain fs l ks x = if l <+: x ∧ x ≠ l ∧ x <+: l ++ ks then some .dir else fs x := by
  induction ks with
  | nil =>
    intro fs l x
    rw [winChain, if_neg]
    rintro ⟨h1, h2, h3⟩
    rw [List.append_nil] at h3
    exact h2 (h3.eq_of_length (Nat.le_antisymm h3.length_le h1.length_le))
  | cons k ks ih =>
    intro fs l x
    rw [winChain, ih]
    by_cases hx : l ++ [k] = x
    · subst hx
      rw [if_neg (by simp), WFS.put, if_pos rfl, if_pos]
      exact ⟨⟨[k], rfl⟩, by simp, ⟨ks, by simp⟩⟩
    · have hput : (fs.put (l ++ [k]) .dir) x = fs x := by
        rw [WFS.put, if_neg (fun e => hx e.symm)]
      rw [hput]
      have : (l ++ [k] <+: x ∧ x ≠ l ++ [k] ∧ x <+: l ++ [k] ++ ks) ↔
          (l <+: x ∧ x ≠ l ∧ x <+: l ++ k :: ks) := by
        constructor
        · rintro ⟨h1, _, h3⟩
          refine ⟨(List.prefix_append l [k]).trans h1, ?_, by simpa using h3⟩
          rintro rfl
          have := h1.length_le
          simp at this
          omega
        · rintro ⟨⟨t, rfl⟩, h2, h3⟩
          cases t with
          | nil => simp at h2
          | cons a t =>
            obtain ⟨u, hu⟩ := h3
            rw [List.append_assoc] at hu
            have := List.append_cancel_left hu
            simp only [List.cons_append, List.cons.injEq] at this
            obtain ⟨rfl, rfl⟩ := this
            refine ⟨⟨t, by simp⟩, fun e => hx e.symm, ⟨u, by simp⟩⟩
      simp only [this]

theorem winRestore_good (win : Win) (hq : win.quiet) (ns : List Bytes) :
    ∀ (w : WWorld) (p : Bytes) (l : Loc), 0 ∉ p → winLocate win w.cwd p = some l →
    w.fs l = some .dir → (∀ n ∈ ns, WinName win n) → (∀ q, q ≠ [] → w.fs (l ++ q) = none) →
    ∃ w', winRestore win (cutIdx p ns) (p ++ cutTail ns) w = (0, w') ∧
      w'.fs = winChain w.fs l (ns.map win.same) ∧ w'.cwd = w.cwd := by
  induction ns with
  | nil => intro w p l _ _ _ _ _; exact ⟨w, rfl, rfl, rfl⟩
  | cons n ns ih =>
    intro w p l hp hl hd hn ha
    have hpn := hn n List.mem_cons_self
    have hl1 := winLocate_child win w.cwd p l n hpn hl
    have hnew := winCreate_new win hq w (p ++ 47 :: n) l (win.same n) hl1 hd (ha _ (by simp))
    have hmem : (p ++ cutTail (n :: ns)).set p.length 47 = (p ++ 47 :: n) ++ cutTail ns := by
      simp only [cutTail, List.cons_append]
      rw [set_at]; simp
    have hp' : 0 ∉ p ++ 47 :: n := by
      simp only [List.mem_append, List.mem_cons, not_or]
      exact ⟨hp, by decide, hpn.1.2.2.2.2⟩
    have hcs : cString ((p ++ cutTail (n :: ns)).set p.length 47) = p ++ 47 :: n := by
      rw [hmem, cString_cut _ _ hp']
    obtain ⟨w', g1, g2, g3⟩ := ih (w.put (l ++ [win.same n]) .dir).tick (p ++ 47 :: n)
      (l ++ [win.same n]) hp' hl1 (by simp [WWorld.tick, WWorld.put, WFS.put])
      (fun m hm => hn m (List.mem_cons_of_mem _ hm)) (by
        intro q hq'
        have : l ++ [win.same n] ++ q ≠ l ++ [win.same n] := by simp [hq']
        simp only [WWorld.tick, WWorld.put, WFS.put, if_neg this]
        rw [List.append_assoc]; exact ha _ (by simp))
    refine ⟨w', ?_, g2, g3⟩
    simp only [cutIdx, winRestore, hcs, hnew]
    rw [if_neg (by simp), hmem]
    exact g1

/-- With the parent missing, nothing is made. -/
theorem winCreate_below (win : Win) (hq : win.quiet) (w : WWorld) (p : Bytes) (l : Loc)
    (hl : winLocate win w.cwd p = some l) (ha : w.fs l = none) (hp : w.fs l.dropLast = none) :
    winCreate win w p = (2, w.tick) := by
  simp [winCreate, hq.1, hl, ha, winParent, hp]

theorem extendPath_zero_win (win : Win) (p : Bytes) (ns : List Bytes) (hp : 0 ∉ p)
    (hn : ∀ n ∈ ns, WinName win n) : 0 ∉ extendPath p ns :=
  extendPath_zero p ns hp fun n h => (hn n h).1

theorem winCut_good (win : Win) (hq : win.quiet) (p : Bytes) (h0 : 0 ∉ p) (d : Loc) (k : Bytes) (j : Nat) :
    ∀ (w : WWorld) (ms ns : List Bytes), ms.length = j + 1 → (ms ++ ns).length ≤ 61 →
    winLocate win w.cwd p = some (d ++ [k]) → w.fs d = some .dir → (∀ x ∈ ms ++ ns, WinName win x) →
    (∀ q, w.fs (d ++ [k] ++ q) = none) →
    ∃ w', winCut win (62 - ns.length) (cutIdx (extendPath p ms) ns) (extendPath p ms ++ cutTail ns) w =
        (0, w') ∧
      w'.fs = winChain w.fs d (k :: (ms ++ ns).map win.same) ∧ w'.cwd = w.cwd := by
  induction j with
  | zero =>
    intro w ms ns hk hlen hl hd hpl ha
    obtain ⟨m, rfl⟩ : ∃ m, ms = [m] := List.length_eq_one_iff.mp hk
    have hpm := hpl m (by simp)
    have hpath : extendPath p [m] = p ++ 47 :: m := rfl
    have h0' : 0 ∉ p ++ 47 :: m := by
      rw [← hpath]; exact extendPath_zero_win win _ _ h0 (by simpa using hpm)
    have hdel : fileDelimiter (cString (extendPath p [m] ++ cutTail ns)) = some p.length := by
      rw [hpath, cString_cut _ _ h0', fileDelimiter, lastIndexOf_append _ _ _ hpm.1.2.2.2.1]
    have hmem : (extendPath p [m] ++ cutTail ns).set p.length 0 = p ++ cutTail (m :: ns) := by
      rw [hpath]
      simp only [cutTail, List.cons_append]
      rw [List.append_assoc p (47 :: m), List.cons_append, set_at]
    have hnew := winCreate_new win hq w p d k hl hd (by simpa using ha [])
    obtain ⟨w', g1, g2, g3⟩ := winRestore_good win hq (m :: ns) (w.put (d ++ [k]) .dir).tick p (d ++ [k])
      h0 hl (by simp [WWorld.tick, WWorld.put, WFS.put]) (by simpa using hpl) (by
        intro q hq'
        have : d ++ [k] ++ q ≠ d ++ [k] := by simp [hq']
        simp only [WWorld.tick, WWorld.put, WFS.put, if_neg this]
        exact ha q)
    refine ⟨w', ?_, g2, g3⟩
    simp only [List.singleton_append, List.length_cons] at hlen
    obtain ⟨f, hfu⟩ : ∃ f, 62 - ns.length = f + 1 := ⟨61 - ns.length, by omega⟩
    rw [hfu, winCut, hdel]
    simp only [hmem]
    rw [cString_cut _ _ h0, hnew]
    simp only
    rw [if_neg (by decide), if_pos (.inl trivial), if_pos (by
      rw [List.length_cons, cutIdx_length]; omega)]
    exact g1
  | succ j ih =>
    intro w ms ns hk hlen hl hd hpl ha
    obtain ⟨ms', m, rfl⟩ : ∃ ms' m, ms = ms' ++ [m] := by
      rcases List.eq_nil_or_concat ms with h | ⟨a, b, h⟩
      · rw [h] at hk; simp at hk
      · exact ⟨a, b, by simpa using h⟩
    have hpm := hpl m (by simp)
    have hms' : ∀ x ∈ ms', WinName win x := fun x hx => hpl x (by simp [hx])
    have h0p : 0 ∉ extendPath p ms' := extendPath_zero_win win _ _ h0 hms'
    have hpath := extendPath_snoc p ms' m
    have h0' : 0 ∉ extendPath p ms' ++ 47 :: m := by
      rw [← hpath]
      exact extendPath_zero_win win _ _ h0 (fun x hx => hpl x (by
        simp only [List.mem_append] at hx ⊢; exact .inl hx))
    have hdel : fileDelimiter (cString (extendPath p (ms' ++ [m]) ++ cutTail ns)) =
        some (extendPath p ms').length := by
      rw [hpath, cString_cut _ _ h0', fileDelimiter, lastIndexOf_append _ _ _ hpm.1.2.2.2.1]
    have hmem : (extendPath p (ms' ++ [m]) ++ cutTail ns).set (extendPath p ms').length 0 =
        extendPath p ms' ++ cutTail (m :: ns) := by
      rw [hpath]
      simp only [cutTail, List.cons_append]
      rw [List.append_assoc _ (47 :: m), List.cons_append, set_at]
    have hms'len : ms'.length = j + 1 := by simpa using hk
    have hbelow : winCreate win w (extendPath p ms') = (2, w.tick) := by
      have hne : ms' ≠ [] := by rintro rfl; simp at hms'len
      refine winCreate_below win hq w _ _ (winLocate_extend win _ ms' p _ hms' hl) (ha _) ?_
      rw [List.dropLast_append_of_ne_nil (by simpa using hne)]
      exact ha _
    obtain ⟨w', g1, g2, g3⟩ := ih w.tick ms' (m :: ns) hms'len (by simpa using hlen) hl hd
      (by simpa using hpl) ha
    refine ⟨w', ?_, by rw [List.append_assoc]; exact g2, g3⟩
    simp only [List.length_append, List.length_cons, List.length_nil] at hlen hk
    obtain ⟨f, hfu⟩ : ∃ f, 62 - ns.length = f + 1 := ⟨61 - ns.length, by omega⟩
    have hfu2 : 62 - (m :: ns).length = f := by simp only [List.length_cons]; omega
    rw [hfu2] at g1
    have hidx : cutIdx (extendPath p ms') (m :: ns) =
        (extendPath p ms').length :: cutIdx (extendPath p (ms' ++ [m])) ns := by
      rw [cutIdx, hpath]
    rw [hidx] at g1
    rw [hfu, winCut, hdel]
    simp only [hmem]
    rw [cString_cut _ _ h0p, hbelow]
    simp only
    rw [if_neg (by decide), if_neg (by decide)]
    exact g1

/-- Recursive creation of missing directories. -/
theorem winMkdir_chain (win : Win) (hq : win.quiet) (w : WWorld) (p : Bytes) (h0 : 0 ∉ p) (d : Loc)
    (k : Bytes) (ns : List Bytes) (hl : winLocate win w.cwd p = some (d ++ [k]))
    (hd : w.fs d = some .dir) (hn : ∀ x ∈ ns, WinName win x) (ha : ∀ q, w.fs (d ++ [k] ++ q) = none)
    (hlen : ns.length ≤ 61) :
    ∃ w', winMkdir win (extendPath p ns) w = (0, w') ∧
      w'.fs = winChain w.fs d (k :: ns.map win.same) ∧ w'.cwd = w.cwd := by
  rw [winMkdir, if_neg (by simp [hq.2.2]), winMkdirRaw]
  by_cases hns : ns = []
  · subst hns
    have hnew := winCreate_new win hq w.tick p d k hl hd (by simpa [WWorld.tick] using ha [])
    rw [show extendPath p [] = p from rfl, hnew]
    exact ⟨_, rfl, rfl, rfl⟩
  · have hbelow : winCreate win w.tick (extendPath p ns) = (2, w.tick.tick) := by
      refine winCreate_below win hq w.tick _ _ (winLocate_extend win _ ns p _ hn hl) (ha _) ?_
      rw [List.dropLast_append_of_ne_nil (by simpa using hns)]
      exact ha _
    rw [hbelow]
    simp only
    rw [if_neg (by decide)]
    obtain ⟨j, hj⟩ : ∃ j, ns.length = j + 1 := by
      cases ns with
      | nil => exact absurd rfl hns
      | cons x xs => exact ⟨xs.length, rfl⟩
    have := winCut_good win hq p h0 d k j w.tick.tick ns [] hj (by simpa using hlen) hl hd
      (by simpa using hn) ha
    simpa [cutTail, cutIdx, WWorld.tick] using this

theorem extendPath_eq (ns : List Bytes) : ∀ p, extendPath p ns = p ++ (ns.map (47 :: ·)).flatten := by
  induction ns with
  | nil => intro p; simp [extendPath]
  | cons n ns ih => intro p; rw [extendPath_cons, ih]; simp

theorem fresh_win (win : Win) (hq : win.quiet) (w : WWorld) (out : Bytes) (top : Loc)
    (ns : List Bytes) (hw : WFresh win w out top ns) {f : Forest} (hf : f.winOk win) {evs rest : List Ev}
    (he : EvsOf f (evs ++ rest)) :
    ∃ h', winEvents win out (HLW.init w) (.drStart :: evs) = .ok h' ∧ h'.hasError = false ∧
      (rest = [] → h'.ret = CT_DIRECTORY ∧ h'.w.cwd = w.cwd ∧
        WLanded win w.fs h'.w.fs top (top ++ ns.map win.same) f) := by
  obtain ⟨p, hp, h0, hloc⟩ := hw.front
  have hp' : out = extendPath p ns := by rw [hp, extendPath_eq]
  obtain ⟨d, k, rfl⟩ : ∃ d k, top = d ++ [k] := ⟨_, _, (List.dropLast_concat_getLast hw.ne).symm⟩
  obtain ⟨w1, hm, hm1, hm2⟩ := winMkdir_chain win hq w p h0 d k ns hloc (by simpa using hw.parent)
    hw.names hw.absent hw.few
  rw [← hp'] at hm
  have hb : w1.fs = fun x => if d ++ [k] <+: x ∧ x <+: d ++ [k] ++ ns.map win.same then some .dir
      else w.fs x := by
    funext x
    rw [hm1, winChain_at]
    have : (d <+: x ∧ x ≠ d ∧ x <+: d ++ k :: ns.map win.same) ↔
        (d ++ [k] <+: x ∧ x <+: d ++ [k] ++ ns.map win.same) := by
      rw [List.append_assoc, List.singleton_append]
      constructor
      · rintro ⟨⟨t, rfl⟩, h2, u, hu⟩
        refine ⟨?_, u, hu⟩
        cases t with
        | nil => simp at h2
        | cons a t =>
          rw [List.append_assoc] at hu
          have := List.append_cancel_left hu
          simp only [List.cons_append, List.cons.injEq] at this
          exact ⟨t, by rw [this.1]; simp⟩
      · rintro ⟨h1, h2⟩
        refine ⟨(List.prefix_append d [k]).trans h1, ?_, h2⟩
        rintro rfl
        have := h1.length_le
        simp at this
        omega
    simp only [this]
  have hst : winEvent win out (HLW.init w) .drStart = .ok
      { HLW.init w with w := w1.tick, dirPath := some out, ret := CT_DIRECTORY } := by
    simp [winEvent, winDirStart, HLW.init, hm, hq.2.2]
  obtain ⟨h', g1, g2, g3⟩ := tree_win win hq out he
    { HLW.init w with w := w1.tick, dirPath := some out, ret := CT_DIRECTORY } out
      (d ++ [k] ++ ns.map win.same) hf
    ⟨rfl, by rw [hp']; exact extendPath_zero_win win _ _ h0 hw.names, by
      rw [hp']
      simp only [WWorld.tick, hm2]
      exact winLocate_extend win _ ns p _ hw.names hloc, by
      simp only [WWorld.tick, hb]
      rw [if_pos ⟨List.prefix_append _ _, List.prefix_refl _⟩]⟩
    (by
      intro x _ q
      simp only [WWorld.tick, hb]
      rw [if_neg (fun h => by
        have := h.2.length_le
        simp at this
        omega)]
      rw [List.append_assoc (d ++ [k])]
      exact hw.absent _)
  rw [winEvents_append] at g1
  rw [winEvents, hst]
  dsimp only
  cases hp : winEvents win out
      { HLW.init w with w := w1.tick, dirPath := some out, ret := CT_DIRECTORY } evs with
  | error e => rw [hp] at g1; cases g1
  | ok h1 =>
    rw [hp] at g1
    refine ⟨h1, rfl, ?_, ?_⟩
    · cases hh : h1.hasError with
      | false => rfl
      | true =>
        have a := winEvents_err win out rest h1 h' g1 hh
        have b : h'.hasError = false := g2.err
        rw [a] at b; cases b
    · rintro rfl
      cases g1
      refine ⟨g2.ret, g2.cwd.trans hm2, ?_, ?_, ?_⟩
      · intro l l1 l2
        rw [g3, Forest.winPlace_other]
        · simp only [WWorld.tick, hb]
          rw [if_pos ⟨l1, l2⟩]
        · rintro x hx rfl
          obtain ⟨a, _, q, hq'⟩ := f.winSpots_under win _ x hx
          rw [hq'] at l2
          have := l2.length_le
          simp at this
          omega
      · intro x hx
        rw [g3]
        exact f.winPlace_spots win _ _ hf x hx
      · intro l h1 h2
        rw [g3, Forest.winPlace_other _ _ _ _ _ h2]
        simp only [WWorld.tick, hb]
        rw [if_neg h1]

end Zwt
