import Verif.Proofs.WinWalk

/-! A directory of a Windows drive, seen as a tree. -/

namespace Zwt

theorem WFS.tree.below_aux {fs : WFS} (ht : fs.tree) : ∀ (q : Loc) (l : Loc), q ≠ [] →
    fs (l ++ q) ≠ none → fs l = some .dir := by
  intro q
  induction q with
  | nil => intro l h; exact absurd rfl h
  | cons x q ih =>
    intro l _ h
    have e : l ++ x :: q = l ++ [x] ++ q := by simp
    rw [e] at h
    have : fs (l ++ [x]) ≠ none := by
      by_cases hq : q = []
      · subst hq; simpa using h
      · rw [ih (l ++ [x]) hq h]; simp
    cases hx : fs (l ++ [x]) with
    | none => exact absurd hx this
    | some n => exact ht _ _ _ hx

theorem WFS.tree.below {fs : WFS} (ht : fs.tree) {l : Loc} (h : fs l ≠ some .dir) {q : Loc}
    (hq : q ≠ []) : fs (l ++ q) = none := by
  cases hx : fs (l ++ q) with
  | none => rfl
  | some n => exact absurd (ht.below_aux q l hq (by rw [hx]; simp)) h

/-- The tree has what the directory at `l` has under the names of `es`. -/
structure WMatches (win : Win) (fs : WFS) (l : Loc) (f : Forest) (es : List Entry) : Prop where
  proper : f.proper
  pure : f.pure
  winOk : f.winOk win
  names : ∀ x ∈ f.names, ∃ e ∈ es, e.name = x
  wnames : ∀ k ∈ f.winNames win, ∃ e ∈ es, WinName win e.name ∧ win.same e.name = k
  sound : ∀ p, ∀ s ∈ f.winSpots win p, ∃ k q, s.1 = p ++ k :: q ∧ fs (l ++ k :: q) = some s.2
  complete : ∀ p e q node, e ∈ es → WinName win e.name → fs (l ++ win.same e.name :: q) = some node →
    (p ++ win.same e.name :: q, node) ∈ f.winSpots win p

theorem winMode_bit (ro : Bool) : ((0o100000 ||| if ro then 0o444 else 0o666) &&& 0o200 == 0) = ro := by
  cases ro <;> decide

/-- The entries of a directory, given that its subdirectories are trees. -/
theorem wmirror_list {win : Win} {w : WWorld} {env : Env} (ht : w.fs.tree) (H : WShows win w env)
    (hlk : ∀ p, env.lstat p = (0, 1) ∧ env.readlink p = some [120])
    {P : Bytes} {l : Loc} (hP : winLocate win w.cwd P = some l)
    (hfiles : ∀ q ro c, w.fs (l ++ q) = some (.file ro c) → c.length < 2 ^ 31)
    (IH : ∀ x, WinName win x → P.length + 1 + x.length ≤ 240 → w.fs (l ++ [win.same x]) = some .dir →
      ∃ es f, env.list (pathOf P x) = some es ∧ Mirror env (pathOf P x) es f ∧
        WLists win w.fs (l ++ [win.same x]) es ∧ WMatches win w.fs (l ++ [win.same x]) f es) :
    ∀ es : List Entry, (es.map (·.name)).Nodup →
      (∀ e ∈ es, ∀ e' ∈ es, WinName win e.name → WinName win e'.name →
        win.same e.name = win.same e'.name → e.name = e'.name) →
      (∀ e ∈ es, WinName win e.name → P.length + 1 + e.name.length ≤ 240) →
      (∀ e ∈ es, e.name = [46] ∨ e.name = [46, 46] ∨ WinName win e.name ∧
        ((e.ty = .symlink ∧ w.fs (l ++ [win.same e.name]) = none) ∨
          ∃ n, w.fs (l ++ [win.same e.name]) = some n ∧ e.ty = n.type)) →
      ∃ f, Mirror env P es f ∧ WMatches win w.fs l f es := by
  intro es
  induction es with
  | nil =>
    intro _ _ _ _
    refine ⟨.nil, .nil, trivial, trivial, trivial, ?_, ?_, ?_, ?_⟩ <;>
      simp [Forest.names, Forest.winNames, Forest.winSpots]
  | cons e es ih =>
    intro hnd hap hsh hreal
    simp only [List.map_cons, List.nodup_cons] at hnd
    obtain ⟨f, hm, M⟩ := ih hnd.2
      (fun a ha b hb => hap a (List.mem_cons_of_mem _ ha) b (List.mem_cons_of_mem _ hb))
      (fun a ha => hsh a (List.mem_cons_of_mem _ ha)) (fun a ha => hreal a (List.mem_cons_of_mem _ ha))
    obtain ⟨name, ty⟩ := e
    have hnames : ∀ x ∈ f.names, ∃ e ∈ (⟨name, ty⟩ :: es : List Entry), e.name = x := by
      intro x hx
      obtain ⟨e, he, hx⟩ := M.names x hx
      exact ⟨e, List.mem_cons_of_mem _ he, hx⟩
    have hwnames : ∀ k ∈ f.winNames win, ∃ e ∈ (⟨name, ty⟩ :: es : List Entry), WinName win e.name ∧
        win.same e.name = k := by
      intro x hx
      obtain ⟨e, he, hx⟩ := M.wnames x hx
      exact ⟨e, List.mem_cons_of_mem _ he, hx⟩
    by_cases hdot : name = [46] ∨ name = [46, 46]
    · refine ⟨f, .dot hdot hm, M.proper, M.pure, M.winOk, hnames, hwnames, M.sound, ?_⟩
      intro p e q node he hn hf
      rcases List.mem_cons.mp he with rfl | he
      · exfalso
        rcases hdot with h | h
        · exact hn.1.2.1 h
        · exact hn.1.2.2.1 h
      · exact M.complete p e q node he hn hf
    · simp only [not_or] at hdot
      have hr := hreal ⟨name, ty⟩ List.mem_cons_self
      simp only [hdot.1, hdot.2, false_or] at hr
      obtain ⟨hwn, hr⟩ := hr
      have hlen := hsh ⟨name, ty⟩ List.mem_cons_self hwn
      simp only at hlen
      have hloc := winLocate_child win w.cwd P l name hwn hP
      have hplen : (P ++ 47 :: name).length ≤ 240 := by
        simp only [List.length_append, List.length_cons]; omega
      have hnin : name ∉ f.names := by
        intro hx
        obtain ⟨e, he, hx⟩ := M.names _ hx
        exact hnd.1 (List.mem_map.mpr ⟨e, he, hx⟩)
      have hnin' : win.same name ∉ f.winNames win := by
        intro hx
        obtain ⟨e, he, hn, hx⟩ := M.wnames _ hx
        have := hap e (List.mem_cons_of_mem _ he) ⟨name, ty⟩ List.mem_cons_self hn hwn hx
        exact hnd.1 (List.mem_map.mpr ⟨e, he, this⟩)
      have fits : ∀ mode, mode < 2 ^ 32 → FitsName P name mode := fun mode hmode =>
        ⟨hdot, by simp only [pathOf]; omega, by omega, hmode⟩
      have hself : ∃ e ∈ (⟨name, ty⟩ :: es : List Entry), WinName win e.name ∧
          win.same e.name = win.same name := ⟨_, List.mem_cons_self, hwn, rfl⟩
      rcases hr with ⟨hty, hnone⟩ | ⟨node, hnode, hty⟩
      · have hty' : ty = .symlink := hty
        subst hty'
        refine ⟨.link name 0 [120] f, .link (fits 0 (by decide)) (by decide) (hlk _).1 (hlk _).2 hm,
          ⟨hwn.1, hnin, by decide, by decide, M.proper⟩, M.pure, M.winOk, ?_, hwnames, M.sound, ?_⟩
        · intro x hx
          rcases List.mem_cons.mp hx with rfl | hx
          · exact ⟨_, List.mem_cons_self, rfl⟩
          · exact hnames x hx
        · intro p e q node he hn hf
          rcases List.mem_cons.mp he with rfl | he
          · exfalso
            simp only at hf
            by_cases hq : q = []
            · subst hq; rw [hnone] at hf; cases hf
            · have := ht.below (l := l ++ [win.same name]) (by rw [hnone]; simp) hq
              rw [List.append_assoc, List.singleton_append, hf] at this
              cases this
          · exact M.complete p e q node he hn hf
      · cases node with
        | dir =>
          have hty' : ty = .dir := hty
          subst hty'
          obtain ⟨es', sub, s1, s2, s3, S⟩ := IH name hwn hlen hnode
          have hst := H.stat _ _ hplen hloc hnode
          refine ⟨.dir name (env.statMode (P ++ 47 :: name)) sub f, .dir (fits _ hst) rfl s1 s2 hm,
            ⟨hwn.1, hnin, S.proper, M.proper⟩, ⟨S.pure, M.pure⟩, ⟨hwn, hnin', S.winOk, M.winOk⟩, ?_, ?_, ?_, ?_⟩
          · intro x hx
            rcases List.mem_cons.mp hx with rfl | hx
            · exact ⟨_, List.mem_cons_self, rfl⟩
            · exact hnames x hx
          · intro x hx
            rcases List.mem_cons.mp hx with rfl | hx
            · exact hself
            · exact hwnames x hx
          · intro p s hs
            rcases List.mem_cons.mp hs with rfl | hs
            · exact ⟨_, [], rfl, hnode⟩
            · rcases List.mem_append.mp hs with hs | hs
              · obtain ⟨k, q, a, b⟩ := S.sound _ s hs
                exact ⟨win.same name, k :: q, by rw [a]; simp, by rw [← b]; simp⟩
              · exact M.sound p s hs
          · intro p e q node he hn hf
            rcases List.mem_cons.mp he with rfl | he
            · simp only at hf ⊢
              cases q with
              | nil =>
                rw [hnode] at hf; cases hf
                exact List.mem_cons_self
              | cons k q =>
                refine List.mem_cons_of_mem _ (List.mem_append_left _ ?_)
                have e1 : l ++ win.same name :: k :: q = l ++ [win.same name] ++ k :: q := by simp
                rw [e1] at hf
                have hk : w.fs (l ++ [win.same name] ++ [k]) ≠ none := by
                  by_cases hq : q = []
                  · subst hq; rw [hf]; simp
                  · have := ht.below_aux q (l ++ [win.same name] ++ [k]) hq (by
                      rw [List.append_assoc, List.singleton_append, hf]; simp)
                    rw [this]; simp
                cases hx : w.fs (l ++ [win.same name] ++ [k]) with
                | none => exact absurd hx hk
                | some nd =>
                  obtain ⟨e', he', hn', rfl⟩ := s3.all k nd hx
                  have := S.complete (p ++ [win.same name]) e' q node he' hn' hf
                  simpa using this
            · exact List.mem_cons_of_mem _ (List.mem_append_right _ (M.complete p e q node he hn hf))
        | file ro c =>
          have hty' : ty = .file := hty
          subst hty'
          have hc := hfiles [win.same name] ro c hnode
          have hop := H.open' _ _ _ _ hplen hloc hnode hc
          refine ⟨.file name (0o100000 ||| if ro then 0o444 else 0o666) c f,
            .file (fits _ (by cases ro <;> decide)) (by omega) hop hm,
            ⟨hwn.1, hnin, M.proper⟩, M.pure, ⟨hwn, hnin', M.winOk⟩, ?_, ?_, ?_, ?_⟩
          · intro x hx
            rcases List.mem_cons.mp hx with rfl | hx
            · exact ⟨_, List.mem_cons_self, rfl⟩
            · exact hnames x hx
          · intro x hx
            rcases List.mem_cons.mp hx with rfl | hx
            · exact hself
            · exact hwnames x hx
          · intro p s hs
            rcases List.mem_cons.mp hs with rfl | hs
            · exact ⟨_, [], rfl, by rw [winMode_bit]; exact hnode⟩
            · exact M.sound p s hs
          · intro p e q node he hn hf
            rcases List.mem_cons.mp he with rfl | he
            · simp only at hf ⊢
              by_cases hq : q = []
              · subst hq
                rw [hnode] at hf; cases hf
                rw [Forest.winSpots, winMode_bit]
                exact List.mem_cons_self
              · exfalso
                have := ht.below (l := l ++ [win.same name]) (by rw [hnode]; simp) hq
                rw [List.append_assoc, List.singleton_append, hf] at this
                cases this
            · exact List.mem_cons_of_mem _ (M.complete p e q node he hn hf)

theorem wmirror_dir {win : Win} {w : WWorld} {env : Env} {p : Bytes} {l : Loc} (ht : w.fs.tree)
    (H : WShows win w env) (A : WArchivable win w env p l)
    (hlk : ∀ p, env.lstat p = (0, 1) ∧ env.readlink p = some [120]) : ∀ (k : Nat) (ns : List Bytes),
    240 ≤ k + (p ++ slashed ns).length → (p ++ slashed ns).length ≤ 240 →
    (∀ x ∈ ns, WinName win x) → w.fs (l ++ ns.map win.same) = some .dir →
    winLocate win w.cwd (p ++ slashed ns) = some (l ++ ns.map win.same) →
    ∃ es f, env.list (p ++ slashed ns) = some es ∧ Mirror env (p ++ slashed ns) es f ∧
      WLists win w.fs (l ++ ns.map win.same) es ∧ WMatches win w.fs (l ++ ns.map win.same) f es := by
  intro k
  induction k with
  | zero =>
    intro ns hk hle hn hd hloc
    obtain ⟨es, h1, h2⟩ := H.list _ _ hle hloc hd
    obtain ⟨f, h3, h4⟩ := wmirror_list ht H hlk hloc
      (fun q ro c h => A.files (ns.map win.same ++ q) ro c (by rw [← List.append_assoc]; exact h))
      (fun x _ hx _ => by omega) es h2.once h2.apart (fun e he hw => A.short ns es e hn h1 he hw) h2.real
    exact ⟨es, f, h1, h3, h2, h4⟩
  | succ k ih =>
    intro ns hk hle hn hd hloc
    obtain ⟨es, h1, h2⟩ := H.list _ _ hle hloc hd
    obtain ⟨f, h3, h4⟩ := wmirror_list ht H hlk hloc
      (fun q ro c h => A.files (ns.map win.same ++ q) ro c (by rw [← List.append_assoc]; exact h))
      (fun x hx hlx hdx => by
        have e : pathOf (p ++ slashed ns) x = p ++ slashed (ns ++ [x]) := by
          rw [slashed_snoc]; simp [pathOf]
        have e2 : l ++ ns.map win.same ++ [win.same x] = l ++ (ns ++ [x]).map win.same := by simp
        have hlen : (p ++ slashed (ns ++ [x])).length = (p ++ slashed ns).length + 1 + x.length := by
          rw [← e]; simp only [pathOf, List.length_append, List.length_cons]; omega
        rw [e, e2]
        refine ih (ns ++ [x]) (by omega) (by omega) ?_ (by rw [← e2]; exact hdx) ?_
        · intro y hy
          rcases List.mem_append.mp hy with hy | hy
          · exact hn y hy
          · simp only [List.mem_singleton] at hy; subst hy; exact hx
        · rw [← e, ← e2]
          exact winLocate_child win w.cwd _ _ x hx hloc) es h2.once h2.apart
      (fun e he hw => A.short ns es e hn h1 he hw) h2.real
    exact ⟨es, f, h1, h3, h2, h4⟩

/-- The directory as a tree: the same files and directories, at the same places. -/
theorem WArchivable.mirror {win : Win} {w : WWorld} {env : Env} {p : Bytes} {l : Loc} (ht : w.fs.tree)
    (H : WShows win w env) (A : WArchivable win w env p l)
    (hlk : ∀ p, env.lstat p = (0, 1) ∧ env.readlink p = some [120]) :
    ∃ es f, env.list p = some es ∧ Mirror env p es f ∧ f.proper ∧ f.pure ∧ f.winOk win ∧
      (∀ b, ∀ s ∈ f.winSpots win b, ∃ q, q ≠ [] ∧ s.1 = b ++ q) ∧
      ∀ b q node, q ≠ [] → ((b ++ q, node) ∈ f.winSpots win b ↔ w.fs (l ++ q) = some node) := by
  obtain ⟨es, f, h1, h2, h3, M⟩ := wmirror_dir ht H A hlk 240 [] (by omega)
    (by simpa [slashed] using A.top) (by simp) (by simpa using A.isDir)
    (by simpa [slashed] using A.leads)
  simp only [slashed, List.map_nil, List.flatten_nil, List.append_nil] at h1 h2 h3 M
  refine ⟨es, f, h1, h2, M.proper, M.pure, M.winOk, fun b s hs => ?_, fun b q node hq => ⟨fun h => ?_, fun h => ?_⟩⟩
  · obtain ⟨k, q, a, _⟩ := M.sound b s hs
    exact ⟨k :: q, by simp, a⟩
  · obtain ⟨k, q', a, c⟩ := M.sound b _ h
    simp only [List.append_cancel_left_eq] at a
    rw [a]; exact c
  · cases q with
    | nil => exact absurd rfl hq
    | cons k q =>
      have hk : w.fs (l ++ [k]) ≠ none := by
        by_cases hq : q = []
        · subst hq; rw [h]; simp
        · have := ht.below_aux q (l ++ [k]) hq (by
            rw [List.append_assoc, List.singleton_append, h]; simp)
          rw [this]; simp
      cases hx : w.fs (l ++ [k]) with
      | none => exact absurd hx hk
      | some nd =>
        obtain ⟨e', he', hn', rfl⟩ := h3.all k nd hx
        exact M.complete b e' q node he' hn' h

/-! ### Without links -/

/-- Everything but links. -/
def noLink : Bytes → Entry → Bool := fun _ e => decide (e.ty ≠ .symlink)

theorem noLink_file (d n : Bytes) : noLink d ⟨n, .file⟩ = true := rfl
theorem noLink_dir (d n : Bytes) : noLink d ⟨n, .dir⟩ = true := rfl
theorem noLink_link (d n : Bytes) : noLink d ⟨n, .symlink⟩ = false := rfl

theorem Forest.prune_noLink (win : Win) (f : Forest) : ∀ d : Bytes,
    (∀ p, (f.prune noLink d).winSpots win p = f.winSpots win p) ∧
    (f.prune noLink d).winNames win = f.winNames win ∧
    (f.winOk win → (f.prune noLink d).winOk win) ∧
    ((f.prune noLink d) = .nil → ∀ p, f.winSpots win p = []) := by
  induction f with
  | nil => intro d; exact ⟨fun _ => rfl, rfl, id, fun _ _ => rfl⟩
  | file n m c r ih =>
    intro d
    obtain ⟨a1, a2, a3, a4⟩ := ih d
    rw [prune, if_pos (noLink_file d n)]
    simp only [winSpots, winNames, winOk, a1, a2]
    exact ⟨by simp, by simp, fun h => ⟨h.1, h.2.1, a3 h.2.2⟩, fun h => nomatch h⟩
  | link n m t r ih =>
    intro d
    rw [prune, if_neg (by rw [noLink_link]; decide)]
    exact ih d
  | dir n m s r ihs ih =>
    intro d
    obtain ⟨a1, a2, a3, a4⟩ := ih d
    obtain ⟨b1, b2, b3, b4⟩ := ihs (pathOf d n)
    rw [prune, if_pos (noLink_dir d n)]
    simp only [winSpots, winNames, winOk, a1, a2, b1]
    exact ⟨by simp, by simp, fun h => ⟨h.1, h.2.1, b3 h.2.2.1, a3 h.2.2.2⟩, fun h => nomatch h⟩
  | other n r ih => exact ih
  | bad n r ih => exact ih

/-- Accepting everything, on Windows, is accepting everything but links. -/
theorem noLinks_all : Filter.noLinks (keepFilter fun _ _ => true) = keepFilter noLink := by
  funext s d e
  simp only [Filter.noLinks, keepFilter, noLink]
  by_cases h : e.ty = .symlink <;> simp [h]

/-- The environment with arbitrary links. -/
def Env.anyLinks (env : Env) : Env :=
  { env with lstat := fun _ => (0, 1), readlink := fun _ => some [120] }

/-- The tree landed is a copy of the directory. -/
theorem WLanded.copy {win : Win} {src : WFS} {l : Loc} {w : WWorld} {fs' : WFS} {out : Bytes} {top : Loc}
    {ns : List Bytes} {f : Forest} (hw : WFresh win w out top ns)
    (h : WLanded win w.fs fs' top (top ++ ns.map win.same) f)
    (hs : ∀ b, ∀ s ∈ f.winSpots win b, ∃ q, q ≠ [] ∧ s.1 = b ++ q)
    (hx : ∀ b q node, q ≠ [] → ((b ++ q, node) ∈ f.winSpots win b ↔ src (l ++ q) = some node)) :
    WCopyOf src l w.fs fs' top (top ++ ns.map win.same) := by
  obtain ⟨h1, h2, h3⟩ := h
  refine ⟨h1, fun q hq => ?_, fun l' a b => h3 l' a fun x hx' => ?_⟩
  · cases hn : src (l ++ q) with
    | some node => exact h2 _ ((hx _ q node hq).mpr hn)
    | none =>
      have := h3 (top ++ ns.map win.same ++ q) (fun hp => by
        have := hp.2.length_le
        have : q.length ≠ 0 := fun h => hq (List.length_eq_zero_iff.mp h)
        simp only [List.length_append] at *
        omega) (fun x hx' he => by
          obtain ⟨p, node⟩ := x
          simp only at he
          subst he
          rw [(hx _ q node hq).mp hx'] at hn
          cases hn)
      rw [this, List.append_assoc]
      exact hw.absent _
  · obtain ⟨q, hq, e⟩ := hs _ x hx'
    rw [e]
    exact b q hq

end Zwt
