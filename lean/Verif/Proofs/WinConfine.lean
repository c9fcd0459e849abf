import Verif.Proofs.Win
import Verif.Proofs.Confine

/-! What the callbacks can change on Windows. -/

namespace Zwt

theorem lastIndexOf_ge (c : UInt8) (p : Bytes) : ∀ j, p[j]? = some c →
    ∃ i, lastIndexOf c p = some i ∧ j ≤ i := by
  induction p with
  | nil => intro j h; simp at h
  | cons a as ih =>
    intro j h
    cases j with
    | zero =>
      have h' : a = c := by simpa using h
      cases hl : lastIndexOf c as with
      | none => exact ⟨0, by simp [lastIndexOf, hl, h'], Nat.le_refl _⟩
      | some i => exact ⟨i + 1, by simp [lastIndexOf, hl], Nat.zero_le _⟩
    | succ j =>
      obtain ⟨i, h1, h2⟩ := ih j (by simpa using h)
      exact ⟨i + 1, by simp [lastIndexOf, h1], by omega⟩

/-! ### Paths passed to `CreateDirectoryA` -/

theorem take_prefix {out path : Bytes} {k : Nat} (h : out <+: path) (hk : out.length ≤ k) :
    out <+: path.take k := by
  obtain ⟨t, rfl⟩ := h
  rw [List.take_append, List.take_of_length_le hk]
  exact ⟨_, rfl⟩

theorem winRestore_inv (win : Win) (Q : WWorld → Prop) (path out : Bytes) (h0 : 0 ∉ path)
    (ho : out <+: path)
    (hQ : ∀ s w, PathCut path s → out <+: s → Q w → Q (winCreate win w s).2) (idxs : List Nat) :
    ∀ (mem : Bytes) (w : WWorld), MemOk path idxs mem → (∀ i ∈ idxs, out.length ≤ i) → Q w →
      Q (winRestore win idxs mem w).2 := by
  induction idxs with
  | nil => intro mem w _ _ h; exact h
  | cons i idxs ih =>
    intro mem w hm hi h
    have hs : out <+: cString (mem.set i 47) := by
      rw [hm.restore.cString h0]
      refine take_prefix ho ?_
      cases idxs with
      | nil => exact ho.length_le
      | cons a as => exact hi a (by simp)
    have h1 := hQ _ w (hm.restore.cut h0) hs h
    simp only [winRestore]
    generalize winCreate win w (cString (mem.set i 47)) = r at h1
    obtain ⟨r, w'⟩ := r
    simp only
    split
    · exact h1
    · exact ih _ _ hm.restore (fun j hj => hi j (List.mem_cons_of_mem _ hj)) h1

theorem winCut_inv (win : Win) (Q : WWorld → Prop) (path out rest : Bytes) (h0 : 0 ∉ path)
    (ho : path = out ++ 47 :: rest) (hstop : ∀ w, Q w → (winCreate win w out).1 ≠ 2)
    (hQ : ∀ s w, PathCut path s → out <+: s → Q w → Q (winCreate win w s).2) (n : Nat) :
    ∀ (idxs : List Nat) (mem : Bytes) (w : WWorld), MemOk path idxs mem →
      (∀ i ∈ idxs, out.length < i) → Q w → Q (winCut win n idxs mem w).2 := by
  have hp : out <+: path := ⟨_, ho.symm⟩
  induction n with
  | zero => intro idxs mem w _ _ h; exact h
  | succ n ih =>
    intro idxs mem w hm hi h
    simp only [winCut]
    have hhd : out.length < idxs.headD path.length := by
      cases idxs with
      | nil => simp [ho]
      | cons a as => exact hi a (by simp)
    have hsl : (cString mem)[out.length]? = some 47 := by
      rw [hm.cString h0, List.getElem?_take, if_pos hhd, ho]
      simp
    obtain ⟨i, h1, h2⟩ := lastIndexOf_ge 47 _ _ hsl
    have hd : fileDelimiter (cString mem) = some i := by simp [fileDelimiter, h1]
    rw [hd]
    have hpu := hm.push h0 (lastIndexOf_some h1)
    have hi' : ∀ j ∈ i :: idxs, out.length ≤ j := by
      intro j hj
      rcases List.mem_cons.mp hj with rfl | hj
      · exact h2
      · exact Nat.le_of_lt (hi j hj)
    have hcs : cString (mem.set i 0) = path.take i := by
      rw [hpu.cString h0]; rfl
    have hs : out <+: cString (mem.set i 0) := by
      rw [hcs]
      exact take_prefix hp h2
    have hq := hQ _ w (hpu.cut h0) hs h
    have hne : i = out.length → (winCreate win w (cString (mem.set i 0))).1 ≠ 2 := by
      intro e
      rw [hcs, e, ho, List.take_left' rfl]
      exact hstop w h
    simp only
    generalize hr : winCreate win w (cString (mem.set i 0)) = r at hq hne
    obtain ⟨r, w'⟩ := r
    simp only
    split
    · exact hq
    · split
      · split
        · exact winRestore_inv win Q path out h0 hp hQ _ _ _ hpu hi' hq
        · exact hq
      · rename_i n1 n2
        refine ih _ _ _ hpu ?_ hq
        intro j hj
        rcases List.mem_cons.mp hj with rfl | hj
        · refine Nat.lt_of_le_of_ne h2 ?_
          intro e
          refine hne e.symm ?_
          have hcases : (winCreate win w (cString (mem.set j 0))).1 = 0 ∨
              (winCreate win w (cString (mem.set j 0))).1 = 1 ∨
              (winCreate win w (cString (mem.set j 0))).1 = 2 ∨
              (winCreate win w (cString (mem.set j 0))).1 = -1 := by
            simp only [winCreate]
            split
            · simp
            · split
              · simp
              · split
                · simp
                · split <;> simp
          rw [hr] at hcases
          simp only at hcases ⊢
          omega
        · exact hi j hj

theorem winMkdir_inv (win : Win) (Q : WWorld → Prop) (path out rest : Bytes) (h0 : 0 ∉ path)
    (ho : path = out ++ 47 :: rest) (hT : ∀ w, Q w → Q w.tick)
    (hstop : ∀ w, Q w → (winCreate win w out).1 ≠ 2)
    (hQ : ∀ s w, PathCut path s → out <+: s → Q w → Q (winCreate win w s).2) (w : WWorld) (h : Q w) :
    Q (winMkdir win path w).2 := by
  simp only [winMkdir]
  split
  · exact hT w h
  · simp only [winMkdirRaw]
    have h1 := hQ path w.tick (.inl rfl) ⟨_, ho.symm⟩ (hT w h)
    generalize winCreate win w.tick path = r at h1
    obtain ⟨r, w'⟩ := r
    simp only
    split
    · exact h1
    · exact winCut_inv win Q path out rest h0 ho hstop hQ 62 [] path w' ⟨rfl, by simp, by simp, by simp⟩
        (by simp) h1

/-! ### Places -/

theorem winLocate_below (win : Win) (cwd : Loc) (out : Bytes) (b : Loc)
    (h : winLocate win cwd out = some b) (ns : List Bytes) (hn : ∀ n ∈ ns, OneName n) (l : Loc)
    (hl : winLocate win cwd (out ++ slashed ns) = some l) : b <+: l := by
  have hp : out ≠ [] := by intro e; simp [winLocate, e] at h
  have key : ∀ (ns : List Bytes) (p : Bytes), winSplit (p ++ slashed ns) =
      winSplit p ++ ns.flatMap winSplit := by
    intro ns
    induction ns with
    | nil => intro p; simp [slashed]
    | cons n ns ih =>
      intro p
      rw [slashed_cons, show p ++ (47 :: n ++ slashed ns) = (p ++ 47 :: n) ++ slashed ns by simp, ih,
        winSplit_append]
      simp
  have walk : ∀ (ns : List Bytes), (∀ n ∈ ns, OneName n) → ∀ cur l, winWalk win cur (ns.flatMap winSplit) =
      some l → cur <+: l := by
    intro ns
    induction ns with
    | nil => intro _ cur l h; cases h; exact ⟨[], by simp⟩
    | cons n ns ih =>
      intro hn cur l h
      obtain ⟨⟨h1, h2, h3, h4, _⟩, h5⟩ := hn n List.mem_cons_self
      rw [List.flatMap_cons, winSplit_plain n h4 h5, List.singleton_append, winWalk,
        if_neg (by simp [h1, h2]), if_neg h3] at h
      cases hk : win.key n with
      | none => rw [hk] at h; cases h
      | some k =>
        rw [hk] at h
        exact (List.prefix_append cur [k]).trans (ih (fun x hx => hn x (List.mem_cons_of_mem _ hx)) _ _ h)
  obtain ⟨a, as, rfl⟩ : ∃ a as, out = a :: as := by
    cases out with
    | nil => exact absurd rfl hp
    | cons a as => exact ⟨a, as, rfl⟩
  rw [winLocate, if_neg hp] at h
  rw [winLocate, if_neg (by simp), key, winWalk_append] at hl
  have : winBase cwd (a :: as ++ slashed ns) = winBase cwd (a :: as) := rfl
  rw [this, h, Option.bind_some] at hl
  exact walk ns hn _ _ hl

/-- Nothing has changed outside `b`, which exists. -/
structure WConf (w0 w : WWorld) (b : Loc) : Prop where
  out : ∀ x, ¬ b <+: x → w.fs x = w0.fs x
  cwd : w.cwd = w0.cwd
  here : w.fs b ≠ none

theorem WConf.tick {w0 w : WWorld} {b : Loc} (h : WConf w0 w b) : WConf w0 w.tick b :=
  ⟨h.out, h.cwd, h.here⟩

theorem WConf.put {w0 w : WWorld} {b l : Loc} (h : WConf w0 w b) (hl : b <+: l) (n : WNode) :
    WConf w0 (w.put l n) b := by
  refine ⟨?_, h.cwd, ?_⟩
  · intro x hx
    simp only [WWorld.put, WFS.put]
    rw [if_neg (by rintro rfl; exact hx hl)]
    exact h.out x hx
  · simp only [WWorld.put, WFS.put]
    split
    · simp
    · exact h.here

theorem WConf.create {win : Win} {w0 w : WWorld} {b : Loc} (h : WConf w0 w b) (s : Bytes)
    (hs : ∀ l, winLocate win w0.cwd s = some l → b <+: l) : WConf w0 (winCreate win w s).2 b := by
  simp only [winCreate]
  split
  · exact h.tick
  · rw [h.cwd]
    cases hl : winLocate win w0.cwd s with
    | none => exact h.tick
    | some l =>
      simp only
      split
      · exact h.tick
      · split
        · exact (h.put (hs l hl) _).tick
        · exact h.tick

/-- `out` leads to `b`. -/
structure WBase (win : Win) (w0 : WWorld) (out : Bytes) (b : Loc) : Prop where
  noNul : 0 ∉ out
  loc : winLocate win w0.cwd out = some b

theorem slashed_nul (ns : List Bytes) (h : ∀ x ∈ ns, OneName x) : 0 ∉ slashed ns := by
  intro hm
  simp only [slashed, List.mem_flatten, List.mem_map] at hm
  obtain ⟨_, ⟨x, hx, rfl⟩, hm⟩ := hm
  rcases List.mem_cons.mp hm with h' | h'
  · exact absurd h' (by decide)
  · exact (h x hx).1.2.2.2.2 h'

theorem WBase.nul {win : Win} {w0 : WWorld} {out : Bytes} {b : Loc} (B : WBase win w0 out b)
    (ns : List Bytes) (h : ∀ x ∈ ns, OneName x) : 0 ∉ out ++ slashed ns := by
  rw [List.mem_append, not_or]
  exact ⟨B.noNul, slashed_nul ns h⟩

theorem WBase.mkdirs {win : Win} {w0 w : WWorld} {out : Bytes} {b : Loc} (B : WBase win w0 out b)
    (h : WConf w0 w b) (n : Bytes) (ns : List Bytes) (hn : ∀ x ∈ n :: ns, OneName x) :
    WConf w0 (winMkdir win (out ++ slashed (n :: ns)) w).2 b := by
  refine winMkdir_inv win (fun w => WConf w0 w b) _ out (n ++ slashed ns) (B.nul _ hn)
    (by rw [slashed_cons]; simp) (fun w h => h.tick) ?_ ?_ w h
  · intro w h
    simp only [winCreate]
    split
    · simp
    · rw [h.cwd, B.loc]
      simp only
      cases hb : w.fs b with
      | none => exact absurd hb h.here
      | some x => simp
  · intro s w hc hp h
    obtain ⟨t, rfl⟩ := hp
    refine h.create _ ?_
    have hc' : ∃ ms, ms <+: n :: ns ∧ t = slashed ms := by
      rcases hc with hc | ⟨u, hu⟩
      · exact ⟨_, List.prefix_rfl, List.append_cancel_left hc⟩
      · rw [List.append_assoc] at hu
        exact slashed_cut (n :: ns) (fun x hx => (hn x hx).1.2.2.2.1) t u (List.append_cancel_left hu)
    obtain ⟨ms, hms, rfl⟩ := hc'
    intro l hl
    exact winLocate_below win _ out b B.loc ms (fun x hx => hn x (hms.subset hx)) l hl

theorem winOpen_conf {win : Win} {w0 w : WWorld} {b : Loc} (h : WConf w0 w b) (s : Bytes) (ro tr : Bool)
    (hs : ∀ l, winLocate win w0.cwd s = some l → b <+: l) :
    WConf w0 (winOpen win w s ro tr).2 b ∧ ∀ l, (winOpen win w s ro tr).1 = some l → b <+: l := by
  simp only [winOpen]
  split
  · exact ⟨h.tick, by simp⟩
  · rw [h.cwd]
    cases hl : winLocate win w0.cwd s with
    | none => exact ⟨h.tick, by simp⟩
    | some l =>
      have hb := hs l hl
      simp only
      split
      · split
        · exact ⟨h.tick, by simp⟩
        · split
          · exact ⟨(h.put hb _).tick, by simpa using hb⟩
          · exact ⟨h.tick, by simpa using hb⟩
      · exact ⟨h.tick, by simp⟩
      · split
        · exact ⟨(h.put hb _).tick, by simpa using hb⟩
        · exact ⟨h.tick, by simp⟩

theorem winWrite_conf {win : Win} {w0 w : WWorld} {b : Loc} (h : WConf w0 w b) (f : OpenFile) (d : Bytes)
    (hf : b <+: f.loc) :
    WConf w0 (winWrite win w f d).2 b ∧ (winWrite win w f d).1.loc = f.loc := by
  simp only [winWrite]
  split
  · exact ⟨h.tick, rfl⟩
  · split
    · exact ⟨(h.put hf _).tick, rfl⟩
    · exact ⟨h.tick, rfl⟩

/-! ### Confinement of the callbacks -/

/-- State between callbacks, inside the directories `q` below the output directory. -/
structure WInside (w0 : WWorld) (out : Bytes) (b : Loc) (h : HLW) (p : Proto) (q : List Bytes) :
    Prop where
  path : h.dirPath = some (out ++ slashed q)
  plain : ∀ x ∈ q, OneName x
  conf : WConf w0 h.w b
  fd : ∀ f, h.fd = .opened f → b <+: f.loc
  live : ∀ k, p = .inFile k → h.fd ≠ .closed

theorem win_inside {win : Win} {w0 : WWorld} {out : Bytes} {b : Loc} (B : WBase win w0 out b)
    (hmem : ∀ k, win.noMem k = false) (evs : List Ev) :
    ∀ (h : HLW) (p : Proto) (q : List Bytes), WInside w0 out b h p q → (p.run evs).isSome →
    (∀ a ∈ atoms evs, WinSafe a) → balance q.length (atoms evs) ≠ none →
    ∃ h', winEvents win out h evs = .ok h' ∧ WConf w0 h'.w b ∧ h'.ret = h.ret := by
  induction evs with
  | nil => intro h p q I _ _ _; exact ⟨h, rfl, I.conf, rfl⟩
  | cons e evs ih =>
    intro h p q I hp hs hb
    simp only [Proto.run] at hp
    cases hst : p.step e with
    | none => rw [hst] at hp; simp at hp
    | some p' =>
      rw [hst] at hp
      simp only [Option.bind_some] at hp
      have hat : atoms (e :: evs) = e.atoms ++ atoms evs := by simp [atoms]
      rw [hat] at hs hb
      have hs1 : ∀ a ∈ e.atoms, WinSafe a := fun a ha => hs a (List.mem_append_left _ ha)
      have hs2 : ∀ a ∈ atoms evs, WinSafe a := fun a ha => hs a (List.mem_append_right _ ha)
      have hn : ∀ nm, OneName nm → ∀ x ∈ q ++ [nm], OneName x := by
        intro nm hnm x hx
        rcases List.mem_append.mp hx with h | h
        · exact I.plain x h
        · rw [List.mem_singleton.mp h]; exact hnm
      cases e with
      | flStart => cases p <;> simp [Proto.step] at hst
      | flRead _ => cases p <;> simp [Proto.step] at hst
      | drStart => cases p <;> simp [Proto.step] at hst
      | symLink t a =>
        have hp' : p' = .idle := by
          cases p with
          | idle => simp [Proto.step] at hst
          | inLink => simpa [Proto.step] using hst.symm
          | inFile left => cases left <;> simp [Proto.step] at hst
        obtain ⟨h', g1, g2, g3⟩ := ih h p' q ⟨I.path, I.plain, I.conf, I.fd, by simp [hp']⟩ hp hs2
          (by simpa [Ev.atoms, balance] using hb)
        exact ⟨h', g1, g2, g3⟩
      | fileRead ds =>
        cases p with
        | idle => simp [Proto.step] at hst
        | inLink => simp [Proto.step] at hst
        | inFile left =>
          have hlive := I.live left rfl
          have hb' : balance q.length (atoms evs) ≠ none := by
            rw [show (Ev.fileRead ds).atoms = ds.map .byte from rfl, balance_bytes] at hb
            exact hb
          cases hfd : h.fd with
          | bad =>
            obtain ⟨h', g1, g2, g3⟩ := ih { h with w := h.w.tick } p' q
              ⟨I.path, I.plain, I.conf.tick, I.fd, fun _ _ => by simp [hfd]⟩ hp hs2 hb'
            refine ⟨h', ?_, g2, g3⟩
            simp only [winEvents, winEvent, winFileRead, hfd]
            rw [hfd] at g1
            exact g1
          | closed => exact absurd hfd hlive
          | opened f =>
            obtain ⟨c1, c2⟩ := winWrite_conf (win := win) I.conf f ds (I.fd f hfd)
            cases hw : winWrite win h.w f ds with
            | mk f' w' =>
              rw [hw] at c1 c2
              obtain ⟨h', g1, g2, g3⟩ := ih { h with w := w', fd := .opened f' } p' q
                ⟨I.path, I.plain, c1, by
                  intro f2 hf2; cases hf2
                  have c2' : f'.loc = f.loc := c2
                  rw [c2']; exact I.fd f hfd, fun _ _ => by simp⟩ hp hs2 hb'
              refine ⟨h', ?_, g2, g3⟩
              simp only [winEvents, winEvent, winFileRead, hfd, hw]
              exact g1
      | fileEnd =>
        cases p with
        | idle => simp [Proto.step] at hst
        | inLink => simp [Proto.step] at hst
        | inFile left =>
          have hlive := I.live left rfl
          have hp' : p' = .idle := by
            cases left with
            | zero => simpa [Proto.step] using hst.symm
            | succ k => simp [Proto.step] at hst
          have hb' : balance q.length (atoms evs) ≠ none := by
            simpa [Ev.atoms, balance] using hb
          cases hfd : h.fd with
          | bad =>
            obtain ⟨h', g1, g2, g3⟩ := ih { h with w := h.w.tick } p' q
              ⟨I.path, I.plain, I.conf.tick, I.fd, by simp [hp']⟩ hp hs2 hb'
            refine ⟨h', ?_, g2, g3⟩
            simp only [winEvents, winEvent, winFileEnd, hfd]
            rw [hfd] at g1
            exact g1
          | closed => exact absurd hfd hlive
          | opened f =>
            obtain ⟨h', g1, g2, g3⟩ := ih { h with w := h.w.tick, fd := .closed } p' q
              ⟨I.path, I.plain, I.conf.tick, by simp, by simp [hp']⟩ hp hs2 hb'
            refine ⟨h', ?_, g2, g3⟩
            simp only [winEvents, winEvent, winFileEnd, hfd]
            exact g1
      | dirEnd =>
        have hidle : p' = .idle := by
          cases p with
          | idle => simpa [Proto.step] using hst.symm
          | inLink => simp [Proto.step] at hst
          | inFile left => cases left <;> simp [Proto.step] at hst
        rcases List.eq_nil_or_concat q with rfl | ⟨q', x, rfl⟩
        · simp [Ev.atoms, balance] at hb
        · have hx := I.plain x (by simp)
          have hb' : balance q'.length (atoms evs) ≠ none := by
            simpa [Ev.atoms, balance] using hb
          have e1 : out ++ slashed (q'.concat x) = out ++ slashed q' ++ 47 :: x := by
            rw [List.concat_eq_append, slashed_snoc, List.append_assoc]
          obtain ⟨h', g1, g2, g3⟩ := ih { h with dirPath := some (out ++ slashed q') } p' q'
            ⟨rfl, fun y hy => I.plain y (by simp [hy]), I.conf, I.fd, by simp [hidle]⟩ hp hs2 hb'
          refine ⟨h', ?_, g2, g3⟩
          have hz := B.nul (q'.concat x) I.plain
          have hpth := I.path
          rw [e1] at hz hpth
          simp only [winEvents, winEvent, winDirEnd, hpth, cString_plain _ hz,
            lastIndexOf_append 47 _ x hx.1.2.2.2.1, List.take_left']
          exact g1
      | itemStart ft nm it =>
        have hidle : p = .idle := by
          cases p with
          | idle => rfl
          | inLink => simp [Proto.step] at hst
          | inFile left => cases left <;> simp [Proto.step] at hst
        subst hidle
        have hsafe := hs1 (.start ft nm it) (by simp [Ev.atoms])
        cases ft with
        | none => simp [Proto.step] at hst
        | symlink =>
          have hb' : balance q.length (atoms evs) ≠ none := by
            simpa [Ev.atoms, balance] using hb
          have hp' : p' = .inLink := by simpa [Proto.step] using hst.symm
          obtain ⟨h', g1, g2, g3⟩ := ih h p' q ⟨I.path, I.plain, I.conf, I.fd, by simp [hp']⟩ hp hs2 hb'
          exact ⟨h', g1, g2, g3⟩
        | file =>
          obtain ⟨hle, hpl⟩ := hsafe
          have hb' : balance q.length (atoms evs) ≠ none := by
            simpa [Ev.atoms, balance] using hb
          have hms := hn _ hpl
          have e1 : out ++ slashed q ++ 47 :: nm.take (itNameLen it) =
              out ++ slashed (q ++ [nm.take (itNameLen it)]) := by
            rw [slashed_snoc, List.append_assoc out]
          have hz := B.nul _ hms
          obtain ⟨c1, c2⟩ := winOpen_conf (win := win) I.conf
            (out ++ slashed (q ++ [nm.take (itNameLen it)])) (winReadOnly (itMode it)) false
            (winLocate_below win _ out b B.loc _ hms)
          cases ho : winOpen win h.w (out ++ slashed (q ++ [nm.take (itNameLen it)]))
              (winReadOnly (itMode it)) false with
          | mk ol w' =>
            rw [ho] at c1 c2
            cases ol with
            | none =>
              obtain ⟨h', g1, g2, g3⟩ := ih { h with w := w', fd := .bad, hasError := true } p' q
                ⟨I.path, I.plain, c1, by simp, fun _ _ => by simp⟩ hp hs2 hb'
              refine ⟨h', ?_, g2, g3⟩
              simp only [winEvents, winEvent, winItemStart, winFileItem, winItemPath, if_pos hle, I.path,
                Option.getD_some, e1, cString_plain _ hz, ho]
              rw [I.path] at g1
              exact g1
            | some l =>
              obtain ⟨h', g1, g2, g3⟩ := ih { h with w := w', fd := .opened ⟨l, 0⟩ } p' q
                ⟨I.path, I.plain, c1, by
                  intro f hf; cases hf; exact c2 l rfl, fun _ _ => by simp⟩ hp hs2 hb'
              refine ⟨h', ?_, g2, g3⟩
              simp only [winEvents, winEvent, winItemStart, winFileItem, winItemPath, if_pos hle, I.path,
                Option.getD_some, e1, cString_plain _ hz, ho]
              rw [I.path] at g1
              exact g1
        | dir =>
          obtain ⟨hle, hpl⟩ := hsafe
          have hb' : balance (q ++ [nm.take (itNameLen it)]).length (atoms evs) ≠ none := by
            simpa [Ev.atoms, balance] using hb
          have hp' : p' = .idle := by simpa [Proto.step] using hst.symm
          have hms := hn _ hpl
          have e1 : out ++ slashed q ++ 47 :: nm.take (itNameLen it) =
              out ++ slashed (q ++ [nm.take (itNameLen it)]) := by
            rw [slashed_snoc, List.append_assoc out]
          have hz := B.nul _ hms
          obtain ⟨y, ys, hy⟩ : ∃ y ys, q ++ [nm.take (itNameLen it)] = y :: ys := by
            cases q with
            | nil => exact ⟨_, _, rfl⟩
            | cons y ys => exact ⟨_, _, rfl⟩
          have c1 := B.mkdirs I.conf.tick y ys (by rw [← hy]; exact hms)
          rw [← hy] at c1
          cases hm : winMkdir win (out ++ slashed (q ++ [nm.take (itNameLen it)])) h.w.tick with
          | mk r w' =>
            rw [hm] at c1
            obtain ⟨h', g1, g2, g3⟩ := ih
              { h with w := w', dirPath := some (out ++ slashed (q ++ [nm.take (itNameLen it)])),
                       hasError := h.hasError || r != 0 } p' (q ++ [nm.take (itNameLen it)])
              ⟨rfl, hms, c1, I.fd, by simp [hp']⟩ hp hs2 hb'
            refine ⟨h', ?_, g2, g3⟩
            simp only [winEvents, winEvent, winItemStart, winDirItem, hmem, Bool.false_eq_true, if_false,
              winItemPath, if_pos hle, I.path, Option.getD_some, e1, cString_plain _ hz, hm]
            exact g1

/-! ### Links make no difference -/

theorem LinkSfx.winSafe {a b : List Atom} (h : LinkSfx a b) (hb : ∀ x ∈ b, WinSafe x) :
    ∀ x ∈ a, WinSafe x := by
  induction h with
  | nil => exact hb
  | same x _ ih =>
    intro y hy
    rcases List.mem_cons.mp hy with rfl | hy
    · exact hb _ List.mem_cons_self
    · exact ih (fun z hz => hb z (List.mem_cons_of_mem _ hz)) y hy
  | link _ _ ih =>
    intro y hy
    rcases List.mem_cons.mp hy with rfl | hy
    · trivial
    · exact ih (fun z hz => hb z (List.mem_cons_of_mem _ hz)) y hy

theorem LinkSfx.balance {a b : List Atom} (h : LinkSfx a b) : ∀ d, balance d a = balance d b := by
  induction h with
  | nil => intro d; rfl
  | same x _ ih =>
    intro d
    cases x with
    | start ft nm it => cases ft <;> exact ih _
    | dirEnd =>
      cases d with
      | zero => rfl
      | succ d => exact ih d
    | byte b => exact ih d
    | fileEnd => exact ih d
    | link t => exact ih d
    | drStart => exact ih d
    | flStart => exact ih d
  | link _ _ ih => intro d; exact ih d

end Zwt
