import Verif.Proofs.ConfineLink
import Verif.Proofs.HLEnd
import Verif.Spec.Lossy

/-! Extraction of a tree while calls fail. -/

namespace Zwt

/-- Directories of one mode were added, from `d/n` down to `l`. -/
def DirsAdded (fs fs' : FS) (r l : Loc) (m : Nat) : Prop :=
  ∀ x, fs' x = fs x ∨ (fs x = none ∧ fs' x = some (.dir m) ∧ r <+: x ∧ x <+: l)

theorem Base.mkdirs_added {os : Os} {w0 w : World} {pre : Bytes} {d : Loc} {n : Bytes}
    (B : Base os w0 pre d n) {L : List (List Bytes)} (h : ConfL w0 w pre (d ++ [n]) L) (ns : List Bytes)
    (hns : ∀ x ∈ ns, PlainName x) (hcl : Clear L ns) (mode : Nat) :
    ConfL w0 (mkdirRecurse os mode (pre ++ n ++ slashed ns) w).2 pre (d ++ [n]) L ∧
    DirsAdded w.fs (mkdirRecurse os mode (pre ++ n ++ slashed ns) w).2.fs (d ++ [n]) (d ++ n :: ns)
      (dirMode os mode) := by
  refine mkdirRecurse_inv os mode (fun w' => ConfL w0 w' pre (d ++ [n]) L ∧
    DirsAdded w.fs w'.fs (d ++ [n]) (d ++ n :: ns) (dirMode os mode)) _ ?_ ?_
    (fun _ h => ⟨h.1.tick, h.2⟩) ?_ w ⟨h, fun x => .inl rfl⟩
  · have h0 := B.front.1
    simp only [List.mem_append, not_or]
    refine ⟨⟨h0, B.name.2.2.2.2⟩, ?_⟩
    intro hm
    simp only [slashed, List.mem_flatten, List.mem_map] at hm
    obtain ⟨_, ⟨x, hx, rfl⟩, hm⟩ := hm
    rcases List.mem_cons.mp hm with h | h
    · exact absurd h (by decide)
    · exact (hns x hx).2.2.2.2 h
  · intro s hs h47; exact B.backslash ns hns s hs h47
  · intro s w1 hs h1
    refine ⟨B.createL h1.1 ns hns hcl s mode hs, ?_⟩
    have hm : DirsAdded w.fs (sysMkdir os w1 s mode).2.fs (d ++ [n]) (d ++ n :: ns)
        (dirMode os mode) := by
      simp only [sysMkdir]
      split
      · exact h1.2
      · split
        · exact h1.2
        · rename_i l hl
          split
          · exact h1.2
          · rename_i hnone
            simp only [addNode]
            split
            · exact h1.2
            · rename_i w' hw'
              split at hw'
              · cases hw'
                rcases cut_cases pre n ns B.name.2.2.2.1 (fun x hx => (hns x hx).2.2.2.1) s hs with
                  ⟨t, ht⟩ | ⟨ns', hp, rfl⟩
                · exact absurd hnone (B.partL h1.1 s t ht l hl)
                · have hin : l = d ++ n :: ns' := by
                    have := B.locateL h1.1 ns' (fun x hx => hns x (hp.subset hx)) (hcl.prefix hp)
                      false l hl
                    simpa using this
                  subst hin
                  intro x
                  show (w1.fs.put _ _) x = _ ∨ _ ∧ (w1.fs.put _ _) x = _ ∧ _
                  rw [FS.put]
                  split
                  · rename_i he
                    subst he
                    rcases h1.2 (d ++ n :: ns') with h2 | h2
                    · right
                      refine ⟨by rw [← h2]; exact hnone, rfl, ⟨ns', by simp⟩, ?_⟩
                      obtain ⟨t, rfl⟩ := hp
                      exact ⟨t, by simp⟩
                    · rw [h2.2.1] at hnone; cases hnone
                  · exact h1.2 x
              · simp at hw'
    rcases osCreate_world os w1 s mode with h2 | h2 <;> rw [h2]
    · exact hm
    · exact hm

/-- Opening a file that is not there. -/
theorem Base.open_any {os : Os} {w0 w w' : World} {pre : Bytes} {d : Loc} {n : Bytes}
    (B : Base os w0 pre d n) {L : List (List Bytes)} (h : ConfL w0 w pre (d ++ [n]) L) (ns : List Bytes)
    (hns : ∀ x ∈ ns, PlainName x) (hcl : Clear L ns) (ha : w.fs (d ++ n :: ns) = none) (mode : Nat) (ol : Option Loc)
    (ho : sysOpen os w (pre ++ n ++ slashed ns) mode false = (ol, w')) :
    w'.cwd = w.cwd ∧ ((ol = none ∧ w'.fs = w.fs) ∨ (ol = some (d ++ n :: ns) ∧
      w'.fs = w.fs.put (d ++ n :: ns) (.file (mode &&& os.allow) []))) := by
  simp only [sysOpen] at ho
  split at ho
  · cases ho; exact ⟨rfl, .inl ⟨rfl, rfl⟩⟩
  · split at ho
    · cases ho; exact ⟨rfl, .inl ⟨rfl, rfl⟩⟩
    · rename_i l hl
      have hin : l = d ++ n :: ns := by
        have := B.locateL h ns hns hcl true l hl
        simpa using this
      subst hin
      rw [ha] at ho
      simp only at ho
      split at ho
      · cases ho; exact ⟨rfl, .inl ⟨rfl, rfl⟩⟩
      · simp only [addNode] at ho
        split at ho
        · cases ho; exact ⟨rfl, .inl ⟨rfl, rfl⟩⟩
        · rename_i w2 hw2
          cases ho
          split at hw2
          · cases hw2; exact ⟨rfl, .inr ⟨rfl, rfl⟩⟩
          · simp at hw2

/-- Writing the pieces of a file. -/
theorem reads_any (os : Os) (out : Bytes) (l : Loc) (m : Nat) (ds : List Bytes) :
    ∀ (h : HL) (c : Bytes), h.w.fs l = some (.file m c) → h.fd = .opened ⟨l, c.length⟩ →
    ∃ h' e, e.Sublist ds.flatten ∧ hlEvents os out h (ds.map .fileRead) = .ok h' ∧
      h' = { h with w := h'.w, fd := .opened ⟨l, (c ++ e).length⟩ } ∧
      h'.w.cwd = h.w.cwd ∧ h'.w.fs = h.w.fs.put l (.file m (c ++ e)) := by
  induction ds with
  | nil =>
    intro h c hc hfd
    refine ⟨h, [], List.nil_sublist _, rfl, ?_, rfl, ?_⟩
    · simp [← hfd]
    · funext x
      simp only [FS.put, List.append_nil]
      split
      · rename_i hx; rw [hx, hc]
      · rfl
  | cons d ds ih =>
    intro h c hc hfd
    obtain ⟨e1, w1, a1, a2, a3, a4⟩ := write_any os h.w l m c d hc
    obtain ⟨h', e, g0, g1, g2, g3, g4⟩ := ih
      { h with w := w1, fd := .opened ⟨l, (c ++ e1).length⟩ }
      (c ++ e1) (by show w1.fs l = _; rw [a4]; simp [FS.put]) rfl
    refine ⟨h', e1 ++ e, ?_, ?_, ?_, ?_, ?_⟩
    · rw [List.flatten_cons]; exact a1.sublist.append g0
    · simp only [List.map_cons, hlEvents, hlEvent, hlFileRead, hfd, a2]
      exact g1
    · rw [g2]; simp
    · rw [g3]; exact a3
    · rw [g4]
      show (w1.fs.put _ _) = _
      rw [a4, FS.put_put, List.append_assoc]

/-- The pieces of a file that could not be opened. -/
theorem reads_bad (os : Os) (out : Bytes) (ds : List Bytes) :
    ∀ (h : HL), h.fd = .bad →
    ∃ h', hlEvents os out h (ds.map .fileRead) = .ok h' ∧ h' = { h with w := h'.w } ∧
      h'.w.cwd = h.w.cwd ∧ h'.w.fs = h.w.fs := by
  induction ds with
  | nil => intro h _; exact ⟨h, rfl, rfl, rfl, rfl⟩
  | cons d ds ih =>
    intro h hfd
    obtain ⟨h', g1, g2, g3, g4⟩ := ih { h with w := h.w.tick } hfd
    refine ⟨h', ?_, ?_, ?_, ?_⟩
    · simp only [List.map_cons, hlEvents, hlEvent, hlFileRead, hfd]
      rw [hfd] at g1
      exact g1
    · exact g2
    · rw [g3]; rfl
    · rw [g4]; rfl

/-! ### The tree -/

/-- What the callbacks for the entries of the tree `f` of the directory `l` (below `r`) do. -/
structure Lossy (os : Os) (r l : Loc) (f : Forest) (fs fs' : FS) : Prop where
  /-- Elsewhere only directories on the way are added, with modes of the tree. -/
  other : ∀ x, (∀ n ∈ f.names, ∀ p, x ≠ l ++ n :: p) →
    fs' x = fs x ∨ (fs x = none ∧ r <+: x ∧ x <+: l ∧
      ∃ m, fs' x = some (.dir m) ∧ ∃ p, p ≠ [] ∧ f.lookup os p = some (.dir m))
  /-- The entries. -/
  kept : ∀ n ∈ f.names, ∀ p, f.remains os (n :: p) (fs' (l ++ n :: p))

theorem Forest.remains.mono {os : Os} {f g : Forest} {p p' : List Bytes}
    (h : ∀ q, g.lookup os (p' ++ q) = f.lookup os (p ++ q)) {a : Option Node}
    (hr : f.remains os p a) : g.remains os p' a := by
  have h0 := h []
  simp only [List.append_nil] at h0
  cases a with
  | none => trivial
  | some a =>
    cases a with
    | file m c => exact (by simpa only [Forest.remains, h0] using hr)
    | dir m => exact (by simpa only [Forest.remains, h0, h] using hr)
    | link t => exact (by simpa only [Forest.remains, h0] using hr)

theorem Base.nul {os : Os} {w0 : World} {pre : Bytes} {d : Loc} {n : Bytes}
    (B : Base os w0 pre d n) (ms : List Bytes) (hms : ∀ x ∈ ms, PlainName x) :
    0 ∉ pre ++ n ++ slashed ms := by
  simp only [List.mem_append, not_or]
  refine ⟨⟨B.front.1, B.name.2.2.2.2⟩, ?_⟩
  intro hm
  simp only [slashed, List.mem_flatten, List.mem_map] at hm
  obtain ⟨_, ⟨x, hx, rfl⟩, hm⟩ := hm
  rcases List.mem_cons.mp hm with h | h
  · exact absurd h (by decide)
  · exact (hms x hx).2.2.2.2 h

theorem plain_snoc {q : List Bytes} {x : Bytes} (hq : ∀ y ∈ q, PlainName y) (hx : PlainName x) :
    ∀ y ∈ q ++ [x], PlainName y := by
  intro y hy
  rcases List.mem_append.mp hy with h | h
  · exact hq y h
  · rw [List.mem_singleton.mp h]; exact hx

/-- A file entry. -/
theorem file_entry_any {os : Os} {w0 : World} {pre : Bytes} {d : Loc} {n : Bytes}
    (B : Base os w0 pre d n) (out : Bytes) (name nm item : Bytes) (ds : List Bytes)
    (h1 : itNameLen item ≤ nm.length) (h2 : nm.take (itNameLen item) = name) (hn : PlainName name)
    (h : HL) (q : List Bytes) (hpth : h.dirPath = some (pre ++ n ++ slashed q))
    (hq : ∀ x ∈ q, PlainName x) {L : List (List Bytes)} (hc : ConfL w0 h.w pre (d ++ [n]) L)
    (hcl : Clear L (q ++ [name])) (ha : h.w.fs (d ++ n :: q ++ [name]) = none) (tail : List Ev) :
    ∃ h', hlEvents os out h (.itemStart .file nm item :: (ds.map .fileRead ++ .fileEnd :: tail)) =
        hlEvents os out h' tail ∧ h'.dirPath = h.dirPath ∧ h'.ret = h.ret ∧
      ConfL w0 h'.w pre (d ++ [n]) L ∧ (h'.w.fs = h.w.fs ∨ ∃ e, e.Sublist ds.flatten ∧
        h'.w.fs = h.w.fs.put (d ++ n :: q ++ [name]) (.file (fileMode os (itMode item)) e)) := by
  have hms := plain_snoc hq hn
  have e1 : pre ++ n ++ slashed q ++ 47 :: nm.take (itNameLen item) =
      pre ++ n ++ slashed (q ++ [name]) := by
    rw [slashed_snoc, List.append_assoc (pre ++ n), h2]
  have e2 : d ++ n :: q ++ [name] = d ++ n :: (q ++ [name]) := by simp
  rw [e2] at ha ⊢
  have hz := B.nul _ hms
  have hstart : ∀ ol w', sysOpen os h.w (pre ++ n ++ slashed (q ++ [name])) (modeFo (itMode item)) false
      = (ol, w') → hlEvent os out h (.itemStart .file nm item) =
        .ok (match ol with
          | none => { h with w := w', name := some nm, fd := .bad, hasError := true }
          | some l => { h with w := w', name := some nm, fd := .opened ⟨l, 0⟩ }) := by
    intro ol w' ho
    simp only [hlEvent, hlItemStart, hlFileItem, itemPath, if_pos h1, hpth,
      Option.getD_some, e1, cString_plain _ hz, ho]
    cases ol <;> rfl
  cases ho : sysOpen os h.w (pre ++ n ++ slashed (q ++ [name])) (modeFo (itMode item)) false with
  | mk ol w' =>
  have hst := hstart ol w' ho
  obtain ⟨o1, ⟨rfl, o2⟩ | ⟨rfl, o2⟩⟩ := B.open_any hc _ hms hcl ha _ ol ho
  · obtain ⟨h', g1, g2, g3, g4⟩ := reads_bad os out ds
      { h with w := w', name := some nm, fd := .bad, hasError := true } rfl
    have hfd : h'.fd = .bad := by rw [g2]
    have hfs : h'.w.fs = h.w.fs := by rw [g4]; exact o2
    refine ⟨{ h' with w := h'.w.tick }, ?_, by rw [g2], by rw [g2], ?_, .inl hfs⟩
    · rw [hlEvents, hst]
      simp only
      rw [hlEvents_append, g1]
      simp only [hlEvents, hlEvent, hlFileEnd, hfd]
    · have hcw : pre.head? = some 47 ∨ h'.w.cwd = w0.cwd := by rw [g3, o1]; exact hc.cwd
      exact ⟨by intro x hx; show h'.w.fs x = _; rw [hfs]; exact hc.out x hx,
        by show ∀ q t, h'.w.fs _ = _ → _; rw [hfs]; exact hc.links, hcw,
        by show Keeps _ h'.w.fs; rw [hfs]; exact hc.keeps⟩
  · obtain ⟨h', e, g0, g1, g2, g3, g4⟩ := reads_any os out (d ++ n :: (q ++ [name]))
      (modeFo (itMode item) &&& os.allow) ds
      { h with w := w', name := some nm, fd := .opened ⟨d ++ n :: (q ++ [name]), 0⟩ } []
      (by show w'.fs _ = _; rw [o2, FS.put_same]) rfl
    rw [List.nil_append] at g2 g4
    have hfd : h'.fd = .opened ⟨d ++ n :: (q ++ [name]), e.length⟩ := by rw [g2]
    have hfs : h'.w.fs = h.w.fs.put (d ++ n :: (q ++ [name]))
        (.file (modeFo (itMode item) &&& os.allow) e) := by
      rw [g4]; show (w'.fs.put _ _) = _; rw [o2, FS.put_put]
    have hcf : ConfL w0 (h.w.put (d ++ n :: (q ++ [name]))
        (.file (modeFo (itMode item) &&& os.allow) e)) pre (d ++ [n]) L :=
      hc.put ⟨q ++ [name], by simp⟩ _ (by simp) (Keeps.put ha _)
    refine ⟨{ h' with w := h'.w.tick, fd := .closed }, ?_, by rw [g2], by rw [g2], ?_,
      .inr ⟨e, g0, hfs⟩⟩
    · rw [hlEvents, hst]
      simp only
      rw [hlEvents_append, g1]
      simp only [hlEvents, hlEvent, hlFileEnd, hfd]
    · have hcw : pre.head? = some 47 ∨ h'.w.cwd = w0.cwd := by
        rw [g3]; show _ ∨ w'.cwd = _; rw [o1]; exact hc.cwd
      exact ⟨by intro x hx; show h'.w.fs x = _; rw [hfs]; exact hcf.out x hx,
        by show ∀ q t, h'.w.fs _ = _ → _; rw [hfs]; exact hcf.links, hcw,
        by show Keeps _ h'.w.fs; rw [hfs]; exact hcf.keeps⟩

/-- A link is made, or nothing happens, apart from the working directory. -/
theorem symlink_any {os : Os} {w0 : World} {pre : Bytes} {d : Loc} {n : Bytes}
    (B : Base os w0 pre d n) {L : List (List Bytes)} {h : HL} {q : List Bytes} {nm x : Bytes}
    (hc : ConfL w0 h.w pre (d ++ [n]) L) (hq : ∀ y ∈ q, PlainName y) (hcl : Clear L q)
    (hp : h.dirPath = some (pre ++ n ++ slashed q)) (hnm : h.name = some nm) (hx : cstr? nm = some x)
    (hpl : PlainName x) {t a tgt : Bytes} (ht : cstr? (t ++ a) = some tgt) :
    ∃ h', hlSymLink os h t a = .ok h' ∧ h'.dirPath = h.dirPath ∧ h'.ret = h.ret ∧
      (h'.w.fs = h.w.fs ∨ (h.w.fs (d ++ n :: q ++ [x]) = none ∧
        h'.w.fs = h.w.fs.put (d ++ n :: q ++ [x]) (.link tgt))) := by
  have hz := B.nul q hq
  simp only [hlSymLink, hp, hnm, hx, ht, cString_plain _ hz]
  have hg : (sysGetcwd os h.w CWD_SIZE).2 = h.w.tick := by
    simp only [sysGetcwd]
    split
    · rfl
    · split <;> rfl
  cases hgc : sysGetcwd os h.w CWD_SIZE with
  | mk o w1 =>
    rw [hgc] at hg
    have hg : w1 = h.w.tick := hg
    subst hg
    cases o with
    | none => exact ⟨_, rfl, rfl, rfl, .inl rfl⟩
    | some old =>
      simp only
      cases hch : sysChdir os h.w.tick (pre ++ n ++ slashed q) with
      | mk b w2 =>
        have hf2 : w2.fs = h.w.fs := by
          have := sysChdir_fs os h.w.tick (pre ++ n ++ slashed q)
          rw [hch] at this
          exact this
        cases b with
        | false => exact ⟨_, rfl, rfl, rfl, .inl hf2⟩
        | true =>
          have hw2 : w2.cwd = d ++ n :: q := by
            simp only [sysChdir] at hch
            split at hch
            · simp at hch
            · split at hch
              · simp at hch
              · rename_i l hl
                have := B.locateL hc.tick q hq hcl true l hl
                split at hch
                · cases hch; simpa using this
                · simp at hch
          cases hs : sysSymlink os w2 tgt x with
          | mk b3 w3 =>
            cases hc4 : sysChdir os w3 old with
            | mk b4 w4 =>
              have hf4 : w4.fs = w3.fs := by
                have := sysChdir_fs os w3 old
                rw [hc4] at this
                exact this
              refine ⟨_, rfl, rfl, rfl, ?_⟩
              simp only [hs, hc4]
              rw [hf4, ← hf2]
              simp only [sysSymlink] at hs
              split at hs
              · cases hs; exact .inl rfl
              · split at hs
                · cases hs; exact .inl rfl
                · rename_i l hl
                  have hloc : l = d ++ n :: q ++ [x] := by
                    rw [Zwt.locate, if_neg hpl.1, splitPath_plain x hpl.2.2.2.1, pathBase,
                      if_neg hpl.head, hw2, resolve_cons] at hl
                    split at hl
                    · simp at hl
                    · rw [if_neg (by simp [hpl.1, hpl.2.1]), if_neg hpl.2.2.1] at hl
                      split at hl
                      · simpa using hl.symm
                      · simpa using hl.symm
                      · rw [resolve_nil] at hl; simpa using hl.symm
                  split at hs
                  · cases hs; exact .inl rfl
                  · rename_i hnone
                    simp only [addNode] at hs
                    split at hs
                    · cases hs; exact .inl rfl
                    · rename_i w5 hw5
                      split at hw5
                      · cases hw5
                        cases hs
                        right
                        rw [← hloc]
                        exact ⟨hnone, rfl⟩
                      · simp at hw5

theorem cstr?_head {t a : Bytes} (h : 0 ∉ t) (ha : a.head? = some 0) : cstr? (t ++ a) = some t := by
  cases a with
  | nil => simp at ha
  | cons b a =>
    have hb : b = 0 := by simpa using ha
    subst hb
    rw [cstr?, if_pos (by simp), List.takeWhile_append_of_pos (by
      intro x hx
      simp only [bne_iff_ne, ne_eq]
      rintro rfl
      exact h hx)]
    simp

theorem tree_any {os : Os} {w0 : World} {pre : Bytes} {d : Loc} {n : Bytes}
    (B : Base os w0 pre d n) (out : Bytes) (hmem : ∀ k, os.noMem k = false)
    {f : Forest} {evs : List Ev} (he : EvsOf f evs) :
    ∀ (h : HL) (q : List Bytes) (L : List (List Bytes)), f.proper →
    f.noLinks ∨ pre.head? = some 47 →
    h.dirPath = some (pre ++ n ++ slashed q) → (∀ x ∈ q, PlainName x) →
    ConfL w0 h.w pre (d ++ [n]) L → (∀ x ∈ f.names, ∀ p, Clear L (q ++ x :: p)) → (∀ x ∈ f.names, Absent h.w.fs (d ++ n :: q ++ [x])) →
    ∃ h' L', hlEvents os out h evs = .ok h' ∧ h'.dirPath = h.dirPath ∧ h'.ret = h.ret ∧
      ConfL w0 h'.w pre (d ++ [n]) L' ∧ (∀ l ∈ L', l ∈ L ∨ ∃ x ∈ f.names, ∃ p, l = q ++ x :: p) ∧
      Lossy os (d ++ [n]) (d ++ n :: q) f h.w.fs h'.w.fs := by
  induction he with
  | nil =>
    intro h q L _ _ _ _ hc _ _
    exact ⟨h, L, rfl, rfl, rfl, hc, fun _ hl => .inl hl, fun x _ => .inl rfl, fun n hn => by simp [Forest.names] at hn⟩
  | @link name nm item target after mode rest evs h1 h2 _ _ ih =>
    intro h q L hpr hnl hpth hq hc hcl hab
    obtain ⟨hn, hnr, _, ht0, hrp⟩ := hpr
    have habs : pre.head? = some 47 := by
      rcases hnl with hnl | hnl
      · exact hnl.elim
      · exact hnl
    obtain ⟨g, a1, a2, a3, a5⟩ := symlink_any (h := { h with name := some nm }) B hc hq
      ((hcl name List.mem_cons_self []).prefix (List.prefix_append _ _)) hpth rfl h1 hn
      (cstr?_head ht0 h2)
    have hsame : ∀ x, x ≠ d ++ n :: q ++ [name] → g.w.fs x = h.w.fs x := by
      intro x hx
      rcases a5 with a5 | ⟨_, a5⟩ <;> rw [a5]
      rw [FS.put, if_neg hx]
    have c1 : ConfL w0 { h.w with cwd := g.w.cwd } pre (d ++ [n]) ((q ++ [name]) :: L) :=
      ⟨hc.out, fun p t h => List.mem_cons_of_mem _ (hc.links p t h), .inl habs, hc.keeps⟩
    have a4 : ConfL w0 g.w pre (d ++ [n]) ((q ++ [name]) :: L) := by
      rcases a5 with a5 | ⟨a6, a5⟩
      · exact ⟨by rw [a5]; exact c1.out, by rw [a5]; exact c1.links, .inl habs,
          by rw [a5]; exact c1.keeps⟩
      · have c2 := c1.put (l := d ++ n :: q ++ [name]) ⟨q ++ [name], by simp⟩ (.link target) (by
          intro t' _ q' hq'
          have : q ++ [name] = q' := by simpa using hq'
          rw [← this]; exact List.mem_cons_self) (Keeps.put a6 _)
        exact ⟨by rw [a5]; exact c2.out, by rw [a5]; exact c2.links, .inl habs,
          by rw [a5]; exact c2.keeps⟩
    obtain ⟨h', L', b1, b2, b3, b4, bL, b5⟩ := ih g q _ hrp (.inr habs) (a2.trans hpth) hq a4 (by
      intro x hx p l hl hp
      rcases List.mem_cons.mp hl with rfl | hl
      · have := (List.prefix_append_right_inj q).mp hp
        have := (List.cons_prefix_cons.mp this).1
        exact hnr (this ▸ hx)
      · exact hcl x (List.mem_cons_of_mem _ hx) p l hl hp) (by
      intro x hx p
      have hne : x ≠ name := fun h => hnr (h ▸ hx)
      rw [hsame _ (by simp [hne])]
      exact hab x (List.mem_cons_of_mem _ hx) p)
    have hlook : ∀ x p, x ∈ rest.names →
        (Forest.link name mode target rest).lookup os (x :: p) = rest.lookup os (x :: p) := by
      intro x p hx
      have hne : x ≠ name := fun h => hnr (h ▸ hx)
      rw [Forest.lookup, if_neg (by simp [hne])]
    refine ⟨h', L', ?_, b2.trans a2, b3.trans a3, b4, ?_, ?_, ?_⟩
    · simp only [hlEvents, hlEvent, hlItemStart]
      rw [a1]
      exact b1
    · intro l hl
      rcases bL l hl with k | ⟨x, k1, k2⟩
      · rcases List.mem_cons.mp k with rfl | k
        · exact .inr ⟨name, List.mem_cons_self, [], rfl⟩
        · exact .inl k
      · exact .inr ⟨x, List.mem_cons_of_mem _ k1, k2⟩
    · intro x hx
      have hx0 := hx name List.mem_cons_self []
      rcases b5.other x (fun y hy => hx y (List.mem_cons_of_mem _ hy)) with c | ⟨c1, c2, c3, m, c4, p, c5, c6⟩
      · left; rw [c, hsame x (by simpa using hx0)]
      · right
        refine ⟨by rw [← hsame x (by simpa using hx0)]; exact c1, c2, c3, m, c4, p, c5, ?_⟩
        rw [Forest.lookup, if_neg]
        · exact c6
        · rintro rfl
          rw [Forest.lookup_none os rest name [] hnr] at c6
          cases c6
    · intro x hx p
      rcases List.mem_cons.mp hx with rfl | hx
      · have hk : h'.w.fs (d ++ n :: q ++ x :: p) = g.w.fs (d ++ n :: q ++ x :: p) := by
          rcases b5.other (d ++ n :: q ++ x :: p) (by
            intro y hy p' he
            have := List.append_cancel_left he
            simp only [List.cons.injEq] at this
            exact hnr (this.1 ▸ hy)) with c | ⟨_, _, c, _⟩
          · exact c
          · obtain ⟨t, ht⟩ := c
            have := congrArg List.length ht
            simp at this
        rw [hk]
        by_cases hp : p = []
        · subst hp
          rcases a5 with a5 | ⟨_, a5⟩
          · rw [a5]
            have := hab x List.mem_cons_self []
            show Forest.remains _ _ _ (h.w.fs _)
            rw [show d ++ n :: q ++ [x] = d ++ n :: q ++ [x] ++ [] by simp, this]
            trivial
          · rw [a5, FS.put_same]
            show Forest.lookup _ _ _ = _
            simp [Forest.lookup]
        · rw [hsame _ (by simp [hp])]
          have := hab x List.mem_cons_self p
          rw [show d ++ n :: q ++ x :: p = d ++ n :: q ++ [x] ++ p by simp, this]
          trivial
      · exact (b5.kept x hx p).mono (fun r => hlook x (p ++ r) hx)
  | @file name nm item content mode ds rest evs h1 h2 h3 h4 _ _ ih =>
    intro h q L hpr hnl hpth hq hc hcl hab
    obtain ⟨hn, hnr, hrp⟩ := hpr
    obtain ⟨g, a1, a2, a3, a4, a5⟩ := file_entry_any B out name nm item ds h1 h2 hn h q hpth hq hc
      (hcl name List.mem_cons_self [])
      (by simpa using hab name List.mem_cons_self []) evs
    rw [h3, h4] at a5
    have hsame : ∀ x, x ≠ d ++ n :: q ++ [name] → g.w.fs x = h.w.fs x := by
      intro x hx
      rcases a5 with a5 | ⟨e, _, a5⟩ <;> rw [a5]
      rw [FS.put, if_neg hx]
    obtain ⟨h', L', b1, b2, b3, b4, bL, b5⟩ := ih g q L hrp hnl (a2.trans hpth) hq a4
      (fun x hx => hcl x (List.mem_cons_of_mem _ hx)) (by
      intro x hx p
      have hne : x ≠ name := fun h => hnr (h ▸ hx)
      rw [hsame _ (by simp [hne])]
      exact hab x (List.mem_cons_of_mem _ hx) p)
    have hlook : ∀ x p, x ∈ rest.names →
        (Forest.file name mode content rest).lookup os (x :: p) = rest.lookup os (x :: p) := by
      intro x p hx
      have hne : x ≠ name := fun h => hnr (h ▸ hx)
      rw [Forest.lookup, if_neg (by simp [hne])]
    refine ⟨h', L', a1.trans b1, b2.trans a2, b3.trans a3, b4, ?_, ?_, ?_⟩
    · intro l hl
      rcases bL l hl with k | ⟨x, k1, k2⟩
      · exact .inl k
      · exact .inr ⟨x, List.mem_cons_of_mem _ k1, k2⟩
    · intro x hx
      have hx0 := hx name List.mem_cons_self []
      rcases b5.other x (fun y hy => hx y (List.mem_cons_of_mem _ hy)) with c | ⟨c1, c2, c3, m, c4, p, c5, c6⟩
      · left; rw [c, hsame x (by simpa using hx0)]
      · right
        refine ⟨by rw [← hsame x (by simpa using hx0)]; exact c1, c2, c3, m, c4, p, c5, ?_⟩
        rw [Forest.lookup, if_neg]
        · exact c6
        · rintro rfl
          rw [Forest.lookup_none os rest name [] hnr] at c6
          cases c6
    · intro x hx p
      rcases List.mem_cons.mp hx with rfl | hx
      · have hk : h'.w.fs (d ++ n :: q ++ x :: p) = g.w.fs (d ++ n :: q ++ x :: p) := by
          rcases b5.other (d ++ n :: q ++ x :: p) (by
            intro y hy p' he
            have := List.append_cancel_left he
            simp only [List.cons.injEq] at this
            exact hnr (this.1 ▸ hy)) with c | ⟨_, _, c, _⟩
          · exact c
          · obtain ⟨t, ht⟩ := c
            have := congrArg List.length ht
            simp at this
        rw [hk]
        by_cases hp : p = []
        · subst hp
          rcases a5 with a5 | ⟨e, a6, a5⟩
          · rw [a5]
            have := hab x List.mem_cons_self []
            rw [show d ++ n :: q ++ [x] = d ++ n :: q ++ [x] ++ [] by simp, this]
            trivial
          · rw [a5, FS.put_same]
            exact ⟨content, by simp [Forest.lookup], a6⟩
        · rw [hsame _ (by simp [hp])]
          have := hab x List.mem_cons_self p
          rw [show d ++ n :: q ++ x :: p = d ++ n :: q ++ [x] ++ p by simp, this]
          trivial
      · exact (b5.kept x hx p).mono (fun r => hlook x (p ++ r) hx)
  | @dir name nm item mode sub rest evs evs' h1 h2 h3 _ _ ihs ihr =>
    intro h q L hpr hnl hpth hq hc hcl hab
    obtain ⟨hn, hnr, hsp, hrp⟩ := hpr
    have hms := plain_snoc hq hn
    have e1 : pre ++ n ++ slashed q ++ 47 :: nm.take (itNameLen item) =
        pre ++ n ++ slashed (q ++ [name]) := by
      rw [slashed_snoc, List.append_assoc (pre ++ n), h2]
    have e2 : ∀ p, d ++ n :: (q ++ [name]) ++ p = d ++ n :: q ++ name :: p := by simp
    have hz := B.nul _ hms
    obtain ⟨c1, c2⟩ := B.mkdirs_added hc.tick _ hms (hcl name List.mem_cons_self []) (itMode item)
    generalize hmk : mkdirRecurse os (itMode item)
      (pre ++ n ++ slashed (q ++ [name])) h.w.tick = mk at c1 c2
    obtain ⟨r, w'⟩ := mk
    rw [h3] at c2
    replace c2 : DirsAdded h.w.fs w'.fs (d ++ [n]) (d ++ n :: (q ++ [name])) (dirMode os mode) := c2
    -- places that are not on the way
    have hw' : ∀ x, ¬ x <+: d ++ n :: (q ++ [name]) → w'.fs x = h.w.fs x := by
      intro x hx
      rcases c2 x with c | c
      · exact c
      · exact absurd c.2.2.2 hx
    let g : HL := { h with
      name := some nm, w := w', dirPath := some (pre ++ n ++ slashed (q ++ [name]))
      hasError := h.hasError || r != 0 }
    have hst : hlEvent os out h (.itemStart .dir nm item) = .ok g := by
      simp only [hlEvent, hlItemStart, hlDirItem, hmem, Bool.false_eq_true, if_false, itemPath,
        if_pos h1, hpth, Option.getD_some, e1, cString_plain _ hz, hmk, g]
    obtain ⟨g2, L2, b1, b2, b3, b4, bL, b5⟩ := ihs g (q ++ [name]) L hsp (hnl.imp_left And.left) rfl hms
      c1 (fun x _ p => by
        have := hcl name List.mem_cons_self (x :: p)
        simpa using this) (by
      intro x hx p
      show w'.fs _ = _
      rw [hw' _ (by
        intro hp
        have := hp.length_le
        simp at this)]
      have := hab name List.mem_cons_self (x :: p)
      simpa using this)
    have hz2 : 0 ∉ pre ++ n ++ slashed q ++ 47 :: name := by rw [← h2, e1]; exact hz
    let g3 : HL := { g2 with dirPath := some (pre ++ n ++ slashed q) }
    have hend : hlEvent os out g2 .dirEnd = .ok g3 := by
      have hp2 : g2.dirPath = some (pre ++ n ++ slashed q ++ 47 :: name) := by
        rw [b2, ← h2, e1]
      simp only [hlEvent, hlDirEnd, hp2, cString_plain _ hz2,
        lastIndexOf_append 47 _ name hn.2.2.2.1, List.take_left', g3]
    -- what the directory has added
    have hmid : ∀ x, (∀ p, x ≠ d ++ n :: q ++ name :: p) →
        g2.w.fs x = h.w.fs x ∨ (h.w.fs x = none ∧ d ++ [n] <+: x ∧ x <+: d ++ n :: q ∧
          ∃ m, g2.w.fs x = some (.dir m) ∧ ∃ p, p ≠ [] ∧
            (Forest.dir name mode sub rest).lookup os p = some (.dir m)) := by
      intro x hx
      have hshort : x <+: d ++ n :: (q ++ [name]) → x <+: d ++ n :: q := by
        rintro ⟨t, ht⟩
        rcases List.eq_nil_or_concat t with rfl | ⟨t', y, rfl⟩
        · exact absurd (by simpa using ht) (hx [])
        · refine ⟨t', ?_⟩
          rw [show d ++ n :: (q ++ [name]) = (d ++ n :: q) ++ [name] by simp,
            List.concat_eq_append, ← List.append_assoc] at ht
          have := congrArg List.dropLast ht
          rwa [List.dropLast_concat, List.dropLast_concat] at this
      rcases b5.other x (by
        intro y _ p; rw [e2]; exact hx _) with c | ⟨k1, k2, k3, m, k4, p, k5, k6⟩
      · rcases c2 x with c' | ⟨k1, k2, k3, k4⟩
        · left; rw [c]; exact c'
        · right
          refine ⟨k1, k3, hshort k4, dirMode os mode, by rw [c]; exact k2, [name], by simp, ?_⟩
          simp [Forest.lookup]
      · right
        refine ⟨?_, k2, hshort k3, m, k4, name :: p, by simp, ?_⟩
        · rcases c2 x with c' | ⟨k7, _⟩
          · rw [← c']; exact k1
          · exact k7
        · simp [Forest.lookup, k5, k6]
    obtain ⟨h', L', i1, i2, i3, i4, iL, i5⟩ := ihr g3 q L2 hrp (hnl.imp_left And.right) rfl hq b4 (by
      intro x hx p l hl hp
      rcases bL l hl with k | ⟨y, _, p', rfl⟩
      · exact hcl x (List.mem_cons_of_mem _ hx) p l k hp
      · rw [List.append_assoc] at hp
        have := (List.prefix_append_right_inj q).mp hp
        have := (List.cons_prefix_cons.mp this).1
        exact hnr (this ▸ hx)) (by
      intro x hx p
      have hne : x ≠ name := fun h => hnr (h ▸ hx)
      show g2.w.fs _ = _
      rcases hmid (d ++ n :: q ++ [x] ++ p) (by simp [hne]) with c | ⟨_, _, c, _⟩
      · rw [c]; exact hab x (List.mem_cons_of_mem _ hx) p
      · have := c.length_le
        simp at this; omega)
    have hlook : ∀ x p, x ∈ rest.names →
        (Forest.dir name mode sub rest).lookup os (x :: p) = rest.lookup os (x :: p) := by
      intro x p hx
      have hne : x ≠ name := fun h => hnr (h ▸ hx)
      simp [Forest.lookup, hne]
    refine ⟨h', L', ?_, by rw [i2, hpth], by rw [i3]; exact b3, i4, ?_, ?_, ?_⟩
    · rw [hlEvents, hst]
      simp only
      rw [hlEvents_append, b1]
      simp only
      rw [hlEvents, hend]
      exact i1
    · intro l hl
      rcases iL l hl with k | ⟨x, k1, k2⟩
      · rcases bL l k with k | ⟨x, _, p, k2⟩
        · exact .inl k
        · exact .inr ⟨name, List.mem_cons_self, x :: p, by rw [k2]; simp⟩
      · exact .inr ⟨x, List.mem_cons_of_mem _ k1, k2⟩
    · intro x hx
      have hx1 := hmid x (hx name List.mem_cons_self)
      rcases i5.other x (fun y hy => hx y (List.mem_cons_of_mem _ hy)) with c | ⟨k1, k2, k3, m, k4, p, k5, k6⟩
      · rw [c]; exact hx1
      · right
        replace k1 : g2.w.fs x = none := k1
        refine ⟨?_, k2, k3, m, k4, p, k5, ?_⟩
        · rcases hx1 with c | c
          · rw [← c]; exact k1
          · exact c.1
        · cases p with
          | nil => exact absurd rfl k5
          | cons y p =>
            by_cases hy : y ∈ rest.names
            · rw [hlook y p hy]; exact k6
            · rw [Forest.lookup_none os rest y p hy] at k6; cases k6
    · intro x hx p
      rcases List.mem_cons.mp hx with rfl | hx
      · have hk : h'.w.fs (d ++ n :: q ++ x :: p) = g2.w.fs (d ++ n :: q ++ x :: p) := by
          rcases i5.other (d ++ n :: q ++ x :: p) (by
            intro y hy p' he
            have := List.append_cancel_left he
            simp only [List.cons.injEq] at this
            exact hnr (this.1 ▸ hy)) with c | ⟨_, _, c, _⟩
          · exact c
          · have := c.length_le
            simp at this; omega
        rw [hk]
        have hold : h.w.fs (d ++ n :: q ++ x :: p) = none := by
          have := hab x List.mem_cons_self p
          simpa using this
        by_cases hp : ∃ y ∈ sub.names, ∃ p', p = y :: p'
        · obtain ⟨y, hy, p', rfl⟩ := hp
          have := b5.kept y hy p'
          rw [e2] at this
          exact this.mono (fun r => by simp [Forest.lookup])
        · have hoth := b5.other (d ++ n :: q ++ x :: p) (by
            intro y hy p' he
            rw [e2] at he
            have := List.append_cancel_left he
            simp only [List.cons.injEq, true_and] at this
            exact hp ⟨y, hy, p', this⟩)
          have hdir : ∀ m, (∃ r, (Forest.dir x mode sub rest).lookup os (x :: p ++ r) = some (.dir m)) →
              p = [] → (Forest.dir x mode sub rest).remains os (x :: p) (some (.dir m)) := by
            rintro m hr rfl
            exact ⟨⟨dirMode os mode, by simp [Forest.lookup]⟩, hr⟩
          have hlen : d ++ n :: q ++ x :: p <+: d ++ n :: (q ++ [x]) → p = [] := by
            intro hc
            have := hc.length_le
            simp only [List.length_append, List.length_cons, List.length_nil] at this
            exact List.length_eq_zero_iff.mp (by omega)
          rcases hoth with c | ⟨k1, k2, k3, m, k4, p', k5, k6⟩
          · rw [c]
            rcases c2 (d ++ n :: q ++ x :: p) with c' | ⟨k1, k2, k3, k4⟩
            · rw [show g.w.fs = w'.fs from rfl, c', hold]; trivial
            · rw [show g.w.fs = w'.fs from rfl, k2]
              exact hdir _ ⟨[], by simp [Forest.lookup, hlen k4]⟩ (hlen k4)
          · rw [k4]
            refine hdir _ ⟨p', ?_⟩ (hlen k3)
            rw [hlen k3]
            simp [Forest.lookup, k5, k6]
      · exact (i5.kept x hx p).mono (fun r => hlook x (p ++ r) hx)

end Zwt
