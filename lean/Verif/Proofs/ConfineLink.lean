import Verif.Proofs.Confine
import Verif.Proofs.HLKeep
import Verif.Spec.LinkSafe

/-! What extraction can touch when the archive has links. -/

namespace Zwt

/-! ### Archives -/

theorem LinkSafe.prefix {a b : List Atom} : ∀ {L : List (List Bytes)} {q : List Bytes},
    LinkSafe L q (a ++ b) → LinkSafe L q a := by
  induction a with
  | nil => intro L q _; trivial
  | cons x xs ih =>
    intro L q h
    cases x with
    | start ft nm it =>
      cases ft with
      | dir => exact ⟨h.1, h.2.1, h.2.2.1, ih h.2.2.2⟩
      | file => exact ⟨h.1, h.2.1, h.2.2.1, ih h.2.2.2⟩
      | symlink => exact ⟨h.1, h.2.1, ih h.2.2⟩
      | none => exact ih (L := L) (q := q) h
    | dirEnd => exact ⟨h.1, ih h.2⟩
    | byte _ => exact ih (L := L) (q := q) h
    | fileEnd => exact ih (L := L) (q := q) h
    | link _ => exact ih (L := L) (q := q) h
    | drStart => exact ih (L := L) (q := q) h
    | flStart => exact ih (L := L) (q := q) h

theorem LinkSafe.sfx {a b : List Atom} (hs : LinkSfx a b) : ∀ {L : List (List Bytes)} {q : List Bytes},
    LinkSafe L q b → LinkSafe L q a := by
  induction hs with
  | nil => intro L q _; trivial
  | same x _ ih =>
    intro L q h
    cases x with
    | start ft nm it =>
      cases ft with
      | dir => exact ⟨h.1, h.2.1, h.2.2.1, ih h.2.2.2⟩
      | file => exact ⟨h.1, h.2.1, h.2.2.1, ih h.2.2.2⟩
      | symlink => exact ⟨h.1, h.2.1, ih h.2.2⟩
      | none => exact ih (L := L) (q := q) h
    | dirEnd => exact ⟨h.1, ih h.2⟩
    | byte _ => exact ih (L := L) (q := q) h
    | fileEnd => exact ih (L := L) (q := q) h
    | link _ => exact ih (L := L) (q := q) h
    | drStart => exact ih (L := L) (q := q) h
    | flStart => exact ih (L := L) (q := q) h
  | link _ _ ih => intro L q h; exact ih (L := L) (q := q) h

theorem LinkSafe.bytes (ds : Bytes) (as : List Atom) (L : List (List Bytes)) (q : List Bytes) :
    LinkSafe L q (ds.map .byte ++ as) ↔ LinkSafe L q as := by
  induction ds with
  | nil => rfl
  | cons b bs ih => simpa [LinkSafe] using ih

/-! ### Paths -/

/-- The path has none of the places of `L` on it. -/
def Clear (L : List (List Bytes)) (p : List Bytes) : Prop := ∀ l ∈ L, ¬ l <+: p

theorem Clear.prefix {L : List (List Bytes)} {p p' : List Bytes} (h : Clear L p) (hp : p' <+: p) :
    Clear L p' := fun l hl hl' => h l hl (hl'.trans hp)

/-- Resolution along plain names with no link on the way. -/
theorem resolve_clear (os : Os) (fs : FS) (follow : Bool) (m : Nat) (r : Loc) (L : List (List Bytes))
    (hL : ∀ q t, fs (r ++ q) = some (.link t) → q ∈ L)
    (cs : List Bytes) (hc : ∀ c ∈ cs, PlainName c) : ∀ (q : List Bytes) (l : Loc), Clear L (q ++ cs) →
    resolve os fs follow m (r ++ q) cs = some l → l = r ++ q ++ cs := by
  induction cs with
  | nil => intro q l _ h; rw [resolve_nil] at h; cases h; simp
  | cons c cs ih =>
    intro q l hq h
    have hp := hc c List.mem_cons_self
    rw [resolve_cons] at h
    split at h
    · simp at h
    · rw [if_neg (by simp [hp.1, hp.2.1]), if_neg hp.2.2.1] at h
      split at h
      · split at h
        · rename_i hall
          cases cs with
          | nil => cases h; rfl
          | cons x xs =>
            have := hc x (by simp)
            simp only [List.all_cons, Bool.and_eq_true, decide_eq_true_eq] at hall
            exact absurd hall.1 this.1
        · simp at h
      · rename_i t ht
        rw [List.append_assoc] at ht
        exact absurd (List.prefix_append_right_inj q |>.mpr (by simp : [c] <+: c :: cs)) (hq _ (hL _ _ ht))
      · have := ih (fun x hx => hc x (List.mem_cons_of_mem _ hx)) (q ++ [c]) l (by simpa using hq)
          (by simpa using h)
        simpa using this

theorem resolve_clear_from (os : Os) (fs : FS) (follow : Bool) (m : Nat) (d : Loc) (n : Bytes)
    (hn : PlainName n) (L : List (List Bytes))
    (hL : ∀ q t, fs (d ++ [n] ++ q) = some (.link t) → q ∈ L)
    (cs : List Bytes) (hc : ∀ c ∈ cs, PlainName c) (hcl : Clear L cs)
    (l : Loc) (h : resolve os fs follow m d (n :: cs) = some l) : l = d ++ [n] ++ cs := by
  rw [resolve_cons] at h
  split at h
  · simp at h
  · rw [if_neg (by simp [hn.1, hn.2.1]), if_neg hn.2.2.1] at h
    split at h
    · split at h
      · rename_i hall
        cases cs with
        | nil => cases h; simp
        | cons x xs =>
          have := hc x (by simp)
          simp only [List.all_cons, Bool.and_eq_true, decide_eq_true_eq] at hall
          exact absurd hall.1 this.1
      · simp at h
    · rename_i t ht
      exact absurd List.nil_prefix (hcl [] (hL [] t (by simpa using ht)))
    · have := resolve_clear os fs follow m (d ++ [n]) L hL cs hc [] l (by simpa using hcl) (by simpa using h)
      simpa using this

/-! ### Confinement of the system calls -/

/-- The world differs from `w0` at most at and below `r`, where links are at the places `L` only; the
working directory is the same unless paths do not depend on it. -/
structure ConfL (w0 w : World) (pre : Bytes) (r : Loc) (L : List (List Bytes)) : Prop where
  out : ∀ x, ¬ r <+: x → w.fs x = w0.fs x
  links : ∀ q t, w.fs (r ++ q) = some (.link t) → q ∈ L
  cwd : pre.head? = some 47 ∨ w.cwd = w0.cwd
  keeps : Keeps w0.fs w.fs

theorem ConfL.tick {w0 w : World} {pre : Bytes} {r : Loc} {L : List (List Bytes)}
    (h : ConfL w0 w pre r L) : ConfL w0 w.tick pre r L := ⟨h.out, h.links, h.cwd, h.keeps⟩

theorem ConfL.put {w0 w : World} {pre : Bytes} {r l : Loc} {L : List (List Bytes)}
    (h : ConfL w0 w pre r L) (hl : r <+: l) (n : Node)
    (hn : ∀ t, n = .link t → ∀ q, l = r ++ q → q ∈ L) (hk : Keeps w.fs (w.fs.put l n)) :
    ConfL w0 (w.put l n) pre r L := by
  refine ⟨?_, ?_, h.cwd, h.keeps.trans hk⟩
  · intro x hx
    show (w.fs.put l n) x = _
    rw [FS.put, if_neg (fun (he : x = l) => hx (by rw [he]; exact hl))]
    exact h.out x hx
  · intro q t
    show (w.fs.put l n) _ = _ → _
    rw [FS.put]
    split
    · rename_i he
      intro h1
      cases h1
      exact hn t rfl q he.symm
    · exact h.links q t

theorem ConfL.more {w0 w : World} {pre : Bytes} {r : Loc} {L L' : List (List Bytes)}
    (h : ConfL w0 w pre r L) (hL : ∀ l ∈ L, l ∈ L') : ConfL w0 w pre r L' :=
  ⟨h.out, fun q t hq => hL q (h.links q t hq), h.cwd, h.keeps⟩

theorem pathBase_home {pre x : Bytes} {a b : Loc} (h : pre.head? = some 47 ∨ a = b) :
    pathBase a (pre ++ x) = pathBase b (pre ++ x) := by
  rcases h with h | h
  · cases pre with
    | nil => simp at h
    | cons c cs =>
      have hc : c = 47 := by simpa using h
      simp [pathBase, hc]
  · rw [h]

theorem Base.locateL {os : Os} {w0 w : World} {pre : Bytes} {d : Loc} {n : Bytes}
    (B : Base os w0 pre d n) {L : List (List Bytes)} (h : ConfL w0 w pre (d ++ [n]) L) (ns : List Bytes)
    (hns : ∀ x ∈ ns, PlainName x) (hc : Clear L ns) (follow : Bool) (l : Loc)
    (hl : Zwt.locate os w follow (pre ++ n ++ slashed ns) = some l) : l = d ++ [n] ++ ns := by
  obtain ⟨_, b, cs, m, h1, h2⟩ := B.front.mono h.keeps
  have hp := h2 (n ++ slashed ns) (by simp [B.name.1]) (by
    have := B.name.head
    cases hn : n with
    | nil => exact absurd hn B.name.1
    | cons a as => rw [hn] at this; simpa using this)
  rw [← pathBase_home h.cwd, ← List.append_assoc] at hp
  rw [Zwt.locate, if_neg (by simp [B.name.1]), hp.1, hp.2,
    splitPath_slashed n ns B.name.2.2.2.1 (fun x hx => (hns x hx).2.2.2.1),
    h1.resolve follow _ (by simp)] at hl
  exact resolve_clear_from os w.fs follow m d n B.name L h.links ns hns hc l hl

theorem Base.partL {os : Os} {w0 w : World} {pre : Bytes} {d : Loc} {n : Bytes}
    (B : Base os w0 pre d n) {L : List (List Bytes)} (h : ConfL w0 w pre (d ++ [n]) L) (s t : Bytes)
    (hs : pre = s ++ 47 :: t) (l : Loc) (hl : Zwt.locate os w false s = some l) : w.fs l ≠ none := by
  obtain ⟨_, b, cs, m, h1, h2⟩ := B.front.mono h.keeps
  have hsd := h.keeps.searchable B.dir
  have hne : s ≠ [] := by intro h; rw [h] at hl; simp [Zwt.locate] at hl
  have hp := h2 n B.name.1 B.name.head
  rw [← pathBase_home h.cwd] at hp
  subst hs
  rw [List.append_assoc, List.cons_append, pathBase_append _ _ _ hne, splitPath_append,
    splitPath_plain n B.name.2.2.2.1] at hp
  obtain ⟨cs', hcs⟩ : ∃ cs', cs = splitPath s ++ cs' := by
    have hx := congrArg List.dropLast hp.2
    rw [List.dropLast_concat, List.dropLast_append_of_ne_nil (splitPath_ne_nil _)] at hx
    exact ⟨_, hx.symm⟩
  obtain ⟨k, e, g1, g2⟩ := h1.split _ _ hcs
  have he : w.fs e ≠ none := by
    have hse : searchable os w.fs e = true := by
      cases g2 with
      | nil => exact hsd
      | skip a => exact a
      | up a => exact a
      | dir a => exact a
      | link a => exact a
    obtain ⟨md, hmd⟩ := searchable_dir hse
    rw [hmd]; simp
  obtain ⟨l', q1, q2⟩ := g1.exists he
  rw [Zwt.locate, if_neg hne, hp.1, q1] at hl
  cases hl
  exact q2

theorem Base.createL {os : Os} {w0 w : World} {pre : Bytes} {d : Loc} {n : Bytes}
    (B : Base os w0 pre d n) {L : List (List Bytes)} (h : ConfL w0 w pre (d ++ [n]) L) (ns : List Bytes)
    (hns : ∀ x ∈ ns, PlainName x) (hc : Clear L ns) (s : Bytes) (mode : Nat)
    (hs : PathCut (pre ++ n ++ slashed ns) s) : ConfL w0 (osCreate os w s mode).2 pre (d ++ [n]) L := by
  have hm : ConfL w0 (sysMkdir os w s mode).2 pre (d ++ [n]) L := by
    simp only [sysMkdir]
    split
    · exact h.tick
    · split
      · exact h.tick
      · rename_i l hl
        split
        · exact h.tick
        · rename_i hnone
          simp only [addNode]
          split
          · exact h.tick
          · rename_i w' hw'
            split at hw'
            · cases hw'
              rcases cut_cases pre n ns B.name.2.2.2.1 (fun x hx => (hns x hx).2.2.2.1) s hs with
                ⟨t, ht⟩ | ⟨ns', hp, rfl⟩
              · exact absurd hnone (B.partL h s t ht l hl)
              · have hin := B.locateL h ns' (fun x hx => hns x (hp.subset hx)) (hc.prefix hp) false l hl
                exact (h.put (by rw [hin]; exact List.prefix_append _ _) _ (by simp)
                  (Keeps.put hnone _)).tick
            · simp at hw'
  rcases osCreate_world os w s mode with h1 | h1 <;> rw [h1]
  · exact hm
  · exact hm.tick

theorem Base.mkdirsL {os : Os} {w0 w : World} {pre : Bytes} {d : Loc} {n : Bytes}
    (B : Base os w0 pre d n) {L : List (List Bytes)} (h : ConfL w0 w pre (d ++ [n]) L) (ns : List Bytes)
    (hns : ∀ x ∈ ns, PlainName x) (hc : Clear L ns) (mode : Nat) :
    ConfL w0 (mkdirRecurse os mode (pre ++ n ++ slashed ns) w).2 pre (d ++ [n]) L := by
  refine mkdirRecurse_inv os mode (fun w => ConfL w0 w pre (d ++ [n]) L) _ ?_ ?_ (fun _ h => h.tick) ?_ w h
  · have h0 := B.front.1
    simp only [List.mem_append, not_or]
    refine ⟨⟨h0, B.name.2.2.2.2⟩, ?_⟩
    intro hm
    simp only [slashed, List.mem_flatten, List.mem_map] at hm
    obtain ⟨_, ⟨x, hx, rfl⟩, hm⟩ := hm
    rcases List.mem_cons.mp hm with h | h
    · exact absurd h (by decide)
    · exact (hns x hx).2.2.2.2 h
  · intro s hs h47; exact B.backslash ns hns s hs h47
  · intro s w hs h; exact B.createL h ns hns hc s mode hs

theorem Base.openFileL {os : Os} {w0 w w' : World} {pre : Bytes} {d : Loc} {n : Bytes}
    (B : Base os w0 pre d n) {L : List (List Bytes)} (h : ConfL w0 w pre (d ++ [n]) L) (ns : List Bytes)
    (hns : ∀ x ∈ ns, PlainName x) (hc : Clear L ns) (mode : Nat) (ol : Option Loc)
    (ho : sysOpen os w (pre ++ n ++ slashed ns) mode false = (ol, w')) :
    ConfL w0 w' pre (d ++ [n]) L ∧ ∀ l, ol = some l → d ++ [n] <+: l := by
  simp only [sysOpen] at ho
  split at ho
  · cases ho; exact ⟨h.tick, by simp⟩
  · split at ho
    · cases ho; exact ⟨h.tick, by simp⟩
    · rename_i l hl
      have hin : d ++ [n] <+: l := by
        rw [B.locateL h ns hns hc true l hl]; exact List.prefix_append _ _
      split at ho
      · split at ho
        · cases ho; exact ⟨h.tick, by simp⟩
        · cases ho
          refine ⟨h.tick, ?_⟩
          intro l' hl'; cases hl'; exact hin
      · cases ho; exact ⟨h.tick, by simp⟩
      · rename_i hnone
        split at ho
        · cases ho; exact ⟨h.tick, by simp⟩
        · simp only [addNode] at ho
          split at ho
          · cases ho; exact ⟨h.tick, by simp⟩
          · rename_i w2 hw2
            cases ho
            split at hw2
            · cases hw2
              refine ⟨(h.put hin _ (by simp) (Keeps.put hnone _)).tick, ?_⟩
              intro l' hl'; cases hl'; exact hin
            · simp at hw2

theorem ConfL.write {os : Os} {w0 w w' : World} {pre : Bytes} {r : Loc} {L : List (List Bytes)}
    (h : ConfL w0 w pre r L) {f f' : OpenFile}
    (hf : r <+: f.loc) (data : Bytes) (hw : sysWrite os w f data = (f', w')) :
    ConfL w0 w' pre r L ∧ f'.loc = f.loc := by
  simp only [sysWrite] at hw
  split at hw
  · cases hw; exact ⟨h.tick, rfl⟩
  · split at hw
    · rename_i m c hc
      cases hw
      exact ⟨(h.put hf _ (by simp) (Keeps.putFile hc _)).tick, rfl⟩
    · cases hw; exact ⟨h.tick, rfl⟩

/-- A link made in the directory `q`. -/
theorem Base.symlinkL {os : Os} {w0 : World} {pre : Bytes} {d : Loc} {n : Bytes}
    (B : Base os w0 pre d n) {L : List (List Bytes)} {h h' : HL} {q : List Bytes} {nm x : Bytes}
    (hc : ConfL w0 h.w pre (d ++ [n]) L) (hq : ∀ y ∈ q, PlainName y) (hcl : Clear L q)
    (hp : h.dirPath = some (pre ++ n ++ slashed q)) (hz : 0 ∉ pre ++ n ++ slashed q)
    (hnm : h.name = some nm) (hx : cstr? nm = some x) (hpl : PlainName x) (hL : q ++ [x] ∈ L)
    (hback : pre.head? = some 47 ∨ ((∀ k, os.refuses k = false) ∧ CwdBack os w0.fs w0.cwd))
    (t a : Bytes) (hr : hlSymLink os h t a = .ok h') :
    ConfL w0 h'.w pre (d ++ [n]) L ∧ h'.dirPath = h.dirPath ∧ h'.fd = h.fd ∧ h'.ret = h.ret := by
  have hcwd : pre.head? = some 47 ∨ h'.w.cwd = w0.cwd := by
    rcases hback with hb | hb
    · exact .inl hb
    · rcases hc.cwd with hw | hw
      · exact .inl hw
      · right
        rw [← hw]
        exact (hlEvent_keeps os [] h h' (.symLink t a) hr).2.2.2 (.inr ⟨hb.1, by
          rw [hw]; exact hb.2.mono hc.keeps⟩)
  have hfs : ∀ w', w'.fs = h.w.fs → (pre.head? = some 47 ∨ w'.cwd = w0.cwd) →
      ConfL w0 w' pre (d ++ [n]) L := by
    intro w' hw hcw
    exact ⟨by rw [hw]; exact hc.out, by rw [hw]; exact hc.links, hcw, by rw [hw]; exact hc.keeps⟩
  simp only [hlSymLink, hp, hnm, hx] at hr
  have hg : (sysGetcwd os h.w CWD_SIZE).2 = h.w.tick := by
    simp only [sysGetcwd]
    split
    · rfl
    · split <;> rfl
  cases hgc : sysGetcwd os h.w CWD_SIZE with
  | mk o w1 =>
    rw [hgc] at hg hr
    have hg : w1 = h.w.tick := hg
    subst hg
    cases o with
    | none => cases hr; exact ⟨hfs _ rfl hcwd, hp.symm, rfl, rfl⟩
    | some old =>
      simp only [cString_plain _ hz] at hr
      cases hch : sysChdir os h.w.tick (pre ++ n ++ slashed q) with
      | mk b w2 =>
        have hf2 : w2.fs = h.w.fs := by
          have := sysChdir_fs os h.w.tick (pre ++ n ++ slashed q)
          rw [hch] at this
          exact this
        rw [hch] at hr
        cases b with
        | false => cases hr; exact ⟨hfs _ hf2 hcwd, hp.symm, rfl, rfl⟩
        | true =>
          have hw2 : w2.cwd = d ++ [n] ++ q := by
            simp only [sysChdir] at hch
            split at hch
            · simp at hch
            · split at hch
              · simp at hch
              · rename_i l hl
                have := B.locateL hc.tick q hq hcl true l hl
                split at hch
                · cases hch; exact this
                · simp at hch
          simp only at hr
          cases ht : cstr? (t ++ a) with
          | none => rw [ht] at hr; simp at hr
          | some tgt =>
            rw [ht] at hr
            simp only at hr
            cases hs : sysSymlink os w2 tgt x with
            | mk b3 w3 =>
              rw [hs] at hr
              simp only at hr
              cases hc4 : sysChdir os w3 old with
              | mk b4 w4 =>
                rw [hc4] at hr
                cases hr
                have hf4 : w4.fs = w3.fs := by
                  have := sysChdir_fs os w3 old
                  rw [hc4] at this
                  exact this
                refine ⟨?_, hp.symm, rfl, rfl⟩
                have hc3 : w3.fs = w2.fs ∨
                    (w2.fs (d ++ [n] ++ q ++ [x]) = none ∧
                      w3.fs = w2.fs.put (d ++ [n] ++ q ++ [x]) (.link tgt)) := by
                  simp only [sysSymlink] at hs
                  split at hs
                  · cases hs; exact .inl rfl
                  · split at hs
                    · cases hs; exact .inl rfl
                    · rename_i l hl
                      have hloc : l = d ++ [n] ++ q ++ [x] := by
                        rw [Zwt.locate, if_neg hpl.1, splitPath_plain x hpl.2.2.2.1, pathBase,
                          if_neg hpl.head, hw2, resolve_cons] at hl
                        split at hl
                        · simp at hl
                        · rw [if_neg (by simp [hpl.1, hpl.2.1]), if_neg hpl.2.2.1] at hl
                          split at hl
                          · simpa using hl.symm
                          · simpa using hl.symm
                          · rw [resolve_nil] at hl; simpa using hl.symm
                      split at hs
                      · cases hs; exact .inl rfl
                      · rename_i hnone
                        simp only [addNode] at hs
                        split at hs
                        · cases hs; exact .inl rfl
                        · rename_i w5 hw5
                          split at hw5
                          · cases hw5
                            cases hs
                            right
                            rw [← hloc]
                            exact ⟨hnone, rfl⟩
                          · simp at hw5
                rcases hc3 with h3 | ⟨h3, h4⟩
                · exact hfs _ (by rw [hf4, h3, hf2]) hcwd
                · have c2 : ConfL w0 { h.w with cwd := w4.cwd } pre (d ++ [n]) L := hfs _ rfl hcwd
                  have := c2.put (l := d ++ [n] ++ q ++ [x])
                    (by rw [List.append_assoc]; exact List.prefix_append _ _) (.link tgt) (by
                      intro t' _ q' hq'
                      rw [List.append_assoc (d ++ [n])] at hq'
                      rw [← List.append_cancel_left hq']
                      exact hL) (by rw [hf2] at h3; exact Keeps.put h3 _)
                  have e : w4.fs = (World.put { h.w with cwd := w4.cwd } (d ++ [n] ++ q ++ [x])
                      (.link tgt)).fs := by
                    rw [hf4, h4, hf2]; rfl
                  exact ⟨by rw [e]; exact this.out, by rw [e]; exact this.links, hcwd,
                    by rw [e]; exact this.keeps⟩

/-! ### Confinement of the callbacks -/

/-- State between callbacks: inside the directories `q` below the output directory, with links at
the places `L`. -/
structure InsideL (w0 : World) (pre : Bytes) (d : Loc) (n : Bytes) (ns : List Bytes)
    (L : List (List Bytes)) (h : HL) (p : Proto) (q : List Bytes) : Prop where
  path : h.dirPath = some (pre ++ n ++ slashed (ns ++ q))
  plain : ∀ x ∈ q, PlainName x
  clear : ∀ l ∈ L, ¬ l <+: q
  conf : ConfL w0 h.w pre (d ++ [n]) (L.map (ns ++ ·))
  fd : ∀ f, h.fd = .opened f → d ++ [n] <+: f.loc
  link : p = .inLink → ∃ nm x, h.name = some nm ∧ cstr? nm = some x ∧ PlainName x ∧ q ++ [x] ∈ L

theorem clear_map {L : List (List Bytes)} {p : List Bytes} (ns : List Bytes)
    (h : ∀ l ∈ L, ¬ l <+: p) : Clear (L.map (ns ++ ·)) (ns ++ p) := by
  intro l hl hp
  obtain ⟨l', h1, rfl⟩ := List.mem_map.mp hl
  exact h l' h1 ((List.prefix_append_right_inj ns).mp hp)

theorem inside_stepL {os : Os} {w0 : World} {pre : Bytes} {d : Loc} {n : Bytes}
    (B : Base os w0 pre d n) (ns : List Bytes) (hns : ∀ x ∈ ns, PlainName x) (out : Bytes)
    (hmem : ∀ k, os.noMem k = false) (e : Ev) (as : List Atom)
    (hback : (∀ t, Atom.link t ∉ e.atoms) ∨ pre.head? = some 47 ∨
      ((∀ k, os.refuses k = false) ∧ CwdBack os w0.fs w0.cwd))
    (h h1 : HL) (p p' : Proto) (L : List (List Bytes)) (q : List Bytes)
    (I : InsideL w0 pre d n ns L h p q) (hst : p.step e = some p')
    (hs : LinkSafe L q (e.atoms ++ as)) (hev : hlEvent os out h e = .ok h1) :
    ∃ L' q', InsideL w0 pre d n ns L' h1 p' q' ∧ LinkSafe L' q' as := by
  have hall : ∀ x ∈ ns ++ q, PlainName x := by
    intro x hx
    rcases List.mem_append.mp hx with h | h
    · exact hns x h
    · exact I.plain x h
  have path0 : ∀ (ms : List Bytes), (∀ x ∈ ms, PlainName x) → 0 ∉ pre ++ n ++ slashed ms := by
    intro ms hms
    simp only [List.mem_append, not_or]
    refine ⟨⟨B.front.1, B.name.2.2.2.2⟩, ?_⟩
    intro hm
    simp only [slashed, List.mem_flatten, List.mem_map] at hm
    obtain ⟨_, ⟨x, hx, rfl⟩, hm⟩ := hm
    rcases List.mem_cons.mp hm with h | h
    · exact absurd h (by decide)
    · exact (hms x hx).2.2.2.2 h
  cases e with
  | flStart => cases p <;> simp [Proto.step] at hst
  | flRead _ => cases p <;> simp [Proto.step] at hst
  | drStart => cases p <;> simp [Proto.step] at hst
  | symLink t a =>
    have hpp : p = .inLink ∧ p' = .idle := by
      cases p with
      | idle => simp [Proto.step] at hst
      | inLink => simpa [Proto.step] using hst.symm
      | inFile left => cases left <;> simp [Proto.step] at hst
    obtain ⟨nm, x, g1, g2, g3, g4⟩ := I.link hpp.1
    have hb2 : pre.head? = some 47 ∨ ((∀ k, os.refuses k = false) ∧ CwdBack os w0.fs w0.cwd) := by
      rcases hback with hb | hb
      · exact absurd (by simp [Ev.atoms]) (hb t)
      · exact hb
    obtain ⟨c1, c2, c3, c4⟩ := B.symlinkL I.conf hall (clear_map ns I.clear) I.path (path0 _ hall) g1 g2 g3
      (by rw [List.append_assoc]; exact List.mem_map_of_mem (f := (ns ++ ·)) g4) hb2 t a hev
    exact ⟨L, q, ⟨by rw [c2]; exact I.path, I.plain, I.clear, c1, by rw [c3]; exact I.fd,
      fun hc => by rw [hpp.2] at hc; simp at hc⟩, hs⟩
  | fileRead ds =>
    have hpp : p' ≠ .inLink := by
      cases p with
      | idle => simp [Proto.step] at hst
      | inLink => simp [Proto.step] at hst
      | inFile left =>
        simp only [Proto.step] at hst
        split at hst
        · cases hst; simp
        · simp at hst
    have hs' : LinkSafe L q as := by
      rw [show (Ev.fileRead ds).atoms = ds.map .byte from rfl] at hs
      exact (LinkSafe.bytes ds _ L q).mp hs
    simp only [hlEvent, hlFileRead] at hev
    cases hfd : h.fd with
    | bad =>
      rw [hfd] at hev
      cases hev
      refine ⟨L, q, ?_, hs'⟩
      exact ⟨I.path, I.plain, I.clear, I.conf.tick, by simp,
        fun hc => absurd hc hpp⟩
    | closed => rw [hfd] at hev; simp at hev
    | opened f =>
      rw [hfd] at hev
      simp only at hev
      cases hw : sysWrite os h.w f ds with
      | mk f' w' =>
        rw [hw] at hev
        cases hev
        obtain ⟨c1, c2⟩ := I.conf.write (I.fd f hfd) ds hw
        refine ⟨L, q, ?_, hs'⟩
        exact ⟨I.path, I.plain, I.clear, c1, by
          intro f2 hf2; cases hf2; rw [c2]; exact I.fd f hfd, fun hc => absurd hc hpp⟩
  | fileEnd =>
    have hpp : p' ≠ .inLink := by
      cases p with
      | idle => simp [Proto.step] at hst
      | inLink => simp [Proto.step] at hst
      | inFile left =>
        cases left with
        | zero => simp [Proto.step] at hst; rw [← hst]; simp
        | succ k => simp [Proto.step] at hst
    simp only [hlEvent, hlFileEnd] at hev
    cases hfd : h.fd with
    | bad =>
      rw [hfd] at hev
      cases hev
      refine ⟨L, q, ?_, hs⟩
      exact ⟨I.path, I.plain, I.clear, I.conf.tick, by simp,
        fun hc => absurd hc hpp⟩
    | closed => rw [hfd] at hev; simp at hev
    | opened f =>
      rw [hfd] at hev
      cases hev
      refine ⟨L, q, ?_, hs⟩
      exact ⟨I.path, I.plain, I.clear, I.conf.tick, by simp,
        fun hc => absurd hc hpp⟩
  | dirEnd =>
    have hpp : p' = .idle := by
      cases p with
      | idle => simpa [Proto.step] using hst.symm
      | inLink => simp [Proto.step] at hst
      | inFile left => cases left <;> simp [Proto.step] at hst
    obtain ⟨hq, hs'⟩ := hs
    rcases List.eq_nil_or_concat q with rfl | ⟨q', x, rfl⟩
    · exact absurd rfl hq
    · have hx := I.plain x (by simp)
      have e1 : pre ++ n ++ slashed (ns ++ q'.concat x) =
          pre ++ n ++ slashed (ns ++ q') ++ 47 :: x := by
        rw [List.concat_eq_append, ← List.append_assoc, slashed_snoc, List.append_assoc]
        simp
      have hz := path0 (ns ++ q'.concat x) hall
      have hpth := I.path
      rw [e1] at hz hpth
      simp only [hlEvent, hlDirEnd, hpth, cString_plain _ hz,
        lastIndexOf_append 47 _ x hx.2.2.2.1, List.take_left'] at hev
      cases hev
      refine ⟨L, q', ?_, (by simpa using hs')⟩
      refine ⟨rfl, fun y hy => I.plain y (by simp [hy]), ?_, I.conf, I.fd,
        fun hc => by rw [hpp] at hc; simp at hc⟩
      intro l hl hl'
      exact I.clear l hl (hl'.trans (by simp))
  | itemStart ft nm it =>
    have hidle : p = .idle := by
      cases p with
      | idle => rfl
      | inLink => simp [Proto.step] at hst
      | inFile left => cases left <;> simp [Proto.step] at hst
    subst hidle
    cases ft with
    | none => simp [Proto.step] at hst
    | symlink =>
      obtain ⟨a1, a2, a3⟩ := hs
      have hev' : h1 = { h with name := some nm } := by
        simp only [hlEvent, hlItemStart] at hev
        cases hev; rfl
      subst hev'
      refine ⟨((q ++ [nm.takeWhile (· != 0)]) :: L), q, ?_, a3⟩
      refine ⟨I.path, I.plain, ?_,
        I.conf.more ?_, I.fd, fun _ => ⟨nm, _, rfl, by rw [cstr?, if_pos a1], a2,
          List.mem_cons_self⟩⟩
      · intro l hl hl'
        rcases List.mem_cons.mp hl with rfl | hl
        · have := hl'.length_le
          simp only [List.length_append, List.length_singleton] at this
          omega
        · exact I.clear l hl hl'
      · intro l hl
        obtain ⟨l', h1, rfl⟩ := List.mem_map.mp hl
        exact List.mem_map_of_mem (f := (ns ++ ·)) (List.mem_cons_of_mem _ h1)
    | file =>
      obtain ⟨hle, hpl, hcl, hs'⟩ := hs
      have hpp : p' ≠ .inLink := by simp [Proto.step] at hst; rw [← hst]; simp
      have hms : ∀ x ∈ ns ++ (q ++ [nm.take (itNameLen it)]), PlainName x := by
        intro x hx
        rw [← List.append_assoc] at hx
        rcases List.mem_append.mp hx with h | h
        · exact hall x h
        · rw [List.mem_singleton.mp h]; exact hpl
      have e1 : pre ++ n ++ slashed (ns ++ q) ++ 47 :: nm.take (itNameLen it) =
          pre ++ n ++ slashed (ns ++ (q ++ [nm.take (itNameLen it)])) := by
        rw [← List.append_assoc ns, slashed_snoc, List.append_assoc (pre ++ n)]
      have hz := path0 _ hms
      simp only [hlEvent, hlItemStart, hlFileItem, itemPath, if_pos hle, I.path,
        Option.getD_some, e1, cString_plain _ hz] at hev
      cases ho : sysOpen os h.w (pre ++ n ++ slashed (ns ++ (q ++ [nm.take (itNameLen it)])))
          (modeFo (itMode it)) false with
      | mk ol w' =>
        obtain ⟨c1, c2⟩ := B.openFileL I.conf _ hms (clear_map ns hcl) _ ol ho
        rw [ho] at hev
        cases ol with
        | none =>
          cases hev
          refine ⟨L, q, ?_, hs'⟩
          exact ⟨rfl, I.plain, I.clear, c1, by simp, fun hc => absurd hc hpp⟩
        | some l =>
          cases hev
          refine ⟨L, q, ?_, hs'⟩
          exact ⟨rfl, I.plain, I.clear, c1, by
            intro f hf; cases hf; exact c2 l rfl, fun hc => absurd hc hpp⟩
    | dir =>
      obtain ⟨hle, hpl, hcl, hs'⟩ := hs
      have hpp : p' ≠ .inLink := by simp [Proto.step] at hst; rw [← hst]; simp
      have hms : ∀ x ∈ ns ++ (q ++ [nm.take (itNameLen it)]), PlainName x := by
        intro x hx
        rw [← List.append_assoc] at hx
        rcases List.mem_append.mp hx with h | h
        · exact hall x h
        · rw [List.mem_singleton.mp h]; exact hpl
      have e1 : pre ++ n ++ slashed (ns ++ q) ++ 47 :: nm.take (itNameLen it) =
          pre ++ n ++ slashed (ns ++ (q ++ [nm.take (itNameLen it)])) := by
        rw [← List.append_assoc ns, slashed_snoc, List.append_assoc (pre ++ n)]
      have hz := path0 _ hms
      have c1 := B.mkdirsL I.conf.tick _ hms (clear_map ns hcl) (itMode it)
      simp only [hlEvent, hlItemStart, hlDirItem, hmem, Bool.false_eq_true, if_false, itemPath,
        if_pos hle, I.path, Option.getD_some, e1, cString_plain _ hz] at hev
      generalize mkdirRecurse os (itMode it)
        (pre ++ n ++ slashed (ns ++ (q ++ [nm.take (itNameLen it)]))) h.w.tick = mk at c1 hev
      obtain ⟨r, w'⟩ := mk
      cases hev
      refine ⟨L, (q ++ [nm.take (itNameLen it)]), ?_, hs'⟩
      refine ⟨rfl, ?_, hcl, c1, I.fd,
        fun hc => absurd hc hpp⟩
      intro x hx
      rcases List.mem_append.mp hx with h | h
      · exact I.plain x h
      · rw [List.mem_singleton.mp h]; exact hpl

theorem inside_eventsL {os : Os} {w0 : World} {pre : Bytes} {d : Loc} {n : Bytes}
    (B : Base os w0 pre d n) (ns : List Bytes) (hns : ∀ x ∈ ns, PlainName x) (out : Bytes)
    (hmem : ∀ k, os.noMem k = false)
    (evs : List Ev) :
    ((∀ t, Atom.link t ∉ atoms evs) ∨ pre.head? = some 47 ∨
      ((∀ k, os.refuses k = false) ∧ CwdBack os w0.fs w0.cwd)) →
    ∀ (h h' : HL) (p : Proto) (L : List (List Bytes)) (q : List Bytes), InsideL w0 pre d n ns L h p q →
    (p.run evs).isSome → LinkSafe L q (atoms evs) → hlEvents os out h evs = .ok h' →
    ∃ L', ConfL w0 h'.w pre (d ++ [n]) L' := by
  induction evs with
  | nil => intro _ h h' p L q I _ _ hr; cases hr; exact ⟨_, I.conf⟩
  | cons e evs ih =>
    intro hback h h' p L q I hp hs hr
    have hat : atoms (e :: evs) = e.atoms ++ atoms evs := by simp [atoms]
    rw [hat] at hs hback
    simp only [Proto.run] at hp
    cases hst : p.step e with
    | none => rw [hst] at hp; simp at hp
    | some p' =>
      rw [hst] at hp
      simp only [Option.bind_some] at hp
      simp only [hlEvents] at hr
      cases hev : hlEvent os out h e with
      | error err => rw [hev] at hr; simp at hr
      | ok h1 =>
        rw [hev] at hr
        obtain ⟨L', q', I', hs'⟩ := inside_stepL B ns hns out hmem e (atoms evs) (by
          rcases hback with hb | hb
          · exact .inl (fun t ht => hb t (List.mem_append_left _ ht))
          · exact .inr hb) h h1 p p' L q I hst hs hev
        exact ih (by
          rcases hback with hb | hb
          · exact .inl (fun t ht => hb t (List.mem_append_right _ ht))
          · exact .inr hb) h1 h' p' L' q' I' hp hs' hr

end Zwt
