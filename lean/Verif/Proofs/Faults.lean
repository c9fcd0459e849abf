import Verif.Proofs.HLEnd
import Verif.Proofs.Confine
import Verif.Proofs.WinConfine
import Verif.Spec.Faults

/-! Which faults the callbacks of an archive can meet. -/

namespace Zwt

/-- Inside a file the descriptor is not a closed one, and after the announcement of a link there is a
name. -/
def HL.live (h : HL) : Proto → Prop
  | .idle => True
  | .inFile _ => h.fd ≠ .closed
  | .inLink => h.name ≠ none

theorem hlEvent_live (os : Os) (out : Bytes) (h h' : HL) (e : Ev) (p p' : Proto) (I : h.live p)
    (hst : p.step e = some p') (hr : hlEvent os out h e = .ok h') :
    h'.live p' ∧ (h'.dirPath = none → h.dirPath = none) := by
  cases e with
  | flStart => cases p <;> simp [Proto.step] at hst
  | drStart => cases p <;> simp [Proto.step] at hst
  | flRead d => cases p <;> simp [Proto.step] at hst
  | dirEnd =>
    cases p <;> simp only [Proto.step, Option.some.injEq, reduceCtorEq] at hst
    subst hst
    refine ⟨trivial, ?_⟩
    simp only [hlEvent, hlDirEnd] at hr
    split at hr
    · cases hr
    · split at hr <;> cases hr
      simp
  | symLink t a =>
    cases p <;> simp only [Proto.step, Option.some.injEq, reduceCtorEq] at hst
    subst hst
    refine ⟨trivial, ?_⟩
    simp only [hlEvent, hlSymLink] at hr
    repeat' split at hr
    all_goals (first | (cases hr; done) | (cases hr; exact id))
  | fileRead d =>
    cases p <;> simp only [Proto.step, reduceCtorEq] at hst
    split at hst <;> cases hst
    simp only [hlEvent, hlFileRead] at hr
    simp only [HL.live] at I ⊢
    split at hr
    · rename_i hf; cases hr; exact ⟨by simpa [hf] using I, id⟩
    · cases hr
    · cases hr; exact ⟨by simp, id⟩
  | fileEnd =>
    cases p with
    | inFile n =>
      cases n <;> simp only [Proto.step, Option.some.injEq, reduceCtorEq] at hst
      subst hst
      refine ⟨trivial, ?_⟩
      simp only [hlEvent, hlFileEnd] at hr
      split at hr <;> cases hr <;> exact id
    | _ => simp [Proto.step] at hst
  | itemStart ft nm it =>
    cases p with
    | idle =>
      cases ft <;> simp only [Proto.step, Option.some.injEq, reduceCtorEq] at hst <;> subst hst
      · refine ⟨trivial, ?_⟩
        simp only [hlEvent, hlItemStart, hlDirItem] at hr
        split at hr
        · cases hr; exact id
        · split at hr <;> cases hr
          simp
      · simp only [hlEvent, hlItemStart, hlFileItem] at hr
        split at hr
        · cases hr
        · split at hr <;> cases hr <;> exact ⟨by simp [HL.live], id⟩
      · simp only [hlEvent, hlItemStart] at hr
        cases hr
        exact ⟨by simp [HL.live], id⟩
    | _ => simp [Proto.step] at hst

/-- The name announced for the link that is pending has no terminator. -/
def HL.openName (h : HL) (p : Proto) : Prop := p = .inLink ∧ ∀ nm, h.name = some nm → 0 ∉ nm

theorem hlEvent_faults (os : Os) (out : Bytes) (h : HL) (e : Ev) (p p' : Proto) (I : h.live p)
    (hst : p.step e = some p') (x : Fault) (hr : hlEvent os out h e = .error x) :
    (x = .nullDeref ∧ h.dirPath = none ∧ e = .dirEnd) ∨
    (x = .assertFail ∧ e = .dirEnd ∧ ∃ q, h.dirPath = some q ∧ 47 ∉ cString q) ∨
    (x = .oobRead ∧ (h.openName p ∨ ∃ a ∈ e.atoms, a.sloppy)) := by
  have hpath : ∀ (g : HL) (nm : Bytes) (n : Nat) (y : Fault), itemPath g nm n = .error y →
      y = .oobRead ∧ nm.length < n := by
    intro g nm n y hy
    simp only [itemPath] at hy
    split at hy <;> cases hy
    exact ⟨rfl, by omega⟩
  cases e with
  | flStart => cases p <;> simp [Proto.step] at hst
  | drStart => cases p <;> simp [Proto.step] at hst
  | flRead d => cases p <;> simp [Proto.step] at hst
  | dirEnd =>
    simp only [hlEvent, hlDirEnd] at hr
    split at hr
    · rename_i hd; cases hr; exact .inl ⟨rfl, hd, rfl⟩
    · rename_i q hd
      split at hr <;> cases hr
      rename_i hl
      exact .inr (.inl ⟨rfl, rfl, q, hd, lastIndexOf_eq_none hl⟩)
  | symLink t a =>
    cases p <;> simp only [Proto.step, Option.some.injEq, reduceCtorEq] at hst
    simp only [HL.live] at I
    simp only [hlEvent, hlSymLink] at hr
    split at hr
    · cases hr
    · split at hr
      · cases hr
      · split at hr
        · cases hr
        · split at hr
          · rename_i hn; exact absurd hn I
          · rename_i nm hn
            split at hr
            · cases hr
            · rename_i hno
              cases hr
              refine .inr (.inr ⟨rfl, ?_⟩)
              by_cases h0 : (0 : UInt8) ∈ nm
              · refine .inr ⟨.link t, by simp [Ev.atoms], ?_⟩
                intro hlast
                have ht : (0 : UInt8) ∈ t := List.mem_of_getLast? hlast
                exact hno _ _ (by rw [cstr?, if_pos (List.mem_append_left _ ht)])
                  (by rw [cstr?, if_pos h0])
              · refine .inl ⟨rfl, ?_⟩
                intro nm' hnm'
                rw [hn] at hnm'
                cases hnm'
                exact h0
  | fileRead d =>
    cases p <;> simp only [Proto.step, reduceCtorEq] at hst
    simp only [hlEvent, hlFileRead] at hr
    split at hr <;> cases hr
    rename_i hf
    exact absurd hf I
  | fileEnd =>
    cases p with
    | inFile n =>
      simp only [hlEvent, hlFileEnd] at hr
      split at hr <;> cases hr
      rename_i hf
      exact absurd hf I
    | _ => simp [Proto.step] at hst
  | itemStart ft nm it =>
    cases p with
    | idle =>
      cases ft <;> simp only [Proto.step, Option.some.injEq, reduceCtorEq] at hst
      · simp only [hlEvent, hlItemStart, hlDirItem] at hr
        split at hr
        · cases hr
        · split at hr <;> cases hr
          rename_i hp
          obtain ⟨g1, g2⟩ := hpath _ _ _ _ hp
          exact .inr (.inr ⟨g1, .inr ⟨_, List.mem_singleton.mpr rfl, g2⟩⟩)
      · simp only [hlEvent, hlItemStart, hlFileItem] at hr
        split at hr
        · rename_i hp
          cases hr
          obtain ⟨g1, g2⟩ := hpath _ _ _ _ hp
          exact .inr (.inr ⟨g1, .inr ⟨_, List.mem_singleton.mpr rfl, g2⟩⟩)
        · split at hr <;> cases hr
      · simp only [hlEvent, hlItemStart] at hr
        cases hr
    | _ => simp [Proto.step] at hst

theorem hlEvent_openName (os : Os) (out : Bytes) (h h' : HL) (e : Ev) (p p' : Proto)
    (hst : p.step e = some p') (hr : hlEvent os out h e = .ok h') (ho : h'.openName p') :
    ∃ a ∈ e.atoms, a.sloppy := by
  obtain ⟨rfl, ho⟩ := ho
  cases p with
  | idle =>
    cases e with
    | itemStart ft nm it =>
      cases ft <;> simp only [Proto.step, Option.some.injEq, reduceCtorEq] at hst
      simp only [hlEvent, hlItemStart] at hr
      cases hr
      exact ⟨_, List.mem_singleton.mpr rfl, ho nm rfl⟩
    | _ => simp [Proto.step] at hst
  | inFile n =>
    cases e with
    | fileRead d => simp only [Proto.step] at hst; split at hst <;> cases hst
    | fileEnd => cases n <;> simp [Proto.step] at hst
    | _ => simp [Proto.step] at hst
  | inLink => cases e <;> simp [Proto.step] at hst

/-- The callbacks of the entries of a directory. -/
theorem hlEvents_faults (os : Os) (out : Bytes) (evs : List Ev) : ∀ (h : HL) (p : Proto), h.live p →
    (p.run evs).isSome → ∀ x, hlEvents os out h evs = .error x →
    (x = .nullDeref ∧ h.dirPath = none ∧ Atom.dirEnd ∈ atoms evs) ∨
    (x = .assertFail ∧ Atom.dirEnd ∈ atoms evs) ∨
    (x = .oobRead ∧ (h.openName p ∨ ∃ a ∈ atoms evs, a.sloppy)) := by
  induction evs with
  | nil => intro h p _ _ x hx; cases hx
  | cons e evs ih =>
    intro h p I hp x hx
    have hat : atoms (e :: evs) = e.atoms ++ atoms evs := by simp [atoms]
    rw [hat]
    simp only [Proto.run] at hp
    cases hst : p.step e with
    | none => rw [hst] at hp; simp at hp
    | some p' =>
      rw [hst] at hp
      simp only [Option.bind_some] at hp
      simp only [hlEvents] at hx
      split at hx
      · rename_i y hy
        cases hx
        rcases hlEvent_faults os out h e p p' I hst _ hy with ⟨a, b, rfl⟩ | ⟨a, rfl, _⟩ | ⟨a, b⟩
        · exact .inl ⟨a, b, by simp [Ev.atoms]⟩
        · exact .inr (.inl ⟨a, by simp [Ev.atoms]⟩)
        · refine .inr (.inr ⟨a, ?_⟩)
          rcases b with b | ⟨a, b, c⟩
          · exact .inl b
          · exact .inr ⟨a, List.mem_append_left _ b, c⟩
      · rename_i h1 h1e
        obtain ⟨I', hd⟩ := hlEvent_live os out h h1 e p p' I hst h1e
        rcases ih h1 p' I' hp x hx with ⟨a, b, c⟩ | ⟨a, b⟩ | ⟨a, b⟩
        · exact .inl ⟨a, hd b, List.mem_append_right _ c⟩
        · exact .inr (.inl ⟨a, List.mem_append_right _ b⟩)
        · refine .inr (.inr ⟨a, .inr ?_⟩)
          rcases b with b | ⟨a, b, c⟩
          · obtain ⟨a, b, c⟩ := hlEvent_openName os out h h1 e p p' hst h1e b
            exact ⟨a, List.mem_append_left _ b, c⟩
          · exact ⟨a, List.mem_append_right _ b, c⟩

/-- Cutting at the last slash removes exactly one. -/
theorem count_cut {p : Bytes} {i : Nat} (h : lastIndexOf 47 p = some i) :
    (p.take i).count 47 + 1 = p.count 47 := by
  induction p generalizing i with
  | nil => simp [lastIndexOf] at h
  | cons b bs ih =>
    simp only [lastIndexOf] at h
    split at h
    · rename_i j hj
      cases h
      have := ih hj
      simp only [List.take_succ_cons, List.count_cons]
      omega
    · rename_i hn
      split at h <;> cases h
      rename_i hb
      subst hb
      have := List.count_eq_zero.mpr (lastIndexOf_eq_none hn)
      simp [List.count_cons, this]

/-- The path of the current directory has a slash for every directory that is open in the archive. -/
def pathDepth (d : Nat) : Option Bytes → Prop
  | none => d = 0
  | some p => 0 ∉ p ∧ d ≤ p.count 47

theorem pathDepth_enter {d : Nat} {o : Option Bytes} (h : pathDepth d o) {nm : Bytes} (h0 : 0 ∉ nm) :
    pathDepth (d + 1) (some (o.getD [] ++ 47 :: nm)) := by
  cases o with
  | none =>
    simp only [pathDepth] at h
    subst h
    simp [pathDepth, h0]
  | some p =>
    obtain ⟨a, b⟩ := h
    refine ⟨by simp [a, h0], ?_⟩
    simp only [Option.getD_some, List.count_append, List.count_cons_self]
    omega

theorem pathDepth_leave {d : Nat} {p : Bytes} (h : pathDepth (d + 1) (some p)) :
    ∃ i, lastIndexOf 47 (cString p) = some i ∧ pathDepth d (some (p.take i)) := by
  obtain ⟨a, b⟩ := h
  rw [cString_plain _ a]
  cases hl : lastIndexOf 47 p with
  | none =>
    have := List.count_eq_zero.mpr (lastIndexOf_eq_none hl)
    omega
  | some i =>
    have := count_cut hl
    exact ⟨i, rfl, fun h => a (List.mem_of_mem_take h), by omega⟩

/-- With memory, names without NUL and matched ends, leaving a directory is always possible. -/
theorem hlEvents_leave (os : Os) (hmem : ∀ k, os.noMem k = false) (out : Bytes) (evs : List Ev) :
    ∀ (h : HL) (p : Proto) (d : Nat), h.live p → pathDepth d h.dirPath → (p.run evs).isSome →
    (∀ a ∈ atoms evs, ¬ a.nulDir) → balance d (atoms evs) ≠ none →
    ∀ x, hlEvents os out h evs = .error x → x = .oobRead := by
  induction evs with
  | nil => intro h p d _ _ _ _ _ x hx; cases hx
  | cons e evs ih =>
    intro h p d I hd hp hn hb x hx
    have hat : atoms (e :: evs) = e.atoms ++ atoms evs := by simp [atoms]
    rw [hat] at hn hb
    simp only [Proto.run] at hp
    cases hst : p.step e with
    | none => rw [hst] at hp; simp at hp
    | some p' =>
      rw [hst] at hp
      simp only [Option.bind_some] at hp
      have hn2 : ∀ a ∈ atoms evs, ¬ a.nulDir := fun a ha => hn a (List.mem_append_right _ ha)
      -- what happens to the path
      have key : (∀ h1, hlEvent os out h e = .ok h1 →
          ∃ d', pathDepth d' h1.dirPath ∧ balance d' (atoms evs) ≠ none) ∧
          (e = .dirEnd → ∃ q, h.dirPath = some q ∧ 47 ∈ cString q) := by
        cases e with
        | flStart => cases p <;> simp [Proto.step] at hst
        | drStart => cases p <;> simp [Proto.step] at hst
        | flRead d => cases p <;> simp [Proto.step] at hst
        | dirEnd =>
          cases d with
          | zero => exact absurd rfl hb
          | succ d =>
            cases hq : h.dirPath with
            | none => rw [hq] at hd; exact absurd hd (by simp [pathDepth])
            | some q =>
              rw [hq] at hd
              obtain ⟨i, g1, g2⟩ := pathDepth_leave hd
              refine ⟨?_, fun _ => ⟨q, rfl, List.mem_of_getElem? (lastIndexOf_some g1)⟩⟩
              intro h1 hr
              simp only [hlEvent, hlDirEnd, hq, g1] at hr
              cases hr
              exact ⟨d, g2, hb⟩
        | symLink t a =>
          refine ⟨?_, fun h => by cases h⟩
          intro h1 hr
          refine ⟨d, ?_, hb⟩
          simp only [hlEvent, hlSymLink] at hr
          repeat' split at hr
          all_goals (first | (cases hr; done) | (cases hr; exact hd))
        | fileRead ds =>
          refine ⟨?_, fun h => by cases h⟩
          intro h1 hr
          refine ⟨d, ?_, by
            rwa [show Ev.atoms (.fileRead ds) = ds.map .byte from rfl, balance_bytes] at hb⟩
          simp only [hlEvent, hlFileRead] at hr
          split at hr <;> cases hr <;> exact hd
        | fileEnd =>
          refine ⟨?_, fun h => by cases h⟩
          intro h1 hr
          refine ⟨d, ?_, hb⟩
          simp only [hlEvent, hlFileEnd] at hr
          split at hr <;> cases hr <;> exact hd
        | itemStart ft nm it =>
          refine ⟨?_, fun h => by cases h⟩
          intro h1 hr
          cases ft with
          | none => cases p <;> simp [Proto.step] at hst
          | dir =>
            refine ⟨d + 1, ?_, hb⟩
            simp only [hlEvent, hlItemStart, hlDirItem, hmem] at hr
            simp only [itemPath] at hr
            split at hr
            · rename_i hc; simp at hc
            · split at hr
              · cases hr
              · rename_i hpth
                split at hpth <;> cases hpth
                cases hr
                exact pathDepth_enter hd (hn _ (List.mem_append_left _ (List.mem_singleton.mpr rfl)))
          | file =>
            refine ⟨d, ?_, hb⟩
            simp only [hlEvent, hlItemStart, hlFileItem] at hr
            split at hr
            · cases hr
            · split at hr <;> cases hr <;> exact hd
          | symlink =>
            refine ⟨d, ?_, hb⟩
            simp only [hlEvent, hlItemStart] at hr
            cases hr
            exact hd
      simp only [hlEvents] at hx
      split at hx
      · rename_i y hy
        cases hx
        rcases hlEvent_faults os out h e p p' I hst _ hy with ⟨_, b, he⟩ | ⟨_, he, q, b, c⟩ | ⟨a, _⟩
        · obtain ⟨q, g1, _⟩ := key.2 he
          rw [b] at g1
          cases g1
        · obtain ⟨q', g1, g2⟩ := key.2 he
          rw [b] at g1
          cases g1
          exact absurd g2 c
        · exact a
      · rename_i h1 h1e
        obtain ⟨d', k1, k2⟩ := key.1 h1 h1e
        exact ih h1 p' d' (hlEvent_live os out h h1 e p p' I hst h1e).1 k1 hp hn2 k2 x hx

/-- Everything but links is the same. -/
theorem LinkSfx.mem {l l' : List Atom} (h : LinkSfx l l') (a : Atom) (hl : ∀ t, a ≠ .link t)
    (ha : a ∈ l) : a ∈ l' := by
  induction h with
  | nil => exact ha
  | same b _ ih =>
    rcases List.mem_cons.mp ha with rfl | ha
    · exact List.mem_cons_self
    · exact List.mem_cons_of_mem _ (ih ha)
  | link ht _ ih =>
    rcases List.mem_cons.mp ha with ha | ha
    · exact absurd ha (hl _)
    · exact List.mem_cons_of_mem _ (ih ha)

/-- A link read in part is as sloppy as the whole. -/
theorem LinkSfx.sloppy {l l' : List Atom} (h : LinkSfx l l') (a : Atom) (ha : a ∈ l)
    (hs : a.sloppy) : ∃ a' ∈ l', a'.sloppy := by
  induction h with
  | nil => simp at ha
  | same b _ ih =>
    rcases List.mem_cons.mp ha with rfl | ha
    · exact ⟨a, List.mem_cons_self, hs⟩
    · obtain ⟨a', g1, g2⟩ := ih ha
      exact ⟨a', List.mem_cons_of_mem _ g1, g2⟩
  | @link t t' l l' ht _ ih =>
    rcases List.mem_cons.mp ha with rfl | ha
    · refine ⟨.link t', List.mem_cons_self, ?_⟩
      simp only [Atom.sloppy] at hs ⊢
      obtain ⟨⟨u, rfl⟩, h2⟩ := ht
      cases t with
      | nil => rw [h2 rfl]; exact hs
      | cons x t => rwa [List.getLast?_append, List.getLast?_cons, Option.some_or, ← List.getLast?_cons]
    · obtain ⟨a', g1, g2⟩ := ih ha
      exact ⟨a', List.mem_cons_of_mem _ g1, g2⟩

/-- The callbacks of a directory archive, told from what they are made of. -/
theorem ArchiveLog.split {ok : AllocOracle} {B : Nat} {P Q : Bytes} {pieces : List Bytes}
    {log : List Ev} (hlog : ArchiveLog ok B P pieces log) (hP : P <+: Q) :
    log = [] ∨
    ((hdrKind (Q.take 128) = CT_FILE ∨ hdrKind (Q.take 128) = CT_BLOB) ∧
      ∃ ds : List Bytes, log = .flStart :: ds.map .flRead) ∨
    (hdrKind (Q.take 128) = CT_DIRECTORY ∧ ∃ evs, log = .drStart :: evs ∧
      (Proto.idle.run evs).isSome ∧
      (∀ a ∈ atoms evs, a.sloppy → ∃ a' ∈ (specParse ok 0 (Q.drop 128)).atoms, a'.sloppy) ∧
      (∀ a ∈ atoms evs, (∀ t, a ≠ .link t) → a ∈ (specParse ok 0 (Q.drop 128)).atoms) ∧
      (balance 0 (specParse ok 0 (Q.drop 128)).atoms ≠ none → balance 0 (atoms evs) ≠ none)) := by
  cases hlog with
  | short => exact .inl rfl
  | version => exact .inl rfl
  | empty => exact .inl rfl
  | unknown => exact .inl rfl
  | @file h chunks a1 a2 a3 =>
    obtain ⟨t, rfl⟩ := hP
    rw [List.append_assoc, List.take_left' a1]
    exact .inr (.inl ⟨a3, _, rfl⟩)
  | @dir hd _ evs owed a1 a2 a3 a4 a5 a6 a7 a8 a9 a10 =>
    obtain ⟨u, hu⟩ := hP
    have hd2 : Q.drop 128 = pieces.flatten ++ u := by
      rw [← hu, List.append_assoc, List.drop_left' a1]
    have hd1 : Q.take 128 = hd := by rw [← hu, List.append_assoc, List.take_left' a1]
    obtain ⟨v, hv⟩ := specParse_prefix ok 0 pieces.flatten u
    rw [hd1, hd2, ← hv]
    refine .inr (.inr ⟨a3, evs, rfl, a10, ?_, ?_, ?_⟩)
    · intro a ha hs
      obtain ⟨a', g1, g2⟩ := a8.sloppy a (List.mem_append_left _ ha) hs
      exact ⟨a', List.mem_append_left _ g1, g2⟩
    · intro a ha hl
      exact List.mem_append_left _ (a8.mem a hl (List.mem_append_left _ ha))
    · intro hb
      have hb' := balance_after hb
      rw [← a8.balance 0] at hb'
      exact balance_after hb'

/-- The callbacks of a file archive. -/
theorem hlEvents_file_ok (os : Os) (out : Bytes) (ds : List Bytes) : ∀ (h : HL), h.fpOut ≠ none →
    ∃ h', hlEvents os out h (ds.map .flRead) = .ok h' := by
  induction ds with
  | nil => intro h _; exact ⟨h, rfl⟩
  | cons d ds ih =>
    intro h hf
    cases hp : h.fpOut with
    | none => exact absurd hp hf
    | some f =>
      simp only [List.map_cons, hlEvents, hlEvent, hlFileData, hp]
      exact ih _ (by simp)

theorem hlEvents_file_fault (os : Os) (out : Bytes) (w : World) (ds : List Bytes) (x : Fault)
    (hx : hlEvents os out (HL.init w) (.flStart :: ds.map .flRead) = .error x) :
    x = .nullDeref ∧ (sysOpen os w out FOPEN_MODE true).1 = none := by
  simp only [hlEvents, hlEvent, hlFileStart, HL.init] at hx
  cases hs : sysOpen os w out FOPEN_MODE true with
  | mk o w' =>
    rw [hs] at hx
    cases o with
    | none =>
      refine ⟨?_, rfl⟩
      cases ds with
      | nil => cases hx
      | cons d ds => simp only [List.map_cons, hlEvents, hlEvent, hlFileData] at hx; cases hx; rfl
    | some l =>
      simp only at hx
      obtain ⟨h', hh⟩ := hlEvents_file_ok os out ds
        { w := w', fpOut := some ⟨l, 0⟩, dirPath := none, hasError := false, fd := .bad, ret := CT_FILE,
          name := none } (by simp)
      rw [hh] at hx
      cases hx

/-- The path after the start of a directory archive. -/
theorem hlDirStart_made (os : Os) (out : Bytes) (w : World) :
    ((hlDirStart os out (HL.init w)).dirPath = some out ∧
      (mkdirRecurse os BASE_DIR_MODE out w).1 = 0) ∨
    ((hlDirStart os out (HL.init w)).dirPath = none ∧
      ((mkdirRecurse os BASE_DIR_MODE out w).1 ≠ 0 ∨
        os.noMem (mkdirRecurse os BASE_DIR_MODE out w).2.calls = true)) := by
  simp only [hlDirStart, HL.init]
  by_cases hr : (mkdirRecurse os BASE_DIR_MODE out w).1 = 0
  · by_cases hn : os.noMem (mkdirRecurse os BASE_DIR_MODE out w).2.calls = true
    · simp [hr, hn]
    · simp [hr, hn]
  · simp [hr]

end Zwt
