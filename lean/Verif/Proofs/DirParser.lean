import Verif.Spec.DirStream
import Verif.Proofs.Bytes

/-!
Simulation of the directory parser by the record grammar.
-/

namespace Zwt

theorem Parsed.after_nil (p : Parsed) : p.after [] = p := rfl
theorem Parsed.after_after (a b : List Atom) (p : Parsed) :
    (p.after b).after a = p.after (a ++ b) := by simp [Parsed.after]

/-! ### Pieces of the grammar -/

/-- Type shown to callbacks for a record kind. -/
def ftOf (kind : Nat) : FType :=
  if kind = 1 then .dir else if kind = 0 then .file else .symlink

/-- Padding announced by a record. -/
def gapOf (item : Bytes) : Nat := sub64 (itFileSizeNorm item) (itFileSize item)

/-- Reading on after skipping `n` bytes. -/
def specSkip (ok : AllocOracle) (k n : Nat) (bs : Bytes) : Parsed :=
  if bs.length < n then ⟨[], .inGap (n - bs.length)⟩ else specParse ok k (bs.drop n)

/-- Reading a file payload of which `n` bytes are outstanding. -/
def specFile (ok : AllocOracle) (k : Nat) (item : Bytes) (n : Nat) (bs : Bytes) : Parsed :=
  if bs.length < n then ⟨bs.map .byte, .inFile (n - bs.length)⟩
  else (specSkip ok k (gapOf item) (bs.drop n)).after ((bs.take n).map .byte ++ [.fileEnd])

/-- Reading a link payload of which `got` bytes are read and `n` outstanding. -/
def specLink (ok : AllocOracle) (k : Nat) (item : Bytes) (got n : Nat) (bs : Bytes) : Parsed :=
  if bs.length < n then ⟨[], .inLink (got + bs.length) (n - bs.length)⟩
  else (specSkip ok k (gapOf item) (bs.drop n)).after [.link (bs.take n)]

/-- What follows the name of a record. -/
def specBody (ok : AllocOracle) (k : Nat) (item : Bytes) (bs : Bytes) : Parsed :=
  if itKind item = 1 then specParse ok k bs
  else if itKind item = 0 then specFile ok k item (itFileSize item) bs
  else specLink ok k item 0 (itFileSize item) bs

/-- What follows the item of a record having a name. -/
def specName (ok : AllocOracle) (k : Nat) (item : Bytes) (bs : Bytes) : Parsed :=
  if bs.length < itNameLenNorm item then ⟨[], .inName item bs⟩
  else (specBody ok k item (bs.drop (itNameLenNorm item))).after
    [.start (ftOf (itKind item)) (bs.take (itNameLenNorm item)) item]

/-- What follows an item. -/
def specItem (ok : AllocOracle) (k : Nat) (item : Bytes) (bs : Bytes) : Parsed :=
  if itKind item = 2 then (specParse ok k bs).after [.dirEnd]
  else if itKind item = 0 ∨ itKind item = 1 ∨ itKind item = 4 then
    if ok k (itNameLenNorm item) then specName ok (k+1) item bs else ⟨[], .dead⟩
  else specParse ok k bs

theorem specParse_short (ok : AllocOracle) (k : Nat) (bs : Bytes) (h : bs.length < 40) :
    specParse ok k bs = ⟨[], .inItem bs⟩ := by
  rw [specParse]; simp [h]

theorem specSkip_add (ok : AllocOracle) (k a g : Nat) (l : Bytes) (h : ¬ l.length < a)
    (as : List Atom) :
    (if l.length < a + g then ⟨as, .inGap (a + g - l.length)⟩
      else (specParse ok k (l.drop (a + g))).after as) =
      (specSkip ok k g (l.drop a)).after as := by
  unfold specSkip
  by_cases hg : l.length < a + g
  · have : (l.drop a).length < g := by simp; omega
    rw [if_pos hg, if_pos this]
    simp [Parsed.after]; omega
  · have : ¬ (l.drop a).length < g := by simp; omega
    rw [if_neg hg, if_neg this, List.drop_drop]

theorem specParse_item (ok : AllocOracle) (k : Nat) (item bs : Bytes) (h : item.length = 40) :
    specParse ok k (item ++ bs) = specItem ok k item bs := by
  rw [specParse]
  have h1 : ¬ (item ++ bs).length < 40 := by simp; omega
  have h2 : (item ++ bs).take 40 = item := by rw [← h]; simp
  have h3 : (item ++ bs).drop 40 = bs := by rw [← h]; simp
  simp only [h1, h2, h3, dite_false, specItem]
  by_cases k2 : itKind item = 2
  · simp [k2]
  · simp only [k2, if_false]
    by_cases kk : itKind item = 0 ∨ itKind item = 1 ∨ itKind item = 4
    · simp only [kk, if_true]
      cases hok : ok k (itNameLenNorm item)
      · simp
      · simp only [specName, not_true_eq_false, if_false, if_true]
        by_cases hl : bs.length < itNameLenNorm item
        · simp [hl]
        · simp only [hl, if_false, specBody, ftOf, specFile, specLink]
          generalize bs.drop (itNameLenNorm item) = l
          generalize bs.take (itNameLenNorm item) = nm
          by_cases hf : l.length < itFileSize item
          · rcases kk with h0 | h1' | h4 <;> simp [*, Parsed.after]
          · rw [specSkip_add _ _ _ _ _ hf, specSkip_add _ _ _ _ _ hf]
            rcases kk with h0 | h1' | h4 <;> simp [*, gapOf, Parsed.after_after]
    · simp [kk]

/-! ### Invariant of the machine -/

/-- Invariant of a parser that has not failed, by stage. -/
def StInv (s : DirSt) : Prop :=
  match s.stage with
  | .header => s.secSize = 40 ∧ s.offset < 40
  | .filename => s.secSize = itNameLenNorm s.item ∧ (s.offset < s.secSize ∨ s.offset = 0) ∧
      (∃ nm, s.name = some nm ∧ nm.length = s.secSize) ∧
      (itKind s.item = 0 ∨ itKind s.item = 1 ∨ itKind s.item = 4) ∧
      s.fileType = ftOf (itKind s.item)
  | .readfile => s.secSize = itFileSize s.item ∧ (s.offset < s.secSize ∨ s.offset = 0) ∧ itKind s.item = 0
  | .fileGap => s.secSize = gapOf s.item ∧ (s.offset < s.secSize ∨ s.offset = 0) ∧ itKind s.item = 0
  | .symLink => s.secSize = itFileSize s.item ∧ (s.offset < s.secSize ∨ s.offset = 0) ∧ itKind s.item = 4
  | .symLinkGap => s.secSize = gapOf s.item ∧ (s.offset < s.secSize ∨ s.offset = 0) ∧ itKind s.item = 4

/-- Invariant of the parser. -/
structure Inv (s : DirSt) : Prop where
  itemLen : s.item.length = 40
  live : s.hasError = false → StInv s

theorem dirInit_inv (junk : Bytes) (h : junk.length = 11) : Inv (dirInit junk) := by
  constructor
  · simp [dirInit, itemBytes, leEnc_length, h]
  · intro _; simp [StInv, dirInit, ITEM_SIZE]

theorem Inv.sec {s : DirSt} (h : Inv s) (he : s.hasError = false) :
    s.offset ≤ s.secSize ∧ s.secSize < U64 := by
  have hl := h.live he
  unfold StInv at hl
  have b1 := itFileSize_lt s.item
  have b2 := itNameLenNorm_lt s.item
  have b3 : gapOf s.item < U64 := sub64_lt (itFileSizeNorm_lt _)
  unfold U32 at *; unfold U64 at *
  cases hs : s.stage <;> simp only [hs] at hl <;> omega

/-- Meaning of the input still to come, in parser state `s`. -/
def specFrom (ok : AllocOracle) (s : DirSt) (bs : Bytes) : Parsed :=
  if s.hasError then ⟨[], .dead⟩
  else match s.stage with
  | .header => specParse ok s.reallocs (s.item.take s.offset ++ bs)
  | .filename => specName ok s.reallocs s.item ((s.name.getD []).take s.offset ++ bs)
  | .readfile => specFile ok s.reallocs s.item (s.secSize - s.offset) bs
  | .fileGap | .symLinkGap => specSkip ok s.reallocs (s.secSize - s.offset) bs
  | .symLink => specLink ok s.reallocs s.item s.offset (s.secSize - s.offset) bs

/-! ### Equality up to cut link targets -/

theorem LinkSfx.refl (l : List Atom) : LinkSfx l l := by
  induction l with
  | nil => exact .nil
  | cons a l ih => exact .same a ih

theorem LinkSfx.trans {a b c : List Atom} (h : LinkSfx a b) (h' : LinkSfx b c) : LinkSfx a c := by
  induction h generalizing c with
  | nil => exact h'
  | same a _ ih =>
    cases h' with
    | same _ h2 => exact .same _ (ih h2)
    | link hs h2 => exact .link hs (ih h2)
  | link hs _ ih =>
    cases h' with
    | same _ h2 => exact .link hs (ih h2)
    | link hs' h2 => exact .link ⟨hs.1.trans hs'.1, fun h => hs'.2 (hs.2 h)⟩ (ih h2)

theorem LinkSfx.append_left (p : List Atom) {a b : List Atom} (h : LinkSfx a b) :
    LinkSfx (p ++ a) (p ++ b) := by
  induction p with
  | nil => exact h
  | cons x p ih => exact .same x ih

theorem LinkSfx.append_right {a b : List Atom} (h : LinkSfx a b) (c : List Atom) :
    LinkSfx (a ++ c) (b ++ c) := by
  induction h with
  | nil => exact LinkSfx.refl c
  | same x _ ih => exact .same x ih
  | link ht _ ih => exact .link ht ih

/-- Refinement of results. -/
def Parsed.Le (p q : Parsed) : Prop := LinkSfx p.atoms q.atoms ∧ p.ending = q.ending

theorem Parsed.Le.refl (p : Parsed) : p.Le p := ⟨.refl _, rfl⟩
theorem Parsed.Le.trans {p q r : Parsed} (h : p.Le q) (h' : q.Le r) : p.Le r :=
  ⟨h.1.trans h'.1, h.2.trans h'.2⟩
theorem Parsed.Le.after (as : List Atom) {p q : Parsed} (h : p.Le q) :
    (p.after as).Le (q.after as) := ⟨h.1.append_left as, h.2⟩

/-- The parser is strictly inside a link target. -/
def Cut (s : DirSt) : Prop := s.hasError = false ∧ s.stage = .symLink ∧ 0 < s.offset

theorem atoms_append (a b : List Ev) : atoms (a ++ b) = atoms a ++ atoms b := by
  simp [atoms]

/-- Recursion depth needed in state `s` on `n` bytes. -/
def need (s : DirSt) (n : Nat) : Nat :=
  match s.stage with
  | .header => 1 + 4 * ((n + s.offset) / 40)
  | .filename => 4 + 4 * (n / 40)
  | .readfile | .symLink => 3 + 4 * (n / 40)
  | .fileGap | .symLinkGap => 2 + 4 * (n / 40)

theorem Proto.run_append (p : Proto) (a b : List Ev) :
    p.run (a ++ b) = (p.run a).bind (fun q => q.run b) := by
  induction a generalizing p with
  | nil => rfl
  | cons e es ih =>
    simp only [List.cons_append, Proto.run]
    cases p.step e with
    | none => rfl
    | some q => simp [ih]

/-- Protocol state of a parser state. -/
def pst (s : DirSt) : Proto :=
  match s.stage with
  | .readfile => .inFile (s.secSize - s.offset)
  | .symLink => .inLink
  | _ => .idle

/-- The parser is in a payload. -/
def InBody (s : DirSt) : Prop := s.hasError = false ∧ (s.stage = .readfile ∨ s.stage = .symLink)

/-- Where link targets are in the buffer, and that the item of a payload has been announced. -/
structure Seen (ok : AllocOracle) (s : DirSt) (buf : Bytes) (s' : DirSt) (evs : List Ev) : Prop where
  link : ∀ t a, .symLink t a ∈ evs → t ≠ [] →
    ∃ u g, buf = u ++ t ++ a ∧ (specFrom ok s u).ending = .inLink g t.length
  item : InBody s' → (InBody s ∧ s'.item = s.item) ∨ ∃ ft nm, .itemStart ft nm s'.item ∈ evs

/-- What one parser invocation guarantees. -/
def Good (ok : AllocOracle) (s : DirSt) (buf : Bytes) (r : Run (DirSt × List Ev)) : Prop :=
  ∃ s' evs, r = .ok (s', evs) ∧ Inv s' ∧
    (∀ tl, ((specFrom ok s' tl).after (atoms evs)).Le (specFrom ok s (buf ++ tl))) ∧
    (¬ Cut s' → ∀ tl, (specFrom ok s' tl).after (atoms evs) = specFrom ok s (buf ++ tl)) ∧
    (specFrom ok s' []).after (atoms evs) = specFrom ok s buf ∧
    (pst s).run evs = some (pst s') ∧ Seen ok s buf s' evs

theorem next_good (ok : AllocOracle) (depth : Nat) (s s1 : DirSt) (buf : Bytes) (evs1 : List Ev)
    (remn : Nat) (hr : remn ≤ buf.length) (hi : Inv s1)
    (hspec : ∀ tl, (specFrom ok s1 tl).after (atoms evs1) = specFrom ok s (buf.take remn ++ tl))
    (hp : (pst s).run evs1 = some (pst s1))
    (hL : ∀ t a, .symLink t a ∈ evs1 → t ≠ [] →
      ∃ u g, buf = u ++ t ++ a ∧ (specFrom ok s u).ending = .inLink g t.length)
    (hI : InBody s1 → ∃ ft nm, .itemStart ft nm s1.item ∈ evs1)
    (ih : remn < buf.length → Good ok s1 (buf.drop remn) (dirData ok depth s1 (buf.drop remn))) :
    Good ok s buf
      (if buf.length > remn then
        match dirData ok depth s1 (buf.drop remn) with
        | .error e => .error e
        | .ok (s'', evs') => .ok (s'', evs1 ++ evs')
      else .ok (s1, evs1)) := by
  by_cases h : remn < buf.length
  · obtain ⟨s', evs, he, hinv, hle, heq, hnil, hpr, hsn⟩ := ih h
    refine ⟨s', evs1 ++ evs, by simp [h, he], hinv, ?_, ?_, ?_, ?_, ?_, ?_⟩
    · intro tl
      have h2 := hspec (buf.drop remn ++ tl)
      rw [← List.append_assoc, List.take_append_drop] at h2
      rw [← h2, atoms_append, ← Parsed.after_after]
      exact (hle tl).after _
    · intro hc tl
      have h2 := hspec (buf.drop remn ++ tl)
      rw [← List.append_assoc, List.take_append_drop] at h2
      rw [← h2, atoms_append, ← Parsed.after_after, heq hc tl]
    · have h2 := hspec (buf.drop remn)
      rw [List.take_append_drop] at h2
      rw [← h2, atoms_append, ← Parsed.after_after, hnil]
    · rw [Proto.run_append, hp]; exact hpr
    · intro t a hm ht
      rcases List.mem_append.mp hm with hm | hm
      · exact hL t a hm ht
      · obtain ⟨u, g, h1, h2⟩ := hsn.link t a hm ht
        refine ⟨buf.take remn ++ u, g, ?_, ?_⟩
        · rw [List.append_assoc, List.append_assoc, ← List.append_assoc u, ← h1,
            List.take_append_drop]
        · rw [← hspec u]; exact h2
    · intro hb
      rcases hsn.item hb with ⟨h1, h2⟩ | ⟨ft, nm, h1⟩
      · obtain ⟨ft, nm, h3⟩ := hI h1
        exact .inr ⟨ft, nm, by rw [h2]; exact List.mem_append_left _ h3⟩
      · exact .inr ⟨ft, nm, List.mem_append_right _ h1⟩
  · have hb : buf.take remn = buf := List.take_of_length_le (by omega)
    refine ⟨s1, evs1, by simp [h], hi, ?_, ?_, ?_, hp, hL, fun h => .inr (hI h)⟩
    · intro tl; rw [hspec tl, hb]; exact .refl _
    · intro _ tl; rw [hspec tl, hb]
    · rw [hspec [], hb, List.append_nil]

theorem take_append_left' {α} (a b : List α) {n : Nat} (h : a.length = n) :
    (a ++ b).take n = a := by subst h; simp
theorem drop_append_left' {α} (a b : List α) {n : Nat} (h : a.length = n) :
    (a ++ b).drop n = b := by subst h; simp

theorem reallocContent_length (o : Option Bytes) (n : Nat) : (reallocContent o n).length = n := by
  simp [reallocContent]

/-- The kind switch after a complete item. -/
theorem headerSwitch_good (ok : AllocOracle) (s : DirSt) (he : s.hasError = false)
    (hs : s.stage = .header) (hz : s.secSize = 40) (hl : s.item.length = 40) :
    Inv { (headerSwitch ok s).1 with offset := 0 } ∧
    (∀ tl, (specFrom ok { (headerSwitch ok s).1 with offset := 0 } tl).after
      (atoms (headerSwitch ok s).2) = specItem ok s.reallocs s.item tl) ∧
    (pst s).run (headerSwitch ok s).2 = some (pst { (headerSwitch ok s).1 with offset := 0 }) ∧
    ∀ n, need { (headerSwitch ok s).1 with offset := 0 } n ≤ 4 + 4 * (n / 40) := by
  have closing : ∀ (ft : FType), (itKind s.item = 0 ∨ itKind s.item = 1 ∨ itKind s.item = 4) →
      ft = ftOf (itKind s.item) →
      Inv { fileHeaderClosing ok s with fileType := ft, offset := 0 } ∧
      (∀ tl, (specFrom ok { fileHeaderClosing ok s with fileType := ft, offset := 0 } tl).after
        (atoms []) = if ok s.reallocs (itNameLenNorm s.item) then
          specName ok (s.reallocs+1) s.item tl else ⟨[], .dead⟩) ∧
      (pst s).run [] = some (pst { fileHeaderClosing ok s with fileType := ft, offset := 0 }) ∧
      ∀ n, need { fileHeaderClosing ok s with fileType := ft, offset := 0 } n
        ≤ 4 + 4 * (n / 40) := by
    intro ft hk hft
    unfold fileHeaderClosing
    by_cases hok : ok s.reallocs (itNameLenNorm s.item) = true
    · simp only [hok, if_true]
      refine ⟨⟨hl, ?_⟩, ?_, by simp [pst, hs, Proto.run, Proto.step], ?_⟩
      · intro _; simp [StInv, reallocContent_length, hk, hft]
      · intro tl; simp [specFrom, he, atoms, Parsed.after]
      · intro n; simp [need]
    · simp only [hok]
      refine ⟨⟨hl, ?_⟩, ?_, by simp [pst, hs, Proto.run, Proto.step], ?_⟩
      · simp
      · intro tl; simp [specFrom, atoms, Parsed.after]
      · intro n; simp [need]
  unfold headerSwitch K_DIR_START K_FILE K_SYM_LINK K_DIR_END specItem
  by_cases k1 : itKind s.item = 1
  · simpa [k1] using closing .dir (by simp [k1]) (by simp [k1, ftOf])
  by_cases k0 : itKind s.item = 0
  · simpa [k0] using closing .file (by simp [k0]) (by simp [k0, ftOf])
  by_cases k4 : itKind s.item = 4
  · simpa [k4] using closing .symlink (by simp [k4]) (by simp [k4, ftOf])
  by_cases k2 : itKind s.item = 2
  · simp only [k2, if_true, show ¬ (2:Nat) = 1 by decide, show ¬ (2:Nat) = 0 by decide,
      show ¬ (2:Nat) = 4 by decide, if_false]
    refine ⟨⟨hl, ?_⟩, ?_, by simp [pst, hs, Proto.run, Proto.step], ?_⟩
    · intro _; simp [StInv, hs, hz]
    · intro tl; simp [specFrom, he, hs, atoms, Ev.atoms]
    · intro n; simp only [need, hs]; omega
  · simp only [k0, k1, k2, k4, if_false, or_self]
    refine ⟨⟨hl, ?_⟩, ?_, by simp [pst, hs, Proto.run, Proto.step], ?_⟩
    · intro _; simp [StInv, hs, hz]
    · intro tl; simp [specFrom, he, hs, atoms, Parsed.after_nil]
    · intro n; simp only [need, hs]; omega

theorem headerSwitch_noLink (ok : AllocOracle) (s s1 : DirSt) (evs : List Ev)
    (h : headerSwitch ok s = (s1, evs)) (t a : Bytes) : .symLink t a ∉ evs := by
  unfold headerSwitch at h
  repeat' split at h
  all_goals (cases h; simp)

theorem headerSwitch_notBody (ok : AllocOracle) (s : DirSt) {s1 : DirSt} {evs : List Ev}
    (he : s.hasError = false) (hs : s.stage = .header)
    (h : headerSwitch ok s = (s1, evs)) : ¬ InBody { s1 with offset := 0 } := by
  unfold headerSwitch fileHeaderClosing at h
  repeat' split at h
  all_goals (cases h; simp only [InBody]; repeat' split)
  all_goals simp [hs]

/-- What a nested invocation may rely on. -/
def IH (ok : AllocOracle) (depth : Nat) : Prop :=
  ∀ (s : DirSt) (buf : Bytes), Inv s → need s buf.length ≤ depth →
    Good ok s buf (dirData ok depth s buf)

theorem take_len {buf : Bytes} {n : Nat} (hn : n ≤ buf.length) : (buf.take n).length = n := by
  simp; omega

/-- An invocation that only records progress, exactly. -/
theorem stay_good (ok : AllocOracle) (s s' : DirSt) (buf : Bytes) (evs : List Ev) (hi : Inv s')
    (hex : ∀ tl, (specFrom ok s' tl).after (atoms evs) = specFrom ok s (buf ++ tl))
    (hp : (pst s).run evs = some (pst s')) (hL : ∀ t a, .symLink t a ∉ evs)
    (hI : InBody s' → InBody s ∧ s'.item = s.item) :
    Good ok s buf (.ok (s', evs)) :=
  ⟨s', evs, rfl, hi, fun tl => by rw [hex tl]; exact .refl _, fun _ => hex,
    by rw [hex [], List.append_nil], hp, fun t a h => absurd h (hL t a), fun h => .inl (hI h)⟩

theorem good_header (ok : AllocOracle) (depth : Nat) (s : DirSt) (buf : Bytes) (hi : Inv s)
    (he : s.hasError = false) (hs : s.stage = .header) (hd : need s buf.length ≤ depth + 1)
    (ih : IH ok depth) : Good ok s buf (dirData ok (depth+1) s buf) := by
  have hl := hi.live he
  obtain ⟨item, name, ft, stage, off, sec, err, re⟩ := s
  simp only at he hs
  subst he hs
  simp only [StInv] at hl
  obtain ⟨rfl, ho⟩ := hl
  have hil : item.length = 40 := hi.itemLen
  have hrem : sub64 40 off = 40 - off := sub64_le (by omega)
  simp only [dirData, dirBody, hrem, Bool.false_eq_true, if_false]
  by_cases hb : 40 - off ≤ buf.length
  · have hlen := take_len hb
    simp only [ge_iff_le, hb, if_true]
    rw [memcpyAt_ok (by rw [hlen]; omega)]
    simp only
    rw [hlen, List.drop_of_length_le (by omega), List.append_nil]
    generalize hit : item.take off ++ buf.take (40 - off) = item'
    have hitl : item'.length = 40 := by rw [← hit]; simp; omega
    obtain ⟨g1, g2, gp, g3⟩ := headerSwitch_good ok ⟨item', name, ft, .header, off, 40, false, re⟩
      rfl rfl rfl hitl
    generalize hsw : headerSwitch ok ⟨item', name, ft, .header, off, 40, false, re⟩ = sw
      at g1 g2 gp g3 ⊢
    obtain ⟨s1, evs1⟩ := sw
    simp only at g1 g2 gp g3 ⊢
    apply next_good (hr := hb) (hi := g1)
    · intro tl
      rw [g2]
      simp only [specFrom, Bool.false_eq_true, if_false]
      rw [← List.append_assoc, hit, specParse_item _ _ _ _ hitl]
    · exact gp
    · intro t a hm
      have := headerSwitch_noLink ok _ _ _ hsw t a
      exact absurd hm this
    · intro hb
      exact absurd hb (headerSwitch_notBody ok _ rfl rfl hsw)
    · intro _
      refine ih _ _ g1 (Nat.le_trans (g3 _) ?_)
      simp only [need] at hd
      have hm : (buf.drop (40 - off)).length + 40 = buf.length + off := by simp; omega
      rw [← hm] at hd; omega
  · simp only [ge_iff_le, hb, if_false]
    have hb' : off + buf.length ≤ item.length := by omega
    rw [memcpyAt_ok hb']
    simp only
    rw [← patched]
    apply stay_good
    · refine ⟨by simp only; rw [patched_length hb', hil], ?_⟩
      intro _; simp only [StInv]; exact ⟨trivial, by omega⟩
    · intro tl
      simp only [specFrom, Bool.false_eq_true, if_false, atoms]
      rw [patched_take hb', List.append_assoc]; simp [Parsed.after_nil]
    · simp [pst, Proto.run]
    · simp
    · simp [InBody]

theorem good_filename (ok : AllocOracle) (depth : Nat) (s : DirSt) (buf : Bytes) (hi : Inv s)
    (he : s.hasError = false) (hs : s.stage = .filename) (hd : need s buf.length ≤ depth + 1)
    (ih : IH ok depth) : Good ok s buf (dirData ok (depth+1) s buf) := by
  have hl := hi.live he
  have hsec := hi.sec he
  obtain ⟨item, name, ft, stage, off, sec, err, re⟩ := s
  simp only at he hs hsec
  subst he hs
  simp only [StInv] at hl
  obtain ⟨hsz, hof, ⟨nm, hnm, hnml⟩, hk, hft⟩ := hl
  subst hnm hft
  have hil : item.length = 40 := hi.itemLen
  have hrem : sub64 sec off = sec - off := sub64_le hsec.1
  simp only [dirData, dirBody, hrem, Bool.false_eq_true, if_false]
  simp only [need] at hd
  by_cases hb : sec - off ≤ buf.length
  · have hlen := take_len hb
    simp only [ge_iff_le, hb, if_true]
    rw [memcpyAt_ok (by rw [hlen]; omega)]
    simp only
    rw [hlen, List.drop_of_length_le (by omega), List.append_nil]
    generalize hnm' : nm.take off ++ buf.take (sec - off) = nm'
    have hl' : nm'.length = itNameLenNorm item := by rw [← hnm']; simp; omega
    have hsp : ∀ tl, specFrom ok ⟨item, some nm, ftOf (itKind item), .filename, off, sec, false, re⟩
        (buf.take (sec - off) ++ tl) = (specBody ok re item tl).after
          [.start (ftOf (itKind item)) nm' item] := by
      intro tl
      simp only [specFrom, Bool.false_eq_true, if_false, Option.getD_some]
      rw [← List.append_assoc, hnm', specName, take_append_left' _ _ hl', drop_append_left' _ _ hl']
      rw [if_neg (by rw [List.length_append, hl']; omega)]
    have hdl : (buf.drop (sec - off)).length ≤ buf.length := by simp
    have hdiv := Nat.div_le_div_right (c := 40) hdl
    rcases hk with k0 | k1 | k4
    · simp only [k0, K_FILE, if_true]
      have hinv : Inv ⟨item, some nm', ftOf 0, .readfile, 0, itFileSize item, false, re⟩ :=
        ⟨hil, by intro _; simp [StInv, k0]⟩
      rw [k0] at hsp
      apply next_good (hr := hb) (hi := hinv)
      · intro tl; rw [hsp]; simp [specFrom, specBody, k0, atoms, Ev.atoms]
      · simp [pst, Proto.run, Proto.step, ftOf]
      · simp
      · intro _; exact ⟨_, _, List.mem_singleton_self _⟩
      · intro _; apply ih _ _ hinv; simp only [need]; omega
    · simp only [k1, K_FILE, K_DIR_START, show ¬ (1:Nat) = 0 by decide, if_true, if_false]
      have hinv : Inv ⟨item, some nm', ftOf 1, .header, 0, ITEM_SIZE, false, re⟩ :=
        ⟨hil, by intro _; simp [StInv, ITEM_SIZE]⟩
      rw [k1] at hsp
      apply next_good (hr := hb) (hi := hinv)
      · intro tl; rw [hsp]; simp [specFrom, specBody, k1, atoms, Ev.atoms]
      · simp [pst, Proto.run, Proto.step, ftOf]
      · simp
      · simp [InBody]
      · intro _; apply ih _ _ hinv; simp only [need]; omega
    · simp only [k4, K_FILE, K_DIR_START, K_SYM_LINK, show ¬ (4:Nat) = 0 by decide,
        show ¬ (4:Nat) = 1 by decide, if_true, if_false]
      have hinv : Inv ⟨item, some nm', ftOf 4, .symLink, 0, itFileSize item, false, re⟩ :=
        ⟨hil, by intro _; simp [StInv, k4]⟩
      rw [k4] at hsp
      apply next_good (hr := hb) (hi := hinv)
      · intro tl; rw [hsp]; simp [specFrom, specBody, k4, atoms, Ev.atoms]
      · simp [pst, Proto.run, Proto.step, ftOf]
      · simp
      · intro _; exact ⟨_, _, List.mem_singleton_self _⟩
      · intro _; apply ih _ _ hinv; simp only [need]; omega
  · simp only [ge_iff_le, hb, if_false]
    have hb' : off + buf.length ≤ nm.length := by omega
    rw [memcpyAt_ok hb']
    simp only
    rw [← patched]
    apply stay_good
    · refine ⟨hil, ?_⟩
      intro _; simp only [StInv]
      exact ⟨hsz, by omega, ⟨_, rfl, by rw [patched_length hb', hnml]⟩, hk, trivial⟩
    · intro tl
      simp only [specFrom, Bool.false_eq_true, if_false, atoms, Option.getD_some]
      rw [patched_take hb', List.append_assoc]; simp [Parsed.after_nil]
    · simp [pst, Proto.run]
    · simp
    · simp [InBody]

theorem good_readfile (ok : AllocOracle) (depth : Nat) (s : DirSt) (buf : Bytes) (hi : Inv s)
    (he : s.hasError = false) (hs : s.stage = .readfile) (hd : need s buf.length ≤ depth + 1)
    (ih : IH ok depth) : Good ok s buf (dirData ok (depth+1) s buf) := by
  have hl := hi.live he
  have hsec := hi.sec he
  obtain ⟨item, name, ft, stage, off, sec, err, re⟩ := s
  simp only at he hs hsec
  subst he hs
  simp only [StInv] at hl
  obtain ⟨hsz, hof, hk⟩ := hl
  have hil : item.length = 40 := hi.itemLen
  have hrem : sub64 sec off = sec - off := sub64_le hsec.1
  simp only [dirData, dirBody, hrem, Bool.false_eq_true, if_false]
  simp only [need] at hd
  by_cases hb : sec - off ≤ buf.length
  · have hlen := take_len hb
    simp only [ge_iff_le, hb, if_true, hk, K_FILE]
    have hinv : Inv ⟨item, name, ft, .fileGap, 0,
        sub64 (itFileSizeNorm item) (itFileSize item), false, re⟩ :=
      ⟨hil, by intro _; simp [StInv, hk, gapOf]⟩
    have hdl : (buf.drop (sec - off)).length ≤ buf.length := by simp
    have hdiv := Nat.div_le_div_right (c := 40) hdl
    apply next_good (hr := hb) (hi := hinv)
    · intro tl
      simp only [specFrom, Bool.false_eq_true, if_false, specFile, take_append_left' _ _ hlen, drop_append_left' _ _ hlen]
      rw [if_neg (by rw [List.length_append, hlen]; omega)]
      simp [gapOf, atoms, Ev.atoms]
    · simp only [pst, Proto.run, Proto.step]; simp [hlen, Proto.step]
    · simp
    · simp [InBody]
    · intro _; apply ih _ _ hinv; simp only [need]; omega
  · simp only [ge_iff_le, hb, if_false]
    apply stay_good
    · exact ⟨hil, by intro _; simp only [StInv]; exact ⟨hsz, by omega, hk⟩⟩
    · intro tl
      simp only [specFrom, Bool.false_eq_true, if_false, specFile]
      rw [show sec - (off + buf.length) = sec - off - buf.length by omega]
      by_cases h : tl.length < sec - off - buf.length
      · rw [if_pos h, if_pos (by simp; omega)]
        simp [Parsed.after, atoms, Ev.atoms]; omega
      · rw [if_neg h, if_neg (by simp; omega)]
        rw [List.take_append, List.drop_append, List.take_of_length_le (l := buf) (by omega),
          List.drop_of_length_le (l := buf) (by omega)]
        simp [Parsed.after, atoms, Ev.atoms]
    · simp only [pst, Proto.run, Proto.step]; rw [if_pos (by omega)]
      simp only [Option.bind_some, Option.some.injEq, Proto.inFile.injEq]; omega
    · simp
    · simp [InBody]

theorem good_gap (ok : AllocOracle) (depth : Nat) (s : DirSt) (buf : Bytes) (hi : Inv s)
    (he : s.hasError = false) (hs : s.stage = .fileGap ∨ s.stage = .symLinkGap)
    (hd : need s buf.length ≤ depth + 1)
    (ih : IH ok depth) : Good ok s buf (dirData ok (depth+1) s buf) := by
  have hl := hi.live he
  have hsec := hi.sec he
  obtain ⟨item, name, ft, stage, off, sec, err, re⟩ := s
  simp only at he hs hsec
  subst he
  have hrem : sub64 sec off = sec - off := sub64_le hsec.1
  have hil : item.length = 40 := hi.itemLen
  have hk : itKind item = 0 ∨ itKind item = 4 := by
    rcases hs with h | h <;> subst h <;> simp only [StInv] at hl <;> omega
  have key : dirData ok (depth+1) ⟨item, name, ft, stage, off, sec, false, re⟩ buf =
      if buf.length ≥ sec - off then
        (if buf.length > sec - off then
          match dirData ok depth ⟨item, name, ft, .header, 0, ITEM_SIZE, false, re⟩
              (buf.drop (sec - off)) with
          | .error e => .error e
          | .ok (s'', evs') => .ok (s'', [] ++ evs')
        else .ok (⟨item, name, ft, .header, 0, ITEM_SIZE, false, re⟩, []))
      else .ok (⟨item, name, ft, stage, off + buf.length, sec, false, re⟩, []) := by
    rcases hs with h | h <;> subst h <;>
      simp only [dirData, dirBody, hrem, Bool.false_eq_true, if_false, K_FILE, K_SYM_LINK, hk,
        if_true] <;> rfl
  have hneed : 2 + 4 * (buf.length / 40) ≤ depth + 1 := by
    rcases hs with h | h <;> subst h <;> simpa only [need] using hd
  rw [key]
  by_cases hb : sec - off ≤ buf.length
  · have hlen := take_len hb
    rw [if_pos hb]
    have hinv : Inv ⟨item, name, ft, .header, 0, ITEM_SIZE, false, re⟩ :=
      ⟨hil, by intro _; simp [StInv, ITEM_SIZE]⟩
    have hdl : (buf.drop (sec - off)).length ≤ buf.length := by simp
    have hdiv := Nat.div_le_div_right (c := 40) hdl
    apply next_good (hr := hb) (hi := hinv)
    · intro tl
      have : specFrom ok ⟨item, name, ft, stage, off, sec, false, re⟩
          (buf.take (sec - off) ++ tl) = specSkip ok re (sec - off) (buf.take (sec - off) ++ tl) := by
        rcases hs with h | h <;> subst h <;> simp [specFrom]
      rw [this]
      simp only [specFrom, Bool.false_eq_true, if_false, specSkip, drop_append_left' _ _ hlen]
      rw [if_neg (by rw [List.length_append, hlen]; omega)]
      simp [atoms, Parsed.after_nil]
    · rcases hs with h | h <;> subst h <;> simp [pst, Proto.run]
    · simp
    · simp [InBody]
    · intro _; apply ih _ _ hinv; simp only [need]; omega
  · rw [if_neg hb]
    apply stay_good
    · refine ⟨hil, ?_⟩
      intro _
      rcases hs with h | h <;> subst h <;> simp only [StInv] at hl ⊢ <;>
        exact ⟨hl.1, by omega, hl.2.2⟩
    · intro tl
      have h1 : ∀ o l, specFrom ok ⟨item, name, ft, stage, o, sec, false, re⟩ l =
          specSkip ok re (sec - o) l := by
        intro o l; rcases hs with h | h <;> subst h <;> simp [specFrom]
      rw [h1, h1]
      simp only [specSkip]
      rw [show sec - (off + buf.length) = sec - off - buf.length by omega]
      by_cases h : tl.length < sec - off - buf.length
      · rw [if_pos h, if_pos (by simp; omega)]
        simp [Parsed.after, atoms]; omega
      · rw [if_neg h, if_neg (by simp; omega)]
        rw [List.drop_append, List.drop_of_length_le (l := buf) (by omega)]
        simp [Parsed.after, atoms]
    · rcases hs with h | h <;> subst h <;> simp [pst, Proto.run]
    · simp
    · rcases hs with h | h <;> subst h <;> simp [InBody]

theorem good_symLink (ok : AllocOracle) (depth : Nat) (s : DirSt) (buf : Bytes) (hi : Inv s)
    (he : s.hasError = false) (hs : s.stage = .symLink) (hd : need s buf.length ≤ depth + 1)
    (ih : IH ok depth) : Good ok s buf (dirData ok (depth+1) s buf) := by
  have hl := hi.live he
  have hsec := hi.sec he
  obtain ⟨item, name, ft, stage, off, sec, err, re⟩ := s
  simp only at he hs hsec
  subst he hs
  simp only [StInv] at hl
  obtain ⟨hsz, hof, hk⟩ := hl
  have hil : item.length = 40 := hi.itemLen
  have hrem : sub64 sec off = sec - off := sub64_le hsec.1
  simp only [dirData, dirBody, hrem, Bool.false_eq_true, if_false]
  simp only [need] at hd
  by_cases hb : sec - off ≤ buf.length
  · have hlen := take_len hb
    simp only [ge_iff_le, hb, if_true, hk, K_SYM_LINK]
    have hinv : Inv ⟨item, name, ft, .symLinkGap, 0,
        sub64 (itFileSizeNorm item) (itFileSize item), false, re⟩ :=
      ⟨hil, by intro _; simp [StInv, hk, gapOf]⟩
    have hdl : (buf.drop (sec - off)).length ≤ buf.length := by simp
    have hdiv := Nat.div_le_div_right (c := 40) hdl
    apply next_good (hr := hb) (hi := hinv)
    · intro tl
      simp only [specFrom, Bool.false_eq_true, if_false, specLink, take_append_left' _ _ hlen, drop_append_left' _ _ hlen]
      rw [if_neg (by rw [List.length_append, hlen]; omega)]
      simp [gapOf, atoms, Ev.atoms]
    · simp only [pst, Proto.run, Proto.step]; simp [hlen, Proto.step]
    · intro t a hm ht
      rw [List.mem_singleton] at hm
      cases hm
      have hpos : 0 < (buf.take (sec - off)).length := List.length_pos_iff.mpr ht
      refine ⟨[], off, by simp, ?_⟩
      simp only [specFrom, Bool.false_eq_true, if_false, specLink]
      rw [if_pos (by simp; omega), hlen]
      simp
    · simp [InBody]
    · intro _; apply ih _ _ hinv; simp only [need]; omega
  · simp only [ge_iff_le, hb, if_false]
    refine ⟨_, _, rfl, ⟨hil, by intro _; simp only [StInv]; exact ⟨hsz, by omega, hk⟩⟩, ?_, ?_, ?_,
      by simp [pst, Proto.run], by simp, by simp [InBody]⟩
    · intro tl
      simp only [specFrom, Bool.false_eq_true, if_false, specLink]
      rw [show sec - (off + buf.length) = sec - off - buf.length by omega]
      by_cases h : tl.length < sec - off - buf.length
      · rw [if_pos h, if_pos (by simp; omega)]
        simp only [Parsed.after, atoms, Parsed.Le, List.flatMap_nil, List.nil_append,
          List.length_append, Ending.inLink.injEq]
        exact ⟨.nil, by omega, by omega⟩
      · rw [if_neg h, if_neg (by simp; omega)]
        rw [List.take_append, List.drop_append, List.take_of_length_le (l := buf) (by omega),
          List.drop_of_length_le (l := buf) (by omega)]
        simp only [Parsed.after, atoms, Parsed.Le, List.flatMap_nil, List.nil_append,
          List.cons_append, and_true]
        refine .link ⟨List.suffix_append _ _, fun h0 => ?_⟩ (.refl _)
        have := congrArg List.length h0
        simp only [List.length_take, List.length_nil] at this
        omega
    · intro hc tl
      have h0 : buf = [] := by
        apply List.eq_nil_of_length_eq_zero
        simp only [Cut, true_and] at hc
        omega
      subst h0
      simp [Parsed.after, atoms]
    · simp only [specFrom, Bool.false_eq_true, if_false, specLink]
      rw [if_pos (by simp; omega), if_pos (by omega)]
      simp [Parsed.after, atoms]; omega

/-- One parser invocation: no fault, invariant kept, callbacks as the grammar says. -/
theorem dirData_good (ok : AllocOracle) (depth : Nat) (s : DirSt) (buf : Bytes) (hi : Inv s)
    (hd : need s buf.length ≤ depth) : Good ok s buf (dirData ok depth s buf) := by
  induction depth generalizing s buf with
  | zero => unfold need at hd; cases hs : s.stage <;> simp only [hs] at hd <;> omega
  | succ depth ih =>
    by_cases he : s.hasError = true
    · refine ⟨s, [], by simp [dirData, dirBody, he], hi, ?_, ?_, ?_, rfl, by simp,
        by simp [InBody, he]⟩ <;> intros <;>
        simp [specFrom, he, Parsed.after, atoms, Parsed.Le, LinkSfx.nil]
    · have he' : s.hasError = false := by simpa using he
      cases hs : s.stage with
      | header => exact good_header ok depth s buf hi he' hs hd ih
      | filename => exact good_filename ok depth s buf hi he' hs hd ih
      | readfile => exact good_readfile ok depth s buf hi he' hs hd ih
      | fileGap => exact good_gap ok depth s buf hi he' (.inl hs) hd ih
      | symLinkGap => exact good_gap ok depth s buf hi he' (.inr hs) hd ih
      | symLink => exact good_symLink ok depth s buf hi he' hs hd ih

end Zwt
