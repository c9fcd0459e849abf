import Verif.Model.SelfDisk
import Verif.Spec.SelfDisk
import Verif.Proofs.Tools
import Verif.Proofs.HLTest
import Verif.Proofs.WalkMore
import Verif.Props.HLTest

/-! The self extractor on a disk. -/

namespace Zwt

/-! ### What is packed -/

/-- Entries with the name, other than directories. -/
def Forest.named (x : Bytes) : Forest → Nat
  | .nil => 0
  | .file n _ _ r => (if n = x then 1 else 0) + r.named x
  | .link n _ _ r => (if n = x then 1 else 0) + r.named x
  | .dir _ _ s r => s.named x + r.named x
  | .other n r => (if n = x then 1 else 0) + r.named x
  | .bad n r => (if n = x then 1 else 0) + r.named x

theorem select_self {exe out : Bytes} (hne : exe ≠ out) (f : Forest) :
    ∀ (dir : Bytes) (s : SelfFs), f.pure → f.named exe ≤ s.own.toNat → f.named out ≤ s.out.toNat →
      (select (selfFilter exe out) dir f s).status = .done ∧
      (select (selfFilter exe out) dir f s).forest = f.prune (packable exe out) dir ∧
      (select (selfFilter exe out) dir f s).fs.own.toNat + f.named exe = s.own.toNat ∧
      (select (selfFilter exe out) dir f s).fs.out.toNat + f.named out = s.out.toNat := by
  induction f with
  | nil => intro dir s _ _ _; exact ⟨rfl, rfl, rfl, rfl⟩
  | file n m c r ih =>
    rintro dir ⟨a, b⟩ hp h1 h2
    simp only [Forest.named] at h1 h2
    simp only [select, askFilter, selfFilter, Forest.prune, packable, Forest.named]
    by_cases e1 : n = exe
    · subst e1
      simp only [if_true, hne, if_false, Nat.zero_add] at h1 h2
      cases a with
      | false => simp at h1
      | true =>
        obtain ⟨i1, i2, i3, i4⟩ := ih dir ⟨false, b⟩ hp (by simp at h1 ⊢; omega) h2
        simp only [Bool.toNat_false] at i3
        simp [i1, i2, i4, hne, packable]
        omega
    · by_cases e2 : n = out
      · subst e2
        simp only [if_true, e1, if_false, Nat.zero_add] at h1 h2
        cases b with
        | false => simp at h2
        | true =>
          obtain ⟨i1, i2, i3, i4⟩ := ih dir ⟨a, false⟩ hp h1 (by simp at h2 ⊢; omega)
          simp only [Bool.toNat_false] at i4
          simp [i1, i2, i3, e1, hne, packable]
          omega
      · simp only [e1, e2, if_false, Nat.zero_add] at h1 h2
        obtain ⟨i1, i2, i3, i4⟩ := ih dir ⟨a, b⟩ hp h1 h2
        simp [Ne.symm e1, Ne.symm e2, e1, e2, Sel.add, i1, i2, i3, i4]
  | link n m c r ih =>
    rintro dir ⟨a, b⟩ hp h1 h2
    simp only [Forest.named] at h1 h2
    simp only [select, askFilter, selfFilter, Forest.prune, packable, Forest.named]
    by_cases e1 : n = exe
    · subst e1
      simp only [if_true, hne, if_false, Nat.zero_add] at h1 h2
      cases a with
      | false => simp at h1
      | true =>
        obtain ⟨i1, i2, i3, i4⟩ := ih dir ⟨false, b⟩ hp (by simp at h1 ⊢; omega) h2
        simp only [Bool.toNat_false] at i3
        simp [i1, i2, i4, hne, packable]
        omega
    · by_cases e2 : n = out
      · subst e2
        simp only [if_true, e1, if_false, Nat.zero_add] at h1 h2
        cases b with
        | false => simp at h2
        | true =>
          obtain ⟨i1, i2, i3, i4⟩ := ih dir ⟨a, false⟩ hp h1 (by simp at h2 ⊢; omega)
          simp only [Bool.toNat_false] at i4
          simp [i1, i2, i3, e1, hne, packable]
          omega
      · simp only [e1, e2, if_false, Nat.zero_add] at h1 h2
        obtain ⟨i1, i2, i3, i4⟩ := ih dir ⟨a, b⟩ hp h1 h2
        simp [Ne.symm e1, Ne.symm e2, e1, e2, Sel.add, i1, i2, i3, i4]
  | dir n m s r ihs ih =>
    rintro dir t hp h1 h2
    simp only [Forest.named] at h1 h2
    obtain ⟨j1, j2, j3, j4⟩ := ihs (pathOf dir n) t hp.1 (by omega) (by omega)
    obtain ⟨i1, i2, i3, i4⟩ := ih dir (select (selfFilter exe out) (pathOf dir n) s t).fs hp.2 (by omega)
      (by omega)
    have hf : selfFilter exe out t dir ⟨n, .dir⟩ = (0, t) := by simp [selfFilter]
    have hk : packable exe out dir ⟨n, .dir⟩ = true := by simp [packable]
    simp only [select, askFilter, hf, hk, Forest.prune, Forest.named, if_true, Sel.close, j1]
    exact ⟨i1, by rw [i2, j2], by omega, by omega⟩
  | other n r ih => intro _ _ hp; cases hp
  | bad n r ih => intro _ _ hp; cases hp

/-- An entry that is counted has a place. -/
theorem named_lookup (os : Os) {x : Bytes} (f : Forest) : f.pure → f.proper → 0 < f.named x →
    ∃ q node, f.lookup os (q ++ [x]) = some node ∧ node.type ≠ .dir := by
  induction f with
  | nil => intro _ _ h; simp [Forest.named] at h
  | file n m c r ih =>
    intro hp hr h
    simp only [Forest.named] at h
    by_cases e : n = x
    · subst e
      exact ⟨[], .file (fileMode os m) c, by simp [Forest.lookup], by simp [Node.type]⟩
    · obtain ⟨q, node, h1, h2⟩ := ih hp hr.2.2 (by simpa [e] using h)
      refine ⟨q, node, ?_, h2⟩
      rw [Forest.lookup, if_neg]
      · exact h1
      · intro e'
        obtain ⟨y, q', h3, h4⟩ := Forest.lookup_head h1
        rw [e'] at h3
        cases h3
        exact hr.2.1 h4
  | link n m c r ih =>
    intro hp hr h
    simp only [Forest.named] at h
    by_cases e : n = x
    · subst e
      exact ⟨[], .link c, by simp [Forest.lookup], by simp [Node.type]⟩
    · obtain ⟨q, node, h1, h2⟩ := ih hp hr.2.2.2.2 (by simpa [e] using h)
      refine ⟨q, node, ?_, h2⟩
      rw [Forest.lookup, if_neg]
      · exact h1
      · intro e'
        obtain ⟨y, q', h3, h4⟩ := Forest.lookup_head h1
        rw [e'] at h3
        cases h3
        exact hr.2.1 h4
  | dir n m s r ihs ih =>
    intro hp hr h
    simp only [Forest.named] at h
    by_cases hs : 0 < s.named x
    · obtain ⟨q, node, h1, h2⟩ := ihs hp.1 hr.2.2.1 hs
      refine ⟨n :: q, node, ?_, h2⟩
      rw [List.cons_append, Forest.lookup]
      simp [h1]
    · obtain ⟨q, node, h1, h2⟩ := ih hp.2 hr.2.2.2 (by omega)
      refine ⟨q, node, ?_, h2⟩
      obtain ⟨y, q', h3, h4⟩ := Forest.lookup_head h1
      rw [h3] at h1 ⊢
      rw [Forest.lookup, if_neg (by rintro rfl; exact hr.2.1 h4)]
      exact h1
  | other n r ih => intro hp; cases hp
  | bad n r ih => intro hp; cases hp

/-- A name that has one place is counted once. -/
theorem named_le_one (os : Os) {x : Bytes} (f : Forest) : f.pure → f.proper →
    (∀ q q' a b, f.lookup os (q ++ [x]) = some a → f.lookup os (q' ++ [x]) = some b → a.type ≠ .dir →
      b.type ≠ .dir → q = q') → f.named x ≤ 1 := by
  have head : ∀ {n : Bytes} {r : Forest} {q : List Bytes} {a : Node}, n ∉ r.names →
      r.lookup os (q ++ [x]) = some a → q ++ [x] ≠ [n] := by
    intro n r q a hn h e
    obtain ⟨y, q', h3, h4⟩ := Forest.lookup_head h
    rw [e] at h3
    cases h3
    exact hn h4
  have deep : ∀ {r : Forest} {q : List Bytes} {a : Node}, x ∉ r.names →
      r.lookup os (q ++ [x]) = some a → q ≠ [] := by
    rintro r q a hn h rfl
    exact head hn h rfl
  induction f with
  | nil => intro _ _ _; simp [Forest.named]
  | file n m c r ih =>
    intro hp hr h
    have sub : ∀ {q a}, r.lookup os (q ++ [x]) = some a → (Forest.file n m c r).lookup os (q ++ [x]) = some a := by
      intro q a h1
      rw [Forest.lookup, if_neg (head hr.2.1 h1)]; exact h1
    simp only [Forest.named]
    by_cases e : n = x
    · subst e
      have : r.named n = 0 := by
        rcases Nat.eq_zero_or_pos (r.named n) with h0 | h0
        · exact h0
        · obtain ⟨q, node, h1, h2⟩ := named_lookup os r hp hr.2.2 h0
          have := h [] q (.file (fileMode os m) c) node (by simp [Forest.lookup]) (sub h1) (by simp [Node.type]) h2
          exact absurd this.symm (deep hr.2.1 h1)
      simp [this]
    · simp only [e, if_false, Nat.zero_add]
      exact ih hp hr.2.2 (fun q q' a b h1 h2 => h q q' a b (sub h1) (sub h2))
  | link n m c r ih =>
    intro hp hr h
    have sub : ∀ {q a}, r.lookup os (q ++ [x]) = some a → (Forest.link n m c r).lookup os (q ++ [x]) = some a := by
      intro q a h1
      rw [Forest.lookup, if_neg (head hr.2.1 h1)]; exact h1
    simp only [Forest.named]
    by_cases e : n = x
    · subst e
      have : r.named n = 0 := by
        rcases Nat.eq_zero_or_pos (r.named n) with h0 | h0
        · exact h0
        · obtain ⟨q, node, h1, h2⟩ := named_lookup os r hp hr.2.2.2.2 h0
          have := h [] q (.link c) node (by simp [Forest.lookup]) (sub h1) (by simp [Node.type]) h2
          exact absurd this.symm (deep hr.2.1 h1)
      simp [this]
    · simp only [e, if_false, Nat.zero_add]
      exact ih hp hr.2.2.2.2 (fun q q' a b h1 h2 => h q q' a b (sub h1) (sub h2))
  | dir n m s r ihs ih =>
    intro hp hr h
    have subr : ∀ {q a}, r.lookup os (q ++ [x]) = some a → (Forest.dir n m s r).lookup os (q ++ [x]) = some a := by
      intro q a h1
      obtain ⟨y, q', h3, h4⟩ := Forest.lookup_head h1
      rw [h3] at h1 ⊢
      rw [Forest.lookup, if_neg (by rintro rfl; exact hr.2.1 h4)]
      exact h1
    have subs : ∀ {q a}, s.lookup os (q ++ [x]) = some a →
        (Forest.dir n m s r).lookup os (n :: q ++ [x]) = some a := by
      intro q a h1
      rw [List.cons_append, Forest.lookup]
      simp [h1]
    simp only [Forest.named]
    have a1 := ihs hp.1 hr.2.2.1 (fun q q' a b h1 h2 h3 h4 =>
      (List.cons.inj (h (n :: q) (n :: q') a b (subs h1) (subs h2) h3 h4)).2)
    have a2 := ih hp.2 hr.2.2.2 (fun q q' a b h1 h2 => h q q' a b (subr h1) (subr h2))
    rcases Nat.eq_zero_or_pos (s.named x) with h0 | h0
    · omega
    · rcases Nat.eq_zero_or_pos (r.named x) with h0' | h0'
      · omega
      · obtain ⟨q, node, h1, h2⟩ := named_lookup os s hp.1 hr.2.2.1 h0
        obtain ⟨q', node', h1', h2'⟩ := named_lookup os r hp.2 hr.2.2.2 h0'
        have := h (n :: q) q' _ _ (subs h1) (subr h1') h2 h2'
        obtain ⟨y, q'', h3, h4⟩ := Forest.lookup_head h1'
        rw [← this] at h3
        cases h3
        exact absurd h4 hr.2.1
  | other n r ih => intro hp; cases hp
  | bad n r ih => intro hp; cases hp

/-! ### Paths -/

theorem exeParts_slash {dir n : Bytes} (hb : 92 ∉ dir ++ 47 :: n) (hn : 47 ∉ n) :
    exeParts (dir ++ 47 :: n) = (dir, n) := by
  rw [exeParts, lastIndexOf_none 92 _ hb, lastIndexOf_append 47 dir n hn]
  simp

/-! ### Writing -/

theorem writePieces_at {os : Os} (hq : os.quiet) {l : Loc} {m : Nat} (ds : List Bytes) :
    ∀ (c : Bytes) (off : Nat) (w : World), w.fs l = some (.file m c) →
      (writePieces os ds ⟨l, off⟩ w).fs = w.fs.put l (.file m (pwrites c off ds)) ∧
      (writePieces os ds ⟨l, off⟩ w).cwd = w.cwd := by
  induction ds with
  | nil =>
    intro c off w h
    refine ⟨?_, rfl⟩
    funext x
    simp only [writePieces, pwrites, FS.put]
    split
    · rename_i e; rw [e, h]
    · rfl
  | cons d ds ih =>
    intro c off w h
    have e : sysWrite os w ⟨l, off⟩ d = (⟨l, off + d.length⟩,
        (w.put l (.file m (pwrite c off d))).tick) := by
      simp only [sysWrite, hq.1, Bool.false_eq_true, if_false, h]
      rw [List.take_of_length_le (hq.2.1 _ _)]
    rw [writePieces, e]
    obtain ⟨i1, i2⟩ := ih (pwrite c off d) (off + d.length) ((w.put l (.file m (pwrite c off d))).tick)
      (by simp [World.put, World.tick, FS.put])
    refine ⟨?_, i2⟩
    rw [i1]
    simp only [World.put, World.tick, FS.put_put, pwrites]

/-! ### Opening -/

theorem outFile_plain : PlainName OUT_FILE := by decide +kernel
theorem outFolder_plain : PlainName OUT_FOLDER := by decide +kernel

theorem OutProg.open' {os : Os} (hq : os.quiet) {w : World} {m : Nat} (h : OutProg os w OUT_FILE m) :
    sysOpen os w OUT_FILE 0o775 true =
      (some (w.cwd ++ [OUT_FILE]), (w.put (w.cwd ++ [OUT_FILE]) (.file m [])).tick) ∧
    (∀ x, w.fs (w.cwd ++ [OUT_FILE]) = some x → ∃ c', x = .file m c') ∧ fileWritable os m = true := by
  obtain ⟨h2, h6, h4⟩ := h
  have hf := InDir.front (os := os) (w := w) .rel h2.searchable (by simp)
  have h3 := outFile_plain
  have hlast : OUT_FILE.getLast? ≠ some 47 := by decide +kernel
  have hw : fileWritable os m = true := by
    rcases h6 with h | h <;> simp [fileWritable, h]
  rcases h4 with ⟨h4, rfl⟩ | ⟨c, h4⟩
  · obtain ⟨k, hl⟩ := hf.locate true h3
    rw [resolve_missing os w.fs true k _ _ [] h3 h2.searchable h4] at hl
    simp only [List.all_nil, if_true, List.nil_append] at hl
    refine ⟨?_, fun x hx => (by rw [h4] at hx; cases hx), hw⟩
    simp only [sysOpen, hq.1, Bool.false_eq_true, if_false, hl, h4, hlast, addNode,
      List.dropLast_concat, h2.writable, if_true]
  · have hl := hf.at h2.searchable h3 true h4 (by simp)
    rw [List.nil_append] at hl
    refine ⟨?_, fun x hx => by rw [h4] at hx; cases hx; exact ⟨c, rfl⟩, hw⟩
    simp only [sysOpen, hq.1, Bool.false_eq_true, if_false, hl, h4, hlast, hw, not_true_eq_false,
      or_self, if_true]

theorem openWrite {os : Os} (hq : os.quiet) {w : World} {m : Nat} {c : Bytes}
    (ho : OpenDir os w.fs w.cwd) (h : w.fs (w.cwd ++ [OUT_FILE]) = some (.file m c))
    (hw : fileWritable os m = true) :
    sysOpenWrite os w OUT_FILE = (some (w.cwd ++ [OUT_FILE]), w.tick) := by
  have hf := InDir.front (os := os) (w := w) .rel ho.searchable (by simp)
  have hl := hf.at ho.searchable outFile_plain true h (by simp)
  rw [List.nil_append] at hl
  have hlast : OUT_FILE.getLast? ≠ some 47 := by decide +kernel
  simp only [sysOpenWrite, hq.1, Bool.false_eq_true, if_false, hl, h, hlast, hw, not_true_eq_false,
    or_self]

/-- The run that packs. -/
theorem self_pack (D : Deflater) (Z : Inflater) {os : Os} (hq : os.quiet) {w : World} (ht : w.fs.tree)
    (env : SelfDiskEnv) (ndebug : Bool) {arg0 : Bytes} (hlen : arg0.length < 4191) {le : Loc}
    {exe : Bytes} (hexe : InFile os w arg0 le exe) (hsize : exe.length ≤ maxExe ndebug) {m : Nat}
    (hout : OutProg os w OUT_FILE m) :
    ∃ wb : World, wb.cwd = w.cwd ∧ wb.fs = w.fs.put (w.cwd ++ [OUT_FILE]) (.file m exe) ∧ wb.fs.tree ∧
      (∀ x, w.fs (w.cwd ++ [OUT_FILE]) = some x → ∃ c', x = .file m c') ∧
      ∀ ret log, ∃ w2 : World, w2.cwd = w.cwd ∧
        w2.fs = w.fs.put (w.cwd ++ [OUT_FILE]) (.file m (pwrite exe (maxExe ndebug) log.flatten)) ∧
        ∀ fuel, compressDir D (env.see wb) (selfFilter (exeParts arg0).2 OUT_FILE) fuel .plain
            (exeParts arg0).1 ⟨true, true⟩ 9 env.junk = .ok (ret, log) →
          selfDiskMain D Z os fuel env ndebug arg0 w = .ok (ret, w2) := by
  obtain ⟨o1, o3, o2⟩ := hout.open' hq
  obtain ⟨md, hmd, hmd'⟩ := hout.1
  have hrd := hexe.read hq
  obtain ⟨_, he2, me, he3, he4⟩ := hexe
  generalize hlo : w.cwd ++ [OUT_FILE] = lo at *
  have o3 : ∀ x, w.fs lo = some x → ∃ c', x = .file m c' := o3
  have ho1 : sysOpen os w.tick OUT_FILE 0o775 true = (some lo, (w.tick.put lo (.file m [])).tick) := by
    have := (OutProg.open' hq (w := w.tick) (m := m) hout).1
    rw [← hlo]; exact this
  generalize hwa : (w.tick.put lo (.file m [])).tick = wa at *
  have hwafs : wa.fs = w.fs.put lo (.file m []) := by rw [← hwa]; rfl
  have hwac : wa.cwd = w.cwd := by rw [← hwa]; rfl
  obtain ⟨c1, c2⟩ := writePieces_at hq (m := m) (blocks exe.length exe) [] 0 wa (by rw [hwafs, FS.put_same])
  generalize hwb : writePieces os (blocks exe.length exe) ⟨lo, 0⟩ wa = wb at *
  have hwbfs : wb.fs = w.fs.put lo (.file m exe) := by rw [c1, hwafs, FS.put_put, copy_eq]
  have hwbc : wb.cwd = w.cwd := by rw [c2, hwac]
  have hkb : Keeps w.fs wb.fs := by rw [hwbfs]; exact keeps_store o3
  have ho2 : sysOpenWrite os wb OUT_FILE = (some lo, wb.tick) := by
    have := openWrite hq (w := wb) (m := m) (c := exe) (by rw [hwbc]; exact hout.1.mono hkb)
      (by rw [hwbc, hlo, hwbfs, FS.put_same]) o2
    rw [hwbc, hlo] at this
    exact this
  have htb : wb.tick.fs.tree := by
    show wb.fs.tree
    rw [hwbfs, ← hlo]
    exact tree_store ht hmd (fun x hx => o3 x (by rw [← hlo]; exact hx))
  refine ⟨wb.tick, hwbc, hwbfs, htb, o3, fun ret log => ?_⟩
  obtain ⟨p1, p2⟩ := writePieces_at hq (m := m) log exe (maxExe ndebug) wb.tick
    (by show wb.fs lo = _; rw [hwbfs, FS.put_same])
  rw [pwrites_eq] at p1
  refine ⟨writePieces os log ⟨lo, maxExe ndebug⟩ wb.tick, by rw [p2]; exact hwbc, ?_, fun fuel k1 => ?_⟩
  · rw [p1]
    show wb.fs.put _ _ = _
    rw [hwbfs, FS.put_put]
  · rw [selfDiskMain, if_neg (by simp only [VC_BUFFER_SIZE]; omega), hrd]
    have hc : contentAt w.tick le = ⟨exe, false⟩ := by
      simp only [contentAt, World.tick, he3]
    simp only [hc]
    rw [if_neg (by omega), selfDiskPack, ho1]
    simp only [hwb, ho2, k1]

/-! ### The tree on the disk -/

theorem Mirror.unique {env : Env} {dir : Bytes} {es : List Entry} {f g : Forest}
    (h : Mirror env dir es f) (h' : Mirror env dir es g) : f = g := by
  induction h generalizing g with
  | nil => cases h'; rfl
  | dot hd _ ih =>
    cases h' with
    | dot _ h => exact ih h
    | file h => exact absurd hd (by have := h.notDot; simp [this])
    | bad h => exact absurd hd (by have := h.notDot; simp [this])
    | link h => exact absurd hd (by have := h.notDot; simp [this])
    | dir h => exact absurd hd (by have := h.notDot; simp [this])
    | other h => exact absurd hd (by have := h.notDot; simp [this])
  | file h1 _ h3 _ ih =>
    cases h' with
    | dot hd _ => exact absurd hd (by have := h1.notDot; simp [this])
    | file _ _ k3 k4 =>
      rw [h3] at k3
      injection k3 with k3
      injection k3 with k1 k2
      injection k1 with k1
      injection k1 with k1 _
      rw [ih k4, k1, k2]
    | bad _ k _ =>
      rcases k with k | ⟨o, k, k'⟩
      · rw [h3] at k; cases k
      · rw [h3] at k; cases k; simp at k'
  | bad h1 h2 _ ih =>
    cases h' with
    | dot hd _ => exact absurd hd (by have := h1.notDot; simp [this])
    | file _ _ k3 k4 =>
      rcases h2 with k | ⟨o, k, k'⟩
      · rw [k3] at k; cases k
      · rw [k3] at k; cases k; simp at k'
    | bad _ _ k => rw [ih k]
  | link h1 _ h3 h4 _ ih =>
    cases h' with
    | dot hd _ => exact absurd hd (by have := h1.notDot; simp [this])
    | link _ _ k3 k4 k5 =>
      rw [h3] at k3
      rw [h4] at k4
      cases k4
      injection k3 with k3 _
      rw [ih k5, k3]
  | dir h1 h2 h3 _ _ ihs ih =>
    cases h' with
    | dot hd _ => exact absurd hd (by have := h1.notDot; simp [this])
    | dir _ k2 k3 k4 k5 =>
      rw [h3] at k3
      cases k3
      rw [← h2, ← k2, ihs k4, ih k5]
  | other h1 _ ih =>
    cases h' with
    | dot hd _ => exact absurd hd (by have := h1.notDot; simp [this])
    | other _ k => rw [ih k]

theorem Archivable.mirror_all {os : Os} {w : World} {env : Env} {p : Bytes} {l : Loc}
    (ht : w.fs.tree) (H : Shows os w env) (A : Archivable os w p l) :
    ∃ es f, env.list p = some es ∧ Mirror env p es f ∧ f.proper ∧ f.pure ∧
      ∀ os' x q, f.lookup os' (x :: q) = (w.fs (l ++ x :: q)).map (Node.copied os') := by
  obtain ⟨es, f, h1, h2, h3, h4, _⟩ := A.mirror (os' := os) ht H
  refine ⟨es, f, h1, h2, h3, h4, fun os' => ?_⟩
  obtain ⟨es', f', k1, k2, _, _, k5⟩ := A.mirror (os' := os') ht H
  rw [h1] at k1
  cases k1
  rw [h2.unique k2]
  exact k5

/-- A tree in which a name occurs in one directory only. -/
theorem OnlyIn.named {os : Os} {fs : FS} {l d : Loc} {n : Bytes} (h : OnlyIn fs l n d) {f : Forest}
    (hp : f.proper) (hu : f.pure)
    (hl : ∀ x q, f.lookup os (x :: q) = (fs (l ++ x :: q)).map (Node.copied os)) : f.named n ≤ 1 := by
  have hl' : ∀ q, f.lookup os (q ++ [n]) = (fs (l ++ q ++ [n])).map (Node.copied os) := by
    intro q
    cases q with
    | nil => simpa using hl n []
    | cons x q => simpa using hl x (q ++ [n])
  have one : ∀ {q a}, f.lookup os (q ++ [n]) = some a → a.type ≠ .dir → l ++ q = d := by
    intro q a h1 h2
    rw [hl'] at h1
    cases hf : fs (l ++ q ++ [n]) with
    | none => rw [hf] at h1; cases h1
    | some node =>
      rw [hf] at h1
      refine h q node hf ?_
      cases node <;> cases h1 <;> simp_all [Node.copied, Node.type]
  refine named_le_one os f hu hp (fun q q' a b h1 h2 h3 h4 => ?_)
  have := (one h1 h3).trans (one h2 h4).symm
  exact List.append_cancel_left this

/-- Storing the output file changes nothing that is packed. -/
theorem keptAt_out {exe out : Bytes} {fs fs' : FS} {z : Loc} (hz : z.getLast? = some out)
    (h : ∀ x, x ≠ z → fs' x = fs x) (h1 : ∀ n, fs z = some n → n.type ≠ .dir)
    (h2 : ∀ n, fs' z = some n → n.type ≠ .dir) (q : List Bytes) : ∀ (p : Bytes) (l : Loc),
    (KeptAt (packable exe out) fs' p l q ↔ KeptAt (packable exe out) fs p l q) ∧
      (q ≠ [] → KeptAt (packable exe out) fs p l q → l ++ q ≠ z) := by
  have bad : ∀ {g : FS} {d : Bytes} {l : Loc} {x : Bytes}, (∀ n, g z = some n → n.type ≠ .dir) →
      (∃ node, g (l ++ [x]) = some node ∧ packable exe out d ⟨x, node.type⟩ = true) → l ++ [x] ≠ z := by
    rintro g d l x hg ⟨node, e1, e2⟩ rfl
    have e3 := hg node e1
    rw [List.getLast?_append] at hz
    simp only [List.getLast?_singleton, Option.some_or, Option.some.injEq] at hz
    subst hz
    simp [packable, e3] at e2
  induction q with
  | nil => intro p l; exact ⟨Iff.rfl, fun h => absurd rfl h⟩
  | cons x q ih =>
    intro p l
    obtain ⟨i1, i2⟩ := ih (p ++ 47 :: x) (l ++ [x])
    simp only [KeptAt]
    refine ⟨⟨fun ⟨a, b⟩ => ⟨?_, i1.1 b⟩, fun ⟨a, b⟩ => ⟨?_, i1.2 b⟩⟩, fun _ ⟨a, b⟩ => ?_⟩
    · have := bad h2 a
      obtain ⟨node, e1, e2⟩ := a
      exact ⟨node, by rw [← h _ this]; exact e1, e2⟩
    · have := bad h1 a
      obtain ⟨node, e1, e2⟩ := a
      exact ⟨node, by rw [h _ this]; exact e1, e2⟩
    · cases q with
      | nil => exact bad h1 a
      | cons y q =>
        have := i2 (by simp) b
        simpa using this

theorem CopyOf.source_out {os : Os} {src src' : FS} {p : Bytes} {l : Loc} {exe out : Bytes}
    {fs fs' : FS} {d : Loc} {n : Bytes} {ns : List Bytes} {z : Loc} (hz : z.getLast? = some out)
    (hs : ∀ x, x ≠ z → src' x = src x) (h1 : ∀ n, src z = some n → n.type ≠ .dir)
    (h2 : ∀ n, src' z = some n → n.type ≠ .dir)
    (h : CopyOf os src' p l (packable exe out) fs fs' d n ns) :
    CopyOf os src p l (packable exe out) fs fs' d n ns := by
  obtain ⟨k1, k2, k3, k4⟩ := h
  refine ⟨k1, fun x q hk => ?_, fun x q hk => ?_, k4⟩
  · obtain ⟨a, b⟩ := keptAt_out (exe := exe) hz hs h1 h2 (x :: q) p l
    rw [← hs _ (b (by simp) hk)]
    exact k2 x q (a.2 hk)
  · exact k3 x q (fun hk' => hk ((keptAt_out (exe := exe) hz hs h1 h2 (x :: q) p l).1.1 hk'))

/-! ### Removing a directory -/

theorem Without.tree {n : Bytes} {w w' : World} (h : Without n w w') (ht : w.fs.tree) : w'.fs.tree := by
  obtain ⟨⟨m, hm⟩, h2⟩ := ht
  have np : ∀ {x : Loc} {c : Bytes}, ¬ w.cwd ++ [n] <+: x ++ [c] → ¬ w.cwd ++ [n] <+: x :=
    fun h h' => h (h'.trans ⟨_, rfl⟩)
  refine ⟨⟨m, ?_⟩, fun l c node hn => ?_⟩
  · rw [h.rest _ (by simp)]; exact hm
  · by_cases hp : w.cwd ++ [n] <+: l ++ [c]
    · rw [h.gone _ hp] at hn; cases hn
    · rw [h.rest _ hp] at hn
      rw [h.rest _ (np hp)]
      exact h2 l c node hn

theorem Without.above {n : Bytes} {w w' : World} (h : Without n w w') {x : Loc} (hx : x <+: w.cwd) :
    w'.fs x = w.fs x := by
  refine h.rest _ (fun h' => ?_)
  have h1 := h'.length_le
  have h2 := hx.length_le
  simp at h1
  omega

/-! ### What is packed and extracted -/

theorem Forest.prune_pure (keep : Bytes → Entry → Bool) (f : Forest) : ∀ d, f.pure →
    (f.prune keep d).pure := by
  induction f with
  | nil => intro d _; trivial
  | file n m c r ih => intro d h; rw [prune]; split <;> exact ih d h
  | link n m c r ih => intro d h; rw [prune]; split <;> exact ih d h
  | dir n m s r ihs ih =>
    intro d h
    rw [prune]
    split
    · exact ⟨ihs _ h.1, ih d h.2⟩
    · exact ih d h.2
  | other n r ih => intro d h; exact h.elim
  | bad n r ih => intro d h; exact h.elim

open Classical in
theorem SmallKept.bulk {os : Os} {fs : FS} {f : Forest} (hp : f.proper) (hu : f.pure) {l : Loc}
    (hl : ∀ x q, f.lookup os (x :: q) = (fs (l ++ x :: q)).map (Node.copied os))
    {keep : Bytes → Entry → Bool} {d : Bytes} (hpp : (f.prune keep d).proper)
    (hs : SmallKept keep fs d l) : (f.prune keep d).bulk < 524288 := by
  let fs' : FS := fun x => if ∃ q, x = l ++ q ∧ KeptAt keep fs d l q then fs x else none
  have e : ∀ q, fs' (l ++ q) = if KeptAt keep fs d l q then fs (l ++ q) else none := by
    intro q
    have : (∃ q', l ++ q = l ++ q' ∧ KeptAt keep fs d l q') ↔ KeptAt keep fs d l q :=
      ⟨fun ⟨q', h1, h2⟩ => by rw [List.append_cancel_left h1]; exact h2, fun h => ⟨q, rfl, h⟩⟩
    simp only [fs', this]
  refine Forest.bulk_small (os := os) (fs := fs') (l := l) hpp (Forest.prune_pure keep f d hu)
    (fun x q => ?_) ?_
  · rw [e]
    split
    · rename_i h
      exact (prune_disk hp hu hl keep d x q).1 h
    · rename_i h
      rw [(prune_disk hp hu hl keep d x q).2 h]
      rfl
  · obtain ⟨qs, h1, h2⟩ := hs
    refine ⟨qs, fun q hq0 hq1 => h1 q hq0 ?_, ?_⟩
    · rw [e] at hq1
      by_cases hk : KeptAt keep fs d l q
      · exact hk
      · simp [hk] at hq1
    · refine Nat.lt_of_le_of_lt ?_ h2
      clear h1 h2
      induction qs with
      | nil => simp
      | cons q qs ih =>
        simp only [List.map_cons, List.sum_cons]
        have : placeCost fs' (l ++ q) ≤ placeCost fs (l ++ q) := by
          by_cases hk : KeptAt keep fs d l q
          · simp only [placeCost, e, if_pos hk]; exact Nat.le_refl _
          · simp only [placeCost, e, if_neg hk]; omega
        omega

variable {Z : Inflater} {D : Deflater} {plain : Bytes → Bytes}

/-- Compression with the filter of the self extractor, and extraction. -/
theorem self_tree (CD : DeflateOK D plain) (C : InflateOK Z plain) {os : Os} {w : World} (ht : w.fs.tree)
    {env : Env} (henv : env.ok) (H : Shows os w env) {p : Bytes} {l : Loc} (A : Archivable os w p l)
    {exe out : Bytes} (hx : exe ≠ out) {d1 d2 : Loc} (h1 : OnlyIn w.fs l exe d1)
    (h2 : OnlyIn w.fs l out d2) (hne : ∃ x, KeptAt (packable exe out) w.fs p l [x]) (z : D.τ)
    (hz : D.init 9 = some z) (junk : Bytes) (hj : junk.length = 120) :
    ∃ n1 log b, (∀ fuel, n1 ≤ fuel →
        compressDir D env (selfFilter exe out) fuel .plain p ⟨true, true⟩ 9 junk = .ok (0, log)) ∧
      log.getLast? = some b ∧ log.flatten ≠ [] ∧
      ∀ (ok : AllocOracle) (_ : ∀ k n, ok k n = true) (hdr item : Bytes) (_ : hdr.length = 128)
        (_ : item.length = 40) (os' : Os) (_ : os'.quiet) (w' : World) (_ : w'.fs.tree) (pre : Bytes)
        (_ : 0 ∉ pre) (d : Loc) (_ : InDir os' w' pre d) (_ : OpenDir os' w'.fs d) (n : Bytes)
        (ns : List Bytes) (_ : ∀ x ∈ n :: ns, PlainName x) (_ : w'.fs (d ++ [n]) = none)
        (_ : Enterable os' (dirMode os' 0o775)) (_ : ns.length ≤ 61)
        (_ : ∀ q m, KeptAt (packable exe out) w.fs p l q → q ≠ [] → w.fs (l ++ q) = some (.dir m) →
          Enterable os' (dirMode os' m))
        (_ : (∀ q t, KeptAt (packable exe out) w.fs p l q → w.fs (l ++ q) ≠ some (.link t)) ∨
          CwdOk os' w'.fs w'.cwd ∧ SmallKept (packable exe out) w.fs p l ∧
            log.flatten.length < 524288), b.length < 524288 →
        ∃ n0 r, (∀ fuel, n0 ≤ fuel → extract Z os' ok fuel hdr item (pre ++ joinNames (n :: ns)) 0
            ⟨log.flatten, false⟩ w' = .ok r) ∧
          (C.Final → CD.Fits → ∀ c ∈ r.codes, c = Z_OK) ∧
          ((∀ c ∈ r.codes, c = Z_OK) → 0 < r.room ∨ C.Prompt log.flatten →
            r.ret = CT_DIRECTORY ∧ r.w.cwd = w'.cwd ∧
            CopyOf os' w.fs p l (packable exe out) w'.fs r.w.fs d n ns) := by
  obtain ⟨es, f, m1, m2, m3, m4, m5⟩ := A.mirror_all ht H
  obtain ⟨s1, s2, _, _⟩ := select_self hx f p ⟨true, true⟩ m4 (h1.named m3 m4 (m5 os))
    (h2.named m3 m4 (m5 os))
  have hst : (select (selfFilter exe out) p f ⟨true, true⟩).status ≠ .failed := by rw [s1]; decide
  have hpr : (f.prune (packable exe out) p).proper := by
    rw [← s2]; exact (select_proper (selfFilter exe out) f p ⟨true, true⟩).2 m3
  have hne' : (select (selfFilter exe out) p f ⟨true, true⟩).forest ≠ .nil := by
    rw [s2]
    intro he
    obtain ⟨x, hx⟩ := hne
    have := (prune_disk m3 m4 (m5 os) (packable exe out) p x []).1 hx
    rw [he] at this
    have h2 := hx.exists
    cases hf : w.fs (l ++ [x]) with
    | none => exact h2 hf
    | some n => rw [hf] at this; cases this
  obtain ⟨n1, log, d1, t, d2, d3, b, c2, d5⟩ := C27_directory_archive CD env henv
    (selfFilter exe out) m1 m2 ⟨true, true⟩ 9 z hz junk hj hst
  have hlog : log.flatten ≠ [] := by
    intro h
    by_cases hb : b.length < 524288
    · have := d5 hb
      rw [h, CD.plain_nil hz] at this
      have := congrArg List.length this
      rw [List.length_append, (C02_header_roundtrip 0 1 junk hj (by decide) (by decide)).1] at this
      simp [MAIN_HEADER_SIZE] at this
      omega
    · have := (List.sublist_flatten_of_mem (List.mem_of_getLast? c2)).length_le
      rw [h, List.length_nil] at this
      omega
  refine ⟨n1, log, b, d1, c2, hlog, ?_⟩
  intro ok hok hdr item hh hi os' hq w' ht' pre h0 d hd ho n ns hn hnew hen hlen hfe hnl hb
  have hkept : ∀ {q node}, (f.prune (packable exe out) p).lookup os' q = some node →
      q ≠ [] ∧ KeptAt (packable exe out) w.fs p l q ∧
        some node = (w.fs (l ++ q)).map (Node.copied os') := by
    intro q node h
    obtain ⟨x, q, rfl, _⟩ := Forest.lookup_head h
    by_cases hk : KeptAt (packable exe out) w.fs p l (x :: q)
    · have := (prune_disk m3 m4 (m5 os') (packable exe out) p x q).1 hk
      exact ⟨by simp, hk, by rw [← this, h]⟩
    · have := (prune_disk m3 m4 (m5 os') (packable exe out) p x q).2 hk
      rw [h] at this; cases this
  have hfe' : (select (selfFilter exe out) p f ⟨true, true⟩).forest.enterable os' := by
    rw [s2]
    refine Forest.enterable_of _ hpr (fun q m h => ?_)
    obtain ⟨h1, h2, h3⟩ := hkept h
    obtain ⟨m', h4, h5⟩ := Node.copied_dir h3
    rw [h5]
    exact hfe q m' h2 h1 h4
  have fin : ∀ {fs' : FS},
      Landed os' w'.fs fs' d n ns (select (selfFilter exe out) p f ⟨true, true⟩).forest →
      CopyOf os' w.fs p l (packable exe out) w'.fs fs' d n ns := by
    intro fs' h
    rw [s2] at h
    exact copy_of_landed m3 m4 (m5 os') h
  have hal : allowed 0 0 log.flatten = log.flatten := rfl
  by_cases hno : ∀ q t, KeptAt (packable exe out) w.fs p l q → w.fs (l ++ q) ≠ some (.link t)
  · have hno' : (select (selfFilter exe out) p f ⟨true, true⟩).forest.noLinks := by
      rw [s2]
      refine Forest.noLinks_of (os := os') _ hpr (fun q t h => ?_)
      obtain ⟨_, h2, h3⟩ := hkept h
      exact hno q t h2 (Node.copied_link h3)
    obtain ⟨n2, log', b', c1, c2', c3⟩ := C39_round_trip_partial CD C env henv (selfFilter exe out) m1
      m2 ⟨true, true⟩ 9 z hz junk hj hst hne' ok hok hdr item hh hi os' hq w' ht' pre h0 d hd ho n ns hn
      hnew hen hlen m3 hfe' hno'
    have e1 := c1 (max n1 n2) (by omega)
    rw [d1 (max n1 n2) (by omega)] at e1
    cases e1
    rw [c2] at c2'
    cases c2'
    obtain ⟨n0, r, r1, r2, r3⟩ := c3 0 log.flatten hal hb
    exact ⟨n0, r, r1, r2, fun a b => ⟨(r3 a b).1, (r3 a b).2.1, fin (r3 a b).2.2⟩⟩
  · obtain ⟨hcw, hsm, hlg⟩ := hnl.resolve_left hno
    have hbk : (select (selfFilter exe out) p f ⟨true, true⟩).forest.bulk < 524288 := by
      rw [s2]
      exact hsm.bulk m3 m4 (m5 os') hpr
    obtain ⟨n2, log', c1, c3⟩ := C39_round_trip_small_partial CD C env henv (selfFilter exe out) m1
      m2 ⟨true, true⟩ 9 z hz junk hj hst hne' ok hok hdr item hh hi os' hq w' ht' pre h0 d hd ho n ns hn
      hnew hen hlen m3 hfe' hcw hbk
    have e1 := c1 (max n1 n2) (by omega)
    rw [d1 (max n1 n2) (by omega)] at e1
    cases e1
    obtain ⟨n0, r, r1, r2, r3⟩ := c3 hlg 0 log.flatten hal
    exact ⟨n0, r, r1, r2, fun a b => ⟨(r3 a b).1, (r3 a b).2.1, fin (r3 a b).2.2⟩⟩

end Zwt
