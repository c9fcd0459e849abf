import Verif.Model.HLTest
import Verif.Spec.HLTest
import Verif.Proofs.Disk
import Verif.Proofs.RoundRun

/-! Opening, writing and reading archives on a disk. -/

namespace Zwt

theorem readBit {os : Os} {m : Nat} (h : ReadMode os m) : (os.root || m &&& 0o400 != 0) = true := by
  rcases h with h | h <;> simp [h]

/-- `fopen(…, "wb")` of an output file. -/
theorem OutFile.open' {os : Os} (hq : os.quiet) {w : World} {a : Bytes} {l : Loc}
    (h : OutFile os w a l) :
    ∃ m, sysOpen os w a FOPEN_MODE true = (some l, (w.put l (.file m [])).tick) ∧ ReadMode os m ∧
      (∀ x, w.fs l = some x → ∃ c', x = .file m c') := by
  obtain ⟨pre, d, n, rfl, rfl, h0, h1, h2, h3, h4⟩ := h
  have hf := h1.front h2.searchable h0
  have hlast : (pre ++ n).getLast? ≠ some 47 := by
    rw [List.getLast?_append]
    cases hg : n.getLast? with
    | none => rw [List.getLast?_eq_none_iff] at hg; exact absurd hg h3.1
    | some x =>
      simp only [Option.some_or, ne_eq, Option.some.injEq]
      intro hx
      exact h3.2.2.2.1 (hx ▸ List.mem_of_getLast? hg)
  rcases h4 with ⟨h4, h5⟩ | ⟨m, c, h4, h5, h6⟩
  · obtain ⟨k, hl⟩ := hf.locate true h3
    rw [resolve_missing os w.fs true k d n [] h3 h2.searchable h4] at hl
    simp only [List.all_nil, if_true] at hl
    refine ⟨0o666 &&& os.allow, ?_, h5, fun x hx => by rw [h4] at hx; cases hx⟩
    simp only [sysOpen, hq.1, Bool.false_eq_true, if_false, hl, h4, hlast, addNode,
      List.dropLast_concat, h2.writable, if_true, FOPEN_MODE]
  · have hl := hf.at h2.searchable h3 true h4 (by simp)
    have hw : fileWritable os m = true := by
      rcases h6 with h | h <;> simp [fileWritable, h]
    refine ⟨m, ?_, h5, fun x hx => by rw [h4] at hx; cases hx; exact ⟨c, rfl⟩⟩
    simp only [sysOpen, hq.1, Bool.false_eq_true, if_false, hl, h4, hlast, hw, not_true_eq_false,
      or_self, if_true]

/-- The pieces of an archive written to an open file. -/
theorem writePieces_end {os : Os} (hq : os.quiet) {l : Loc} {m : Nat} (ds : List Bytes) :
    ∀ (c : Bytes) (w : World), w.fs l = some (.file m c) →
    (writePieces os ds ⟨l, c.length⟩ w).fs = w.fs.put l (.file m (c ++ ds.flatten)) ∧
      (writePieces os ds ⟨l, c.length⟩ w).cwd = w.cwd := by
  induction ds with
  | nil =>
    intro c w h
    refine ⟨?_, rfl⟩
    rw [writePieces, List.flatten_nil, List.append_nil]
    funext l'
    simp only [FS.put]
    split
    · rename_i e; rw [e, h]
    · rfl
  | cons d ds ih =>
    intro c w h
    have e : sysWrite os w ⟨l, c.length⟩ d = (⟨l, (c ++ d).length⟩,
        (w.put l (.file m (c ++ d))).tick) := by
      simp only [sysWrite, hq.1, Bool.false_eq_true, if_false, h]
      rw [List.take_of_length_le (hq.2.1 _ _), pwrite_end, List.length_append]
    rw [writePieces, e]
    obtain ⟨i1, i2⟩ := ih (c ++ d) ((w.put l (.file m (c ++ d))).tick)
      (by simp [World.put, World.tick, FS.put])
    refine ⟨?_, i2⟩
    rw [i1]
    simp only [World.put, World.tick, FS.put_put, List.flatten_cons, List.append_assoc]

/-- `fopen(…, "rb")`, then reading. -/
theorem InFile.read {os : Os} (hq : os.quiet) {w : World} {a : Bytes} {l : Loc} {c : Bytes}
    (h : InFile os w a l c) : sysOpenRead os w a = (some l, w.tick) := by
  obtain ⟨h1, h2, m, h3, h4⟩ := h
  simp only [sysOpenRead, hq.1, Bool.false_eq_true, if_false, h2, h3, h1, readBit h4, not_true_eq_false,
    or_self]

/-- The directory the archive was made from is as before. -/
theorem Archivable.beside {os : Os} {w w' : World} {p : Bytes} {l : Loc} (A : Archivable os w p l)
    (hk : Keeps w.fs w'.fs) (hc : w'.cwd = w.cwd) (h : ∀ q, w'.fs (l ++ q) = w.fs (l ++ q)) :
    Archivable os w' p l where
  path := A.path
  leads := by
    have h1 := A.leads
    obtain ⟨m, hm⟩ := A.isDir
    rw [locate, if_neg A.path.1] at h1 ⊢
    obtain ⟨k, hk'⟩ := resolve_walks os w.fs l m hm _ _ _ h1
    rw [hc]
    exact (hk'.mono hk).resolve_end
  isDir := by
    have := h []
    rw [List.append_nil] at this
    rw [this]; exact A.isDir
  dirs := fun q m => by rw [h]; exact A.dirs q m
  files := fun q m c => by rw [h]; exact A.files q m c
  links := fun q t => by rw [h]; exact A.links q t
  names := fun q x n => by rw [List.append_assoc, h, ← List.append_assoc]; exact A.names q x n
  limit := fun q n => by rw [h]; exact A.limit q n

/-- The archive after it has been written. -/
theorem OutFile.reads {os : Os} {w w' : World} {a : Bytes} {l : Loc} (h : OutFile os w a l)
    (hk : Keeps w.fs w'.fs) (hc : w'.cwd = w.cwd) {m : Nat} {c : Bytes}
    (hl : w'.fs l = some (.file m c)) (hm : ReadMode os m) : InFile os w' a l c := by
  obtain ⟨pre, d, n, rfl, rfl, h0, h1, h2, h3, h4⟩ := h
  have hf := (h1.front h2.searchable h0).mono hk
  rw [← hc] at hf
  refine ⟨?_, hf.at (h2.mono hk).searchable h3 true hl (by simp), m, hl, hm⟩
  rw [List.getLast?_append]
  cases hg : n.getLast? with
  | none => rw [List.getLast?_eq_none_iff] at hg; exact absurd hg h3.1
  | some x =>
    simp only [Option.some_or, ne_eq, Option.some.injEq]
    intro hx
    exact h3.2.2.2.1 (hx ▸ List.mem_of_getLast? hg)

/-- Storing a file. -/
theorem keeps_store {fs : FS} {l : Loc} {m : Nat} {c : Bytes}
    (h : ∀ x, fs l = some x → ∃ c', x = .file m c') : Keeps fs (fs.put l (.file m c)) := by
  cases hl : fs l with
  | none => exact Keeps.put hl _
  | some x =>
    obtain ⟨c', rfl⟩ := h x hl
    exact Keeps.putFile hl _

theorem tree_store {fs : FS} (ht : fs.tree) {d : Loc} {n : Bytes} {md : Nat}
    (hd : fs d = some (.dir md)) {m : Nat} {c : Bytes}
    (h : ∀ x, fs (d ++ [n]) = some x → ∃ c', x = .file m c') :
    (fs.put (d ++ [n]) (.file m c)).tree := by
  have hk : Keeps fs (fs.put (d ++ [n]) (.file m c)) := keeps_store h
  obtain ⟨⟨mr, hr⟩, ht2⟩ := ht
  refine ⟨⟨mr, hk.1 _ _ hr⟩, fun l x node hx => ?_⟩
  by_cases e : l ++ [x] = d ++ [n]
  · have : l = d := by
      have := congrArg List.dropLast e
      simpa using this
    rw [this]
    exact ⟨md, hk.1 _ _ hd⟩
  · simp only [FS.put, if_neg e] at hx
    obtain ⟨m', hm'⟩ := ht2 l x node hx
    exact ⟨m', hk.1 _ _ hm'⟩

end Zwt
