import Verif.Proofs.HLGrow
import Verif.Proofs.Disk
import Verif.Proofs.Mkdir
import Verif.Spec.Conc

/-! The disk after an interrupted run, as the start of another one. -/

namespace Zwt

theorem FS.tree.put {fs : FS} {l : Loc} {x : Node} (ht : fs.tree)
    (hl : ∀ m, fs l = some (.dir m) → x = .dir m) (hp : ∃ m, fs l.dropLast = some (.dir m)) : (fs.put l x).tree := by
  obtain ⟨m, hm⟩ := hp
  have old : ∀ k m, fs k = some (.dir m) → fs.put l x k = some (.dir m) := by
    intro k m hk
    simp only [FS.put]
    split
    · rename_i e; rw [hl m (by rw [← e]; exact hk)]
    · exact hk
  refine ⟨?_, ?_⟩
  · obtain ⟨m, h⟩ := ht.1; exact ⟨m, old _ _ h⟩
  · intro k c y hy
    simp only [FS.put] at hy
    split at hy
    · rename_i e
      rw [← e, List.dropLast_concat] at hm
      exact ⟨m, old _ _ hm⟩
    · obtain ⟨m, h⟩ := ht.2 k c y hy; exact ⟨m, old _ _ h⟩

theorem FS.tree.parent {fs : FS} (ht : fs.tree) {l : Loc} {y : Node} (hy : fs l = some y) :
    ∃ m, fs l.dropLast = some (.dir m) := by
  rcases List.eq_nil_or_concat l with rfl | ⟨k, c, rfl⟩
  · exact ht.1
  · rw [List.concat_eq_append, List.dropLast_concat]
    exact ht.2 k c y (by simpa using hy)

theorem addNode_tree {os : Os} {w w' : World} {l : Loc} {x : Node} (ht : w.fs.tree) (hl : w.fs l = none)
    (h : addNode os w l x = some w') : w'.fs.tree := by
  simp only [addNode] at h
  split at h
  · rename_i hw
    cases h
    exact ht.put (by intro m h; rw [hl] at h; simp at h) (writable_dir hw)
  · cases h

/-- Every call leaves a tree. -/
theorem Call.exec_tree (os : Os) (c : Call) (w : World) (ht : w.fs.tree) : (c.exec os w).2.fs.tree := by
  cases c with
  | alloc => exact ht
  | nop => exact ht
  | mkdir p m =>
    simp only [Call.exec, sysMkdir]
    split
    · exact ht
    · split
      · exact ht
      · split
        · exact ht
        · rename_i hl
          split
          · exact ht
          · rename_i h; exact (addNode_tree ht hl h :)
  | isDir p =>
    simp only [Call.exec, sysIsDir]
    split
    · exact ht
    · split
      · exact ht
      · split <;> exact ht
  | openFile p m t =>
    simp only [Call.exec, sysOpen]
    split
    · exact ht
    · split
      · exact ht
      · split
        · rename_i hl
          split
          · exact ht
          · split
            · exact ht.put (by intro m h; rw [hl] at h; simp at h) (ht.parent hl)
            · exact ht
        · exact ht
        · rename_i hl
          split
          · exact ht
          · split
            · exact ht
            · rename_i h; exact (addNode_tree ht hl h :)
  | write f d =>
    simp only [Call.exec, sysWrite]
    split
    · exact ht
    · split
      · rename_i hl
        exact ht.put (by intro m h; rw [hl] at h; simp at h) (ht.parent hl)
      · exact ht
  | symlink t p =>
    simp only [Call.exec, sysSymlink]
    split
    · exact ht
    · split
      · exact ht
      · split
        · exact ht
        · rename_i hl
          split
          · exact ht
          · rename_i h; exact (addNode_tree ht hl h :)
  | chdir p =>
    simp only [Call.exec, sysChdir]
    split
    · exact ht
    · split
      · exact ht
      · split <;> exact ht
  | getcwd n =>
    simp only [Call.exec, sysGetcwd]
    split
    · exact ht
    · split <;> exact ht

theorem Prog.after_tree (os : Os) (k : Nat) : ∀ (p : Prog α) (w : World), w.fs.tree → (p.after os k w).2.fs.tree := by
  induction k with
  | zero => intro p w ht; exact ht
  | succ k ih =>
    intro p w ht
    rw [Prog.after]
    refine ih _ _ ?_
    cases p with
    | ret a => exact ht
    | call c f => exact c.exec_tree os w ht

theorem FS.partOf.keeps {fs fs' : FS} (h : fs.partOf fs') : Keeps fs fs' := by
  refine ⟨fun l m hl => ?_, fun l t hl => ?_⟩
  · obtain ⟨b, b1, b2⟩ := h _ _ hl
    rw [b1]; exact congrArg some b2
  · obtain ⟨b, b1, b2⟩ := h _ _ hl
    rw [b1]; exact congrArg some b2

theorem InDir.mono {os : Os} {w w' : World} {pre : Bytes} {d : Loc} (h : InDir os w pre d)
    (hd : OpenDir os w.fs d) (hk : Keeps w.fs w'.fs) (hc : w'.cwd = w.cwd) : InDir os w' pre d := by
  cases h with
  | rel => rw [← hc]; exact .rel
  | abs => exact .abs
  | @path p d hl =>
    have hp : p ≠ [] := by
      intro h; subst h; simp [locate] at hl
    rw [locate, if_neg hp] at hl
    obtain ⟨m, hm, _⟩ := hd
    obtain ⟨k, hk'⟩ := resolve_walks os w.fs d m hm _ _ _ hl
    refine .path ?_
    rw [locate, if_neg hp, hc]
    exact (hk'.mono hk).resolve_end

/-- A file can be opened again. -/
theorem open_again {os : Os} (hq : os.quiet) {w : World} {pre : Bytes} (h0 : 0 ∉ pre) {d : Loc}
    (hd : InDir os w pre d) (ho : OpenDir os w.fs d) {n : Bytes} (hn : PlainName n)
    (hx : w.fs (d ++ [n]) = none ∨ ∃ m c, w.fs (d ++ [n]) = some (.file m c) ∧ fileWritable os m = true) :
    (sysOpen os w (pre ++ n) 0o666 true).1 = some (d ++ [n]) := by
  have hF := hd.front ho.searchable h0
  have hlast : (pre ++ n).getLast? ≠ some 47 := by
    intro h
    have hne := hn.1
    rw [List.getLast?_append, Option.or_eq_some_iff] at h
    rcases h with h | ⟨h, _⟩
    · exact hn.2.2.2.1 (List.mem_of_getLast? h)
    · exact hne (List.getLast?_eq_none_iff.mp h)
  simp only [sysOpen, hq.1, Bool.false_eq_true, if_false]
  rcases hx with hx | ⟨m, c, hx, hw⟩
  · obtain ⟨k, hk⟩ := hF.locate true hn
    rw [hk, resolve_missing os w.fs true k d n [] hn ho.searchable hx]
    simp only [List.all_nil, if_true, hx, if_neg hlast, addNode, List.dropLast_concat, ho.writable]
  · rw [hF.at ho.searchable hn true hx (by intro _ t h; cases h)]
    simp only [hx]
    rw [if_neg (by simp only [hw, not_or]; exact ⟨hlast, by simp⟩)]
    rfl

end Zwt
