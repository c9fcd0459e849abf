import Verif.Proofs.Retry
import Verif.Spec.Later

/-! What any number of extractions leave of the disk. -/

namespace Zwt

theorem Keeps.putLike {fs : FS} {l : Loc} {x : Node} (hd : ∀ m, fs l = some (.dir m) → x = .dir m)
    (hl : ∀ t, fs l = some (.link t) → x = .link t) : Keeps fs (fs.put l x) := by
  refine ⟨fun k m hk => ?_, fun k m hk => ?_⟩
  · simp only [FS.put]
    split
    · rename_i e; rw [hd m (by rw [← e]; exact hk)]
    · exact hk
  · simp only [FS.put]
    split
    · rename_i e; rw [hl m (by rw [← e]; exact hk)]
    · exact hk

theorem addNode_keeps {os : Os} {w w' : World} {l : Loc} {x : Node} (hl : w.fs l = none)
    (h : addNode os w l x = some w') : Keeps w.fs w'.fs := by
  simp only [addNode] at h
  split at h
  · cases h
    exact .putLike (by intro m h; rw [hl] at h; simp at h) (by intro m h; rw [hl] at h; simp at h)
  · cases h

/-- No call removes a directory or a link. -/
theorem Call.exec_keeps (os : Os) (c : Call) (w : World) : Keeps w.fs (c.exec os w).2.fs := by
  have ht := Keeps.refl w.fs
  cases c with
  | alloc => exact ht
  | nop => exact ht
  | mkdir p m =>
    simp only [Call.exec, sysMkdir]
    split
    · exact ht
    · split
      · exact ht
      · split
        · exact ht
        · rename_i hl
          split
          · exact ht
          · rename_i h; exact (addNode_keeps hl h :)
  | isDir p =>
    simp only [Call.exec, sysIsDir]
    split
    · exact ht
    · split
      · exact ht
      · split <;> exact ht
  | openFile p m t =>
    simp only [Call.exec, sysOpen]
    split
    · exact ht
    · split
      · exact ht
      · split
        · rename_i hl
          split
          · exact ht
          · split
            · exact .putLike (by intro m h; rw [hl] at h; simp at h) (by intro m h; rw [hl] at h; simp at h)
            · exact ht
        · exact ht
        · rename_i hl
          split
          · exact ht
          · split
            · exact ht
            · rename_i h; exact (addNode_keeps hl h :)
  | write f d =>
    simp only [Call.exec, sysWrite]
    split
    · exact ht
    · split
      · rename_i hl
        exact .putLike (by intro m h; rw [hl] at h; simp at h) (by intro m h; rw [hl] at h; simp at h)
      · exact ht
  | symlink t p =>
    simp only [Call.exec, sysSymlink]
    split
    · exact ht
    · split
      · exact ht
      · split
        · exact ht
        · rename_i hl
          split
          · exact ht
          · rename_i h; exact (addNode_keeps hl h :)
  | chdir p =>
    simp only [Call.exec, sysChdir]
    split
    · exact ht
    · split
      · exact ht
      · split <;> exact ht
  | getcwd n =>
    simp only [Call.exec, sysGetcwd]
    split
    · exact ht
    · split <;> exact ht

theorem Prog.after_keeps (os : Os) (k : Nat) : ∀ (p : Prog α) (w : World), Keeps w.fs (p.after os k w).2.fs := by
  induction k with
  | zero => intro p w; exact .refl _
  | succ k ih =>
    intro p w
    rw [Prog.after]
    refine Keeps.trans ?_ (ih _ _)
    cases p with
    | ret a => exact .refl _
    | call c f => exact c.exec_keeps os w

theorem Earlier.keeps {fs now : FS} (h : Earlier fs now) : Keeps fs now := by
  induction h with
  | start => exact .refl _
  | more Z os ok fuel hdr item out n inp w k _ hw ih =>
    subst hw
    exact ih.trans (Prog.after_keeps os k _ w)

theorem Earlier.tree {fs now : FS} (h : Earlier fs now) (ht : fs.tree) : now.tree := by
  induction h with
  | start => exact ht
  | more Z os ok fuel hdr item out n inp w k _ hw ih =>
    subst hw
    exact Prog.after_tree os k _ w ih

end Zwt
