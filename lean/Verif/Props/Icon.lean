import Verif.Spec.Icon
import Verif.Proofs.Mkdir
import Verif.Proofs.Bytes

/-! C90: setting the icon of a program.  C91: the program that sets the icon of its neighbour. -/

namespace Zwt

/-! ### C90 -/

/-- The samples: an icon file that is read completely; nothing fails. -/
def IconEnv.good (file : Bytes) : IconEnv :=
  ⟨some file, true, true, file.length, fun _ => 0, true, fun _ => true, true⟩

/-- An icon of the size the code announces for every icon. -/
def icon32 (image : Bytes) : Ico := ⟨32, 32, 0, 2, 32, image⟩

/-- C90, Windows, for every answer of the system: unless the icon file is shorter than 22 bytes, the
call returns, with 0 or 1, and the icon file has been closed, the memory freed, the update ended. -/
theorem C90_released (e : IconEnv) (app : AppRes) (h : ∀ d, e.file = some d → 22 ≤ d.length) :
    ∃ r, setIcon e app = .ok r ∧ (r.ret = 0 ∨ r.ret = 1) ∧ IconBalanced r.log := by
  unfold setIcon
  cases hf : e.file with
  | none => exact ⟨_, rfl, .inr rfl, by simp [IconBalanced]⟩
  | some d =>
    have := h d hf
    dsimp only
    repeat' split
    all_goals first | omega | exact ⟨_, rfl, by simp, by simp [IconBalanced]⟩

example := C90_released { IconEnv.good (icon32 [1, 2, 3]).file with upd := fun k => k == 0 } ⟨none, none⟩
  (by intro d h; cases h; decide)

/-- C90, what holds of success: if 0 is returned and the icon file was read completely, and if the
system could store the resources, the program has the image of the icon file; and it has the icon if
that is one of the size and depth the code announces.
Missing: that the read was complete and that the resources were stored (neither result is looked at,
see `C90_unread_false`, `C90_unstored_false`); icons of another size (`C90_other_size_false`). -/
theorem C90_success_partial (e : IconEnv) (app : AppRes) (r : IconRun) (i : Ico)
    (hf : e.file = some i.file) (hread : i.file.length ≤ e.got) (hc : e.commit = true)
    (hr : setIcon e app = .ok r) (h0 : r.ret = 0) :
    r.app.icon = some i.image ∧
      ((i.width, i.height, i.colours, i.planes, i.bits) = (32, 32, 0, 2, 32) → r.app.has i) := by
  have hbuf : iconBuffer e i.file = i.file := by
    rw [iconBuffer, List.take_of_length_le hread, Nat.sub_eq_zero_of_le hread]
    simp
  have hl : i.file.length = 22 + i.image.length := by
    simp only [Ico.file, List.length_append, leEnc_length, List.length_cons, List.length_nil]
  have hdrop : i.file.drop 22 = i.image := by
    rw [Ico.file, List.drop_left']
    simp [leEnc_length]
  unfold setIcon at hr
  rw [hf] at hr
  dsimp only at hr
  repeat' split at hr
  all_goals first
    | (rw [← Except.ok.inj hr] at h0; simp at h0; done)
    | (cases hr; done)
    | skip
  rw [← Except.ok.inj hr]
  simp only [endUpdate, hc, if_true, hbuf, hdrop]
  refine ⟨trivial, ?_⟩
  intro hk
  simp only [Prod.mk.injEq] at hk
  obtain ⟨k1, k2, k3, k4, k5⟩ := hk
  refine ⟨rfl, [0, 0], ?_⟩
  rw [show i.file.length - 22 = i.image.length by omega, k1, k2, k3, k4, k5]
  simp [iconEntry, leEnc]

example := C90_success_partial (IconEnv.good (icon32 [1, 2, 3]).file) ⟨none, none⟩
  ⟨0, ⟨some [1, 2, 3], some (iconEntry 3)⟩, [.fopen, .malloc, .fclose, .beginUpdate, .endUpdate, .free]⟩
  (icon32 [1, 2, 3]) rfl (Nat.le_refl _) rfl (by decide +kernel) rfl

/-- C90 is false: the icon is 16 × 16; 0 is returned, but the program says it is 32 × 32. -/
theorem C90_other_size_false :
    ¬ ∀ (i : Ico) (app : AppRes) (r : IconRun), setIcon (.good i.file) app = .ok r → r.ret = 0 →
      r.app.has i := by
  intro h
  obtain ⟨_, more, hm⟩ := h ⟨16, 16, 0, 1, 32, [1]⟩ ⟨none, none⟩
    ⟨0, ⟨some [1], some (iconEntry 1)⟩, [.fopen, .malloc, .fclose, .beginUpdate, .endUpdate, .free]⟩
    (by decide +kernel) rfl
  have := congrArg (fun x : Option Bytes => (x.getD []).getD 6 0) hm
  simp [iconEntry, leEnc] at this

/-- C90 is false: the icon file cannot be read, 0 is returned, and what was in the memory before is
the icon. -/
theorem C90_unread_false :
    ¬ ∀ (e : IconEnv) (i : Ico) (app : AppRes) (r : IconRun), e.file = some i.file →
      e.commit = true → setIcon e app = .ok r → r.ret = 0 → r.app.icon = some i.image := by
  intro h
  have := h { IconEnv.good (icon32 [1]).file with got := 0, junk := fun _ => 7 } (icon32 [1]) ⟨none, none⟩
    ⟨0, ⟨some [7], some (iconEntry 1)⟩, [.fopen, .malloc, .fclose, .beginUpdate, .endUpdate, .free]⟩
    rfl rfl (by decide +kernel) rfl
  revert this
  decide

/-- C90 is false: the program file cannot be written, 0 is returned, and the program is as before. -/
theorem C90_unstored_false :
    ¬ ∀ (e : IconEnv) (i : Ico) (app : AppRes) (r : IconRun), e.file = some i.file →
      i.file.length ≤ e.got → setIcon e app = .ok r → r.ret = 0 → r.app.icon = some i.image := by
  intro h
  have := h { IconEnv.good (icon32 [1]).file with commit := false } (icon32 [1]) ⟨none, none⟩
    ⟨0, ⟨none, none⟩, [.fopen, .malloc, .fclose, .beginUpdate, .endUpdate, .free]⟩
    rfl (by decide +kernel) (by decide +kernel) rfl
  revert this
  decide

/-- C90, what holds of failure: if 0 is not returned, the program is as before, or the image has been
replaced but not its description.  Missing: the latter is not excluded, see
`C90_failure_false`. -/
theorem C90_failure_partial (e : IconEnv) (app : AppRes) (r : IconRun)
    (hr : setIcon e app = .ok r) (h0 : r.ret ≠ 0) :
    r.app = app ∨ r.app.group = app.group ∧ e.upd 0 = true ∧ e.upd 1 = false ∧ e.commit = true := by
  unfold setIcon at hr
  cases hf : e.file with
  | none => rw [hf] at hr; rw [← Except.ok.inj hr]; exact .inl rfl
  | some d =>
    rw [hf] at hr
    dsimp only at hr
    repeat' split at hr
    all_goals first
      | (cases hr; done)
      | (rw [← Except.ok.inj hr]; exact .inl rfl)
      | (rw [← Except.ok.inj hr] at h0; simp at h0; done)
      | skip
    · rw [← Except.ok.inj hr]
      refine .inl ?_
      simp [endUpdate]
    · rename_i h1 h2
      rw [← Except.ok.inj hr]
      cases hc : e.commit
      · exact .inl (by simp [endUpdate, hc])
      · exact .inr ⟨by simp [endUpdate, hc], by simpa using h1, h2, rfl⟩

example := C90_failure_partial { IconEnv.good (icon32 [1, 2, 3]).file with upd := fun _ => false }
  ⟨some [9], none⟩ ⟨1, ⟨some [9], none⟩, [.fopen, .malloc, .fclose, .beginUpdate, .endUpdate, .free]⟩
  (by decide +kernel) (by decide)

/-- C90 is false: the second resource is refused; 1 is returned, but the image has been replaced. -/
theorem C90_failure_false :
    ¬ ∀ (e : IconEnv) (app : AppRes) (r : IconRun), setIcon e app = .ok r → r.ret ≠ 0 →
      r.app = app := by
  intro h
  have := h { IconEnv.good (icon32 [1]).file with upd := fun k => k == 0 } ⟨some [9], none⟩
    ⟨1, ⟨some [1], none⟩, [.fopen, .malloc, .fclose, .beginUpdate, .endUpdate, .free]⟩
    (by decide +kernel) (by decide)
  revert this
  decide

/-! ### C91 -/

theorem iconMain_path (ndebug : Bool) (set : Bytes → Bytes → Run Int) (dir name icon : Bytes)
    (more : List Bytes) (h : 92 ∉ name) (h0 : 0 ∉ dir) :
    iconMain ndebug set (dir ++ 92 :: name) (icon :: more) = set (dir ++ 92 :: ICON_APP) icon := by
  have hi : lastIndexOf 92 (dir ++ 92 :: name) = some dir.length := lastIndexOf_append _ _ _ h
  have ht : (dir ++ 92 :: name).take (dir.length + 1) = dir ++ [92] := by
    rw [List.take_append]; simp [List.take_of_length_le]
  have hlen : (ICON_APP ++ [0]).length = 21 := by decide
  unfold iconMain
  rw [hi]
  have e1 : memcpyAt (List.replicate (dir.length + 1 + 4 + 21) 0) 0 (dir ++ [92]) =
      .ok (dir ++ [92] ++ List.replicate 25 0) := by
    rw [memcpyAt, if_pos (by simp)]
    simp only [List.take_zero, List.nil_append, List.length_append, List.length_singleton,
      List.drop_replicate]
    congr 3; omega
  have e2 : memcpyAt (dir ++ [92] ++ List.replicate 25 0) (dir.length + 1) (ICON_APP ++ [0]) =
      .ok (dir ++ [92] ++ (ICON_APP ++ [0]) ++ List.replicate 4 0) := by
    rw [memcpyAt, if_pos (by rw [hlen]; simp), List.take_left' (by simp), hlen,
      show dir.length + 1 + 21 = (dir ++ [92]).length + 21 by simp, List.drop_append,
      List.drop_of_length_le (by simp), List.nil_append]
    simp
  have hz : 0 ∉ dir ++ 92 :: ICON_APP := by
    simp only [List.mem_append, List.mem_cons, not_or]
    exact ⟨h0, by decide, by decide⟩
  have e3 : cString (dir ++ [92] ++ (ICON_APP ++ [0]) ++ List.replicate 4 0) =
      dir ++ 92 :: ICON_APP := by
    have : dir ++ [92] ++ (ICON_APP ++ [0]) ++ List.replicate 4 0 =
        (dir ++ 92 :: ICON_APP) ++ 0 :: List.replicate 4 0 := by simp
    rw [this, cString_zero _ _ hz]
  cases ndebug <;>
    simp only [ht, e1, e2, e3, Bind.bind, Except.bind]

/-- C90 is false of every file too short to be an icon, also an empty one: if nothing fails before, memory
outside the buffer is read. -/
theorem C90_short_false (e : IconEnv) (app : AppRes) (data : Bytes) (hf : e.file = some data)
    (hl : data.length < 22) (hs : e.stat = true) (hm : e.mem = true) (hb : e.begins = true) :
    setIcon e app = .error .oobRead := by
  have : ¬ ¬ (e.stat = true ∧ data.length < 2147483648) := by simp only [hs, true_and]; omega
  simp only [setIcon, hf, if_neg this, hm, hb, if_pos hl, Bool.true_eq_false, if_false]

/-- Example: 21 bytes. -/
example := C90_short_false (.good (List.replicate 21 0)) ⟨none, none⟩ _ rfl (by decide) rfl rfl rfl

/-- C91, what holds: called through a path with a backslash, the program needs an icon, and sets it
for `hello_world_test.exe` in its own directory, whatever the directory is called and wherever the
icon is; its status is that of setting the icon; nothing is written outside the buffer for the path.
Missing: calls without a backslash, see `C91_other_calls_false`. -/
theorem C91_neighbour_partial (ndebug : Bool) (set : Bytes → Bytes → Run Int) (dir name : Bytes)
    (hn : 92 ∉ name) (h0 : 0 ∉ dir) :
    iconMain ndebug set (dir ++ 92 :: name) [] = .ok 1 ∧
    ∀ icon more, iconMain ndebug set (dir ++ 92 :: name) (icon :: more) =
      set (dir ++ 92 :: strB "hello_world_test.exe") icon := by
  constructor
  · unfold iconMain
    rw [lastIndexOf_append _ _ _ hn]
  · intro icon more
    exact iconMain_path ndebug set dir name icon more hn h0

/-- `C:\t\prog.exe`. -/
example := C91_neighbour_partial false (fun _ _ => .ok 0) [67, 58, 92, 116] (strB "prog.exe")
  (by decide) (by decide)

/-- C91 is false of every call without a backslash (as every call on other systems than Windows):
with assertions the program is aborted even if it is only to say that there is no icon; without
them it works with a null pointer as soon as there is an icon. -/
theorem C91_other_calls_false (set : Bytes → Bytes → Run Int) (arg0 : Bytes) (h : 92 ∉ arg0) :
    (∀ args, iconMain false set arg0 args = .error .assertFail) ∧
    ∀ icon more, iconMain true set arg0 (icon :: more) = .error .nullDeref := by
  constructor
  · intro args
    unfold iconMain
    rw [lastIndexOf_none _ _ h]
  · intro icon more
    unfold iconMain
    rw [lastIndexOf_none _ _ h]

/-- `./prog`. -/
example := C91_other_calls_false (fun _ _ => .ok 0) [46, 47, 112, 114, 111, 103] (by decide)

end Zwt
