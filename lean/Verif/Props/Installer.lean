import Verif.Proofs.Installer

/-! C71–C73: the installer program `apt-get`. -/

namespace Zwt

/-- The step file says nothing about a root. -/
def NoField (key text : Bytes) : Prop := ∀ a, ¬ a ++ key <+: text

/-- A step file that the installer reads as a whole: at most 1023 bytes and no NUL. -/
def ReadWhole (data : Bytes) : Prop := data.length ≤ 1023 ∧ 0 ∉ data

theorem cString_whole {data : Bytes} (h : ReadWhole data) : cString (data.take URI_MIN1) = data := by
  rw [List.take_of_length_le (by exact h.1)]
  have := h.2
  clear h
  induction data with
  | nil => rfl
  | cons c t ih =>
    simp only [List.mem_cons, not_or] at this
    have hc : (c == 0) = false := by simpa using Ne.symm this.1
    have := ih this.2
    simp only [cString] at this ⊢
    rw [List.takeWhile_cons_of_pos (by simpa [bne] using Ne.symm ‹¬ 0 = c ∧ _›.1), this]

theorem rootKey_ne : ROOT_KEY ≠ [] := by decide
theorem runKey_ne : RUN_KEY ≠ [] := by decide

theorem aptSteps_ret {env : AptEnv} {text : Bytes} {r : AptRun} (h : aptSteps env text = .ok r) :
    r.ret = 0 := by
  unfold aptSteps at h
  split at h
  · cases h; rfl
  · split at h
    · cases h
    · split at h
      · cases h; rfl
      · split at h
        · cases h; rfl
        · dsimp only at h
          cases hk : afterKey RUN_KEY text with
          | none => rw [hk] at h; cases h; rfl
          | some s =>
            rw [hk] at h
            dsimp only at h
            cases hv : fieldValue env s with
            | error e => rw [hv] at h; cases h
            | ok v => rw [hv] at h; cases h; rfl

/-- C71, what holds: the exit status tells whether an argument was given and whether the download, if
one was asked for, succeeded.
Missing: that the package was installed, which is false (`C71_exit_status_false`). -/
theorem C71_exit_status_partial (env : AptEnv) (args : List Bytes) {r : AptRun}
    (h : aptMain env args = .ok r) :
    (r.ret = 0 ↔ args ≠ [] ∧
      ∀ pkg more, args = strB "install" :: pkg :: more →
        env.web (packageUrl pkg) (strB "C:\\.dsi-tmp") = 0) ∧
    (r.ret ≠ 0 → r.deleted = false ∧ r.moved = none ∧ r.started = none) := by
  unfold aptMain at h
  split at h
  · cases h; simp
  · rename_i cmd pkg more
    split at h
    · rename_i hc
      split at h
      · cases h
      · dsimp only at h
        split at h
        · rename_i hw
          cases h
          refine ⟨⟨fun h0 => absurd h0 hw, fun hr => absurd (hr.2 pkg more (by rw [hc])) hw⟩, by simp⟩
        · rename_i hw
          have hw := Decidable.not_not.mp hw
          have h0 : r.ret = 0 := by
            split at h
            · cases h; rfl
            · exact aptSteps_ret h
          refine ⟨⟨fun _ => ⟨by simp, ?_⟩, fun _ => h0⟩, fun h => absurd h0 h⟩
          intro pkg' more' he
          cases he
          exact hw
    · rename_i hc
      cases h
      refine ⟨⟨fun _ => ⟨by simp, fun pkg' more' he => ?_⟩, fun _ => rfl⟩, by simp⟩
      exact absurd (List.cons.inj he).1 hc
  · cases h
    simp

/-- C72, what holds: a run with an address of less than 1023 bytes has no fault if the two arrays are
followed by a NUL, or if the step file names no root.
Missing: both restrictions (`C72_root_false`, `C72_long_name_false`). -/
theorem C72_memory_partial (env : AptEnv) (args : List Bytes)
    (hu : ∀ pkg more, args = strB "install" :: pkg :: more → (packageUrl pkg).length < 1023)
    (hs : (env.behind1.isSome ∧ env.behind2.isSome) ∨
      ∀ data, env.steps = some data → NoField (strB "root:") data) :
    ∃ r, aptMain env args = .ok r := by
  unfold aptMain
  split
  · exact ⟨_, rfl⟩
  · rename_i cmd pkg more
    split
    · rename_i hc
      have := hu pkg more (by rw [hc])
      rw [if_neg (by exact Nat.not_le.mpr this)]
      dsimp only
      split
      · exact ⟨_, rfl⟩
      · split
        · exact ⟨_, rfl⟩
        · rename_i data hd
          unfold aptSteps
          rcases hs with ⟨b1, b2⟩ | hs
          · obtain ⟨t1, b1⟩ := Option.isSome_iff_exists.mp b1
            obtain ⟨t2, b2⟩ := Option.isSome_iff_exists.mp b2
            have hv : ∀ s, ∃ v, fieldValue env s = .ok v := fun s => by
              simp only [fieldValue, asString, b1, b2]
              exact ⟨_, rfl⟩
            split
            · exact ⟨_, rfl⟩
            · rename_i s _
              obtain ⟨v, hv1⟩ := hv s
              rw [hv1]
              dsimp only
              split
              · exact ⟨_, rfl⟩
              · split
                · exact ⟨_, rfl⟩
                · split
                  · exact ⟨_, rfl⟩
                  · rename_i s' _
                    obtain ⟨v', hv2⟩ := hv s'
                    rw [hv2]
                    exact ⟨_, rfl⟩
          · cases hk : afterKey ROOT_KEY (cString (data.take URI_MIN1)) with
            | none => exact ⟨_, rfl⟩
            | some s =>
              exfalso
              obtain ⟨a, he, _⟩ := afterKey_some rootKey_ne hk
              refine hs data hd a ?_
              have p1 : a ++ ROOT_KEY <+: cString (data.take URI_MIN1) := ⟨s, he.symm⟩
              exact p1.trans ((List.takeWhile_prefix _).trans (List.take_prefix _ _))
    · exact ⟨_, rfl⟩
  · exact ⟨_, rfl⟩

/-- C72 fails: every installation of a package whose step file names a root reads beyond the end of
an array of two bytes. -/
theorem C72_root_false (env : AptEnv) (hb : env.behind1 = none) (pkg : Bytes) (more : List Bytes)
    (hu : (packageUrl pkg).length < 1023) (hw : env.web (packageUrl pkg) (strB "C:\\.dsi-tmp") = 0)
    {data a b : Bytes} (hd : env.steps = some data) (hr : ReadWhole data)
    (hf : data = a ++ strB "root:" ++ b) :
    aptMain env (strB "install" :: pkg :: more) = .error .oobRead := by
  unfold aptMain
  dsimp only
  rw [if_pos rfl, if_neg (by exact Nat.not_le.mpr hu), if_neg (by exact not_not_intro hw), hd]
  dsimp only
  rw [cString_whole hr]
  unfold aptSteps
  cases hk : afterKey ROOT_KEY data with
  | none => exact absurd ⟨b, hf.symm⟩ (afterKey_none rootKey_ne hk a)
  | some s => simp only [fieldValue, asString, hb]

/-- C72 fails: an address of 1023 bytes or more. -/
theorem C72_long_name_false (env : AptEnv) (pkg : Bytes) (more : List Bytes)
    (hu : 1023 ≤ (packageUrl pkg).length) :
    aptMain env (strB "install" :: pkg :: more) = .error .oobRead := by
  unfold aptMain
  dsimp only
  rw [if_pos rfl, if_pos (by exact hu)]

/-- C73, what holds, for arrays followed by a NUL and step files that are read as a whole: the package
is moved to the root that the step file names, and nowhere else; a program is started exactly if the
package is at its root and the step file names a program, and its command line is root, backslash,
program and ` /Install`, if these fit.
Missing: step files of more than 1023 bytes (`C73_cut_root_false`), command lines of more than 1022
bytes (`C73_cut_command_false`), and arrays followed by something else. -/
theorem C73_effects_partial (env : AptEnv) (h1 : env.behind1 = some []) (h2 : env.behind2 = some [])
    (pkg : Bytes) (more : List Bytes) {data : Bytes} (hd : env.steps = some data)
    (hr : ReadWhole data) {r : AptRun}
    (h : aptMain env (strB "install" :: pkg :: more) = .ok r) :
    (∀ p, r.moved = some p ↔ env.web (packageUrl pkg) (strB "C:\\.dsi-tmp") = 0 ∧
      FieldOf (strB "root:") data p ∧ p ≠ strB "C:\\.dsi-tmp" ∧ env.move p = true) ∧
    (∀ cmd, r.started = some cmd → ∃ root run, FieldOf (strB "root:") data root ∧
      FieldOf (strB "run:") data run ∧ (r.moved = some root ∨ root = strB "C:\\.dsi-tmp") ∧
      cmd <+: root ++ [92] ++ run ++ strB " /Install" ∧
      ((root ++ [92] ++ run ++ strB " /Install").length ≤ 1022 →
        cmd = root ++ [92] ++ run ++ strB " /Install")) ∧
    (∀ root run, env.web (packageUrl pkg) (strB "C:\\.dsi-tmp") = 0 →
      FieldOf (strB "root:") data root → FieldOf (strB "run:") data run →
      (r.moved = some root ∨ root = strB "C:\\.dsi-tmp") → r.started ≠ none) := by
  unfold aptMain at h
  dsimp only at h
  rw [if_pos rfl] at h
  split at h
  · cases h
  split at h
  · rename_i hw
    cases h
    refine ⟨fun p => ⟨by simp, fun hp => absurd hp.1 hw⟩, by simp, fun _ _ hp => absurd hp hw⟩
  rename_i hw
  have hw : env.web (packageUrl pkg) (strB "C:\\.dsi-tmp") = 0 := Decidable.not_not.mp hw
  rw [hd] at h
  dsimp only at h
  rw [cString_whole hr] at h
  unfold aptSteps at h
  cases hk : afterKey ROOT_KEY data with
  | none =>
    rw [hk] at h
    cases h
    have hno : ∀ p, ¬ FieldOf (strB "root:") data p := by
      intro p hp
      obtain ⟨s, hs⟩ := FieldOf.key hp (by decide)
      have : afterKey (strB "root:") data = none := hk
      rw [this] at hs; cases hs
    exact ⟨fun p => ⟨by simp, fun hp => absurd hp.2.1 (hno p)⟩, by simp,
      fun _ _ _ hp => absurd hp (hno _)⟩
  | some s =>
    rw [hk] at h
    obtain ⟨root, hv, hf⟩ := fieldValue_field h1 h2 rootKey_ne hk
    have hf : FieldOf (strB "root:") data root := hf
    dsimp only at h
    rw [hv] at h
    dsimp only at h
    have hlen := hf.length
    have l5 : (strB "root:").length = 5 := by decide
    rw [if_neg (by have := hr.1; simp only [URI_MIN1]; omega)] at h
    split at h
    · rename_i hm
      cases h
      refine ⟨fun p => ⟨by simp, fun hp => ?_⟩, by simp, ?_⟩
      · rw [hp.2.1.unique hf] at hp
        rw [hm.2] at hp
        cases hp.2.2.2
      · intro root' run _ hp _ ho
        rcases ho with ho | ho
        · cases ho
        · exact absurd ((hf.unique hp).trans ho) hm.1
    · rename_i hm
      have hmv : root ≠ TEMP_DIR → env.move root = true := by
        intro hne
        cases hmm : env.move root with
        | true => rfl
        | false => exact absurd ⟨hne, hmm⟩ hm
      have hmoved : ∀ p, (if root = TEMP_DIR then none else some root) = some p ↔
          env.web (packageUrl pkg) (strB "C:\\.dsi-tmp") = 0 ∧
          FieldOf (strB "root:") data p ∧ p ≠ strB "C:\\.dsi-tmp" ∧ env.move p = true := by
        intro p
        constructor
        · intro hp
          split at hp
          · cases hp
          · rename_i hne
            cases hp
            exact ⟨hw, hf, hne, hmv hne⟩
        · intro hp
          have he := hp.2.1.unique hf
          subst he
          rw [if_neg (by exact hp.2.2.1)]
      cases hk2 : afterKey RUN_KEY data with
      | none =>
        rw [hk2] at h
        cases h
        refine ⟨hmoved, by simp, ?_⟩
        intro _ run _ _ hp
        obtain ⟨s, hs⟩ := FieldOf.key hp (by decide)
        have : afterKey (strB "run:") data = none := hk2
        rw [this] at hs; cases hs
      | some s2 =>
        rw [hk2] at h
        obtain ⟨run, hv2, hf2⟩ := fieldValue_field h1 h2 runKey_ne hk2
        dsimp only at h
        rw [hv2] at h
        cases h
        refine ⟨hmoved, ?_, by simp⟩
        intro cmd hcmd
        cases hcmd
        refine ⟨root, run, hf, hf2, ?_, ?_, ?_⟩
        · by_cases he : root = TEMP_DIR
          · exact .inr he
          · exact .inl (by rw [if_neg he])
        · rw [List.append_assoc (root ++ [92])]
          exact (List.prefix_append_right_inj _).mpr (List.take_prefix _ _)
        · intro hl
          rw [List.append_assoc (root ++ [92]), List.take_of_length_le]
          simp only [List.length_append, List.length_cons, List.length_nil, URI_MIN1] at hl ⊢
          omega

/-! Concrete runs. -/

/-- Everything works, and the bytes behind the arrays are zero. -/
def aptSample (steps : Option Bytes) : AptEnv :=
  ⟨fun _ _ => 0, steps, fun _ => true, some [], some []⟩

def aptArgs : List Bytes := [strB "install", strB "doocs"]

/-- `root:\tC:\doocs`, new line, `run: setup.exe`. -/
def stepText : Bytes := strB "root:\tC:\\doocs\r\nrun: setup.exe"

example : aptMain (aptSample (some stepText)) aptArgs =
    .ok ⟨0, true, some (strB "C:\\doocs"), some (strB "C:\\doocs\\setup.exe /Install")⟩ := by
  decide +kernel

example := C71_exit_status_partial (aptSample (some stepText)) aptArgs
  (r := ⟨0, true, some (strB "C:\\doocs"), some (strB "C:\\doocs\\setup.exe /Install")⟩) (by decide +kernel)

example := C72_memory_partial (aptSample (some stepText)) aptArgs
  (fun pkg more h => by cases h; decide +kernel) (.inl ⟨rfl, rfl⟩)

example : ReadWhole stepText ∧ FieldOf (strB "root:") stepText (strB "C:\\doocs") ∧
    FieldOf (strB "run:") stepText (strB "setup.exe") := by
  refine ⟨by unfold ReadWhole; decide +kernel, ?_, ?_⟩
  · obtain ⟨v, h, hf⟩ := fieldValue_field (env := aptSample none) rfl rfl rootKey_ne
      (show afterKey ROOT_KEY stepText = some (strB "\tC:\\doocs\r\nrun: setup.exe") by decide +kernel)
    have : fieldValue (aptSample none) (strB "\tC:\\doocs\r\nrun: setup.exe") = .ok (strB "C:\\doocs") := by
      decide +kernel
    rw [this] at h
    cases h
    exact hf
  · obtain ⟨v, h, hf⟩ := fieldValue_field (env := aptSample none) rfl rfl runKey_ne
      (show afterKey RUN_KEY stepText = some (strB " setup.exe") by decide +kernel)
    have : fieldValue (aptSample none) (strB " setup.exe") = .ok (strB "setup.exe") := by
      decide +kernel
    rw [this] at h
    cases h
    exact hf

/-- C71 fails: the program exits with 0 although nothing was installed: without a step file, with one
that names no root, or if the package cannot be moved. -/
theorem C71_exit_status_false :
    aptMain (aptSample none) aptArgs = .ok ⟨0, false, none, none⟩ ∧
    aptMain (aptSample (some (strB "run: setup.exe"))) aptArgs = .ok ⟨0, true, none, none⟩ ∧
    aptMain { aptSample (some stepText) with move := fun _ => false } aptArgs =
      .ok ⟨0, true, none, none⟩ ∧
    aptMain (aptSample none) [strB "install"] = .ok ⟨0, false, none, none⟩ := by
  decide +kernel

/-- Nothing is known of the memory behind the arrays. -/
example : aptMain { aptSample (some stepText) with behind1 := none } aptArgs = .error .oobRead :=
  C72_root_false _ rfl (strB "doocs") [] (by decide +kernel) rfl (a := [])
    (b := strB "\tC:\\doocs\r\nrun: setup.exe") rfl
    (by unfold ReadWhole; decide +kernel) (by decide +kernel)

example : aptMain (aptSample none) [strB "install", List.replicate 1000 97] = .error .oobRead :=
  C72_long_name_false _ _ _ (by decide +kernel)

/-- A download that fails. -/
example : aptMain { aptSample none with web := fun _ _ => 5 } aptArgs = .ok ⟨5, false, none, none⟩ := by
  decide +kernel

/-- C73 fails: the root is cut where the step file is not read any more, and the package is moved
there. -/
theorem C73_cut_root_false :
    (List.replicate 1010 32 ++ strB "root: C:\\doocs").length = 1024 ∧
    aptMain (aptSample (some (List.replicate 1010 32 ++ strB "root: C:\\doocs"))) aptArgs =
      .ok ⟨0, true, some (strB "C:\\dooc"), none⟩ := by
  decide +kernel

/-- C73 fails: a command line that does not fit is cut, and started. -/
theorem C73_cut_command_false :
    aptMain (aptSample (some (strB "root:" ++ List.replicate 500 97 ++ strB "run:" ++
        List.replicate 500 98))) aptArgs =
      .ok ⟨0, true, some (List.replicate 500 97 ++ strB "run:" ++ List.replicate 500 98),
        some (List.replicate 500 97 ++ strB "run:" ++ List.replicate 500 98 ++ [92] ++
          List.replicate 17 98)⟩ := by
  decide +kernel

end Zwt
