import Verif.Proofs.WinKeep
import Verif.Props.Win

/-! C104: what reported success means on Windows, and that nothing is removed. -/

namespace Zwt

variable {Z : Inflater} {plain : Bytes → Bytes}

/-- C104.  Extraction on Windows removes nothing: every directory stays a directory, every file a file,
protected or not as before.  It returns 'none', 'directory' or 'file'.  If it returns 'directory', there
was nothing at the output path, and there is a directory now; if it returns 'file', there is a file. -/
theorem C104_windows_success (C : InflateOK Z plain) (ok : AllocOracle) (hdr item : Bytes)
    (hh : hdr.length = 128) (hi : item.length = 40) (win : Win) (out : Bytes) (h0 : 0 ∉ out)
    (w : WWorld) (n : Nat) (inp : Input) :
    ∃ n0 X, (∀ fuel, n0 ≤ fuel → winExtract Z win ok fuel hdr item out n inp w = X) ∧
      ∀ r, X = .ok r → WKeeps w.fs r.w.fs ∧ r.w.cwd = w.cwd ∧
        (r.ret = CT_NONE ∨
        (r.ret = CT_DIRECTORY ∧ ∃ l, winLocate win w.cwd out = some l ∧ w.fs l = none ∧
          r.w.fs l = some .dir) ∨
        (r.ret = CT_FILE ∧ ∃ l ro c, winLocate win w.cwd out = some l ∧
          r.w.fs l = some (.file ro c))) := by
  obtain ⟨n0, X, h1, h2, _⟩ := winExtract_ends C ok hdr item hh hi win out w n inp
  refine ⟨n0, X, h1, ?_⟩
  intro r hr
  obtain ⟨P, log, h, D⟩ := h2 r hr
  have hrun := D.run
  have hall := winEvents_keeps win out _ _ h hrun
  rw [D.world]
  refine ⟨hall.1, hall.2.1, ?_⟩
  rcases D.ret with hret | hret
  · rw [hret]
    cases D.arch.kind with
    | none => cases hrun; exact .inl rfl
    | @file ds a1 a2 a3 a4 =>
      simp only [winEvents, winEvent] at hrun
      obtain ⟨k1, _, k3⟩ := winEvents_keeps win out _ _ h hrun
      rw [k3 (by intro e he; obtain ⟨d, _, rfl⟩ := List.mem_map.mp he; trivial)]
      cases ho : winOpen win w out false true with
      | mk ol w' =>
        cases ol with
        | none => left; simp [winFileStart, HLW.init, ho]
        | some l =>
          obtain ⟨o1, ro, o2⟩ := winOpen_made ho
          refine .inr (.inr ⟨by simp [winFileStart, HLW.init, ho], ?_⟩)
          simp only [winFileStart, HLW.init, ho] at k1
          obtain ⟨n', g1, g2⟩ := k1 l _ o2
          cases n' with
          | dir => exact g2.elim
          | file ro' c => exact ⟨l, ro', c, o1, g1⟩
    | dir a1 a2 a3 a4 =>
      simp only [winEvents, winEvent] at hrun
      obtain ⟨k1, _, k3⟩ := winEvents_keeps win out _ _ h hrun
      rw [k3 (proto_inner _ .idle a4)]
      cases hm : winMkdir win out w with
      | mk x w1 =>
        by_cases hx : x = 0
        · subst hx
          obtain ⟨l, m1, m2, m3⟩ := winMkdir_success h0 hm
          by_cases hn : win.noMem w1.calls = true
          · left; simp [winDirStart, HLW.init, hm, hn]
          · refine .inr (.inl ⟨by simp [winDirStart, HLW.init, hm, hn], l, m1, m2, ?_⟩)
            simp only [winDirStart, HLW.init, hm, hn] at k1
            obtain ⟨n', g1, g2⟩ := k1 l _ m3
            cases n' with
            | dir => exact g1
            | file ro' c => exact g2.elim
        · left; simp [winDirStart, HLW.init, hm, hx]
  · exact .inl hret.1

/-- C104, what follows for an output path where there is something already: a directory archive is not
reported as extracted. -/
theorem C104_existing (C : InflateOK Z plain) (ok : AllocOracle) (hdr item : Bytes)
    (hh : hdr.length = 128) (hi : item.length = 40) (win : Win) (out : Bytes) (h0 : 0 ∉ out)
    (w : WWorld) (l : Loc) (hl : winLocate win w.cwd out = some l) (hex : w.fs l ≠ none) (n : Nat)
    (inp : Input) :
    ∃ n0 X, (∀ fuel, n0 ≤ fuel → winExtract Z win ok fuel hdr item out n inp w = X) ∧
      ∀ r, X = .ok r → r.ret ≠ CT_DIRECTORY := by
  obtain ⟨n0, X, h1, h2⟩ := C104_windows_success C ok hdr item hh hi win out h0 w n inp
  refine ⟨n0, X, h1, fun r hr e => ?_⟩
  rcases (h2 r hr).2.2 with g | ⟨_, l', g1, g2, _⟩ | ⟨g, _⟩
  · rw [e] at g; cases g
  · rw [hl] at g1; cases g1; exact hex g2
  · rw [e] at g; cases g

open WinSample HLSample in
/-- Example: to `o\p`, neither of which exists; the file `x` stays. -/
example : 0 ∉ ([111, 92, 112] : Bytes) ∧
    view [[[99], [111]], [[99], [111], [112]], [[99], [111], [112], [97]], [[99], [120]]]
      (winExtract copyI win (fun _ _ => true) 5 hdrMem itemMem [111, 92, 112] 0
        ⟨dirArc (.file [97] 0o640 [1] .nil), false⟩ drive) =
      .done CT_DIRECTORY false [some .dir, some .dir, some (.file false [1]), some (.file false [5, 5])] := by
  decide +kernel

open WinSample HLSample in
/-- Example: to `O`, where there is the directory `o`: nothing is reported and `a` in it, protected,
stays. -/
example : let w := (drive.put [[99], [111]] .dir).put [[99], [111], [97]] (.file true [7])
    winLocate win w.cwd [79] = some [[99], [111]] ∧ w.fs [[99], [111]] ≠ none ∧
    view [[[99], [111], [97]]]
      (winExtract copyI win (fun _ _ => true) 5 hdrMem itemMem [79] 0
        ⟨dirArc (.file [97] 0o640 [1] .nil), false⟩ w) =
      .done CT_NONE true [some (.file true [7])] := by
  decide +kernel

end Zwt
