import Verif.Model.Conc
import Verif.Proofs.Confine
import Verif.Proofs.HLEnd

/-! Extraction call by call: the programs of `Verif.Model.Conc`, run alone, do what the functions of
`Verif.Model.HL` say. -/

namespace Zwt

variable {α β : Type}

theorem Prog.run_bind (os : Os) (p : Prog α) (k : α → Prog β) (w : World) :
    (p.bind k).run os w = (k (p.run os w).1).run os (p.run os w).2 := by
  induction p generalizing w with
  | ret a => rfl
  | call c f ih => exact ih _ _

section
variable (os : Os) (w : World)

theorem run_ret (a : α) : (Prog.ret a).run os w = (a, w) := rfl

theorem run_alloc (k : Bool → Prog α) :
    (Prog.call .alloc k).run os w = (k (os.noMem w.calls)).run os w.tick := rfl

theorem run_nop (k : Unit → Prog α) : (Prog.call .nop k).run os w = (k ()).run os w.tick := rfl

theorem run_mkdir (p : Bytes) (m : Nat) (k : MkRes → Prog α) :
    (Prog.call (.mkdir p m) k).run os w =
      (k (sysMkdir os w p m).1).run os (sysMkdir os w p m).2 := rfl

theorem run_isDir (p : Bytes) (k : Bool → Prog α) :
    (Prog.call (.isDir p) k).run os w = (k (sysIsDir os w p).1).run os (sysIsDir os w p).2 := rfl

theorem run_open (p : Bytes) (m : Nat) (t : Bool) (k : Option Loc → Prog α) :
    (Prog.call (.openFile p m t) k).run os w =
      (k (sysOpen os w p m t).1).run os (sysOpen os w p m t).2 := rfl

theorem run_write (f : OpenFile) (d : Bytes) (k : OpenFile → Prog α) :
    (Prog.call (.write f d) k).run os w =
      (k (sysWrite os w f d).1).run os (sysWrite os w f d).2 := rfl

theorem run_symlink (t p : Bytes) (k : Bool → Prog α) :
    (Prog.call (.symlink t p) k).run os w =
      (k (sysSymlink os w t p).1).run os (sysSymlink os w t p).2 := rfl

theorem run_chdir (p : Bytes) (k : Bool → Prog α) :
    (Prog.call (.chdir p) k).run os w = (k (sysChdir os w p).1).run os (sysChdir os w p).2 := rfl

theorem run_getcwd (n : Nat) (k : Option Bytes → Prog α) :
    (Prog.call (.getcwd n) k).run os w =
      (k (sysGetcwd os w n).1).run os (sysGetcwd os w n).2 := rfl

end

theorem osCreateP_run (os : Os) (path : Bytes) (mode : Nat) (w : World) :
    (osCreateP path mode).run os w = osCreate os w path mode := by
  simp only [osCreateP, osCreate, run_ret, run_alloc, run_nop, run_mkdir, run_isDir, run_open, run_write, run_symlink,
    run_chdir, run_getcwd]
  cases sysMkdir os w path mode with
  | mk r w' =>
    cases r with
    | ok => rfl
    | fail => rfl
    | exist =>
      simp only [run_ret, run_alloc, run_nop, run_mkdir, run_isDir, run_open, run_write, run_symlink,
    run_chdir, run_getcwd]
      cases sysIsDir os w' path with
      | mk b w2 => cases b <;> rfl

theorem mkRestoreP_run (os : Os) (mode : Nat) (idxs : List Nat) : ∀ (mem : Bytes) (w : World),
    (mkRestoreP mode idxs mem).run os w = mkRestore os mode idxs mem w := by
  induction idxs with
  | nil => intro mem w; rfl
  | cons i idxs ih =>
    intro mem w
    simp only [mkRestoreP, mkRestore, Prog.run_bind, osCreateP_run]
    cases osCreate os w (cString (mem.set i 47)) mode with
    | mk r w' =>
      simp only
      split
      · rfl
      · exact ih _ _

theorem mkCutP_run (os : Os) (mode : Nat) (n : Nat) : ∀ (idxs : List Nat) (mem : Bytes) (w : World),
    (mkCutP mode n idxs mem).run os w = mkCut os mode n idxs mem w := by
  induction n with
  | zero => intro idxs mem w; rfl
  | succ n ih =>
    intro idxs mem w
    simp only [mkCutP, mkCut]
    cases fileDelimiter (cString mem) with
    | none => rfl
    | some i =>
      simp only [Prog.run_bind, osCreateP_run]
      cases osCreate os w (cString (mem.set i 0)) mode with
      | mk r w' =>
        simp only
        split
        · rfl
        · split
          · split
            · exact mkRestoreP_run os mode _ _ _
            · rfl
          · exact ih _ _ _

theorem mkdirRecurseP_run (os : Os) (mode : Nat) (path : Bytes) (w : World) :
    (mkdirRecurseP mode path).run os w = mkdirRecurse os mode path w := by
  simp only [mkdirRecurseP, mkdirRecurse, run_ret, run_alloc, run_nop, run_mkdir, run_isDir, run_open, run_write, run_symlink,
    run_chdir, run_getcwd]
  split
  · rfl
  · simp only [mkdirRawP, mkdirRaw, Prog.run_bind, osCreateP_run]
    cases osCreate os w.tick path mode with
    | mk r w' =>
      simp only
      split
      · rfl
      · exact mkCutP_run os mode _ _ _ _

/-- The state of the callbacks with a world. -/
def HLv.at (v : HLv) (w : World) : HL :=
  { w := w, fpOut := v.fpOut, dirPath := v.dirPath, hasError := v.hasError, fd := v.fd,
    ret := v.ret, name := v.name }

/-- What a callback leaves. -/
def toHL (x : Run HLv × World) : Run HL := x.1.map (·.at x.2)

theorem hlDirStartP_run (os : Os) (out : Bytes) (v : HLv) (w : World) :
    ((hlDirStartP out v).run os w).1.at ((hlDirStartP out v).run os w).2 =
      hlDirStart os out (v.at w) := by
  have h : (hlDirStartP out v).run os w =
      (if (mkdirRecurse os BASE_DIR_MODE out w).1 ≠ 0 then
        (Prog.ret { v with hasError := true } : Prog HLv)
      else .call .alloc fun (bad : Bool) =>
        if bad then .ret { v with dirPath := none, hasError := true }
        else .ret { v with dirPath := some out, ret := CT_DIRECTORY }).run os
          (mkdirRecurse os BASE_DIR_MODE out w).2 := by
    rw [hlDirStartP, Prog.run_bind, mkdirRecurseP_run]
  rw [h, hlDirStart]
  rcases hx : mkdirRecurse os BASE_DIR_MODE out w with ⟨r, w'⟩
  have hx' : mkdirRecurse os BASE_DIR_MODE out (v.at w).w = (r, w') := hx
  simp only [hx']
  by_cases hr : r ≠ 0
  · simp only [if_pos hr]; rfl
  · simp only [if_neg hr, run_alloc]
    by_cases hm : os.noMem w'.calls = true
    · simp only [if_pos hm]; rfl
    · simp only [if_neg hm]; rfl

theorem hlItemStartP_run (os : Os) (v : HLv) (w : World) (ft : FType) (name item : Bytes) :
    toHL ((hlItemStartP v ft name item).run os w) = hlItemStart os (v.at w) ft name item := by
  cases ft with
  | none => rfl
  | symlink => rfl
  | file =>
    simp only [hlItemStartP, hlItemStart, hlFileItemP, hlFileItem, itemPathV, itemPath, HLv.at]
    by_cases hn : itNameLen item ≤ name.length
    · simp only [if_pos hn, run_ret, run_alloc, run_nop, run_mkdir, run_isDir, run_open, run_write, run_symlink,
    run_chdir, run_getcwd]
      cases sysOpen os w (cString (v.dirPath.getD [] ++ 47 :: name.take (itNameLen item)))
        (modeFo (itMode item)) false with
      | mk r w' => cases r <;> rfl
    · simp only [if_neg hn]; rfl
  | dir =>
    simp only [hlItemStartP, hlItemStart, hlDirItemP, hlDirItem, itemPathV, itemPath, HLv.at,
      run_ret, run_alloc, run_nop, run_mkdir, run_isDir, run_open, run_write, run_symlink,
    run_chdir, run_getcwd]
    by_cases hm : os.noMem w.calls = true
    · simp only [hm, if_true]; rfl
    · simp only [hm, Bool.false_eq_true, if_false]
      by_cases hn : itNameLen item ≤ name.length
      · simp only [if_pos hn, Prog.run_bind, mkdirRecurseP_run, run_ret]
        rfl
      · simp only [if_neg hn]; rfl

theorem hlSymLinkP_run (os : Os) (v : HLv) (w : World) (t a : Bytes) :
    toHL ((hlSymLinkP v t a).run os w) = hlSymLink os (v.at w) t a := by
  obtain ⟨fp, dp, he, fd, ret, nm⟩ := v
  simp only [hlSymLinkP, hlSymLink, HLv.at, run_ret, run_alloc, run_nop, run_mkdir, run_isDir, run_open, run_write, run_symlink,
    run_chdir, run_getcwd]
  cases sysGetcwd os w CWD_SIZE with
  | mk r w1 =>
    cases r with
    | none => rfl
    | some old =>
      simp only
      cases dp with
      | none => rfl
      | some dir =>
        simp only [run_ret, run_alloc, run_nop, run_mkdir, run_isDir, run_open, run_write, run_symlink,
    run_chdir, run_getcwd]
        cases sysChdir os w1 (cString dir) with
        | mk b w2 =>
          cases b with
          | false => rfl
          | true =>
            simp only
            cases nm with
            | none => rfl
            | some name =>
              simp only
              cases cstr? (t ++ a) with
              | none => rfl
              | some t' =>
                cases cstr? name with
                | none => rfl
                | some n => rfl

theorem hlEventP_run (os : Os) (out : Bytes) (v : HLv) (w : World) (e : Ev) :
    toHL ((hlEventP out v e).run os w) = hlEvent os out (v.at w) e := by
  obtain ⟨fp, dp, he, fd, ret, nm⟩ := v
  cases e with
  | flStart =>
    simp only [hlEventP, hlEvent, hlFileStartP, hlFileStart, HLv.at, Prog.run_bind, run_ret, run_alloc, run_nop, run_mkdir, run_isDir, run_open, run_write, run_symlink,
    run_chdir, run_getcwd]
    cases sysOpen os w out FOPEN_MODE true with
    | mk r w' => cases r <;> rfl
  | flRead d =>
    simp only [hlEventP, hlEvent, hlFileDataP, hlFileData, HLv.at]
    cases fp <;> rfl
  | drStart =>
    simp only [hlEventP, hlEvent, Prog.run_bind, ← hlDirStartP_run]
    rfl
  | itemStart ft name item => exact hlItemStartP_run os _ w ft name item
  | fileRead d =>
    simp only [hlEventP, hlEvent, hlFileReadP, hlFileRead, HLv.at]
    cases fd <;> rfl
  | fileEnd =>
    simp only [hlEventP, hlEvent, hlFileEndP, hlFileEnd, HLv.at]
    cases fd <;> rfl
  | dirEnd =>
    simp only [hlEventP, hlEvent, hlDirEndP, hlDirEnd, HLv.at]
    cases dp with
    | none => rfl
    | some p =>
      simp only
      cases lastIndexOf 47 (cString p) <;> rfl
  | symLink t a => exact hlSymLinkP_run os _ w t a

theorem andThen_run (os : Os) (p : Prog (Run α)) (k : α → Prog (Run β)) (w : World) :
    (andThen p k).run os w =
      match p.run os w with
      | (.error e, w) => (.error e, w)
      | (.ok a, w) => (k a).run os w := by
  simp only [andThen, Prog.run_bind]
  cases p.run os w with
  | mk r w' => cases r <;> rfl

theorem hlEventsP_run (os : Os) (out : Bytes) (es : List Ev) : ∀ (v : HLv) (w : World),
    toHL ((hlEventsP out v es).run os w) = hlEvents os out (v.at w) es := by
  induction es with
  | nil => intro v w; rfl
  | cons e es ih =>
    intro v w
    have h := hlEventP_run os out v w e
    simp only [hlEventsP, hlEvents, andThen_run, ← h]
    cases (hlEventP out v e).run os w with
    | mk r w' =>
      cases r with
      | error e => rfl
      | ok v' => exact ih v' w'

/-- How an extraction ends, with the world. -/
def Ended.at (e : Ended) (w : World) : Extracted :=
  { ret := e.ret, w := w, read := e.read, hasError := e.hasError, codes := e.codes, room := e.room,
    pieces := e.pieces }

/-- What an extraction leaves. -/
def toExtracted (x : Run Ended × World) : Run Extracted := x.1.map (·.at x.2)

theorem hlLoopP_run {Z : Inflater} (os : Os) (ok : AllocOracle) (fuel : Nat) (out : Bytes)
    (size : Nat) (rounds : Nat) : ∀ (i total : Nat) (inp : Input) (l : LL Z) (s : Sess) (v : HLv)
    (w : World), toExtracted ((hlLoopP ok fuel out size rounds i total inp l s v).run os w) =
      hlLoop os ok fuel out size rounds i total inp l s (v.at w) := by
  induction rounds with
  | zero => intros; rfl
  | succ rounds ih =>
    intro i total inp l s v w
    simp only [hlLoopP, hlLoop]
    split
    · rfl
    · split
      · rfl
      · cases sessDecompress ok fuel (hlFlush (i + 1)) l s (inp.data.take (nextSize size total)) with
        | error e => rfl
        | ok x =>
          obtain ⟨ret, l', s'⟩ := x
          have h := hlEventsP_run os out (s'.log.drop s.log.length) v w
          simp only [andThen_run, ← h]
          cases (hlEventsP out v (s'.log.drop s.log.length)).run os w with
          | mk r w' =>
            cases r with
            | error e => rfl
            | ok v' =>
              simp only [toHL, Except.map]
              have hh : (v'.at w').hasError = v'.hasError := rfl
              rw [hh]
              split
              · exact ih _ _ _ _ _ _ _
              · rfl

/-- The program of an extraction, run alone, is the extraction. -/
theorem extractP_run (Z : Inflater) (os : Os) (ok : AllocOracle) (fuel : Nat) (hdr item : Bytes)
    (out : Bytes) (size : Nat) (inp : Input) (w : World) :
    toExtracted ((extractP Z ok fuel hdr item out size inp).run os w) =
      extract Z os ok fuel hdr item out size inp w :=
  hlLoopP_run os ok fuel out size fuel 0 0 inp _ _ HLv.init w

end Zwt
