import Verif.Proofs.Ledger
import Verif.Proofs.Walk
import Verif.Spec.Toy
import Verif.Spec.WalkSample

/-! C33 (refused compression levels) and C34 (resources). -/

namespace Zwt

/-! ### C33 -/

/-- C33 holds of session creation and of the directory functions: a level that `deflateInit`
refuses gives the null pointer, resp. code 1, nothing is handed to the user, and the tree is not
looked at.  Missing: `ZlibWtCompressFileEx`, see `C33_invalid_level_false`. -/
theorem C33_invalid_level_partial (D : Deflater) (level : Int) (h : D.init level = none)
    (fuel : Nat) (kind bufSize : Nat) (junk : Bytes) (env : Env) (flt : Filter σ) (fn : DirFn)
    (dir : Bytes) (fs : σ) :
    CS.create D fuel kind level bufSize junk = .ok none ∧
    compressDir D env flt fuel fn dir fs level junk = .ok (1, []) := by
  have hc : ∀ kind bufSize, CS.create D fuel kind level bufSize junk = .ok none := by
    intro kind bufSize
    simp [CS.create, h]
  exact ⟨hc _ _, by simp [compressDir, hc]⟩

example : queueD.init 10 = none ∧ queueD.init (-2) = none ∧ queueD.init 9 = some [] := ⟨rfl, rfl, rfl⟩
example : compressDir queueD sampleEnv acceptAll 50 .plain [114] () 10 (List.replicate 120 7)
    = .ok (1, []) := (C33_invalid_level_partial queueD 10 rfl 50 0 1 _ _ _ _ _ _).2

/-- C33 is false of `ZlibWtCompressFileEx`: whenever zlib refuses the level, for every file, the
null session is used. -/
theorem C33_invalid_level_false (D : Deflater) (level : Int) (h : D.init level = none) (fuel : Nat)
    (data : Bytes) (err : Bool) (junk : Bytes) :
    compressFile D fuel data err level junk = .error .nullDeref := by
  simp [compressFile, CS.create, h]

example : compressFile queueD 50 [1, 2, 3] false 10 (List.replicate 120 7) = .error .nullDeref :=
  C33_invalid_level_false queueD 10 rfl _ _ _ _

/-- C33, the other direction: with a level zlib accepts, code 1 is never returned by the directory
functions, and the file function does not meet the null session. -/
theorem C33_valid_level (C : DeflateOK D plain) (level : Int) (z : D.τ) (h : D.init level = some z)
    (kind : Nat) (junk : Bytes) (hj : junk.length = 120) :
    ∃ s n0, ∀ fuel, n0 ≤ fuel →
      CS.create D fuel kind level DEF_CHUNK_SIZE junk = .ok (some s) := by
  obtain ⟨s, n, hs, _⟩ := CS.create_good C kind level z h DEF_CHUNK_SIZE
    (by decide +kernel) junk hj
  exact ⟨s, n, hs⟩

example : queueD.init 6 = some [] := rfl

/-! ### C34 -/

/-- What the accounts count as an error: releasing what is not held, be it never acquired, released
before, or of another kind. -/
example (l : Led) (r : Res) (id : Nat) (h : (id, r) ∉ l.live) : release r id l = .error .doubleFree :=
  if_neg h
example : release .block 0 ⟨1, []⟩ = .error .doubleFree ∧
    release .stream 0 ⟨1, [(0, .block)]⟩ = .error .doubleFree ∧
    release .block 0 ⟨1, [(0, .block)]⟩ = .ok ((), ⟨1, []⟩) := by decide +kernel

/-- Answers: `false` for the numbers listed. -/
def allBut (ns : List Nat) : Oracle := fun n => !ns.contains n

/-- C34 for compressing a file: whatever fails, when the call returns it holds what it held before
(and nothing is released twice).  Missing: a null session, where the call has undefined behaviour
(C33). -/
theorem C34_compress_file_partial (o : Oracle) (l : Led) :
    match ledCompressFile o l with
    | .ok (_, l') => l'.live.Perm l.live
    | .error e => e = .nullDeref := by
  have h := tri_compressFile (o := o) l (List.Perm.refl _)
  split <;> simp_all

example : ledCompressFile (fun _ => true) ⟨0, []⟩ = .ok (0, ⟨6, []⟩) ∧
    ledCompressFile (allBut [1]) ⟨0, []⟩ = .ok (1, ⟨2, []⟩) ∧
    ledCompressFile (allBut [3]) ⟨0, []⟩ = .error .nullDeref := by decide +kernel

/-- C34 for compressing a directory: whatever fails, whatever the tree, a call that returns another
code than 1 holds what it held before; nothing is released twice; the only other way to end is
`exit` (unreadable links).  Missing: code 1, see `C34_compress_directory_false`. -/
theorem C34_compress_directory_partial (o : Oracle) (n : Nat) (t : Tour) (l : Led) :
    match ledCompressDir o n t l with
    | .ok (ret, l') => l'.live.Perm l.live ∨
        ret = 1 ∧ ∃ a b, l'.live.Perm ((a, .block) :: (b, .block) :: l.live)
    | .error e => e = .processExit := by
  have h := tri_compressDir (o := o) n t l (List.Perm.refl _)
  split <;> simp_all

/-- A sample: one directory with a file and a link, then a file. -/
def sampleTour : Tour := .dir (.file (.link .done)) (.other (.file .done))

/-- The success path of a walk: "over?" and "skipped?" are answered no. -/
example : ledCompressDir (allBut [5, 6, 7, 8, 11, 12, 15, 16]) 0 sampleTour ⟨0, []⟩ =
    .ok (0, ⟨20, []⟩) := by decide +kernel
/-- A file cannot be opened; nothing is left. -/
example : (ledCompressDir (allBut [5, 6, 7, 8, 9]) 0 sampleTour ⟨0, [(77, .fd)]⟩).map (·.2.live) =
    .ok [(77, .fd)] := by decide +kernel

/-- C34 is false for compressing a directory: whenever the session cannot be created (`malloc`
fails, zlib refuses the level, the header cannot be written), for every tree, both working buffers
stay allocated. -/
theorem C34_compress_directory_false (o : Oracle) (n : Nat) (t : Tour) (l : Led)
    (h1 : o l.tick = true) (h2 : o (l.tick + 1) = true)
    (hs : o (l.tick + 2) = false ∨ o (l.tick + 3) = false ∨ o (l.tick + 4) = false) :
    ∃ k, ledCompressDir o n t l =
      .ok (1, ⟨k, (l.tick + 1, .block) :: (l.tick, .block) :: l.live⟩) := by
  unfold ledCompressDir
  rw [LM.bind_ok (a := some l.tick) (l' := ⟨l.tick + 1, (l.tick, .block) :: l.live⟩)
    (by simp [acquire, h1])]
  dsimp only
  rw [LM.bind_ok (a := some (l.tick + 1))
    (l' := ⟨l.tick + 2, (l.tick + 1, .block) :: (l.tick, .block) :: l.live⟩)
    (by simp [acquire, h2])]
  dsimp only
  suffices hc : ∃ k, ledCreateCS o ⟨l.tick + 2, (l.tick + 1, .block) :: (l.tick, .block) :: l.live⟩ =
      .ok (none, ⟨k, (l.tick + 1, .block) :: (l.tick, .block) :: l.live⟩) by
    obtain ⟨k, hk⟩ := hc
    refine ⟨k, ?_⟩
    rw [LM.bind_ok hk]
    rfl
  unfold ledCreateCS
  cases h3 : o (l.tick + 2) with
  | false =>
    refine ⟨l.tick + 3, ?_⟩
    rw [LM.bind_ok (a := none) (l' := ⟨l.tick + 3, (l.tick + 1, .block) :: (l.tick, .block) :: l.live⟩)
      (by simp [acquire, h3])]
    rfl
  | true =>
    rw [LM.bind_ok (a := some (l.tick + 2)) (l' := ⟨l.tick + 3, (l.tick + 2, .block) ::
      (l.tick + 1, .block) :: (l.tick, .block) :: l.live⟩) (by simp [acquire, h3])]
    dsimp only
    cases h4 : o (l.tick + 3) with
    | false =>
      refine ⟨l.tick + 4, ?_⟩
      rw [LM.bind_ok (a := none) (l' := ⟨l.tick + 4, (l.tick + 2, .block) ::
        (l.tick + 1, .block) :: (l.tick, .block) :: l.live⟩) (by simp [acquire, h4])]
      dsimp only
      rw [LM.bind_ok (a := ()) (l' := ⟨l.tick + 4, (l.tick + 1, .block) :: (l.tick, .block) :: l.live⟩)
        (by simp [release])]
      rfl
    | true =>
      refine ⟨l.tick + 5, ?_⟩
      have h5 : o (l.tick + 4) = false := by simpa [h3, h4] using hs
      rw [LM.bind_ok (a := some (l.tick + 3)) (l' := ⟨l.tick + 4, (l.tick + 3, .zlib) ::
        (l.tick + 2, .block) :: (l.tick + 1, .block) :: (l.tick, .block) :: l.live⟩)
        (by simp [acquire, h4])]
      dsimp only
      rw [LM.bind_ok (a := false) (l' := ⟨l.tick + 5, (l.tick + 3, .zlib) :: (l.tick + 2, .block) ::
        (l.tick + 1, .block) :: (l.tick, .block) :: l.live⟩) (by simp [ask, h5])]
      rw [if_neg (by simp)]
      rw [LM.bind_ok (a := ()) (l' := ⟨l.tick + 5, (l.tick + 1, .block) :: (l.tick, .block) :: l.live⟩)
        (by
          unfold ledDestroyCS
          rw [LM.bind_ok (a := ()) (l' := ⟨l.tick + 5, (l.tick + 2, .block) ::
            (l.tick + 1, .block) :: (l.tick, .block) :: l.live⟩) (by simp [release])]
          simp [release])]
      rfl

example : allBut [3] 0 = true ∧ allBut [3] 1 = true ∧ allBut [3] 3 = false := by decide
example : ledCompressDir (allBut [3]) 2 sampleTour ⟨0, []⟩ =
    .ok (1, ⟨4, [(1, .block), (0, .block)]⟩) := by decide +kernel

/-- The steps of a session are in the order assumed by the next theorems (apart from the
reallocations of the name, which come between entries). -/
theorem C34_steps_in_order {p p' : Proto} {evs : List Ev} (h : p.run evs = some p') :
    p.led.run (evs.map Ev.led) = some p'.led := by
  induction evs generalizing p with
  | nil => cases h; rfl
  | cons e evs ih =>
    cases hs : p.step e with
    | none => simp [Proto.run, hs] at h
    | some q =>
      have hq : q.run evs = some p' := by simpa [Proto.run, hs] using h
      have h1 : p.led.step e.led = some q.led := by
        unfold Proto.step at hs
        split at hs
        case h_5 => split at hs <;> cases hs <;> rfl
        all_goals cases hs <;> rfl
      show (p.led.step e.led).bind (fun s' => s'.run (evs.map Ev.led)) = _
      rw [h1]
      exact ih hq

example : Proto.idle.run [.itemStart .file [97, 0] (itemBytes ⟨1, 8, 1, 8, 0, 0⟩ (List.replicate 11 0)),
    .fileRead [5], .fileEnd, .dirEnd] = some .idle := by decide

/-- C34 for extraction.  Whatever fails, whatever the archive and however it is cut into calls,
when `ZlibWtDecompressFileOrDir` returns, after calls that made the steps `evs`, it holds what it
held before plus at most:
names of entries whose reallocation failed; the path of the output directory, if the archive is one
of a directory; the descriptor of a file, if the steps end inside it; the session, if it could not
be created.  Nothing is released twice.  Missing: these four exceptions
(`C34_extract_directory_false`, `C34_extract_cut_false`, `C34_extract_session_false`). -/
theorem C34_extract_partial (o : Oracle) (rounds : List (List LEv)) (s : LState)
    (hs : LState.start.run rounds.flatten = some s) (l : Led) :
    match ledExtractFile o rounds l with
    | .error e => e = .nullDeref ∨ e = .assertFail
    | .ok (n, l') => ∃ names paths fds sessions : List Nat, l'.live.Perm
          (names.map (·, .block) ++ (paths.map (·, .block) ++ (fds.map (·, .fd) ++
            (sessions.map (·, .block) ++ l.live)))) ∧
        names.length ≤ (rounds.take n).flatten.count .name ∧
        (.drStart ∉ (rounds.take n).flatten → paths = []) ∧ paths.length ≤ 1 ∧
        (fds = [] ∨ LState.start.run (rounds.take n).flatten = some .inFile) ∧ fds.length ≤ 1 ∧
        (sessions = [] ∨ n = 0) ∧ sessions.length ≤ 1 ∧
        ((∀ k, o k = true) → n = rounds.length ∧ names = [] ∧ sessions = []) := by
  have h := tri_extractFile (o := o) hs l (List.Perm.refl _)
  cases hr : ledExtractFile o rounds l with
  | error e => rw [hr] at h; exact h
  | ok r =>
    rw [hr] at h
    obtain ⟨n, l'⟩ := r
    obtain ⟨hl, h⟩ := h
    have hno : (∀ k, o k = true) → ¬ ∃ k, o k = false := by
      rintro ha ⟨k, hk⟩
      rw [ha k] at hk
      cases hk
    rcases h with ⟨names, paths, fds, hp, h1, h2, h3, h4, h5, h6, h7⟩ | ⟨h0, hf, a, hp⟩
    · refine ⟨names, paths, fds, [], by simpa using hp, h1, h4, h3, h7, h6, .inl rfl, by simp, ?_⟩
      exact fun ha => ⟨hl.resolve_right (hno ha), h2.resolve_right (hno ha), rfl⟩
    · refine ⟨[], [], [], [a], by simpa using hp, by simp, by simp, by simp, .inl rfl, by simp,
        .inr h0, by simp, fun ha => absurd hf (hno ha)⟩

example := C34_extract_partial (fun _ => true) [[LEv.flStart, .flRead], [.flRead]] .blob (by decide +kernel) ⟨0, []⟩

/-- C34 for an archive of a file or blob, if nothing fails: everything is released.
Missing: directory archives, and failures (`C34_extract_partial`). -/
theorem C34_extract_file_partial (o : Oracle) (ho : ∀ k, o k = true) (rounds : List (List LEv))
    (s : LState) (hs : LState.start.run rounds.flatten = some s) (hd : .drStart ∉ rounds.flatten)
    (l l' : Led) (n : Nat) (h : ledExtractFile o rounds l = .ok (n, l')) :
    l'.live.Perm l.live := by
  have hx := C34_extract_partial o rounds s hs l
  rw [h] at hx
  obtain ⟨names, paths, fds, sessions, hp, _, h2, _, h4, _, _, _, h5⟩ := hx
  obtain ⟨rfl, rfl, rfl⟩ := h5 ho
  rw [List.take_length] at h2 h4
  have := h2 hd
  subst this
  have hin : ∀ (evs : List LEv) (s : LState), s = .start ∨ s = .blob → .drStart ∉ evs →
      s.run evs ≠ some .inFile := by
    intro evs
    induction evs with
    | nil => rintro s (rfl | rfl) _ h <;> cases h
    | cons e evs ih =>
      intro s hs hd hr
      have hd' : .drStart ∉ evs := fun h => hd (List.mem_cons_of_mem _ h)
      have hne : e ≠ .drStart := by rintro rfl; exact hd (by simp)
      rcases hs with rfl | rfl <;> cases e <;> simp [LState.run, LState.step] at hr hne
      · exact ih .blob (.inr rfl) hd' hr
      · exact ih .blob (.inr rfl) hd' hr
  have hfd : fds = [] := h4.resolve_right (hin _ _ (.inl rfl) hd)
  subst hfd
  simpa using hp

/-- A file archive in two calls. -/
example : LState.start.run [[LEv.flStart, .flRead], [.flRead]].flatten = some .blob ∧
    ledExtractFile (fun _ => true) [[.flStart, .flRead], [.flRead]] ⟨0, []⟩ = .ok (2, ⟨10, []⟩) := by
  decide +kernel

/-- C34 is false for extracting a directory: every extraction in which nothing fails leaves the
copy of the output path allocated. -/
theorem C34_extract_directory_false (o : Oracle) (ho : ∀ k, o k = true) (rounds : List (List LEv))
    (s : LState) (hs : LState.start.run rounds.flatten = some s) (hd : .drStart ∈ rounds.flatten)
    (l l' : Led) (n : Nat) (h : ledExtractFile o rounds l = .ok (n, l')) :
    ∃ a more, l'.live.Perm ((a, .block) :: (more ++ l.live)) := by
  have hx := tri_extractFile (o := o) hs l (List.Perm.refl _)
  rw [h] at hx
  obtain ⟨hl, hx⟩ := hx
  have hno : ¬ ∃ k, o k = false := by
    rintro ⟨k, hk⟩
    rw [ho k] at hk
    cases hk
  have hl := hl.resolve_right hno
  subst hl
  rcases hx with ⟨names, paths, fds, hp, h1, h2, h3, h4, h5, h6, h7⟩ | ⟨_, hf, _⟩
  · rw [List.take_length] at h5
    have hpne := (h5 hd).resolve_right hno
    have hnm := h2.resolve_right hno
    subst hnm
    cases paths with
    | nil => exact absurd rfl hpne
    | cons a ps => exact ⟨a, ps.map (·, .block) ++ fds.map (·, .fd), by simpa using hp⟩
  · exact absurd hf hno

/-- A directory with one file, extracted without any failure. -/
example : LState.start.run [[LEv.drStart, .name, .fileItem, .fileRead], [.fileEnd]].flatten =
      some .idle ∧
    ledExtractFile (fun _ => true) [[.drStart, .name, .fileItem, .fileRead], [.fileEnd]] ⟨0, []⟩ =
      .ok (2, ⟨14, [(8, .block)]⟩) := by decide +kernel

/-- C34 is false for an archive cut inside a file: its descriptor stays open. -/
theorem C34_extract_cut_false :
    ledExtractFile (fun _ => true) [[.drStart, .name, .fileItem, .fileRead]] ⟨0, []⟩ =
      .ok (1, ⟨12, [(10, .fd), (8, .block)]⟩) := by decide +kernel

/-- C34 is false if `inflateInit` fails: the session stays allocated. -/
theorem C34_extract_session_false (rounds : List (List LEv)) :
    ledExtractFile (allBut [4]) rounds ⟨0, []⟩ = .ok (0, ⟨5, [(3, .block)]⟩) := rfl

end Zwt
