import Verif.Proofs.Current
import Verif.Props.DirParser

/-! C94: the entry a callback is told about (`ZlibWtGetCurFileDataForSession`). -/

namespace Zwt

/-- C94.  The parser with the file data is the parser of the other theorems: same final state, same
callbacks, same faults. -/
theorem C94_same_parser (ok : AllocOracle) (s : DirSt) (chunks : List Bytes) :
    (match dirFeedCur ok s chunks with
      | .error e => .error e
      | .ok (s', seen) => .ok (s', seen.map (·.1))) = dirFeed ok s chunks := by
  rw [← dirFeed_cur]
  unfold uncur
  cases dirFeedCur ok s chunks <;> rfl

example : (dirFeedCur allocOk (dirInit Sample.junk) Sample.chunks).toOption.map (·.2.length) =
    some 8 := by decide +kernel

/-- C94, partial.  Whatever the plaintext (also a damaged one), its split into buffers, the allocation
failures and the uninitialised memory: the parser does not fault, and in every callback other than the end
of a directory the current file data are type and name of the entry announced last (in the announcement
itself: of the entry that is announced).  At the end of a directory the type is that of a directory.
Missing: the name at the end of a directory is that of the entry announced last (`C94_dir_end_false`), and
the depth is 0 in every callback (`C94_deepness_false`). -/
theorem C94_current_partial (ok : AllocOracle) (junk : Bytes) (hj : junk.length = 11)
    (chunks : List Bytes) :
    ∃ s seen, dirFeedCur ok (dirInit junk) chunks = .ok (s, seen) ∧
      ∀ pre e c post, seen = pre ++ (e, c) :: post →
        (e ≠ .dirEnd → ∃ ft nm, lastStarted (pre.map (·.1) ++ [e]) = some (ft, nm) ∧
          c.type = ft ∧ c.name = some nm) ∧
        (e = .dirEnd → c.type = .dir ∧ c.name = (lastStarted (pre.map (·.1))).map (·.2)) ∧
        c.deepness = 0 := by
  obtain ⟨s, evs, _, h, _⟩ := C17_directory_stream_meaning ok junk hj chunks
  have h' := dirFeed_cur ok chunks (dirInit junk)
  rw [h] at h'
  cases hf : dirFeedCur ok (dirInit junk) chunks with
  | error e => rw [hf] at h'; cases h'
  | ok p =>
    obtain ⟨s', seen⟩ := p
    refine ⟨s', seen, rfl, ?_⟩
    intro pre e c post hs
    have hk := (dirFeed_kept ok chunks _ none _ _ (fun _ => rfl) hf).1
    rw [hs] at hk
    obtain ⟨k0, k⟩ := hk.split
    rw [curUpdAll_eq] at k
    have hor : ((lastStarted (pre.map (·.1))).orElse fun _ => none) = lastStarted (pre.map (·.1)) := by
      cases lastStarted (pre.map (·.1)) <;> rfl
    rw [hor] at k
    refine ⟨fun he => ?_, fun he => ?_, k0⟩
    · rw [if_neg he] at k
      obtain ⟨ft, nm, k1, k2, k3⟩ := k
      refine ⟨ft, nm, ?_, k2, k3⟩
      rw [lastStarted_append, ← k1]
      cases e <;> simp [lastStarted, curUpd]
    · rw [if_pos he] at k
      exact k

example := C94_current_partial allocOk Sample.junk (by decide) Sample.chunks

/-- The callbacks of the sample with their file data. -/
example : (dirFeedCur allocOk (dirInit Sample.junk) Sample.chunks).toOption.map
    (·.2.map fun x => (x.2.type, x.2.name)) =
    some [(.file, some [102, 0,0,0,0,0,0,0]), (.file, some [102, 0,0,0,0,0,0,0]),
      (.file, some [102, 0,0,0,0,0,0,0]), (.file, some [102, 0,0,0,0,0,0,0]),
      (.symlink, some [108, 0,0,0,0,0,0,0]), (.symlink, some [108, 0,0,0,0,0,0,0]),
      (.dir, some [100, 0,0,0,0,0,0,0]), (.dir, some [100, 0,0,0,0,0,0,0])] := by decide +kernel

namespace CurSample
/-- The directory `d` with the empty file `f`. -/
def stream : Bytes :=
  Sample.dirRec ++ itemBytes ⟨0, 0, 1, 8, 0o644, 0⟩ Sample.junk ++ [102, 0,0,0,0,0,0,0] ++ Sample.endRec
end CurSample

/-- C94 is false at the end of a directory: when the directory `d` is ended, the current name is `f`, the
name of the file in it. -/
theorem C94_dir_end_false :
    ¬ ∀ (chunks : List Bytes) (s : DirSt) (seen : List (Ev × FileData)),
      dirFeedCur allocOk (dirInit Sample.junk) chunks = .ok (s, seen) →
      ∀ pre c post, seen = pre ++ (Ev.dirEnd, c) :: post →
        c.name = (openDirs (pre.map (·.1)) []).head? := by
  intro h
  have hr : ∃ s seen, dirFeedCur allocOk (dirInit Sample.junk) [CurSample.stream] = .ok (s, seen) ∧
      ∃ pre c post, seen = pre ++ (Ev.dirEnd, c) :: post ∧ c.name = some [102, 0,0,0,0,0,0,0] ∧
        openDirs (pre.map (·.1)) [] = [[100, 0,0,0,0,0,0,0]] := by
    cases hf : dirFeedCur allocOk (dirInit Sample.junk) [CurSample.stream] with
    | error e =>
      have : (dirFeedCur allocOk (dirInit Sample.junk) [CurSample.stream]).toOption.isSome = true := by
        decide +kernel
      rw [hf] at this
      cases this
    | ok p =>
      obtain ⟨s, seen⟩ := p
      have h4 : (dirFeedCur allocOk (dirInit Sample.junk) [CurSample.stream]).toOption.map
          (fun p => (p.2.drop 4)) = some [(.dirEnd, ⟨some [102, 0,0,0,0,0,0,0], .dir, 0⟩)] := by
        decide +kernel
      have h5 : (dirFeedCur allocOk (dirInit Sample.junk) [CurSample.stream]).toOption.map
          (fun p => openDirs ((p.2.take 4).map (·.1)) []) = some [[100, 0,0,0,0,0,0,0]] := by
        decide +kernel
      rw [hf] at h4 h5
      simp only [Except.toOption, Option.map_some, Option.some.injEq] at h4 h5
      refine ⟨s, seen, rfl, seen.take 4, ⟨some [102, 0,0,0,0,0,0,0], .dir, 0⟩, [], ?_, ?_, h5⟩
      · rw [← h4, List.take_append_drop]
      · rfl
  obtain ⟨s, seen, h1, pre, c, post, h2, h3, h4⟩ := hr
  have := h _ _ _ h1 _ _ _ h2
  rw [h3, h4] at this
  exact absurd this (by decide)

/-- C94 is false of the depth: a file in the directory `d` is announced with depth 0, as `d` is. -/
theorem C94_deepness_false :
    ¬ ∀ (chunks : List Bytes) (s : DirSt) (seen : List (Ev × FileData)),
      dirFeedCur allocOk (dirInit Sample.junk) chunks = .ok (s, seen) →
      ∀ pre ft nm it c post, seen = pre ++ (Ev.itemStart ft nm it, c) :: post →
        c.deepness = (openDirs (pre.map (·.1)) []).length := by
  intro h
  cases hf : dirFeedCur allocOk (dirInit Sample.junk) [CurSample.stream] with
  | error e =>
    have : (dirFeedCur allocOk (dirInit Sample.junk) [CurSample.stream]).toOption.isSome = true := by
      decide +kernel
    rw [hf] at this
    cases this
  | ok p =>
    obtain ⟨s, seen⟩ := p
    have h4 : (dirFeedCur allocOk (dirInit Sample.junk) [CurSample.stream]).toOption.map
        (fun p => ((p.2.drop 1).take 1)) =
        some [(.itemStart .file [102, 0,0,0,0,0,0,0] (itemBytes ⟨0, 0, 1, 8, 0o644, 0⟩ Sample.junk),
          ⟨some [102, 0,0,0,0,0,0,0], .file, 0⟩)] := by
      decide +kernel
    have h5 : (dirFeedCur allocOk (dirInit Sample.junk) [CurSample.stream]).toOption.map
        (fun p => openDirs ((p.2.take 1).map (·.1)) []) = some [[100, 0,0,0,0,0,0,0]] := by
      decide +kernel
    rw [hf] at h4 h5
    simp only [Except.toOption, Option.map_some, Option.some.injEq] at h4 h5
    have h6 : seen = seen.take 1 ++ ((.itemStart .file [102, 0,0,0,0,0,0,0]
        (itemBytes ⟨0, 0, 1, 8, 0o644, 0⟩ Sample.junk),
          ⟨some [102, 0,0,0,0,0,0,0], .file, 0⟩) :: seen.drop 2) := by
      rw [show seen.drop 2 = (seen.drop 1).drop 1 by simp, ← List.singleton_append, ← h4,
        List.take_append_drop, List.take_append_drop]
    have := h _ _ _ hf _ _ _ _ _ _ h6
    rw [h5] at this
    exact absurd this (by decide)

end Zwt
