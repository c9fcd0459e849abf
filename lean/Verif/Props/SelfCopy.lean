import Verif.Model.SelfCopy
import Verif.Proofs.Tools

/-! C103: the copy the self extractor makes of its program. -/

namespace Zwt

theorem copyLoop_good (io : CopyIO) (hr : ∀ k, 0 < io.got k) (hw : ∀ k n, n ≤ io.stored k n) (fuel : Nat) :
    ∀ k src rem out, rem ≤ src.length → rem < fuel →
      copyLoop io fuel k src rem out = .ok (out ++ src.take rem) := by
  induction fuel with
  | zero => intro k src rem out _ h; omega
  | succ fuel ih =>
    intro k src rem out h1 h2
    rw [copyLoop]
    by_cases h0 : rem = 0
    · subst h0; simp
    · rw [if_neg h0]
      have hg := hr k
      have hv : (0 : Nat) < VC_BUFFER_SIZE := by decide
      generalize hp : src.take (min (min rem VC_BUFFER_SIZE) (io.got k)) = piece
      have hlen : piece.length = min (min rem VC_BUFFER_SIZE) (io.got k) := by
        rw [← hp, List.length_take]; omega
      have hpos : 0 < piece.length := by omega
      have hle : piece.length ≤ rem := by omega
      simp only [hpos, if_true]
      rw [List.take_of_length_le (hw k _), ih _ _ _ _ (by rw [List.length_drop]; omega) (by omega)]
      have hpiece : piece = src.take piece.length := by rw [hlen]; exact hp.symm
      congr 1
      rw [List.append_assoc]
      congr 1
      conv => lhs; lhs; rw [hpiece]
      rw [← List.take_add, Nat.add_sub_cancel' hle]

theorem copyLoop_short (io : CopyIO) (fuel : Nat) : ∀ k src rem out, src.length < rem →
    copyLoop io fuel k src rem out = .error .outOfFuel := by
  induction fuel with
  | zero => intro k src rem out _; rfl
  | succ fuel ih =>
    intro k src rem out h
    rw [copyLoop, if_neg (by omega)]
    generalize hp : src.take (min (min rem VC_BUFFER_SIZE) (io.got k)) = piece
    have hlen : piece.length ≤ src.length := by rw [← hp, List.length_take]; omega
    dsimp only
    split
    · exact ih _ _ _ _ (by rw [List.length_drop]; omega)
    · exact ih _ _ _ _ h

theorem copyLoop_stuck (io : CopyIO) (fuel : Nat) : ∀ k src rem out, (∀ j, k ≤ j → io.got j = 0) →
    0 < rem → copyLoop io fuel k src rem out = .error .outOfFuel := by
  induction fuel with
  | zero => intro k src rem out _ _; rfl
  | succ fuel ih =>
    intro k src rem out h h0
    rw [copyLoop, if_neg (by omega), h k (Nat.le_refl _)]
    simp only [Nat.min_zero, List.take_zero, List.length_nil, Nat.lt_irrefl, if_false]
    exact ih _ _ _ _ (fun j hj => h j (by omega)) h0

theorem copyLoop_parts (io : CopyIO) (fuel : Nat) : ∀ k src rem out r, rem ≤ src.length →
    copyLoop io fuel k src rem out = .ok r → ∃ s, r = out ++ s ∧ s.Sublist (src.take rem) := by
  induction fuel with
  | zero => intro k src rem out r _ h; cases h
  | succ fuel ih =>
    intro k src rem out r h1 h
    rw [copyLoop] at h
    split at h
    · cases h; exact ⟨[], by simp, List.nil_sublist _⟩
    · generalize hp : src.take (min (min rem VC_BUFFER_SIZE) (io.got k)) = piece at h
      have hlen : piece.length = min (min (min rem VC_BUFFER_SIZE) (io.got k)) src.length := by
        rw [← hp, List.length_take]
      have hle : piece.length ≤ rem := by omega
      dsimp only at h
      split at h
      · obtain ⟨s, rfl, hs⟩ := ih _ _ _ _ _ (by rw [List.length_drop]; omega) h
        refine ⟨_, List.append_assoc _ _ _, ?_⟩
        have hpiece : piece = src.take piece.length := by
          have : piece.length = min (min rem VC_BUFFER_SIZE) (io.got k) := by omega
          rw [this]; exact hp.symm
        have e : src.take rem = piece ++ (src.drop piece.length).take (rem - piece.length) := by
          conv => rhs; lhs; rw [hpiece]
          rw [← List.take_add, Nat.add_sub_cancel' hle]
        rw [e]
        exact (List.take_sublist _ _).append hs
      · exact ih _ _ _ _ _ h1 h

/-- C103, what holds: if every read delivers something, however little, and writes are complete, the
self extractor puts an exact copy of the program, as large as it was found to be, in front, in at most as
many rounds as it has bytes.
Missing: reads that deliver nothing (`C103_endless_false`) and writes that store less than they are given
(`C103_incomplete_false`). -/
theorem C103_copy_partial (io : CopyIO) (hr : ∀ k, 0 < io.got k) (hw : ∀ k n, n ≤ io.stored k n)
    (exe : Bytes) (size : Nat) (hs : size ≤ exe.length) (fuel : Nat) (hf : size < fuel) (limit : Nat)
    (icon : Bytes → Bytes) (compress : Run (Int × List Bytes)) :
    copyLoop io fuel 0 exe size [] = .ok (exe.take size) ∧
    ∀ open1 open2, selfPackIO io fuel limit exe size open1 open2 icon compress =
      selfPack limit (exe.take size) open1 open2 icon compress := by
  have h : copyLoop io fuel 0 exe size [] = .ok (exe.take size) := by
    simpa using copyLoop_good io hr hw fuel 0 exe size [] hs hf
  refine ⟨h, fun open1 open2 => ?_⟩
  simp only [selfPackIO, selfPack, h, copy_eq]
  rfl

/-- Whatever reads and writes do: if the copying ends, the copy consists of parts of the program in
order. -/
theorem C103_parts (io : CopyIO) (exe r : Bytes) (size : Nat) (hs : size ≤ exe.length) (fuel : Nat)
    (h : copyLoop io fuel 0 exe size [] = .ok r) : r.Sublist (exe.take size) := by
  obtain ⟨s, rfl, h⟩ := copyLoop_parts io fuel 0 exe size [] r hs h
  simpa using h

/-- C103 is false if reading fails: the copying never ends, whatever the writes do, if the program file
is shorter than it was found to be, or if from some read on all fail. -/
theorem C103_endless_false (io : CopyIO) (exe : Bytes) (size limit fuel : Nat) (icon : Bytes → Bytes)
    (compress : Run (Int × List Bytes)) (open2 : Bool)
    (h : exe.length < size ∨ 0 < size ∧ ∀ j, io.got j = 0) :
    selfPackIO io fuel limit exe size true open2 icon compress = .error .outOfFuel := by
  have : copyLoop io fuel 0 exe size [] = .error .outOfFuel := by
    rcases h with h | ⟨h, h'⟩
    · exact copyLoop_short io fuel 0 exe size [] h
    · exact copyLoop_stuck io fuel 0 exe size [] (fun j _ => h' j) h
  simp only [selfPackIO, this]
  rfl

/-- C103 is false if a write stores less than it is given: the program reports success, and what it has
put in front is not the program. -/
theorem C103_incomplete_false :
    ¬ ∀ (io : CopyIO) (exe : Bytes) (fuel : Nat) (pieces : List Bytes) (r : SelfRun) (out : Bytes),
      (∀ k, 0 < io.got k) →
      selfPackIO io fuel (maxExe true) exe exe.length true true id (.ok (0, pieces)) = .ok r →
      r.ret = 0 → r.out = some out → out.take exe.length = exe := by
  intro h
  have := h ⟨fun _ => 4192, fun _ _ => 1⟩ [77, 90] 3 [] ⟨0, some [77], none, [], false⟩ [77]
    (fun _ => Nat.succ_pos _) (by decide +kernel) rfl rfl
  simp at this

/-- Example: a program of five bytes, read in pieces of two. -/
example : copyLoop ⟨fun _ => 2, fun _ n => n⟩ 6 0 [1, 2, 3, 4, 5] 5 [] = .ok [1, 2, 3, 4, 5] :=
  (C103_copy_partial ⟨fun _ => 2, fun _ n => n⟩ (fun _ => Nat.succ_pos _) (fun _ _ => Nat.le_refl _)
    [1, 2, 3, 4, 5] 5 (by decide) 6 (by decide) 524288 id (.ok (0, []))).1

/-- Example: the program file has shrunk by a byte. -/
example (fuel : Nat) : selfPackIO ⟨fun _ => 4192, fun _ n => n⟩ fuel 524288 [77] 2 true true id
    (.ok (0, [])) = .error .outOfFuel :=
  C103_endless_false _ _ _ _ _ _ _ _ (.inl (by decide))

/-- Example: the second of three writes fails. -/
example : copyLoop ⟨fun _ => 2, fun k n => if k = 1 then 0 else n⟩ 9 0 [1, 2, 3, 4, 5] 5 [] =
    .ok [1, 2, 5] := by decide +kernel

end Zwt
