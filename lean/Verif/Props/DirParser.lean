import Verif.Proofs.DirFeed

/-! C17–C25: the directory parser. -/

namespace Zwt

/-! A small archive for the examples: file `f` holding `hi`, symbolic link `l → ab`, a record of
unknown kind 9, directory `d` and its end. -/

/-- An allocator that never fails. -/
def allocOk : AllocOracle := fun _ _ => true

namespace Sample
def junk : Bytes := List.replicate 11 0xAA
def fileRec : Bytes := itemBytes ⟨2, 8, 1, 8, 0o644, 0⟩ junk ++ [102, 0,0,0,0,0,0,0]
def filePay : Bytes := [104, 105, 0,0,0,0,0,0]
def linkRec : Bytes := itemBytes ⟨2, 8, 1, 8, 0o777, 4⟩ junk ++ [108, 0,0,0,0,0,0,0]
def unknownRec : Bytes := itemBytes ⟨77, 8, 1, 8, 0, 9⟩ junk
def dirRec : Bytes := itemBytes ⟨0, 0, 1, 8, 0o755, 1⟩ junk ++ [100, 0,0,0,0,0,0,0]
def endRec : Bytes := itemBytes ⟨0, 0, 0, 0, 0, 2⟩ junk
/-- Whole plaintext. -/
def stream : Bytes :=
  fileRec ++ filePay ++ linkRec ++ [97, 98, 0,0,0,0,0,0] ++ unknownRec ++ dirRec ++ endRec
/-- The same split inside the file payload and at both ends of the link target. -/
def chunks : List Bytes :=
  [fileRec ++ [104], [105, 0,0,0,0,0,0] ++ linkRec, [],
    [97, 98, 0,0,0,0,0,0] ++ unknownRec ++ dirRec, endRec]
/-- The same split inside the link target. -/
def cutChunks : List Bytes :=
  [fileRec ++ filePay ++ linkRec ++ [97], [98, 0,0,0,0,0,0] ++ unknownRec ++ dirRec ++ endRec]
end Sample

/-- What the sample means. -/
theorem Sample.meaning : specParse allocOk 0 Sample.stream =
    ⟨[.start .file [102, 0,0,0,0,0,0,0] (itemBytes ⟨2, 8, 1, 8, 0o644, 0⟩ junk), .byte 104,
      .byte 105, .fileEnd,
      .start .symlink [108, 0,0,0,0,0,0,0] (itemBytes ⟨2, 8, 1, 8, 0o777, 4⟩ junk), .link [97, 98],
      .start .dir [100, 0,0,0,0,0,0,0] (itemBytes ⟨0, 0, 1, 8, 0o755, 1⟩ junk), .dirEnd],
      .inItem []⟩ := by decide +kernel

theorem Sample.noCut : NoLinkCut allocOk Sample.chunks := by
  intro n hn
  have : n = 0 ∨ n = 1 ∨ n = 2 ∨ n = 3 ∨ n = 4 := by
    simp [Sample.chunks] at hn; omega
  rintro ⟨got, missing, he, h0⟩
  rcases this with rfl | rfl | rfl | rfl | rfl
  · rw [show (specParse allocOk 0 (Sample.chunks.take 0).flatten).ending = .inItem [] by
      decide +kernel] at he; cases he
  · rw [show (specParse allocOk 0 (Sample.chunks.take 1).flatten).ending = .inFile 1 by
      decide +kernel] at he; cases he
  · rw [show (specParse allocOk 0 (Sample.chunks.take 2).flatten).ending = .inLink 0 2 by
      decide +kernel] at he; cases he; omega
  · rw [show (specParse allocOk 0 (Sample.chunks.take 3).flatten).ending = .inLink 0 2 by
      decide +kernel] at he; cases he; omega
  · rw [show (specParse allocOk 0 (Sample.chunks.take 4).flatten).ending = .inItem [] by
      decide +kernel] at he; cases he

/-! ### C17 -/

/-- C17.  Whatever the plaintext, its split into buffers, the allocation failures and the
uninitialised bytes: the callbacks made, flattened, are those of the record grammar, up to at
most two trailing zero-length callbacks (never payload) that wait for the next buffer.  Link
targets may lose their beginning if a buffer boundary falls inside one (C19); otherwise the match
is exact. -/
theorem C17_directory_stream_meaning (ok : AllocOracle) (junk : Bytes) (hj : junk.length = 11)
    (chunks : List Bytes) :
    ∃ s evs owed, dirFeed ok (dirInit junk) chunks = .ok (s, evs) ∧
      owed.length ≤ 2 ∧ (∀ b, Atom.byte b ∉ owed) ∧
      LinkSfx (atoms evs ++ owed) (specParse ok 0 chunks.flatten).atoms ∧
      (NoLinkCut ok chunks → atoms evs ++ owed = (specParse ok 0 chunks.flatten).atoms) := by
  obtain ⟨s, evs, h, hi, hle, _, hex⟩ := feed_init ok junk hj chunks
  have ho := owed ok s hi
  exact ⟨s, evs, _, h, ho.1, ho.2, hle.1, fun hc => congrArg Parsed.atoms (hex hc)⟩

example := C17_directory_stream_meaning allocOk Sample.junk (by decide) Sample.chunks

/-- C17, with the deferred callbacks flushed by two empty buffers: no deviation at all. -/
theorem C17_directory_stream_meaning_flushed (ok : AllocOracle) (junk : Bytes)
    (hj : junk.length = 11) (chunks : List Bytes) (hc : NoLinkCut ok chunks) :
    ∃ s evs, dirFeed ok (dirInit junk) (chunks ++ [[], []]) = .ok (s, evs) ∧
      atoms evs = (specParse ok 0 chunks.flatten).atoms := by
  obtain ⟨s, evs, h, _, hex⟩ := feed_init_flush ok junk hj chunks
  exact ⟨s, evs, h, hex hc⟩

example : Sample.chunks.flatten = Sample.stream ∧ NoLinkCut allocOk Sample.chunks :=
  ⟨by decide +kernel, Sample.noCut⟩

/-! ### C18 -/

/-- C18.  Two splits of one plaintext give the same callbacks (payload pieces joined). -/
theorem C18_split_independence (ok : AllocOracle) (junk junk' : Bytes) (hj : junk.length = 11)
    (hj' : junk'.length = 11) (c₁ c₂ : List Bytes) (hsame : c₁.flatten = c₂.flatten)
    (h₁ : NoLinkCut ok c₁) (h₂ : NoLinkCut ok c₂) :
    ∃ s₁ s₂ evs₁ evs₂, dirFeed ok (dirInit junk) (c₁ ++ [[], []]) = .ok (s₁, evs₁) ∧
      dirFeed ok (dirInit junk') (c₂ ++ [[], []]) = .ok (s₂, evs₂) ∧ atoms evs₁ = atoms evs₂ := by
  obtain ⟨s₁, e₁, r₁, _, x₁⟩ := feed_init_flush ok junk hj c₁
  obtain ⟨s₂, e₂, r₂, _, x₂⟩ := feed_init_flush ok junk' hj' c₂
  exact ⟨s₁, s₂, e₁, e₂, r₁, r₂, by rw [x₁ h₁, x₂ h₂, hsame]⟩

example : NoLinkCut allocOk Sample.chunks ∧ NoLinkCut allocOk [Sample.stream] ∧
    Sample.chunks.flatten = [Sample.stream].flatten := by
  refine ⟨Sample.noCut, ?_, by decide +kernel⟩
  rintro n hn ⟨got, missing, he, -⟩
  obtain rfl : n = 0 := by simp at hn; omega
  rw [show (specParse allocOk 0 ([Sample.stream].take 0).flatten).ending = .inItem [] by
    decide +kernel] at he
  cases he

/-! ### C19 -/

/-- C19 is false: a link target `ab` cut by a buffer boundary arrives as `b`. -/
theorem C19_symlink_targets_whole_false :
    ¬ ∀ (ok : AllocOracle) (junk : Bytes) (chunks : List Bytes) (s : DirSt) (evs : List Ev),
      junk.length = 11 → dirFeed ok (dirInit junk) chunks = .ok (s, evs) →
      ∀ t, Atom.link t ∈ atoms evs → Atom.link t ∈ (specParse ok 0 chunks.flatten).atoms := by
  intro h
  cases hr : dirFeed allocOk (dirInit Sample.junk) Sample.cutChunks with
  | error e =>
    have : (match dirFeed allocOk (dirInit Sample.junk) Sample.cutChunks with
      | .error _ => false | .ok _ => true) = true := by decide +kernel
    rw [hr] at this; cases this
  | ok r =>
    obtain ⟨s, evs⟩ := r
    have hm : (match dirFeed allocOk (dirInit Sample.junk) Sample.cutChunks with
      | .error _ => false | .ok (_, evs) => decide (Atom.link [98] ∈ atoms evs)) = true := by
      decide +kernel
    rw [hr] at hm
    have := h allocOk Sample.junk Sample.cutChunks s evs (by decide) hr [98] (by simpa using hm)
    rw [show Sample.cutChunks.flatten = Sample.stream by decide +kernel, Sample.meaning] at this
    revert this
    decide

/-- C19, what holds: every link target delivered is a suffix of the archived one at the same
position, and the complete one if no buffer boundary falls strictly inside a target.  Missing:
completeness for every split. -/
theorem C19_symlink_targets_whole_partial (ok : AllocOracle) (junk : Bytes) (hj : junk.length = 11)
    (chunks : List Bytes) :
    ∃ s evs owed, dirFeed ok (dirInit junk) chunks = .ok (s, evs) ∧
      LinkSfx (atoms evs ++ owed) (specParse ok 0 chunks.flatten).atoms ∧
      (NoLinkCut ok chunks →
        ∀ t, Atom.link t ∈ atoms evs → Atom.link t ∈ (specParse ok 0 chunks.flatten).atoms) := by
  obtain ⟨s, evs, o, h, _, _, hl, hx⟩ := C17_directory_stream_meaning ok junk hj chunks
  refine ⟨s, evs, o, h, hl, fun hc t ht => ?_⟩
  rw [← hx hc]
  exact List.mem_append_left _ ht

example : NoLinkCut allocOk Sample.chunks ∧
    Atom.link [97, 98] ∈ (specParse allocOk 0 Sample.chunks.flatten).atoms :=
  ⟨Sample.noCut, by decide +kernel⟩

/-! ### C20 -/

/-- C20.  No input makes the parser leave defined behaviour: no out-of-bounds write, no null
name, no failed assertion, no unbounded recursion. -/
theorem C20_parser_memory_safety (ok : AllocOracle) (junk : Bytes) (hj : junk.length = 11)
    (chunks : List Bytes) (f : Fault) : dirFeed ok (dirInit junk) chunks ≠ .error f := by
  obtain ⟨s, evs, h, _⟩ := feed_init ok junk hj chunks
  rw [h]; intro h; cases h

/-- The faults are reachable in the model from other states: a name stage without a name. -/
example : dirFeed allocOk { dirInit Sample.junk with stage := .filename } [[1]]
    = .error .nullDeref := by decide +kernel
example : Sample.junk.length = 11 := by decide

/-! ### C21 -/

/-- C21.  Every callback history obeys the protocol. -/
theorem C21_callback_protocol (ok : AllocOracle) (junk : Bytes) (hj : junk.length = 11)
    (chunks : List Bytes) (s : DirSt) (evs : List Ev)
    (h : dirFeed ok (dirInit junk) chunks = .ok (s, evs)) : Proto.idle.run evs ≠ none := by
  obtain ⟨s', evs', h', _, _, hp, _⟩ := feed_init ok junk hj chunks
  rw [h] at h'
  cases h'
  rw [hp]; simp

example : (match dirFeed allocOk (dirInit Sample.junk) Sample.chunks with
    | .ok (_, evs) => evs.length | .error _ => 0) = 8 := by decide +kernel
/-- The protocol does reject histories. -/
example : Proto.idle.run [.fileRead [1]] = none ∧ Proto.idle.run [.fileEnd] = none ∧
    Proto.idle.run [.itemStart .file [] (itemBytes ⟨1, 8, 0, 0, 0, 0⟩ Sample.junk), .fileEnd] = none
    := by decide

/-! ### C22 -/

/-- C22.  Once the reading of the plaintext has met a failed name allocation, nothing that
follows causes a callback. -/
theorem C22_errors_final (ok : AllocOracle) (junk : Bytes) (hj : junk.length = 11)
    (before later : List Bytes) (hdead : (specParse ok 0 before.flatten).ending = .dead) :
    ∃ s evs, dirFeed ok (dirInit junk) before = .ok (s, evs) ∧
      dirFeed ok (dirInit junk) (before ++ later) = .ok (s, evs) := by
  obtain ⟨s, evs, h, hi, hle, _, _⟩ := feed_init ok junk hj before
  have he : s.hasError = true := dead_iff ok hi (by
    have := hle.2
    simp only [Parsed.after] at this
    rw [this, hdead])
  refine ⟨s, evs, h, ?_⟩
  rw [dirFeed_append, h]
  simp [dirFeed_dead ok he]

example : (specParse (fun k _ => k == 0) 0 Sample.stream).ending = .dead := by decide +kernel

/-! ### C23 -/

/-- C23.  Decoding a prefix of the plaintext invokes a prefix of the callbacks of the whole. -/
theorem C23_truncation_prefix (ok : AllocOracle) (junk junk' : Bytes) (hj : junk.length = 11)
    (hj' : junk'.length = 11) (c c' : List Bytes) (x : Bytes) (hx : c'.flatten = c.flatten ++ x)
    (hc : NoLinkCut ok c) (hc' : NoLinkCut ok c') :
    ∃ s s' evs evs', dirFeed ok (dirInit junk) c = .ok (s, evs) ∧
      dirFeed ok (dirInit junk') (c' ++ [[], []]) = .ok (s', evs') ∧
      atoms evs <+: atoms evs' := by
  obtain ⟨s, evs, o, h, _, _, _, he⟩ := C17_directory_stream_meaning ok junk hj c
  obtain ⟨s', evs', h', he'⟩ := C17_directory_stream_meaning_flushed ok junk' hj' c' hc'
  refine ⟨s, s', evs, evs', h, h', ?_⟩
  rw [he', hx]
  refine List.IsPrefix.trans ?_ (specParse_prefix ok 0 c.flatten x)
  rw [← he hc]
  exact List.prefix_append _ _

example : NoLinkCut allocOk Sample.chunks ∧ NoLinkCut allocOk (Sample.chunks.take 2) ∧
    Sample.chunks.flatten = (Sample.chunks.take 2).flatten ++ (Sample.chunks.drop 2).flatten := by
  refine ⟨Sample.noCut, ?_, by decide +kernel⟩
  intro n hn
  have := Sample.noCut n (by simp [Sample.chunks] at hn ⊢; omega)
  simpa [List.take_take, show min n 2 = n by simp [Sample.chunks] at hn; omega] using this

/-! ### C24 -/

/-- C24.  In every state reached, a buffer of `n` bytes is handled with a nesting of at most
`4 * (n / 40) + 5` parser calls. -/
theorem C24_recursion_depth (ok : AllocOracle) (junk : Bytes) (hj : junk.length = 11)
    (chunks : List Bytes) (s : DirSt) (evs : List Ev)
    (h : dirFeed ok (dirInit junk) chunks = .ok (s, evs)) (buf : Bytes) (depth : Nat)
    (hd : 4 * (buf.length / 40) + 5 ≤ depth) :
    dirData ok depth s buf ≠ .error .outOfFuel := by
  obtain ⟨s', evs', h', hi, _⟩ := feed_init ok junk hj chunks
  rw [h] at h'
  cases h'
  obtain ⟨s'', evs'', h'', _⟩ := dirData_depthFor ok s buf hi depth hd
  rw [h'']; intro hc; cases hc

/-- The nesting does grow with the buffer: one 40-byte end record per level. -/
example : dirData allocOk 3 (dirInit Sample.junk)
    (Sample.endRec ++ Sample.endRec ++ Sample.endRec ++ Sample.endRec) = .error .outOfFuel := by
  decide +kernel

/-! ### C25 -/

/-- C25.  A record of unknown kind at a record boundary is skipped as exactly 40 bytes: the
callbacks are those of the plaintext without it. -/
theorem C25_unknown_record_skipped (ok : AllocOracle) (junk junk' : Bytes) (hj : junk.length = 11)
    (hj' : junk'.length = 11) (w u x : Bytes) (hu : u.length = 40)
    (hk : itKind u ≠ 0 ∧ itKind u ≠ 1 ∧ itKind u ≠ 2 ∧ itKind u ≠ 4)
    (hw : (specParse ok 0 w).ending = .inItem [])
    (c c' : List Bytes) (hc : c.flatten = w ++ u ++ x) (hc' : c'.flatten = w ++ x)
    (hn : NoLinkCut ok c) (hn' : NoLinkCut ok c') :
    ∃ s s' evs evs', dirFeed ok (dirInit junk) (c ++ [[], []]) = .ok (s, evs) ∧
      dirFeed ok (dirInit junk') (c' ++ [[], []]) = .ok (s', evs') ∧ atoms evs = atoms evs' := by
  obtain ⟨s, evs, h, he⟩ := C17_directory_stream_meaning_flushed ok junk hj c hn
  obtain ⟨s', evs', h', he'⟩ := C17_directory_stream_meaning_flushed ok junk' hj' c' hn'
  refine ⟨s, s', evs, evs', h, h', ?_⟩
  obtain ⟨k', hk'⟩ := specParse_append ok 0 w [] hw
  rw [he, he', hc, hc', List.append_assoc, hk', hk', List.nil_append, List.nil_append,
    specParse_item _ _ _ _ hu]
  simp only [specItem]
  rw [if_neg hk.2.2.1, if_neg (by omega)]

example : itKind Sample.unknownRec = 9 ∧ Sample.unknownRec.length = 40 ∧
    (specParse allocOk 0 (Sample.fileRec ++ Sample.filePay)).ending = .inItem [] := by
  decide +kernel

end Zwt
