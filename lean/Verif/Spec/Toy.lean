import Verif.Spec.Zlib

/-!
Concrete codecs meeting the contracts: they show that the contracts are satisfiable, and serve as
witnesses.  `queueD`/`queueI` copy bytes, but, like zlib, take all input at once and keep what does
not fit into the output room for later calls.
-/

namespace Zwt

/-- Copying compressor. -/
def queueD : Deflater where
  τ := Bytes
  init level := if -1 ≤ level ∧ level ≤ 9 then some [] else none
  run q _ inp room :=
    if room = 0 then ⟨Z_BUF_ERROR, q, 0, []⟩
    else ⟨Z_OK, (q ++ inp).drop room, inp.length, (q ++ inp).take room⟩

def queueDOK : DeflateOK queueD id where
  Rep (q : Bytes) c e := e ++ q = c
  rank (q : Bytes) := q.length
  init h := by
    simp only [queueD] at h
    split at h
    · cases h; rfl
    · cases h
  bounds := by
    intro (st : Bytes) c e _ inp room
    simp only [queueD]
    split
    · simp
    · simp [Nat.min_le_left]
  step := by
    intro (st : Bytes) c e h inp room
    simp only [queueD]
    split
    · simpa using h
    · subst h
      simp only [List.take_length, List.append_assoc]
      rw [List.take_append_drop]
  sound := by
    intro (st : Bytes) c e h
    subst h
    exact List.prefix_append _ _
  progress := by
    intro (st : Bytes) c e _ inp room hi hr h
    simp only [queueD, if_neg (by omega : ¬ room = 0)] at h
    exact absurd (List.eq_nil_of_length_eq_zero h) hi
  noStreamError := by
    intro (st : Bytes) c e _ inp room
    simp only [queueD]
    split <;> simp only [Z_BUF_ERROR, Z_OK, Z_STREAM_ERROR] <;> decide
  complete := by
    intro (st : Bytes) c e h inp room _ hlt
    subst h
    simp only [queueD] at hlt ⊢
    split
    · rename_i h0; rw [h0] at hlt; omega
    · rename_i h0
      rw [if_neg h0] at hlt
      refine ⟨rfl, ?_⟩
      show e ++ (st ++ inp).take room = e ++ st ++ inp
      rw [List.take_of_length_le (by simp at hlt ⊢; omega)]
      simp
  noRoom := by
    intro (st : Bytes) c e _ inp
    simp [queueD]

/-- Copying decompressor. -/
def queueI : Inflater where
  τ := Bytes
  init := []
  run q _ inp room :=
    if inp = [] ∧ (q = [] ∨ room = 0) then ⟨Z_BUF_ERROR, q, 0, []⟩
    else ⟨Z_OK, (q ++ inp).drop room, inp.length, (q ++ inp).take room⟩

def queueIOK : InflateOK queueI id where
  Rep (q : Bytes) c p := p ++ q = c
  Dead _ := False
  mono c x := List.prefix_append _ _
  init := rfl
  alive := id
  bounds := by
    intro (st : Bytes) c e _ flush inp room
    simp only [queueI]
    split
    · simp
    · simp [Nat.min_le_left]
  step := by
    intro (st : Bytes) c e h flush inp room
    simp only [queueI]
    split
    · simpa using h
    · subst h
      simp only [List.take_length, List.append_assoc]
      rw [List.take_append_drop]
  sound := by
    intro (st : Bytes) c e h
    subst h
    exact List.prefix_append _ _
  progress := by
    intro (st : Bytes) c e _ flush inp room h
    simp only [queueI] at h ⊢
    split
    · rename_i h0
      rw [if_pos h0] at h
      simp only [Z_BUF_ERROR, Z_OK] at h
      exact absurd h (by decide)
    · rename_i h0
      by_cases hi : inp = []
      · right
        subst hi
        simp only [true_and, not_or] at h0
        intro hc
        have := congrArg List.length hc
        simp only [List.append_nil, List.length_take, List.length_nil] at this
        have : 0 < st.length := List.length_pos_iff.mpr h0.1
        omega
      · left
        exact List.length_pos_iff.mpr hi
  complete := by
    intro (st : Bytes) c p h flush inp room _ hret hlt
    subst h
    simp only [queueI] at hlt hret ⊢
    split
    · rename_i h0
      rw [if_pos h0] at hret
      simp only [Z_BUF_ERROR, Z_OK] at hret
      exact absurd hret (by decide)
    · rename_i h0
      rw [if_neg h0] at hlt
      simp only [id, true_and]
      rw [List.take_of_length_le (by simp at hlt ⊢; omega)]
      simp
  fail := by
    intro (st : Bytes) c p h flush inp room _ hi hret
    simp only [queueI] at hret
    rw [if_neg (by simp [hi])] at hret
    exact absurd rfl hret
  okAlive := by intros; exact id
  dead := by intro st h; exact h.elim

/-- Copying decompressor that takes no more input than it has room for. -/
def copyI : Inflater where
  τ := Unit
  init := ()
  run _ _ inp room :=
    if inp = [] ∨ room = 0 then ⟨Z_BUF_ERROR, (), 0, []⟩
    else ⟨Z_OK, (), min room inp.length, inp.take room⟩

def copyIOK : InflateOK copyI id where
  Rep _ c p := p = c
  Dead _ := False
  mono c x := List.prefix_append _ _
  init := rfl
  alive := id
  bounds := by
    intro st c e _ flush inp room
    simp only [copyI]
    split
    · simp
    · simp [Nat.min_le_left, Nat.min_le_right]
  step := by
    intro st c e h flush inp room
    simp only [copyI]
    split
    · simpa using h
    · subst h
      simp [List.take_eq_take_iff]
  sound := by
    intro st c e h
    subst h
    exact List.prefix_refl _
  progress := by
    intro st c e _ flush inp room h
    simp only [copyI] at h ⊢
    split
    · rename_i h0
      rw [if_pos h0] at h
      simp only [Z_BUF_ERROR, Z_OK] at h
      exact absurd h (by decide)
    · rename_i h0
      simp only [not_or] at h0
      have := List.length_pos_iff.mpr h0.1
      left
      show 0 < min room inp.length
      omega
  complete := by
    intro st c p h flush inp room _ hret hlt
    subst h
    simp only [copyI] at hlt hret ⊢
    split
    · rename_i h0
      rw [if_pos h0] at hret
      simp only [Z_BUF_ERROR, Z_OK] at hret
      exact absurd hret (by decide)
    · rename_i h0
      rw [if_neg h0] at hlt
      simp only [List.length_take] at hlt
      refine ⟨?_, ?_⟩
      · show min room inp.length = inp.length
        omega
      · simp only [id]
        rw [List.take_of_length_le (by omega)]
  fail := by
    intro st c p h flush inp room _ hi hret
    right
    simp only [copyI] at hret ⊢
    by_cases hr : room = 0
    · simp [hr]
    · rw [if_neg (by simp [hi, hr])] at hret
      exact absurd rfl hret
  okAlive := by intros; exact id
  dead := by intro st h; exact h.elim

/-- It withholds nothing. -/
theorem copyIOK_prompt (e : Bytes) : copyIOK.Prompt e := by
  intro st c p flush inp room hr _ hi he hret hcon
  have hp : p = c := hr
  simp only [copyI] at hret hcon ⊢
  split at hret
  · exact absurd hret (by decide)
  · rename_i h0
    rw [if_neg h0] at hcon ⊢
    simp only at hcon ⊢
    rw [List.take_of_length_le (by omega), hp, he]
    rfl

/-- Copying decompressor that knows defects: byte `255` in its input is a data error, everything
after it is ignored.  Once it has failed it stays failed. -/
def checkI : Inflater where
  τ := Bytes × Bool
  init := ([], false)
  run q _ inp room :=
    let good := inp.takeWhile (· != 255)
    if q.2 then ⟨Z_DATA_ERROR, q, 0, []⟩
    else if good.length < inp.length ∧ q.1.length + good.length ≤ room then
      ⟨Z_DATA_ERROR, ([], true), inp.length, q.1 ++ good⟩
    else if good = [] ∧ (q.1 = [] ∨ room = 0) then ⟨Z_BUF_ERROR, q, 0, []⟩
    else ⟨Z_OK, ((q.1 ++ good).drop room, false), good.length, (q.1 ++ good).take room⟩

theorem takeWhile_all (p : UInt8 → Bool) (a : Bytes) : ∀ x ∈ a.takeWhile p, p x = true := by
  induction a with
  | nil => simp
  | cons y a ih =>
    intro x hx
    rw [List.takeWhile_cons] at hx
    split at hx
    · rcases List.mem_cons.mp hx with rfl | h
      · assumption
      · exact ih x h
    · simp at hx

theorem takeWhile_append_all {p : UInt8 → Bool} {a b : Bytes} (h : ∀ x ∈ a, p x = true) :
    (a ++ b).takeWhile p = a ++ b.takeWhile p := by
  induction a with
  | nil => rfl
  | cons x a ih =>
    simp only [List.cons_append, List.takeWhile_cons, h x List.mem_cons_self, if_true]
    rw [ih (fun y hy => h y (List.mem_cons_of_mem _ hy))]

theorem takeWhile_append_stop {p : UInt8 → Bool} {a b : Bytes}
    (h : (a.takeWhile p).length < a.length) : (a ++ b).takeWhile p = a.takeWhile p := by
  induction a with
  | nil => simp at h
  | cons x a ih =>
    simp only [List.cons_append, List.takeWhile_cons] at h ⊢
    split
    · rename_i hx
      rw [if_pos hx] at h
      rw [ih (by simpa using h)]
    · rfl

theorem takeWhile_le (p : UInt8 → Bool) (a : Bytes) : (a.takeWhile p).length ≤ a.length :=
  (List.takeWhile_prefix p).length_le

theorem takeWhile_prefix_mono (p : UInt8 → Bool) (a b : Bytes) :
    a.takeWhile p <+: (a ++ b).takeWhile p := by
  by_cases h : (a.takeWhile p).length < a.length
  · rw [takeWhile_append_stop h]; exact List.prefix_refl _
  · have he : a.takeWhile p = a :=
      (List.takeWhile_prefix p).eq_of_length (by have := takeWhile_le p a; omega)
    rw [takeWhile_append_all (by rw [← he]; exact takeWhile_all p a)]
    rw [he]
    exact List.prefix_append _ _

def checkIOK : InflateOK checkI (fun c => c.takeWhile (· != 255)) where
  Rep q c p := if q.2 then p = c.takeWhile (· != 255) ∧ (c.takeWhile (· != 255)).length < c.length
    else p ++ q.1 = c ∧ ∀ x ∈ c, (x != 255) = true
  Dead q := q.2 = true
  mono c x := takeWhile_prefix_mono _ _ _
  init := by simp [checkI]
  alive := by simp [checkI]
  bounds := by
    intro st c e _ flush inp room
    simp only [checkI]
    split
    · simp
    · split
      · rename_i h; simp; omega
      · split
        · simp
        · simp only [List.length_take]
          exact ⟨takeWhile_le _ _, Nat.min_le_left _ _⟩
  step := by
    intro ⟨q, dead⟩ c e h flush inp room
    simp only [checkI]
    cases dead with
    | true => simpa using h
    | false =>
      simp only [Bool.false_eq_true, if_false] at h ⊢
      obtain ⟨h1, h2⟩ := h
      subst h1
      split
      · rename_i hc
        simp only [if_true, List.take_length]
        rw [takeWhile_append_all h2]
        refine ⟨by simp, ?_⟩
        simp only [List.length_append]
        omega
      · split
        · simpa using h2
        · simp only [Bool.false_eq_true, if_false]
          have hp : inp.take (inp.takeWhile (· != 255)).length = inp.takeWhile (· != 255) :=
            (List.prefix_iff_eq_take.mp (List.takeWhile_prefix _)).symm
          rw [hp]
          constructor
          · rw [List.append_assoc, List.take_append_drop, List.append_assoc]
          · intro x hx
            rcases List.mem_append.mp hx with hx | hx
            · exact h2 x hx
            · exact takeWhile_all _ _ x hx
  sound := by
    intro ⟨q, dead⟩ c e h
    cases dead with
    | true => simp only [if_true] at h; rw [h.1]; exact List.prefix_refl _
    | false =>
      simp only [Bool.false_eq_true, if_false] at h
      obtain ⟨h1, h2⟩ := h
      have : c.takeWhile (· != 255) = c := by
        have := takeWhile_append_all (b := []) h2
        simpa using this
      show e <+: c.takeWhile (· != 255)
      rw [this, ← h1]
      exact List.prefix_append _ _
  progress := by
    intro ⟨q, dead⟩ c e _ flush inp room h
    simp only [checkI] at h ⊢
    cases dead with
    | true => simp only [if_true, Z_DATA_ERROR, Z_OK] at h; exact absurd h (by decide)
    | false =>
      simp only [Bool.false_eq_true, if_false] at h ⊢
      split
      · rename_i hc; rw [if_pos hc] at h
        simp only [Z_DATA_ERROR, Z_OK] at h; exact absurd h (by decide)
      · rename_i hc; rw [if_neg hc] at h
        split
        · rename_i h0; rw [if_pos h0] at h
          simp only [Z_BUF_ERROR, Z_OK] at h; exact absurd h (by decide)
        · rename_i h0
          by_cases hi : inp.takeWhile (· != 255) = []
          · right
            simp only [hi, true_and, not_or] at h0
            intro hcc
            have := congrArg List.length hcc
            simp only [hi, List.append_nil, List.length_take, List.length_nil] at this
            have : 0 < q.length := List.length_pos_iff.mpr h0.1
            omega
          · left
            exact List.length_pos_iff.mpr hi
  complete := by
    intro ⟨q, dead⟩ c e h flush inp room _ hret hlt
    simp only [checkI] at hret hlt ⊢
    cases dead with
    | true => simp only [if_true, Z_DATA_ERROR, Z_OK] at hret; exact absurd hret (by decide)
    | false =>
      simp only [Bool.false_eq_true, if_false] at hret hlt h ⊢
      obtain ⟨h1, h2⟩ := h
      subst h1
      split
      · rename_i hc; rw [if_pos hc] at hret
        simp only [Z_DATA_ERROR, Z_OK] at hret; exact absurd hret (by decide)
      · rename_i hc; rw [if_neg hc] at hret hlt
        split
        · rename_i h0; rw [if_pos h0] at hret
          simp only [Z_BUF_ERROR, Z_OK] at hret; exact absurd hret (by decide)
        · rename_i h0; rw [if_neg h0] at hlt
          simp only [List.length_take, List.length_append] at hlt
          have hle := takeWhile_le (· != 255) inp
          refine ⟨show (inp.takeWhile (· != 255)).length = inp.length by omega, ?_⟩
          rw [List.take_of_length_le (by simp; omega), takeWhile_append_all h2]
          simp
  fail := by
    intro ⟨q, dead⟩ c e h flush inp room _ hi hret
    simp only [checkI] at hret ⊢
    cases dead with
    | true => left; rfl
    | false =>
      simp only [Bool.false_eq_true, if_false] at hret ⊢
      split
      · left; rfl
      · rename_i hc; rw [if_neg hc] at hret
        split
        · rename_i h0
          right
          refine ⟨?_, rfl⟩
          have hlen : 0 < inp.length := List.length_pos_iff.mpr hi
          rcases h0.2 with hq | hr
          · simp only [h0.1, hq, List.length_nil] at hc
            omega
          · exact hr
        · rename_i h0; rw [if_neg h0] at hret; exact absurd rfl hret
  okAlive := by
    intro ⟨q, dead⟩ c e _ flush inp room h
    simp only [checkI] at h ⊢
    cases dead with
    | true => simp only [if_true, Z_DATA_ERROR, Z_OK] at h; exact absurd h (by decide)
    | false =>
      simp only [Bool.false_eq_true, if_false] at h ⊢
      split
      · rename_i hc; rw [if_pos hc] at h
        simp only [Z_DATA_ERROR, Z_OK] at h; exact absurd h (by decide)
      · split <;> simp
  dead := by
    intro ⟨q, dead⟩ h flush inp room
    have h : dead = true := h
    subst h
    simp only [checkI, if_true, Z_DATA_ERROR, Z_OK, and_true]
    decide

end Zwt
