import Verif.Spec.Dest

/-! A session with changing callbacks does what a session with one callback does. -/

namespace Zwt

variable {D : Deflater} {Z : Inflater} {κ : Type}

theorem DEv.pieces_append (a b : List (DEv κ)) : pieces (a ++ b) = pieces a ++ pieces b := by
  induction a with
  | nil => rfl
  | cons x a ih => cases x <;> simp [pieces, ih]

theorem DEv.current_append (a b : List (DEv κ)) :
    current (a ++ b) = (current b).orElse fun _ => current a := by
  induction a with
  | nil => cases h : current b <;> simp [current, h]
  | cons x a ih =>
    cases x with
    | set k => simp only [List.cons_append, current, ih]; cases current b <;> rfl
    | piece k c => simp only [List.cons_append, current, ih]

theorem DEv.Directed.snoc_set {log : List (DEv κ)} (h : Directed log) (k : κ) :
    Directed (log ++ [.set k]) := by
  intro pre k' b post he
  rcases List.eq_nil_or_concat post with rfl | ⟨q, c, rfl⟩
  · have := List.append_inj' he rfl
    simp at this
  · rw [List.concat_eq_append, ← List.cons_append, ← List.append_assoc] at he
    exact h pre k' b q (List.append_inj' he rfl).1

theorem DEv.Directed.snoc_piece {log : List (DEv κ)} (h : Directed log) {k : κ} (hk : current log = some k)
    (b : Bytes) : Directed (log ++ [.piece k b]) := by
  intro pre k' b' post he
  rcases List.eq_nil_or_concat post with rfl | ⟨q, c, rfl⟩
  · obtain ⟨h1, h2⟩ := List.append_inj' he rfl
    simp only [List.cons.injEq, DEv.piece.injEq, and_true] at h2
    rw [← h1, ← h2.1]
    exact hk
  · rw [List.concat_eq_append, ← List.cons_append, ← List.append_assoc] at he
    exact h pre k' b' q (List.append_inj' he rfl).1

/-- The session has its callback, and the pieces so far have gone to theirs. -/
def Dest.Good (k : κ) (log : List (DEv κ)) : Prop :=
  DEv.current log = some k ∧ DEv.Directed log

theorem Dest.Good.set {k : κ} {log : List (DEv κ)} (h : Dest.Good k log) (k' : κ) :
    Dest.Good k' (log ++ [.set k']) :=
  ⟨by rw [DEv.current_append]; rfl, h.2.snoc_set k'⟩

theorem Dest.Good.piece {k : κ} {log : List (DEv κ)} (h : Dest.Good k log) (b : Bytes) :
    Dest.Good k (log ++ [.piece k b]) :=
  ⟨by rw [DEv.current_append]; exact h.1, h.2.snoc_piece h.1 b⟩

theorem Dest.Good.init (k : κ) : Dest.Good k [.set k] := by
  refine ⟨rfl, ?_⟩
  exact DEv.Directed.snoc_set (log := []) (fun pre k b post h => by simp at h) k

/-- The session without its callback. -/
def DCS.base (s : DCS D κ) : CS D := ⟨s.z, s.bufSize, DEv.pieces s.log⟩

theorem DCS.call_base (act : Redirect κ) (s : DCS D κ) (b : Bytes) :
    (DCS.call act s b).base = { s.base with log := s.base.log ++ [b] } := by
  simp only [DCS.call]
  split <;> simp [DCS.base, DCS.setCallback, DEv.pieces_append, DEv.pieces]

theorem DCS.call_good (act : Redirect κ) (s : DCS D κ) (b : Bytes) (h : Dest.Good s.clbk s.log) :
    Dest.Good (DCS.call act s b).clbk (DCS.call act s b).log := by
  simp only [DCS.call]
  split
  · exact h.piece b
  · exact (h.piece b).set _

theorem compressToLoop_base (act : Redirect κ) (n : Nat) : ∀ (s : DCS D κ) (inp : Bytes),
    (match compressToLoop act n s inp with
      | .error e => .error e
      | .ok (r, s') => .ok (r, s'.base)) = compressLoop n s.base inp := by
  induction n with
  | zero => intros; rfl
  | succ n ih =>
    intro s inp
    simp only [compressToLoop, compressLoop]
    by_cases h0 : inp = []
    · rw [if_pos h0, if_pos h0]
    rw [if_neg h0, if_neg h0]
    by_cases h1 : (D.run s.z Z_PARTIAL_FLUSH inp s.bufSize).ret = Z_STREAM_ERROR
    · have h2 : (D.run s.base.z Z_PARTIAL_FLUSH inp s.base.bufSize).ret = Z_STREAM_ERROR := h1
      rw [if_pos h1, if_pos h2]
      rfl
    have h2 : ¬ (D.run s.base.z Z_PARTIAL_FLUSH inp s.base.bufSize).ret = Z_STREAM_ERROR := h1
    rw [if_neg h1, if_neg h2]
    have := ih (DCS.call act { s with z := (D.run s.z Z_PARTIAL_FLUSH inp s.bufSize).st }
      (D.run s.z Z_PARTIAL_FLUSH inp s.bufSize).out)
      (inp.drop (D.run s.z Z_PARTIAL_FLUSH inp s.bufSize).consumed)
    rw [DCS.call_base] at this
    exact this

theorem compressToLoop_good (act : Redirect κ) (n : Nat) : ∀ (s : DCS D κ) (inp : Bytes) (r : Int)
    (s' : DCS D κ), Dest.Good s.clbk s.log → compressToLoop act n s inp = .ok (r, s') →
    Dest.Good s'.clbk s'.log := by
  induction n with
  | zero => intro s inp r s' _ h; cases h
  | succ n ih =>
    intro s inp r s' hg h
    simp only [compressToLoop] at h
    split at h
    · cases h; exact hg
    split at h
    · cases h; exact hg
    · refine ih _ _ _ _ ?_ h
      exact DCS.call_good act _ _ hg

theorem DCS.create_base (act : Redirect κ) (n kind : Nat) (level : Int) (k : κ) (bufSize : Nat)
    (junk : Bytes) :
    (match DCS.create D act n kind level k bufSize junk with
      | .error e => .error e
      | .ok o => .ok (o.map DCS.base)) = CS.create D n kind level bufSize junk := by
  simp only [DCS.create, CS.create]
  cases D.init level with
  | none => rfl
  | some z =>
    simp only [compressTo, compress]
    have h := compressToLoop_base act n (D := D) ⟨z, uInt bufSize, k, [.set k]⟩
      ((headerBytes VERSION kind junk).take (uInt (headerBytes VERSION kind junk).length))
    simp only [DCS.base, DEv.pieces] at h
    rw [← h]
    cases compressToLoop act n (D := D) ⟨z, uInt bufSize, k, [.set k]⟩
      ((headerBytes VERSION kind junk).take (uInt (headerBytes VERSION kind junk).length)) with
    | error e => rfl
    | ok p =>
      obtain ⟨r, s⟩ := p
      simp only
      by_cases hr : r = 0
      · simp [hr, DCS.base]
      · simp [hr]

theorem DCS.create_good (act : Redirect κ) (n kind : Nat) (level : Int) (k : κ) (bufSize : Nat)
    (junk : Bytes) (s : DCS D κ) (h : DCS.create D act n kind level k bufSize junk = .ok (some s)) :
    Dest.Good s.clbk s.log := by
  simp only [DCS.create] at h
  split at h
  · cases h
  · split at h
    · cases h
    · rename_i hc
      split at h
      · cases h
      · cases h
        exact compressToLoop_good act n _ _ _ _ (Dest.Good.init k) hc

theorem compressToRun_base (act : Redirect κ) (n : Nat) (ops : List (DOp κ)) : ∀ s : DCS D κ,
    (match compressToRun act n ops s with
      | .error e => .error e
      | .ok (r, s') => .ok (r, s'.base)) = compressRun n (DOp.plainOps ops) s.base := by
  induction ops with
  | nil => intro s; rfl
  | cons op ops ih =>
    intro s
    cases op with
    | setCallback k =>
      rw [compressToRun, DOp.plainOps, ih]
      simp [DCS.setCallback, DCS.base, DEv.pieces_append, DEv.pieces]
    | op o =>
      cases o with
      | setBuffer size => rw [compressToRun, DOp.plainOps, ih]; rfl
      | compress data =>
        rw [DOp.plainOps]
        simp only [compressToRun, compressRun, compressTo, compress]
        rw [← compressToLoop_base act]
        cases compressToLoop act n s (data.take (uInt data.length)) with
        | error e => rfl
        | ok p =>
          obtain ⟨r, s1⟩ := p
          simp only
          rw [← ih s1]
          cases compressToRun act n ops s1 <;> rfl

theorem compressToRun_good (act : Redirect κ) (n : Nat) (ops : List (DOp κ)) : ∀ (s : DCS D κ) r s',
    Dest.Good s.clbk s.log → compressToRun act n ops s = .ok (r, s') → Dest.Good s'.clbk s'.log := by
  induction ops with
  | nil => intro s r s' hg h; cases h; exact hg
  | cons op ops ih =>
    intro s r s' hg h
    cases op with
    | setCallback k => exact ih _ _ _ (hg.set k) h
    | op o =>
      cases o with
      | setBuffer size => refine ih _ _ _ ?_ h; exact hg
      | compress data =>
        simp only [compressToRun] at h
        split at h
        · cases h
        · rename_i hc
          split at h
          · cases h
          · rename_i hr
            cases h
            exact ih _ _ _ (compressToLoop_good act n _ _ _ _ hg hc) hr

theorem readOldIn_base (act : Redirect κ) (n : Nat) : ∀ (flush : Int) (l : LL Z) (u : DestSt κ),
    (match readOldIn (destCb act) n flush l u with
      | .error e => .error e
      | .ok (r, l', u') => .ok (r, l', DEv.pieces u'.2)) =
    readOldIn recordCb n flush l (DEv.pieces u.2) := by
  induction n with
  | zero => intros; rfl
  | succ n ih =>
    intro flush l u
    simp only [readOldIn]
    by_cases h0 : l.inp = []
    · rw [if_pos h0, if_pos h0]
    rw [if_neg h0, if_neg h0]
    by_cases h1 : (l.setup.inflate flush).1 ≠ Z_OK
    · rw [if_pos h1, if_pos h1]
    rw [if_neg h1, if_neg h1]
    cases (l.setup.inflate flush).2.handed with
    | error e => rfl
    | ok buf =>
      simp only [destCb, recordCb]
      cases act (u.2 ++ [.piece u.1 buf]) with
      | none => simp only [ih]; simp [DEv.pieces_append, DEv.pieces]
      | some k => simp only [ih]; simp [DestSt.setCallback, DEv.pieces_append, DEv.pieces]

theorem readOldIn_dest (act : Redirect κ) (n : Nat) : ∀ (flush : Int) (l : LL Z) (u : DestSt κ) r l'
    (u' : DestSt κ), Dest.Good u.1 u.2 → readOldIn (destCb act) n flush l u = .ok (r, l', u') →
    Dest.Good u'.1 u'.2 := by
  induction n with
  | zero => intro flush l u r l' u' _ h; cases h
  | succ n ih =>
    intro flush l u r l' u' hg h
    simp only [readOldIn] at h
    split at h
    · cases h; exact hg
    split at h
    · cases h; exact hg
    split at h
    · cases h
    · split at h
      · cases h
      · rename_i hc
        refine ih _ _ _ _ _ _ ?_ h
        simp only [destCb] at hc
        split at hc
        · cases hc; exact hg.piece _
        · cases hc; exact (hg.piece _).set _

theorem llToRun_base (act : Redirect κ) (n : Nat) (ops : List (DLOp κ)) : ∀ (l : LL Z) (u : DestSt κ),
    (match llToRun act n ops l u with
      | .error e => .error e
      | .ok (r, l', u') => .ok (r, l', DEv.pieces u'.2)) =
    llRun n (DLOp.plainOps ops) l (DEv.pieces u.2) := by
  induction ops with
  | nil => intro l u; rfl
  | cons op ops ih =>
    intro l u
    cases op with
    | setCallback k =>
      rw [llToRun, DLOp.plainOps, ih]
      simp [DestSt.setCallback, DEv.pieces_append, DEv.pieces]
    | op o =>
      cases o with
      | setBuffer size => rw [llToRun, DLOp.plainOps, ih]; rfl
      | decompress flush data =>
        rw [DLOp.plainOps]
        simp only [llToRun, llRun, llDecompress]
        rw [← readOldIn_base act]
        cases readOldIn (destCb act) n flush (l.feed data) u with
        | error e => rfl
        | ok p =>
          obtain ⟨r, l1, u1⟩ := p
          simp only
          rw [← ih l1 u1]
          cases llToRun act n ops l1 u1 <;> rfl

theorem llToRun_dest (act : Redirect κ) (n : Nat) (ops : List (DLOp κ)) : ∀ (l : LL Z) (u : DestSt κ) r
    l' (u' : DestSt κ), Dest.Good u.1 u.2 → llToRun act n ops l u = .ok (r, l', u') →
    Dest.Good u'.1 u'.2 := by
  induction ops with
  | nil => intro l u r l' u' hg h; cases h; exact hg
  | cons op ops ih =>
    intro l u r l' u' hg h
    cases op with
    | setCallback k => exact ih _ _ _ _ _ (hg.set k) h
    | op o =>
      cases o with
      | setBuffer size => refine ih _ _ _ _ _ ?_ h; exact hg
      | decompress flush data =>
        simp only [llToRun] at h
        split at h
        · cases h
        · rename_i hc
          split at h
          · cases h
          · rename_i hr
            cases h
            exact ih _ _ _ _ _ (readOldIn_dest act n _ _ _ _ _ _ hg hc) hr

end Zwt
