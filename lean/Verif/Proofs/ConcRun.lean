import Verif.Proofs.Conc

/-! Statements about every call of an extraction. -/

namespace Zwt

variable {α β : Type}

/-- `Q c w` for every call `c` of the program run alone, `w` being the world it is made in. -/
def Prog.All (Q : Call → World → Prop) (os : Os) : Prog α → World → Prop
  | .ret _, _ => True
  | .call c k, w => Q c w ∧ (k (c.exec os w).1).All Q os (c.exec os w).2

theorem Prog.All.mono {Q Q' : Call → World → Prop} {os : Os} {p : Prog α} {w : World}
    (h : p.All Q os w) (hQ : ∀ c w, Q c w → Q' c w) : p.All Q' os w := by
  induction p generalizing w with
  | ret a => trivial
  | call c f ih => exact ⟨hQ _ _ h.1, ih _ h.2⟩

theorem Prog.all_bind {Q : Call → World → Prop} {os : Os} (p : Prog α) (k : α → Prog β) (w : World) :
    (p.bind k).All Q os w ↔ p.All Q os w ∧ (k (p.run os w).1).All Q os (p.run os w).2 := by
  induction p generalizing w with
  | ret a => exact ⟨fun h => ⟨trivial, h⟩, fun h => h.2⟩
  | call c f ih =>
    show Q c w ∧ ((f _).bind k).All Q os _ ↔ (Q c w ∧ (f _).All Q os _) ∧ _
    rw [ih, and_assoc]
    rfl

theorem Prog.bind_assoc {γ : Type} (p : Prog α) (k : α → Prog β) (m : β → Prog γ) :
    (p.bind k).bind m = p.bind fun a => (k a).bind m := by
  induction p with
  | ret a => rfl
  | call c f ih =>
    simp only [Prog.bind]
    congr 1
    funext r
    exact ih r

theorem Prog.bind_ret (p : Prog α) : p.bind .ret = p := by
  induction p with
  | ret a => rfl
  | call c f ih =>
    simp only [Prog.bind]
    congr 1
    funext r
    exact ih r

theorem all_andThen {Q : Call → World → Prop} {os : Os} (p : Prog (Run α)) (k : α → Prog (Run β))
    (w : World) : (andThen p k).All Q os w ↔
      p.All Q os w ∧ ∀ a, (p.run os w).1 = .ok a → (k a).All Q os (p.run os w).2 := by
  rw [andThen, Prog.all_bind]
  refine and_congr_right fun _ => ?_
  cases (p.run os w).1 with
  | error e => exact ⟨fun _ a h => by simp at h, fun _ => trivial⟩
  | ok a =>
    constructor
    · intro h b hb; cases hb; exact h
    · intro h; exact h a rfl

theorem andThen_assoc {γ : Type} (p : Prog (Run α)) (k : α → Prog (Run β)) (m : β → Prog (Run γ)) :
    andThen (andThen p k) m = andThen p fun a => andThen (k a) m := by
  rw [andThen, andThen, Prog.bind_assoc, andThen]
  congr 1
  funext r
  cases r <;> rfl

theorem andThen_ok (p : Prog (Run α)) : andThen p (fun a => .ret (.ok a)) = p := by
  rw [andThen]
  conv => rhs; rw [← Prog.bind_ret p]
  congr 1
  funext r
  cases r <;> rfl

theorem hlEventsP_append (out : Bytes) (es es' : List Ev) : ∀ (v : HLv),
    hlEventsP out v (es ++ es') =
      andThen (hlEventsP out v es) fun v => hlEventsP out v es' := by
  induction es with
  | nil => intro v; rfl
  | cons e es ih =>
    intro v
    simp only [List.cons_append, hlEventsP, andThen_assoc]
    congr 1
    funext v'
    exact ih v'

variable {Z : Inflater} {plain : Bytes → Bytes}

/-- What holds for every call of the callbacks of any part of the archive holds for every call of
the extraction. -/
theorem hlLoopP_all (C : InflateOK Z plain) (ok : AllocOracle) (item0 : Bytes)
    (hi : item0.length = 40) (os : Os) (out : Bytes) (w0 : World) (n : Nat) (err : Bool)
    (Q : Call → World → Prop) (k : Nat) :
    ∀ (data : Bytes), data.length = k → ∀ (i : Nat) (l : LL Z) (s : Sess) (given : Bytes) (v : HLv)
      (w : World),
    SInv C ok item0 DEF_CHUNK_SIZE l s given →
    (hlEventsP out HLv.init s.log).run os w0 = (.ok v, w) →
    (∀ P pieces log, P <+: plain (given ++ allowed n given.length data) →
      ArchiveLog ok DEF_CHUNK_SIZE P pieces log → (hlEventsP out HLv.init log).All Q os w0) →
    ∃ n0, ∀ fuel rounds, n0 ≤ fuel → n0 ≤ rounds →
      (hlLoopP ok fuel out n rounds i given.length ⟨data, err⟩ l s v).All Q os w := by
  induction k using Nat.strongRecOn with
  | ind k ih =>
    intro data hk i l s given v w D hev hQ
    by_cases hz : nextSize n given.length < 1
    · refine ⟨1, fun fuel rounds _ hr => ?_⟩
      obtain ⟨f, rfl⟩ : ∃ f, rounds = f + 1 := ⟨rounds - 1, by omega⟩
      simp only [hlLoopP, if_pos hz]
      trivial
    · by_cases hre : (decide (data.length < nextSize n given.length) && err) = true
      · refine ⟨1, fun fuel rounds _ hr => ?_⟩
        obtain ⟨f, rfl⟩ : ∃ f, rounds = f + 1 := ⟨rounds - 1, by omega⟩
        simp only [hlLoopP, if_neg hz, hre, if_true]
        trivial
      · generalize hpc : data.take (nextSize n given.length) = piece
        have hpl : piece.length ≤ nextSize n given.length := by
          rw [← hpc, List.length_take]; omega
        have hu : piece.length < U32 := by
          have := nextSize_le n given.length
          have hc : DEF_CHUNK_SIZE = 524288 := rfl
          have : U32 = 4294967296 := rfl
          omega
        have hpa : piece <+: allowed n given.length data := by
          by_cases hsh : data.length < nextSize n given.length
          · rw [(allowed_short data hsh).1, ← hpc]; exact List.take_prefix _ _
          · rw [allowed_step data hz hsh, hpc]; exact List.prefix_append _ _
        obtain ⟨n1, ⟨ret, l', s', g1, g2⟩ | ⟨hd, h1, h2, h3, h4⟩⟩ :=
          sess_call C ok item0 hi _ l s given D _ (hlFlush_soft (i + 1)) piece hu
        · obtain ⟨new, hnew⟩ := sessDecompress_grows ok n1 _ l s piece _ _ _ (g2 n1 (Nat.le_refl _))
          have hdrop : s'.log.drop s.log.length = new := by rw [← hnew]; simp
          have hall : (hlEventsP out HLv.init s'.log).All Q os w0 := by
            obtain ⟨P, p1, p2, _⟩ := g1.archive hi
            refine hQ P _ _ (p1.trans ?_) p2
            obtain ⟨t, ht⟩ := hpa
            rw [← ht, ← List.append_assoc]
            exact C.mono _ _
          have hnext : (hlEventsP out v new).All Q os w := by
            rw [← hnew, hlEventsP_append, all_andThen, hev] at hall
            exact hall.2 v rfl
          have hrun : (hlEventsP out HLv.init s'.log).run os w0 = (hlEventsP out v new).run os w := by
            rw [← hnew, hlEventsP_append, andThen_run, hev]
          cases hx : (hlEventsP out v new).run os w with
          | mk r w' =>
            rw [hx] at hrun
            have stop : ∀ fuel f, n1 ≤ fuel →
                (∀ v', r = .ok v' → (!decide (data.length < nextSize n given.length) &&
                    !v'.hasError) = true →
                  (hlLoopP ok fuel out n f (i + 1) (given.length + piece.length)
                    ⟨data.drop (nextSize n given.length), err⟩ l' s' v').All Q os w') →
                (hlLoopP ok fuel out n (f + 1) i given.length ⟨data, err⟩ l s v).All Q os w := by
              intro fuel f hf hgo
              simp only [hlLoopP, if_neg hz, hre, hpc, g2 fuel hf, hdrop]
              simp only [Bool.false_eq_true, if_false]
              rw [all_andThen, hx]
              refine ⟨hnext, ?_⟩
              intro v' hv'
              by_cases hc : (!decide (data.length < nextSize n given.length) && !v'.hasError) = true
              · rw [if_pos hc]; exact hgo v' hv' hc
              · rw [if_neg hc]; trivial
            by_cases hsh : data.length < nextSize n given.length
            · refine ⟨n1 + 1, fun fuel rounds hf hr => ?_⟩
              obtain ⟨f, rfl⟩ : ∃ f, rounds = f + 1 := ⟨rounds - 1, by omega⟩
              exact stop fuel f (by omega) (fun v' _ hc => by simp [hsh] at hc)
            · cases r with
              | error e =>
                refine ⟨n1 + 1, fun fuel rounds hf hr => ?_⟩
                obtain ⟨f, rfl⟩ : ∃ f, rounds = f + 1 := ⟨rounds - 1, by omega⟩
                exact stop fuel f (by omega) (fun v' hv' _ => by simp at hv')
              | ok v1 =>
                have hpl' : piece.length = nextSize n given.length := by
                  rw [← hpc, List.length_take]; omega
                obtain ⟨n2, hn2⟩ := ih (data.drop (nextSize n given.length)).length
                  (by rw [List.length_drop]; omega) _ rfl (i + 1) l' s' (given ++ piece) v1 w' g1
                  hrun (by
                    intro P pieces log hP
                    refine hQ P pieces log ?_
                    rw [allowed_step data hz hsh, hpc, ← List.append_assoc]
                    rw [List.length_append] at hP
                    exact hP)
                refine ⟨max n1 n2 + 1, fun fuel rounds hf hr => ?_⟩
                obtain ⟨f, rfl⟩ : ∃ f, rounds = f + 1 := ⟨rounds - 1, by omega⟩
                refine stop fuel f (by omega) (fun v' hv' _ => ?_)
                cases hv'
                have := hn2 fuel f (by omega) (by omega)
                rwa [List.length_append] at this
        · refine ⟨n1 + 1, fun fuel rounds hf hr => ?_⟩
          obtain ⟨f, rfl⟩ : ∃ f, rounds = f + 1 := ⟨rounds - 1, by omega⟩
          simp only [hlLoopP, if_neg hz, hre, hpc, h4 fuel (by omega)]
          simp only [Bool.false_eq_true, if_false]
          trivial

theorem extractP_all (C : InflateOK Z plain) (ok : AllocOracle) (hdr item : Bytes)
    (hh : hdr.length = 128) (hi : item.length = 40) (os : Os) (out : Bytes) (w : World) (n : Nat)
    (inp : Input) (Q : Call → World → Prop)
    (hQ : ∀ P pieces log, P <+: plain (allowed n 0 inp.data) →
      ArchiveLog ok DEF_CHUNK_SIZE P pieces log → (hlEventsP out HLv.init log).All Q os w) :
    ∃ n0, ∀ fuel, n0 ≤ fuel → (extractP Z ok fuel hdr item out n inp).All Q os w := by
  have hu : uInt DEF_CHUNK_SIZE = 524288 := uInt_of_lt (by decide)
  obtain ⟨n0, hrun⟩ := hlLoopP_all C ok item hi os out w n inp.err Q _ inp.data rfl 0
    (Sess.create Z hdr item DEF_CHUNK_SIZE).1 (Sess.create Z hdr item DEF_CHUNK_SIZE).2 []
    HLv.init w (SInv.create C ok hdr item hh _ _ ⟨by omega, by rw [hu]; exact Nat.le_refl _⟩) rfl
    (by simpa using hQ)
  exact ⟨n0, fun fuel hf => hrun fuel fuel hf hf⟩

/-! ### A program that is stopped -/

/-- The system refuses everything from call number `n` on. -/
def Os.stopAt (os : Os) (n : Nat) : Os := { os with refuses := fun k => os.refuses k || decide (n ≤ k) }

theorem searchable_stop (os : Os) (n : Nat) : searchable (os.stopAt n) = searchable os := rfl

theorem resolveWith_stop (os : Os) (n : Nat) (fs : FS) (follow : Bool)
    (again : Loc → List Bytes → Option Loc) (cs : List Bytes) : ∀ (cur : Loc),
    resolveWith (os.stopAt n) fs follow again cur cs = resolveWith os fs follow again cur cs := by
  induction cs with
  | nil => intro cur; rfl
  | cons c cs ih => intro cur; simp only [resolveWith, searchable_stop, ih]

theorem resolve_stop (os : Os) (n : Nat) (fs : FS) (follow : Bool) (m : Nat) :
    resolve (os.stopAt n) fs follow m = resolve os fs follow m := by
  induction m with
  | zero => funext cur cs; exact resolveWith_stop os n fs follow _ cs cur
  | succ m ih => funext cur cs; simp only [resolve, ih]; exact resolveWith_stop os n fs follow _ cs cur

theorem locate_stop (os : Os) (n : Nat) (w : World) (follow : Bool) (p : Bytes) :
    locate (os.stopAt n) w follow p = locate os w follow p := by
  simp only [locate, resolve_stop]

theorem Call.exec_stop (os : Os) (n : Nat) (w : World) (c : Call) (h : w.calls < n) :
    c.exec (os.stopAt n) w = c.exec os w := by
  have hr : (os.stopAt n).refuses w.calls = os.refuses w.calls := by
    simp only [Os.stopAt]
    rw [show decide (n ≤ w.calls) = false by simp; omega, Bool.or_false]
  cases c with
  | alloc => rfl
  | nop => rfl
  | mkdir p m => simp only [exec, sysMkdir, hr, locate_stop]; rfl
  | isDir p => simp only [exec, sysIsDir, hr, locate_stop]
  | openFile p m t => simp only [exec, sysOpen, hr, locate_stop]; rfl
  | write f d => simp only [exec, sysWrite, hr]; rfl
  | symlink t p => simp only [exec, sysSymlink, hr, locate_stop]; rfl
  | chdir p => simp only [exec, sysChdir, hr, locate_stop]; rfl
  | getcwd k => simp only [exec, sysGetcwd, hr]

theorem Call.exec_refused (os : Os) (w : World) (c : Call) (h : os.refuses w.calls = true) :
    (c.exec os w).2 = w.tick := by
  cases c with
  | alloc => rfl
  | nop => rfl
  | mkdir p m => simp only [exec, sysMkdir, h, if_true]
  | isDir p => simp only [exec, sysIsDir, h, if_true]
  | openFile p m t => simp only [exec, sysOpen, h, if_true]
  | write f d => simp only [exec, sysWrite, h, if_true]
  | symlink t p => simp only [exec, sysSymlink, h, true_or, if_true]
  | chdir p => simp only [exec, sysChdir, h, if_true]
  | getcwd k => simp only [exec, sysGetcwd, h, if_true]

/-- Every call counts. -/
theorem Call.exec_calls (os : Os) (w : World) (c : Call) : (c.exec os w).2.calls = w.calls + 1 := by
  cases c with
  | alloc => rfl
  | nop => rfl
  | mkdir p m =>
    simp only [exec, sysMkdir, addNode]
    repeat' split
    all_goals try rfl
    rename_i h; split at h <;> cases h; rfl
  | isDir p =>
    simp only [exec, sysIsDir]
    repeat' split
    all_goals rfl
  | openFile p m t =>
    simp only [exec, sysOpen, addNode]
    repeat' split
    all_goals try rfl
    rename_i h; split at h <;> cases h; rfl
  | write f d =>
    simp only [exec, sysWrite]
    repeat' split
    all_goals rfl
  | symlink t p =>
    simp only [exec, sysSymlink, addNode]
    repeat' split
    all_goals try rfl
    rename_i h; split at h <;> cases h; rfl
  | chdir p =>
    simp only [exec, sysChdir]
    repeat' split
    all_goals rfl
  | getcwd k =>
    simp only [exec, sysGetcwd]
    repeat' split
    all_goals rfl

/-- Nothing changes after the stop. -/
theorem Prog.run_stopped (os : Os) (n : Nat) (p : Prog α) : ∀ (w : World), n ≤ w.calls →
    (p.run (os.stopAt n) w).2.fs = w.fs ∧ (p.run (os.stopAt n) w).2.cwd = w.cwd := by
  induction p with
  | ret a => intro w _; exact ⟨rfl, rfl⟩
  | call c k ih =>
    intro w h
    have h2 := Call.exec_refused (os.stopAt n) w c (by simp [Os.stopAt, h])
    have := ih (c.exec (os.stopAt n) w).1 (c.exec (os.stopAt n) w).2
      (by rw [Call.exec_calls]; omega)
    rw [h2] at this
    show ((k _).run _ (c.exec _ w).2).2.fs = _ ∧ ((k _).run _ (c.exec _ w).2).2.cwd = _
    rw [h2]
    exact this

/-- Calls only go up. -/
theorem Prog.run_calls (os : Os) (p : Prog α) : ∀ (w : World), w.calls ≤ (p.run os w).2.calls := by
  induction p with
  | ret a => intro w; exact Nat.le_refl _
  | call c k ih =>
    intro w
    have := ih (c.exec os w).1 (c.exec os w).2
    rw [Call.exec_calls] at this
    exact Nat.le_trans (Nat.le_succ _) this

/-- A program that ends before the stop is not affected. -/
theorem Prog.run_before (os : Os) (n : Nat) (p : Prog α) : ∀ (w : World),
    (p.run (os.stopAt n) w).2.calls < n → p.run (os.stopAt n) w = p.run os w := by
  induction p with
  | ret a => intro w _; rfl
  | call c k ih =>
    intro w h
    have hw : w.calls < n := Nat.lt_of_le_of_lt (Prog.run_calls (os.stopAt n) (.call c k) w) h
    have he := Call.exec_stop os n w c hw
    simp only [Prog.run] at h ⊢
    rw [he] at h ⊢
    exact ih _ _ h

/-- The world after `k` calls is the one of a run in which all later calls are refused. -/
theorem Prog.after_stop (os : Os) (k : Nat) : ∀ (p : Prog α) (w : World),
    (p.after os k w).2.fs = (p.run (os.stopAt (w.calls + k)) w).2.fs ∧
    (p.after os k w).2.cwd = (p.run (os.stopAt (w.calls + k)) w).2.cwd := by
  induction k with
  | zero =>
    intro p w
    have := Prog.run_stopped os w.calls p w (Nat.le_refl _)
    exact ⟨this.1.symm, this.2.symm⟩
  | succ k ih =>
    intro p w
    cases p with
    | ret a => exact ih (.ret a) w
    | call c f =>
      have he := Call.exec_stop os (w.calls + (k + 1)) w c (by omega)
      have := ih (f (c.exec os w).1) (c.exec os w).2
      rw [Call.exec_calls, show w.calls + 1 + k = w.calls + (k + 1) by omega] at this
      simp only [Prog.after, Prog.step, Prog.run]
      rw [he]
      exact this

/-- What holds in the worlds reached holds after every call. -/
theorem Prog.all_of_after (os : Os) (J : World → Prop) (p : Prog α) : ∀ (w : World),
    (∀ k, J (p.after os k w).2) → p.All (fun c w => J (c.exec os w).2) os w := by
  induction p with
  | ret a => intro w _; trivial
  | call c f ih => intro w h; exact ⟨h 1, ih _ _ fun k => h (k + 1)⟩

theorem Prog.after_of_all (os : Os) (J : World → Prop) (k : Nat) : ∀ (p : Prog α) (w : World), J w →
    p.All (fun c w => J (c.exec os w).2) os w → J (p.after os k w).2 := by
  induction k with
  | zero => intro p w h _; exact h
  | succ k ih =>
    intro p w h hp
    cases p with
    | ret a => exact ih _ w h trivial
    | call c f => exact ih _ _ hp.1 hp.2

end Zwt
