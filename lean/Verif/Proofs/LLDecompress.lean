import Verif.Model.LLDecompress
import Verif.Spec.Zlib
import Verif.Proofs.LLCompress

/-! Lemmas about the decompress loops. -/

namespace Zwt

variable {Z : Inflater} {plain : Bytes → Bytes}

/-- What one run of the loop does, independently of the callback. -/
structure LoopOut (C : InflateOK Z plain) (flush : Int) (l : LL Z) (c p : Bytes)
    (ret : Int) (l' : LL Z) (pieces : List Bytes) : Prop where
  /-- consumed from the front -/
  rep : ∃ used p', l.inp = used ++ l'.inp ∧ C.Rep l'.z (c ++ used) p' ∧
    l'.totalOut + p.length = l.totalOut + p'.length ∧
    p ++ pieces.flatten <+: p' ∧
    (ret = Z_OK → p ++ pieces.flatten = p' ∧ l'.inp = []) ∧
    (flush = Z_NO_FLUSH → ret ≠ Z_OK →
      C.Dead l'.z ∨ (l.bufSize = 0 ∧ p ++ pieces.flatten = p'))
  bufSize : l'.bufSize = l.bufSize
  small : ∀ b ∈ pieces, b.length ≤ l.bufSize
  rets : ∃ new, l'.rets = new ++ l.rets ∧ (ret = Z_OK → ∀ r ∈ new, r = Z_OK) ∧
    (ret ≠ Z_OK → ∃ tl, new = ret :: tl)
  alive : ret = Z_OK → l.inp ≠ [] → ¬ C.Dead l'.z
  last : ret = Z_OK → l.inp ≠ [] → flush = Z_NO_FLUSH → ∃ b, pieces.getLast? = some b ∧
    (b.length < l.bufSize ∨ C.Prompt (c ++ l.inp) → p ++ pieces.flatten = plain (c ++ l.inp))
  nodata : l.inp = [] → ret = Z_OK ∧ l' = l ∧ pieces = []
  room : ret = Z_OK → l.inp ≠ [] → flush = Z_NO_FLUSH → 0 < l'.availOut ∨ C.Prompt (c ++ l.inp) →
    p ++ pieces.flatten = plain (c ++ l.inp)
  one : flush = Z_NO_FLUSH → (plain (c ++ l.inp)).length < p.length + l.bufSize →
    pieces = [] ∨ pieces = [(plain (c ++ l.inp)).drop p.length]

/-- The effect on a callback state: the pieces are folded in. -/
def Folds {υ : Type} (cb : Cb Z υ) (step : υ → Bytes → υ) (K : υ → Prop) : Prop :=
  ∀ l u b, K u → cb l u b = .ok (l, step u b) ∧ K (step u b)

theorem Folds.foldl {υ : Type} {cb : Cb Z υ} {step : υ → Bytes → υ} {K : υ → Prop}
    (h : Folds cb step K) (l : LL Z) (u : υ) (hu : K u) (bs : List Bytes) :
    K (bs.foldl step u) := by
  induction bs generalizing u with
  | nil => exact hu
  | cons b bs ih => exact ih _ (h l u b hu).2

theorem readOldIn_pieces (C : InflateOK Z plain) (flush : Int) (l : LL Z) (c p : Bytes)
    (hr : C.Rep l.z c p) :
    ∃ ret l' pieces n0, LoopOut C flush l c p ret l' pieces ∧
      ∀ {υ : Type} (cb : Cb Z υ) (step : υ → Bytes → υ) (K : υ → Prop), Folds cb step K →
        ∀ u, K u → ∀ fuel, n0 ≤ fuel →
          readOldIn cb fuel flush l u = .ok (ret, l', pieces.foldl step u) := by
  have key : ∀ (k m : Nat) (flush : Int) (l : LL Z) (c p : Bytes), l.inp.length = k →
      (plain c).length - p.length = m → C.Rep l.z c p →
      ∃ ret l' pieces n0, LoopOut C flush l c p ret l' pieces ∧
      ∀ {υ : Type} (cb : Cb Z υ) (step : υ → Bytes → υ) (K : υ → Prop), Folds cb step K →
        ∀ u, K u → ∀ fuel, n0 ≤ fuel →
          readOldIn cb fuel flush l u = .ok (ret, l', pieces.foldl step u) := by
    intro k
    induction k using Nat.strongRecOn with
    | _ k ihk =>
      intro m
      induction m using Nat.strongRecOn with
      | _ m ihm =>
        intro flush l c p hk hm hr
        by_cases hi : l.inp = []
        · refine ⟨Z_OK, l, [], 1, ⟨⟨[], p, by simp, by simpa using hr, rfl, by simp, by simp [hi],
            by simp⟩, rfl, by simp, ⟨[], by simp⟩, by simp [hi], by simp [hi], by simp, by simp [hi],
            fun _ _ => .inl rfl⟩, ?_⟩
          intro υ cb step K _ u _ fuel hf
          obtain ⟨f, rfl⟩ : ∃ f, fuel = f + 1 := ⟨fuel - 1, by omega⟩
          simp [readOldIn, hi, Z_OK]
        · let r := Z.run l.z flush l.inp l.bufSize
          let l1 : LL Z := l.setup.after r
          have hbd := C.bounds hr flush l.inp l.bufSize
          have hst : C.Rep l1.z (c ++ l.inp.take r.consumed) (p ++ r.out) :=
            C.step hr flush l.inp l.bufSize
          have hl1i : l1.inp = l.inp.drop r.consumed := rfl
          have hhand : l1.handed = .ok r.out := by
            have : (l1.acc.length + l1.availOut = l1.bufSize) := by
              show ([] ++ r.out).length + (l.bufSize - r.out.length) = l.bufSize
              have : r.out.length ≤ l.bufSize := hbd.2
              simp only [List.nil_append]
              show r.out.length + (l.bufSize - r.out.length) = l.bufSize
              omega
            simp only [LL.handed, this, if_true]
            rfl
          have hused : l.inp = l.inp.take r.consumed ++ l1.inp := (List.take_append_drop _ _).symm
          by_cases hret : r.ret = Z_OK
          · -- the loop goes on
            have hdec : ∃ ret l' pieces n0,
                LoopOut C Z_NO_FLUSH l1 (c ++ l.inp.take r.consumed) (p ++ r.out) ret l' pieces ∧
                ∀ {υ : Type} (cb : Cb Z υ) (step : υ → Bytes → υ) (K : υ → Prop),
                  Folds cb step K → ∀ u, K u → ∀ fuel, n0 ≤ fuel →
                  readOldIn cb fuel Z_NO_FLUSH l1 u = .ok (ret, l', pieces.foldl step u) := by
              by_cases h0 : r.consumed = 0
              · have hout : r.out ≠ [] := by
                  rcases C.progress hr flush l.inp l.bufSize hret with h | h
                  · exact absurd (show 0 < r.consumed from h) (by omega)
                  · exact h
                have hlen : 0 < r.out.length := List.length_pos_iff.mpr hout
                have hpre := (C.sound hst).length_le
                rw [h0, List.take_zero, List.append_nil, List.length_append] at hpre
                refine ihm ((plain c).length - (p ++ r.out).length) ?_ _ _ _ _ ?_ ?_ hst
                · simp only [List.length_append]; omega
                · rw [hl1i, h0, List.drop_zero]; exact hk
                · rw [h0, List.take_zero, List.append_nil]
              · have hlen : 0 < l.inp.length := List.length_pos_iff.mpr hi
                exact ihk l1.inp.length (by rw [hl1i, List.length_drop]; omega) _ _ _ _ _ rfl rfl
                  hst
            obtain ⟨ret, l', pieces, n0, hout, hrun⟩ := hdec
            refine ⟨ret, l', r.out :: pieces, n0 + 1, ?_, ?_⟩
            · obtain ⟨used, p', e1, e2, e3, e4, e5, e6⟩ := hout.rep
              refine ⟨⟨l.inp.take r.consumed ++ used, p', ?_, ?_, ?_, ?_, ?_, ?_⟩, ?_, ?_, ?_, ?_,
                ?_, ?_, ?_, ?_⟩
              · rw [List.append_assoc, ← e1]; exact hused
              · rw [← List.append_assoc]; exact e2
              · have : l1.totalOut = l.totalOut + r.out.length := rfl
                rw [List.length_append] at e3; omega
              · simpa [List.append_assoc] using e4
              · intro h; simpa [List.append_assoc] using e5 h
              · intro _ h
                have := e6 rfl h
                rcases this with h | h
                · exact .inl h
                · exact .inr ⟨h.1, by simpa [List.append_assoc] using h.2⟩
              · exact hout.bufSize
              · intro b hb
                rcases List.mem_cons.mp hb with rfl | hb
                · exact hbd.2
                · exact hout.small b hb
              · obtain ⟨new, n1, n2, n3⟩ := hout.rets
                refine ⟨new ++ [Z_OK], ?_, ?_, ?_⟩
                · rw [n1]
                  show new ++ (r.ret :: l.rets) = _
                  rw [hret]; simp
                · intro h x hx
                  rcases List.mem_append.mp hx with hx | hx
                  · exact n2 h x hx
                  · simpa using hx
                · intro h
                  obtain ⟨tl, ht⟩ := n3 h
                  exact ⟨tl ++ [Z_OK], by rw [ht]; rfl⟩
              · intro h _
                by_cases hi1 : l1.inp = []
                · rw [(hout.nodata hi1).2.1]
                  exact C.okAlive hr flush l.inp l.bufSize hret
                · exact hout.alive h hi1
              · intro h _ hfl
                by_cases hi1 : l1.inp = []
                · have hn := hout.nodata hi1
                  refine ⟨r.out, by simp [hn.2.2], ?_⟩
                  intro hlt
                  subst hfl
                  have : p ++ r.out = plain (c ++ l.inp) := by
                    rcases hlt with hlt | hP
                    · exact (C.complete hr _ l.inp l.bufSize (.inl rfl) hret hlt).2
                    · refine hP _ _ _ _ _ _ hr (.inl rfl) hi rfl hret ?_
                      have h0 := congrArg List.length hi1
                      rw [hl1i, List.length_drop, List.length_nil] at h0
                      have : r.consumed ≤ l.inp.length := hbd.1
                      show r.consumed = _
                      omega
                  simpa [hn.2.2] using this
                · obtain ⟨b, hb1, hb2⟩ := hout.last h hi1 rfl
                  refine ⟨b, ?_, ?_⟩
                  · have : pieces ≠ [] := by intro h; simp [h] at hb1
                    rw [show r.out :: pieces = [r.out] ++ pieces from rfl,
                      getLast?_append_ne this]
                    exact hb1
                  · intro hlt
                    have := hb2 (by rw [List.append_assoc, ← hused]; exact hlt)
                    rw [List.append_assoc, List.append_assoc, ← hused] at this
                    simpa using this
              · intro h; exact absurd h hi
              · intro h _ hfl hroom
                by_cases hi1 : l1.inp = []
                · have hn := hout.nodata hi1
                  subst hfl
                  have : p ++ r.out = plain (c ++ l.inp) := by
                    rcases hroom with hroom | hP
                    · have hlt : r.out.length < l.bufSize := by
                        rw [hn.2.1] at hroom
                        have : 0 < l.bufSize - r.out.length := hroom
                        omega
                      exact (C.complete hr _ l.inp l.bufSize (.inl rfl) hret hlt).2
                    · refine hP _ _ _ _ _ _ hr (.inl rfl) hi rfl hret ?_
                      have h0 := congrArg List.length hi1
                      rw [hl1i, List.length_drop, List.length_nil] at h0
                      have : r.consumed ≤ l.inp.length := hbd.1
                      show r.consumed = _
                      omega
                  simpa [hn.2.2] using this
                · have := hout.room h hi1 rfl (by
                    rw [List.append_assoc, ← hused]; exact hroom)
                  rw [List.append_assoc, List.append_assoc, ← hused] at this
                  simpa using this
              · intro hfl hsm
                subst hfl
                have hlt : r.out.length < l.bufSize := by
                  have h1 := (C.sound hst).length_le
                  have h2 := (C.mono (c ++ l.inp.take r.consumed) l1.inp).length_le
                  rw [List.append_assoc, ← hused] at h2
                  rw [List.length_append] at h1
                  omega
                obtain ⟨k1, k2⟩ := C.complete hr _ l.inp l.bufSize (.inl rfl) hret hlt
                have hi1 : l1.inp = [] := by
                  rw [hl1i]
                  exact List.drop_of_length_le (Nat.le_of_eq k1.symm)
                right
                rw [(hout.nodata hi1).2.2, ← k2, List.drop_left]
            · intro υ cb step K hcb u hu fuel hf
              obtain ⟨f, rfl⟩ : ∃ f, fuel = f + 1 := ⟨fuel - 1, by omega⟩
              have h1 : l.setup.inflate flush = (r.ret, l1) := rfl
              simp only [readOldIn, if_neg hi, h1, hret]
              rw [if_neg (by simp), hhand]
              simp only [(hcb l1 u r.out hu).1]
              exact hrun cb step K hcb _ (hcb l1 u r.out hu).2 f (by omega)
          · -- the loop ends with an error
            refine ⟨r.ret, l1, [], 1, ⟨⟨l.inp.take r.consumed, p ++ r.out, hused, hst, ?_, by simp,
              fun h => absurd h hret, ?_⟩, rfl, by simp, ⟨[r.ret], rfl, fun h => absurd h hret,
              fun _ => ⟨[], rfl⟩⟩, fun h => absurd h hret, fun h => absurd h hret,
              fun h => absurd h hi, fun h => absurd h hret, fun _ _ => .inl rfl⟩, ?_⟩
            · have : l1.totalOut = l.totalOut + r.out.length := rfl
              rw [List.length_append]; omega
            · intro hfl _
              subst hfl
              rcases C.fail hr _ l.inp l.bufSize (.inl rfl) hi hret with h | h
              · exact .inl h
              · right
                refine ⟨h.1, ?_⟩
                have h2 : r.out.length ≤ l.bufSize := hbd.2
                have : r.out = [] := List.eq_nil_of_length_eq_zero (by omega)
                simp [this]
            · intro υ cb step K hcb u hu fuel hf
              obtain ⟨f, rfl⟩ : ∃ f, fuel = f + 1 := ⟨fuel - 1, by omega⟩
              have h1 : l.setup.inflate flush = (r.ret, l1) := rfl
              simp only [readOldIn, if_neg hi, h1]
              rw [if_pos hret]
              rfl
  exact key _ _ flush l c p rfl rfl hr

/-- On a dead stream nothing is delivered. -/
theorem readOldIn_dead (C : InflateOK Z plain) (flush : Int) (l : LL Z) (c p : Bytes)
    (hr : C.Rep l.z c p) (hd : C.Dead l.z) (hi : l.inp ≠ []) :
    ∃ ret l', (∀ {υ : Type} (cb : Cb Z υ) (u : υ) (fuel : Nat), 1 ≤ fuel →
        readOldIn cb fuel flush l u = .ok (ret, l', u)) ∧ ret ≠ Z_OK ∧ C.Dead l'.z ∧
      l'.bufSize = l.bufSize ∧ l'.rets = ret :: l.rets ∧ l'.totalOut = l.totalOut ∧
      ∃ c' p', C.Rep l'.z c' p' := by
  have h := C.dead hd flush l.inp l.bufSize
  refine ⟨(Z.run l.z flush l.inp l.bufSize).ret, l.setup.after (Z.run l.z flush l.inp l.bufSize),
    ?_, h.1, h.2.2, rfl, rfl, ?_, _, _, C.step hr flush l.inp l.bufSize⟩
  rotate_left
  · show l.totalOut + (Z.run l.z flush l.inp l.bufSize).out.length = l.totalOut
    rw [h.2.1]; rfl
  intro υ cb u fuel hf
  obtain ⟨f, rfl⟩ : ∃ f, fuel = f + 1 := ⟨fuel - 1, by omega⟩
  have h1 : l.setup.inflate flush = ((Z.run l.z flush l.inp l.bufSize).ret,
    l.setup.after (Z.run l.z flush l.inp l.bufSize)) := rfl
  simp only [readOldIn, if_neg hi, h1]
  rw [if_pos h.1]

/-- The recording callback folds. -/
theorem recordCb_folds : Folds (Z := Z) recordCb (fun u b => u ++ [b]) (fun _ => True) :=
  fun _ _ _ _ => ⟨rfl, trivial⟩

theorem foldl_record (u bs : List Bytes) : bs.foldl (fun u b => u ++ [b]) u = u ++ bs := by
  induction bs generalizing u with
  | nil => simp
  | cons b bs ih => simp [ih]

/-! ### Histories of low-level calls -/

/-- The compressed bytes a history supplies. -/
def LLOp.data : LLOp → Bytes
  | .setBuffer _ => []
  | .decompress _ d => d

/-- Buffers positive and at most `B`, no flush request, inputs below 4 GiB. -/
def LLOp.sane (B : Nat) : LLOp → Prop
  | .setBuffer size => 0 < uInt size ∧ uInt size ≤ B
  | .decompress flush d => flush = Z_NO_FLUSH ∧ d.length < U32

/-- Relation of a session to the compressed bytes `given` and the pieces `log` delivered. -/
def LLInv (C : InflateOK Z plain) (l : LL Z) (given : Bytes) (log : List Bytes) : Prop :=
  log.flatten <+: plain given ∧
    ∃ c p, C.Rep l.z c p ∧ (¬ C.Dead l.z → c = given ∧ log.flatten = p)

theorem LLInv.create (C : InflateOK Z plain) (size : Nat) : LLInv C (LL.create Z size) [] [] :=
  ⟨List.nil_prefix, [], [], C.init, fun _ => ⟨rfl, rfl⟩⟩

/-- One call. -/
theorem llDecompress_good (C : InflateOK Z plain) (l : LL Z) (given : Bytes) (log : List Bytes)
    (hi : LLInv C l given log) (hb : 0 < l.bufSize) (d : Bytes) (hd : d.length < U32) :
    ∃ ret l' new n0,
      (∀ fuel, n0 ≤ fuel →
        llDecompress recordCb fuel Z_NO_FLUSH l log d = .ok (ret, l', log ++ new)) ∧
      LLInv C l' (given ++ d) (log ++ new) ∧ l'.bufSize = l.bufSize ∧
      (∀ b ∈ new, b.length ≤ l.bufSize) ∧
      (ret = Z_OK → d ≠ [] → ∃ b, new.getLast? = some b ∧
        (b.length < l.bufSize ∨ C.Prompt (given ++ d) →
          (log ++ new).flatten = plain (given ++ d))) := by
  obtain ⟨hpre, c, p, hr, hal⟩ := hi
  have hfeed : (l.feed d).inp = d := by simp only [LL.feed]; exact take_uInt hd
  have hr' : C.Rep (l.feed d).z c p := hr
  by_cases hdd : d = []
  · refine ⟨0, l.feed d, [], 1, ?_, ⟨by simpa [hdd] using hpre, c, p, hr', ?_⟩, rfl, by simp,
      by simp [hdd]⟩
    · intro fuel hf
      obtain ⟨f, rfl⟩ : ∃ f, fuel = f + 1 := ⟨fuel - 1, by omega⟩
      have hn : (l.feed d).inp = [] := by rw [hfeed, hdd]
      simp only [llDecompress, readOldIn, if_pos hn, List.append_nil]
    · rw [hdd, List.append_nil, List.append_nil]; exact hal
  · by_cases hdead : C.Dead l.z
    · obtain ⟨ret, l', h1, h2, h3, h4, _, _, c', p', h5⟩ := readOldIn_dead C Z_NO_FLUSH (l.feed d) c p hr'
        hdead (by rw [hfeed]; exact hdd)
      refine ⟨ret, l', [], 1, ?_, ?_, h4, by simp, fun h => absurd h h2⟩
      · intro fuel hf
        simp only [llDecompress, h1 recordCb log fuel hf, List.append_nil]
      · refine ⟨?_, c', p', h5, fun h => absurd h3 h⟩
        rw [List.append_nil]; exact hpre.trans (C.mono _ _)
    · obtain ⟨hc, hp⟩ := hal hdead
      subst hc
      obtain ⟨ret, l', new, n0, hout, hrun⟩ := readOldIn_pieces C Z_NO_FLUSH (l.feed d) c p hr'
      refine ⟨ret, l', new, n0, ?_, ?_, hout.bufSize, hout.small, ?_⟩
      · intro fuel hf
        have := hrun recordCb _ _ recordCb_folds log trivial fuel hf
        rw [foldl_record] at this
        exact this
      · obtain ⟨used, p', e1, e2, e3, e4, e5, e6⟩ := hout.rep
        rw [hfeed] at e1
        have hlog : (log ++ new).flatten = p ++ new.flatten := by rw [List.flatten_append, hp]
        refine ⟨?_, c ++ used, p', e2, ?_⟩
        · rw [hlog, e1]
          refine (e4.trans (C.sound e2)).trans ?_
          rw [← List.append_assoc]
          exact C.mono _ _
        · intro hal'
          by_cases h0 : ret = Z_OK
          · obtain ⟨k1, k2⟩ := e5 h0
            rw [k2, List.append_nil] at e1
            exact ⟨by rw [e1], by rw [hlog, k1]⟩
          · rcases e6 rfl h0 with h | h
            · exact absurd h hal'
            · have : (l.feed d).bufSize = l.bufSize := rfl
              omega
      · intro h0 _
        obtain ⟨b, hb1, hb2⟩ := hout.last h0 (by rw [hfeed]; exact hdd) rfl
        refine ⟨b, hb1, fun hlt => ?_⟩
        rw [List.flatten_append, hp, hb2 (by rw [hfeed]; exact hlt), hfeed]

/-- A history. -/
theorem llRun_good (C : InflateOK Z plain) (B : Nat) (ops : List LLOp)
    (hops : ∀ op ∈ ops, op.sane B) (l : LL Z) (given : Bytes) (log : List Bytes)
    (hi : LLInv C l given log) (hb : 0 < l.bufSize) (hB : l.bufSize ≤ B) :
    ∃ rets l' new n0, (∀ fuel, n0 ≤ fuel → llRun fuel ops l log = .ok (rets, l', log ++ new)) ∧
      LLInv C l' (given ++ (ops.map LLOp.data).flatten) (log ++ new) ∧ 0 < l'.bufSize ∧
      l'.bufSize ≤ B ∧ (∀ b ∈ new, b.length ≤ B) := by
  induction ops generalizing l given log with
  | nil => exact ⟨[], l, [], 0, fun _ _ => by simp [llRun], by simpa using hi, hb, hB, by simp⟩
  | cons op ops ih =>
    have hops' : ∀ op ∈ ops, op.sane B := fun o ho => hops o (List.mem_cons_of_mem _ ho)
    have hop := hops op List.mem_cons_self
    cases op with
    | setBuffer size =>
      simp only [LLOp.sane] at hop
      obtain ⟨rets, l', new, n0, h1, h2, h3, h4, h5⟩ :=
        ih hops' (l.setBuffer size) given log hi hop.1 hop.2
      exact ⟨rets, l', new, n0, fun f hf => by simp only [llRun]; exact h1 f hf,
        by simpa [LLOp.data] using h2, h3, h4, h5⟩
    | decompress flush d =>
      simp only [LLOp.sane] at hop
      obtain ⟨hfl, hd⟩ := hop
      subst hfl
      obtain ⟨ret, l1, new1, n1, g1, g2, g3, g4, _⟩ := llDecompress_good C l given log hi hb d hd
      obtain ⟨rets, l', new, n0, h1, h2, h3, h4, h5⟩ :=
        ih hops' l1 _ _ g2 (by omega) (by omega)
      refine ⟨ret :: rets, l', new1 ++ new, max n0 n1, ?_, ?_, h3, h4, ?_⟩
      · intro f hf
        simp only [llRun, g1 f (by omega), h1 f (by omega), List.append_assoc]
      · simpa [LLOp.data, List.append_assoc] using h2
      · intro b hbm
        rcases List.mem_append.mp hbm with h | h
        · exact Nat.le_trans (g4 b h) hB
        · exact h5 b h

theorem llRun_append (fuel : Nat) (a b : List LLOp) (l : LL Z) (u : List Bytes) :
    llRun fuel (a ++ b) l u =
      match llRun fuel a l u with
      | .error e => .error e
      | .ok (r1, l1, u1) =>
        match llRun fuel b l1 u1 with
        | .error e => .error e
        | .ok (r2, l2, u2) => .ok (r1 ++ r2, l2, u2) := by
  induction a generalizing l u with
  | nil => simp only [List.nil_append, llRun]; cases llRun fuel b l u <;> simp
  | cons op a ih =>
    cases op with
    | setBuffer size => simp only [List.cons_append, llRun]; exact ih _ _
    | decompress fl d =>
      simp only [List.cons_append, llRun]
      cases llDecompress recordCb fuel fl l u d with
      | error e => simp
      | ok r =>
        obtain ⟨r0, l0, u0⟩ := r
        simp only [ih]
        cases llRun fuel a l0 u0 with
        | error e => simp
        | ok r =>
          obtain ⟨r1, l1, u1⟩ := r
          simp only
          cases llRun fuel b l1 u1 <;> simp

/-- Termination needs no assumption on sizes or flush requests. -/
theorem llRun_terminates (C : InflateOK Z plain) (ops : List LLOp) (l : LL Z) (u : List Bytes)
    (c p : Bytes) (hr : C.Rep l.z c p) :
    ∃ r n0, ∀ fuel, n0 ≤ fuel → llRun fuel ops l u = .ok r := by
  induction ops generalizing l u c p with
  | nil => exact ⟨_, 0, fun _ _ => rfl⟩
  | cons op ops ih =>
    cases op with
    | setBuffer size =>
      obtain ⟨r, n0, h⟩ := ih (l.setBuffer size) u c p hr
      exact ⟨r, n0, fun f hf => by simp only [llRun]; exact h f hf⟩
    | decompress flush d =>
      obtain ⟨ret, l', new, n0, hout, hrun⟩ :=
        readOldIn_pieces C flush (l.feed d) c p hr
      obtain ⟨used, p', _, e2, _⟩ := hout.rep
      obtain ⟨r, n1, h⟩ := ih l' (new.foldl (fun u b => u ++ [b]) u) _ _ e2
      refine ⟨(ret :: r.1, r.2.1, r.2.2), max n0 n1, fun f hf => ?_⟩
      simp only [llRun, llDecompress, hrun recordCb _ _ recordCb_folds u trivial f (by omega),
        h f (by omega)]

/-- Return codes: the loop returns 0 only if every `inflate` call did, and otherwise the code of
the last one. -/
theorem readOldIn_rets {υ : Type} (cb : Cb Z υ) (K : υ → Prop)
    (hcb : ∀ l u b l' u', K u → cb l u b = .ok (l', u') → l'.rets = l.rets ∧ K u')
    (fuel : Nat) (flush : Int) (l l' : LL Z) (u u' : υ) (ret : Int) (hu : K u)
    (h : readOldIn cb fuel flush l u = .ok (ret, l', u')) :
    ∃ new, l'.rets = new ++ l.rets ∧ (ret = Z_OK → ∀ r ∈ new, r = Z_OK) ∧
      (ret ≠ Z_OK → ∃ tl, new = ret :: tl ∧ ∀ r ∈ tl, r = Z_OK) := by
  induction fuel generalizing flush l u with
  | zero => simp [readOldIn] at h
  | succ n ih =>
    simp only [readOldIn] at h
    split at h
    · cases h; exact ⟨[], by simp, by simp, by simp [Z_OK]⟩
    · have hre : (l.setup.inflate flush).2.rets = (l.setup.inflate flush).1 :: l.rets := rfl
      split at h
      · rename_i hr
        cases h
        exact ⟨[_], hre, fun h => absurd h hr, fun _ => ⟨[], rfl, by simp⟩⟩
      · rename_i hr
        have hr : (l.setup.inflate flush).1 = Z_OK := by simpa using hr
        split at h
        · cases h
        · rename_i buf _
          cases hc : cb (l.setup.inflate flush).2 u buf with
          | error e => simp [hc] at h
          | ok r =>
            obtain ⟨l2, u2⟩ := r
            obtain ⟨hl2, hu2⟩ := hcb _ _ _ _ _ hu hc
            simp only [hc] at h
            obtain ⟨new, k1, k2, k3⟩ := ih _ _ _ hu2 h
            refine ⟨new ++ [Z_OK], ?_, ?_, ?_⟩
            · rw [k1, hl2, hre, hr]; simp
            · intro h0 x hx
              rcases List.mem_append.mp hx with hx | hx
              · exact k2 h0 x hx
              · simpa using hx
            · intro h0
              obtain ⟨tl, t1, t2⟩ := k3 h0
              refine ⟨tl ++ [Z_OK], by rw [t1]; rfl, ?_⟩
              intro x hx
              rcases List.mem_append.mp hx with hx | hx
              · exact t2 x hx
              · simpa using hx

/-- A callback that leaves the session alone and may fault: the pieces are those of the recording
callback.  `T` is a lower bound of the bytes produced before. -/
theorem readOldIn_sim {υ : Type} (cb : Cb Z υ) (step : υ → Bytes → Run υ) (T : Nat)
    (K : υ → Prop)
    (hcb : ∀ l u b, K u → T + b.length ≤ l.totalOut → cb l u b = (step u b).map (l, ·))
    (hK : ∀ u b u', K u → step u b = .ok u' → K u')
    (fuel : Nat) (flush : Int) (l l' : LL Z) (w w' : List Bytes) (ret : Int) (hT : T ≤ l.totalOut)
    (h : readOldIn recordCb fuel flush l w = .ok (ret, l', w')) :
    ∃ pieces, w' = w ++ pieces ∧ T ≤ l'.totalOut ∧ ∀ u, K u → readOldIn cb fuel flush l u =
      (pieces.foldlM step u).map (ret, l', ·) := by
  induction fuel generalizing flush l w with
  | zero => simp [readOldIn] at h
  | succ n ih =>
    simp only [readOldIn] at h
    have htot : (l.setup.inflate flush).2.totalOut =
        l.totalOut + (l.setup.inflate flush).2.acc.length := by
      simp [LL.inflate, LL.after, LL.setup]
    split at h
    · rename_i hi
      cases h
      exact ⟨[], by simp, hT, fun u _ => by simp [readOldIn, hi, Except.map, pure, Except.pure]⟩
    · rename_i hi
      split at h
      · rename_i hr
        cases h
        exact ⟨[], by simp, by omega,
          fun u _ => by
            simp only [readOldIn, if_neg hi, if_pos hr]
            simp [Except.map, pure, Except.pure]⟩
      · rename_i hr
        split at h
        · cases h
        · rename_i buf hb
          have hbl : buf = (l.setup.inflate flush).2.acc := by
            simp only [LL.handed] at hb
            split at hb
            · cases hb; rfl
            · cases hb
          simp only [recordCb] at h
          obtain ⟨pieces, k1, k2, k3⟩ := ih _ _ _ (by omega) h
          refine ⟨buf :: pieces, by simpa using k1, k2, fun u hu => ?_⟩
          simp only [readOldIn, if_neg hi, if_neg hr, hb,
            hcb (l.setup.inflate flush).2 u buf hu (by rw [hbl]; omega)]
          cases hs : step u buf with
          | error e => simp [Except.map, List.foldlM, hs, bind, Except.bind]
          | ok u1 =>
            simp only [Except.map, List.foldlM, hs, bind, Except.bind]
            exact k3 u1 (hK u buf u1 hu hs)

end Zwt
