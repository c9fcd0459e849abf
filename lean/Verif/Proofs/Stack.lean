import Verif.Model.Stack
import Verif.Spec.Stack
import Verif.Proofs.RoundAny
import Verif.Proofs.HLGrow

/-! Stack memory during extraction. -/

namespace Zwt

variable {Z : Inflater} {plain : Bytes → Bytes}

/-! ### The sizes change nothing -/

theorem hlEventsS_snd (os : Os) (out : Bytes) (evs : List Ev) : ∀ h,
    (hlEventsS os out h evs).2 = hlEvents os out h evs := by
  induction evs with
  | nil => intro h; rfl
  | cons e evs ih =>
    intro h
    simp only [hlEventsS, hlEvents]
    cases hlEvent os out h e with
    | error x => rfl
    | ok h' => exact ih _

theorem hlLoopS_snd (os : Os) (ok : AllocOracle) (fuel : Nat) (out : Bytes) (size : Nat)
    (rounds : Nat) : ∀ (i total : Nat) (inp : Input) (l : LL Z) (s : Sess) (h : HL),
    (hlLoopS os ok fuel out size rounds i total inp l s h).2 =
      hlLoop os ok fuel out size rounds i total inp l s h := by
  induction rounds with
  | zero => intros; rfl
  | succ rounds ih =>
    intro i total inp l s h
    simp only [hlLoopS, hlLoop]
    split
    · rfl
    · split
      · rfl
      · cases sessDecompress ok fuel (hlFlush (i + 1)) l s (inp.data.take (nextSize size total)) with
        | error e => rfl
        | ok x =>
          obtain ⟨ret, l', s'⟩ := x
          simp only [← hlEventsS_snd]
          cases hlEventsS os out h (s'.log.drop s.log.length) with
          | mk asks r =>
            cases r with
            | error e => rfl
            | ok h' =>
              simp only
              split
              · exact ih _ _ _ _ _ _
              · rfl

theorem extractS_snd (os : Os) (ok : AllocOracle) (fuel : Nat) (hdr item out : Bytes) (n : Nat)
    (inp : Input) (w : World) :
    (extractS Z os ok fuel hdr item out n inp w).2 = extract Z os ok fuel hdr item out n inp w :=
  hlLoopS_snd ..

theorem hlEventsS_append (os : Os) (out : Bytes) (es es' : List Ev) : ∀ (h h' : HL) (a : List Nat),
    hlEventsS os out h es = (a, .ok h') →
    hlEventsS os out h (es ++ es') =
      (a ++ (hlEventsS os out h' es').1, (hlEventsS os out h' es').2) := by
  induction es with
  | nil => intro h h' a hh; cases hh; rfl
  | cons e es ih =>
    intro h h' a hh
    simp only [List.cons_append, hlEventsS] at hh ⊢
    cases hx : hlEvent os out h e with
    | error x => rw [hx] at hh; simp at hh
    | ok h1 =>
      rw [hx] at hh
      simp only at hh ⊢
      cases hy : hlEventsS os out h1 es with
      | mk b r =>
        rw [hy] at hh
        simp only [Prod.mk.injEq] at hh
        obtain ⟨rfl, rfl⟩ := hh
        rw [ih h1 h' b hy]
        simp only [List.append_assoc]

/-! ### What is asked for is what the callbacks ask for -/

theorem hlLoopS_asks (C : InflateOK Z plain) (ok : AllocOracle) (item0 : Bytes)
    (hi : item0.length = 40) (os : Os) (out : Bytes) (w : World) (n : Nat) (err : Bool) (k : Nat) :
    ∀ (data : Bytes), data.length = k → ∀ (i : Nat) (l : LL Z) (s : Sess) (given : Bytes) (h : HL)
      (A : List Nat),
    SInv C ok item0 DEF_CHUNK_SIZE l s given →
    hlEventsS os out (HL.init w) s.log = (A, .ok h) →
    ∃ n0 P pieces log, P <+: plain (given ++ allowed n given.length data) ∧
      ArchiveLog ok DEF_CHUNK_SIZE P pieces log ∧
      ∀ fuel rounds, n0 ≤ fuel → n0 ≤ rounds →
        A ++ (hlLoopS os ok fuel out n rounds i given.length ⟨data, err⟩ l s h).1 =
            (hlEventsS os out (HL.init w) log).1 ∧
          ∀ r, (hlLoopS os ok fuel out n rounds i given.length ⟨data, err⟩ l s h).2 = .ok r →
            ∃ h', hlEvents os out (HL.init w) log = .ok h' := by
  induction k using Nat.strongRecOn with
  | ind k ih =>
    intro data hk i l s given h A D hev
    have hev' : hlEvents os out (HL.init w) s.log = .ok h := by rw [← hlEventsS_snd, hev]
    have now : ∀ n0, (∀ fuel rounds, n0 ≤ fuel → n0 ≤ rounds →
        (hlLoopS os ok fuel out n rounds i given.length ⟨data, err⟩ l s h).1 = []) →
        ∃ n0 P pieces log, P <+: plain (given ++ allowed n given.length data) ∧
      ArchiveLog ok DEF_CHUNK_SIZE P pieces log ∧
      ∀ fuel rounds, n0 ≤ fuel → n0 ≤ rounds →
        A ++ (hlLoopS os ok fuel out n rounds i given.length ⟨data, err⟩ l s h).1 =
            (hlEventsS os out (HL.init w) log).1 ∧
          ∀ r, (hlLoopS os ok fuel out n rounds i given.length ⟨data, err⟩ l s h).2 = .ok r →
            ∃ h', hlEvents os out (HL.init w) log = .ok h' := by
      intro n0 h0
      obtain ⟨P, p1, p2, _⟩ := D.archive hi
      refine ⟨n0, P, _, s.log, p1.trans (C.mono _ _), p2, fun fuel rounds hf hr => ⟨?_, ?_⟩⟩
      · rw [h0 fuel rounds hf hr, hev, List.append_nil]
      · exact fun r _ => ⟨h, hev'⟩
    by_cases hz : nextSize n given.length < 1
    · refine now 1 (fun fuel rounds _ hr => ?_)
      obtain ⟨f, rfl⟩ : ∃ f, rounds = f + 1 := ⟨rounds - 1, by omega⟩
      simp only [hlLoopS, if_pos hz]
    · by_cases hre : (decide (data.length < nextSize n given.length) && err) = true
      · refine now 1 (fun fuel rounds _ hr => ?_)
        obtain ⟨f, rfl⟩ : ∃ f, rounds = f + 1 := ⟨rounds - 1, by omega⟩
        simp only [hlLoopS, if_neg hz, hre, if_true]
      · generalize hpc : data.take (nextSize n given.length) = piece
        have hpl : piece.length ≤ nextSize n given.length := by
          rw [← hpc, List.length_take]; omega
        have hu : piece.length < U32 := by
          have := nextSize_le n given.length
          have hc : DEF_CHUNK_SIZE = 524288 := rfl
          have : U32 = 4294967296 := rfl
          omega
        have hpa : piece <+: allowed n given.length data := by
          by_cases hsh : data.length < nextSize n given.length
          · rw [(allowed_short data hsh).1, ← hpc]; exact List.take_prefix _ _
          · rw [allowed_step data hz hsh, hpc]; exact List.prefix_append _ _
        obtain ⟨n1, ⟨ret, l', s', g1, g2⟩ | ⟨hd, h1, h2, h3, h4⟩⟩ :=
          sess_call C ok item0 hi _ l s given D _ (hlFlush_soft (i + 1)) piece hu
        · obtain ⟨new, hnew⟩ := sessDecompress_grows ok n1 _ l s piece _ _ _ (g2 n1 (Nat.le_refl _))
          have hdrop : s'.log.drop s.log.length = new := by rw [← hnew]; simp
          have hall := hlEventsS_append os out s.log new _ _ _ hev
          rw [hnew] at hall
          cases hx : hlEventsS os out h new with
          | mk asks r =>
            rw [hx] at hall
            simp only at hall
            have here : ∀ r', (∀ x, r' = .ok x → ∃ h', r = .ok h') → (∀ fuel f, n1 ≤ fuel →
                hlLoopS os ok fuel out n (f + 1) i given.length ⟨data, err⟩ l s h = (asks, r')) →
                ∃ n0 P pieces log, P <+: plain (given ++ allowed n given.length data) ∧
      ArchiveLog ok DEF_CHUNK_SIZE P pieces log ∧
      ∀ fuel rounds, n0 ≤ fuel → n0 ≤ rounds →
        A ++ (hlLoopS os ok fuel out n rounds i given.length ⟨data, err⟩ l s h).1 =
            (hlEventsS os out (HL.init w) log).1 ∧
          ∀ r, (hlLoopS os ok fuel out n rounds i given.length ⟨data, err⟩ l s h).2 = .ok r →
            ∃ h', hlEvents os out (HL.init w) log = .ok h' := by
              intro r' hr' hrun
              obtain ⟨P, p1, p2, _⟩ := g1.archive hi
              refine ⟨n1 + 1, P, _, s'.log, p1.trans ?_, p2, fun fuel rounds hf hr => ?_⟩
              · obtain ⟨t, ht⟩ := hpa
                rw [← ht, ← List.append_assoc]
                exact C.mono _ _
              · obtain ⟨f, rfl⟩ : ∃ f, rounds = f + 1 := ⟨rounds - 1, by omega⟩
                rw [hrun fuel f (by omega)]
                refine ⟨by rw [hall], fun x hx' => ?_⟩
                obtain ⟨h', e⟩ := hr' x hx'
                exact ⟨h', by rw [← hlEventsS_snd, hall, e]⟩
            cases r with
            | error e =>
              refine here (.error e) (fun x hx => by simp at hx) (fun fuel f hf => ?_)
              simp only [hlLoopS, if_neg hz, hre, hpc, g2 fuel hf, hdrop, hx]
              simp
            | ok h1 =>
              by_cases hc : (!decide (data.length < nextSize n given.length) && !h1.hasError) = true
              · have hsh : ¬ data.length < nextSize n given.length := by
                  intro hsh; simp [hsh] at hc
                have hpl' : piece.length = nextSize n given.length := by
                  rw [← hpc, List.length_take]; omega
                obtain ⟨n2, P, pieces, log, p1, p2, p3⟩ :=
                  ih (data.drop (nextSize n given.length)).length
                  (by rw [List.length_drop]; omega) _ rfl (i + 1) l' s' (given ++ piece) h1 (A ++ asks)
                  g1 hall
                refine ⟨max n1 n2 + 1, P, pieces, log, ?_, p2, fun fuel rounds hf hr => ?_⟩
                · rw [allowed_step data hz hsh, hpc, ← List.append_assoc]
                  rw [List.length_append, hpl'] at p1
                  rw [hpl']
                  exact p1
                · obtain ⟨f, rfl⟩ : ∃ f, rounds = f + 1 := ⟨rounds - 1, by omega⟩
                  have := p3 fuel f (by omega) (by omega)
                  rw [List.length_append] at this
                  simp only [hlLoopS, if_neg hz, hre, hpc, g2 fuel (by omega), hdrop, hx, if_pos hc]
                  simp only [Bool.false_eq_true, if_false]
                  rw [← List.append_assoc]
                  exact this
              · refine here (.ok ⟨h1.ret, h1.w, given.length + piece.length, h1.hasError, l'.rets,
                    l'.availOut, s'.pieces⟩) (fun x _ => ⟨h1, rfl⟩) (fun fuel f hf => ?_)
                · simp only [hlLoopS, if_neg hz, hre, hpc, g2 fuel hf, hdrop, hx, if_neg hc]
                  simp
        · refine now (n1 + 1) (fun fuel rounds hf hr => ?_)
          obtain ⟨f, rfl⟩ : ∃ f, rounds = f + 1 := ⟨rounds - 1, by omega⟩
          simp only [hlLoopS, if_neg hz, hre, hpc, h4 fuel (by omega)]
          simp

theorem extractS_asks (C : InflateOK Z plain) (ok : AllocOracle) (hdr item : Bytes)
    (hh : hdr.length = 128) (hi : item.length = 40) (os : Os) (out : Bytes) (w : World) (n : Nat)
    (inp : Input) :
    ∃ n0 P pieces log, P <+: plain (allowed n 0 inp.data) ∧
      ArchiveLog ok DEF_CHUNK_SIZE P pieces log ∧
      ∀ fuel, n0 ≤ fuel →
        (extractS Z os ok fuel hdr item out n inp w).1 = (hlEventsS os out (HL.init w) log).1 ∧
          ∀ r, extract Z os ok fuel hdr item out n inp w = .ok r →
            ∃ h', hlEvents os out (HL.init w) log = .ok h' := by
  have hu : uInt DEF_CHUNK_SIZE = 524288 := uInt_of_lt (by decide)
  obtain ⟨n0, P, pieces, log, p1, p2, p3⟩ := hlLoopS_asks C ok item hi os out w n inp.err _ inp.data
    rfl 0 (Sess.create Z hdr item DEF_CHUNK_SIZE).1 (Sess.create Z hdr item DEF_CHUNK_SIZE).2 []
    (HL.init w) [] (SInv.create C ok hdr item hh _ _ ⟨by omega, by rw [hu]; exact Nat.le_refl _⟩) rfl
  refine ⟨n0, P, pieces, log, by simpa using p1, p2, fun fuel hf => ?_⟩
  have := p3 fuel fuel hf hf
  rw [← extractS_snd]
  exact this

/-! ### Any archive -/

/-- Bytes of the archive that announce an item. -/
def Ev.heft : Ev → Nat
  | .itemStart _ nm _ => 40 + nm.length
  | _ => 0
def Atom.heft : Atom → Nat
  | .start _ nm _ => 40 + nm.length
  | _ => 0

def evHeft (evs : List Ev) : Nat := (evs.map Ev.heft).sum
def atHeft (as : List Atom) : Nat := (as.map Atom.heft).sum

theorem atHeft_append (a b : List Atom) : atHeft (a ++ b) = atHeft a + atHeft b := by simp [atHeft]
theorem atHeft_cons (a : Atom) (b : List Atom) : atHeft (a :: b) = a.heft + atHeft b := by
  simp [atHeft]
theorem atHeft_map (d : Bytes) : atHeft (d.map .byte) = 0 := by
  induction d with
  | nil => rfl
  | cons b d ih => rw [List.map_cons, atHeft_cons, ih]; simp [Atom.heft]

theorem LinkSfx.heft {a b : List Atom} (h : LinkSfx a b) : atHeft a = atHeft b := by
  induction h with
  | nil => rfl
  | same x _ ih => simp only [atHeft_cons, ih]
  | link _ _ ih => simp only [atHeft_cons, ih]; rfl

theorem evHeft_atoms (evs : List Ev) : evHeft evs = atHeft (atoms evs) := by
  induction evs with
  | nil => rfl
  | cons e evs ih =>
    have : atoms (e :: evs) = e.atoms ++ atoms evs := by simp [atoms]
    rw [this, atHeft_append, ← ih]
    simp only [evHeft, List.map_cons, List.sum_cons]
    congr 1
    cases e <;> simp [Ev.heft, Ev.atoms, atHeft_map] <;> simp [atHeft, Atom.heft]

theorem specParse_heft (ok : AllocOracle) (k : Nat) (bs : Bytes) :
    atHeft (specParse ok k bs).atoms ≤ bs.length := by
  induction hn : bs.length using Nat.strongRecOn generalizing bs k with
  | _ n ih =>
    subst hn
    have e0 : atHeft [] = 0 := rfl
    by_cases hsh : bs.length < 40
    · rw [specParse_short _ _ _ hsh]; simp only [e0]; omega
    · have hw : bs = bs.take 40 ++ bs.drop 40 := (List.take_append_drop 40 bs).symm
      have hil : (bs.take 40).length = 40 := take_len (by omega)
      rw [hw, specParse_item _ _ _ _ hil, ← hw]
      have hrl : (bs.drop 40).length + 40 = bs.length := by rw [List.length_drop]; omega
      generalize bs.drop 40 = r at hrl
      generalize bs.take 40 = item
      have hin : ∀ k (l : Bytes), l.length ≤ r.length →
          atHeft (specParse ok k l).atoms ≤ l.length := by
        intro k l hl; exact ih _ (by omega) k l rfl
      have skip : ∀ k n (l : Bytes), l.length ≤ r.length →
          atHeft (specSkip ok k n l).atoms ≤ l.length := by
        intro k n l hl
        simp only [specSkip]
        split
        · simp only [e0]; omega
        · have := hin k (l.drop n) (by rw [List.length_drop]; omega)
          rw [List.length_drop] at this
          omega
      unfold specItem
      split
      · have := hin k r (by omega)
        simp only [Parsed.after, List.singleton_append, atHeft_cons, Atom.heft]
        omega
      · split
        · split
          · simp only [specName]
            split
            · simp only [e0]; omega
            · rename_i h
              simp only [Parsed.after, List.singleton_append, atHeft_cons, Atom.heft,
                List.length_take]
              have hl2 : (r.drop (itNameLenNorm item)).length + itNameLenNorm item = r.length := by
                rw [List.length_drop]; omega
              generalize r.drop (itNameLenNorm item) = l at hl2
              suffices h : atHeft (specBody ok (k + 1) item l).atoms ≤ l.length by omega
              simp only [specBody]
              split
              · exact hin (k + 1) l (by omega)
              · split
                · simp only [specFile]
                  split
                  · simp only [atHeft_map]; omega
                  · have := skip (k + 1) (gapOf item) (l.drop (itFileSize item))
                      (by rw [List.length_drop]; omega)
                    rw [List.length_drop] at this
                    simp only [Parsed.after, atHeft_append, atHeft_map, atHeft_cons, e0, Atom.heft]
                    omega
                · simp only [specLink]
                  split
                  · simp only [e0]; omega
                  · have := skip (k + 1) (gapOf item) (l.drop (itFileSize item))
                      (by rw [List.length_drop]; omega)
                    rw [List.length_drop] at this
                    simp only [Parsed.after, atHeft_append, atHeft_cons, e0, Atom.heft]
                    omega
          · simp only [e0]; omega
        · have := hin k r (by omega)
          omega

/-- Length of the path the callbacks keep. -/
def HL.pathLen (h : HL) : Nat := (h.dirPath.getD []).length

theorem itemPath_ok {h : HL} {nm path : Bytes} {n : Nat} (hp : itemPath h nm n = .ok path) :
    n ≤ nm.length ∧ path = h.dirPath.getD [] ++ 47 :: nm.take n := by
  simp only [itemPath] at hp
  split at hp
  · cases hp; exact ⟨by assumption, rfl⟩
  · simp at hp

theorem hlSymLink_path (os : Os) (h h' : HL) (t a : Bytes) (hh : hlSymLink os h t a = .ok h') :
    h'.dirPath = h.dirPath := by
  simp only [hlSymLink] at hh
  split at hh
  · cases hh; rfl
  · split at hh
    · cases hh; rfl
    · split at hh
      · cases hh; rfl
      · split at hh
        · simp at hh
        · split at hh
          · cases hh; rfl
          · simp at hh

/-- How a callback changes the path that is kept. -/
theorem hlEvent_path (os : Os) (out : Bytes) (h h' : HL) (e : Ev) (he : e.inner)
    (hh : hlEvent os out h e = .ok h') :
    h'.dirPath = h.dirPath ∨
      (∃ nm it, e = .itemStart .dir nm it ∧ itNameLen it ≤ nm.length ∧
        h'.dirPath = some (h.dirPath.getD [] ++ 47 :: nm.take (itNameLen it))) ∨
      (e = .dirEnd ∧ ∃ p i, h.dirPath = some p ∧ lastIndexOf 47 (cString p) = some i ∧
        h'.dirPath = some (p.take i)) := by
  cases e with
  | flStart => exact he.elim
  | drStart => exact he.elim
  | flRead d =>
    simp only [hlEvent, hlFileData] at hh
    split at hh
    · simp at hh
    · cases hh; exact .inl rfl
  | fileRead d =>
    simp only [hlEvent, hlFileRead] at hh
    split at hh
    · cases hh; exact .inl rfl
    · simp at hh
    · cases hh; exact .inl rfl
  | fileEnd =>
    simp only [hlEvent, hlFileEnd] at hh
    split at hh
    · cases hh; exact .inl rfl
    · simp at hh
    · cases hh; exact .inl rfl
  | symLink t a => exact .inl (hlSymLink_path os h h' t a hh)
  | dirEnd =>
    simp only [hlEvent, hlDirEnd] at hh
    split at hh
    · simp at hh
    · rename_i p hp
      split at hh
      · simp at hh
      · rename_i i hl
        cases hh
        exact .inr (.inr ⟨rfl, p, i, hp, hl, rfl⟩)
  | itemStart ft nm it =>
    simp only [hlEvent, hlItemStart] at hh
    split at hh
    · simp only [hlDirItem] at hh
      split at hh
      · cases hh; exact .inl rfl
      · split at hh
        · simp at hh
        · rename_i path hp
          obtain ⟨p1, p2⟩ := itemPath_ok hp
          cases hh
          exact .inr (.inl ⟨nm, it, rfl, p1, by rw [p2]⟩)
    · simp only [hlFileItem] at hh
      split at hh
      · simp at hh
      · split at hh
        · cases hh; exact .inl rfl
        · cases hh; exact .inl rfl
    · cases hh; exact .inl rfl

theorem hlEvent_pathLen (os : Os) (out : Bytes) (h h' : HL) (e : Ev) (he : e.inner)
    (hh : hlEvent os out h e = .ok h') : h'.pathLen ≤ h.pathLen + e.heft := by
  rcases hlEvent_path os out h h' e he hh with h1 | ⟨nm, it, rfl, h2, h3⟩ | ⟨rfl, p, i, h2, _, h3⟩
  · rw [HL.pathLen, h1]; exact Nat.le_add_right _ _
  · rw [HL.pathLen, h3]
    simp only [HL.pathLen, Option.getD_some, List.length_append, List.length_cons, List.length_take,
      Ev.heft]
    omega
  · rw [HL.pathLen, HL.pathLen, h2, h3]
    simp only [Option.getD_some, List.length_take]
    omega

/-- The size that a callback that ends asks for. -/
theorem hlAsk_le (os : Os) (out : Bytes) (h h' : HL) (e : Ev) (hh : hlEvent os out h e = .ok h')
    (a : Nat) (ha : a ∈ hlAsk h e) : a ≤ h.pathLen + e.heft := by
  cases e with
  | itemStart ft nm it =>
    cases ft with
    | file =>
      simp only [hlAsk, List.mem_singleton] at ha
      subst ha
      simp only [hlEvent, hlItemStart, hlFileItem] at hh
      split at hh
      · simp at hh
      · rename_i path hp
        have := (itemPath_ok hp).1
        simp only [Ev.heft, HL.pathLen]
        omega
    | _ => simp [hlAsk] at ha
  | _ => simp [hlAsk] at ha

theorem hlAsk_lt (h : HL) (e : Ev) (a : Nat) (ha : a ∈ hlAsk h e) :
    a < h.pathLen + 4 + 2 ^ 32 ∧ 40 ≤ e.heft := by
  cases e with
  | itemStart ft nm it =>
    cases ft with
    | file =>
      simp only [hlAsk, List.mem_singleton] at ha
      subst ha
      have : itNameLen it < 2 ^ 32 := itNameLen_lt it
      simp only [Ev.heft, HL.pathLen]
      omega
    | _ => simp [hlAsk] at ha
  | _ => simp [hlAsk] at ha

theorem hlEventsS_le (os : Os) (out : Bytes) (evs : List Ev) : ∀ h, (∀ e ∈ evs, e.inner) →
    ∀ a ∈ (hlEventsS os out h evs).1, a < h.pathLen + evHeft evs + 2 ^ 32 ∧
      ∀ h', hlEvents os out h evs = .ok h' → a ≤ h.pathLen + evHeft evs := by
  induction evs with
  | nil => intro h _ a ha; simp [hlEventsS] at ha
  | cons e evs ih =>
    intro h hi a ha
    simp only [hlEventsS] at ha
    simp only [hlEvents]
    have hc : evHeft (e :: evs) = e.heft + evHeft evs := by simp [evHeft]
    rw [hc]
    cases hx : hlEvent os out h e with
    | error x =>
      rw [hx] at ha
      have := hlAsk_lt h e a ha
      exact ⟨by omega, fun h' hh => by simp at hh⟩
    | ok h1 =>
      rw [hx] at ha
      simp only at ha
      rcases List.mem_append.mp ha with ha | ha
      · have := hlAsk_le os out h h1 e hx a ha
        exact ⟨by omega, fun _ _ => by omega⟩
      · obtain ⟨g1, g2⟩ := ih h1 (fun e he => hi e (List.mem_cons_of_mem _ he)) a ha
        have := hlEvent_pathLen os out h h1 e (hi e List.mem_cons_self) hx
        refine ⟨by omega, fun h' hh => ?_⟩
        have := g2 h' hh
        omega

theorem hlDirStart_path (os : Os) (out : Bytes) (w : World) :
    (hlDirStart os out (HL.init w)).dirPath = none ∨
      (hlDirStart os out (HL.init w)).dirPath = some out := by
  simp only [hlDirStart]
  split
  · exact .inl rfl
  · split
    · exact .inl rfl
    · exact .inr rfl

theorem ArchiveLog.asks {ok : AllocOracle} {B : Nat} {P : Bytes} {pieces : List Bytes}
    {log : List Ev} (h : ArchiveLog ok B P pieces log) (os : Os) (out : Bytes) (w : World) :
    ∀ a ∈ (hlEventsS os out (HL.init w) log).1, a < out.length + P.length + 2 ^ 32 ∧
      ∀ h', hlEvents os out (HL.init w) log = .ok h' → a ≤ out.length + P.length := by
  have none : ∀ (ds : List Bytes) h, (hlEventsS os out h (ds.map .flRead)).1 = [] := by
    intro ds
    induction ds with
    | nil => intro h; rfl
    | cons d ds ih =>
      intro h
      simp only [List.map_cons, hlEventsS, hlAsk, List.nil_append]
      split
      · rfl
      · exact ih _
  cases h with
  | short => intro a ha; simp [hlEventsS] at ha
  | version => intro a ha; simp [hlEventsS] at ha
  | empty => intro a ha; simp [hlEventsS] at ha
  | unknown => intro a ha; simp [hlEventsS] at ha
  | @file hd ds a1 =>
    intro a ha
    simp only [hlEventsS, hlEvent, hlAsk, List.nil_append, none] at ha
    simp at ha
  | @dir hd _ evs owed a1 a2 a3 a4 a5 a6 a7 a8 a9 a10 =>
    intro a ha
    have p1 := specParse_heft ok 0 pieces.flatten
    have s1 := a8.heft
    rw [atHeft_append, ← evHeft_atoms] at s1
    simp only [hlEventsS, hlEvent, hlAsk, List.nil_append] at ha
    simp only [hlEvents, hlEvent]
    obtain ⟨g1, g2⟩ := hlEventsS_le os out evs _ (proto_inner evs .idle a10) a ha
    have hl : (hlDirStart os out (HL.init w)).pathLen ≤ out.length := by
      rcases hlDirStart_path os out w with h | h <;> rw [HL.pathLen, h] <;> simp
    rw [List.length_append]
    refine ⟨by omega, fun h' hh => ?_⟩
    have := g2 h' hh
    omega

/-! ### The archive of a tree -/

/-- Length of a path below the output directory. -/
def joinLen (L : List Bytes) : Nat := (L.map (fun x => x.length + 1)).sum

/-- Every file the atoms announce has a path below the directories `L` of at most `M` bytes. -/
def Reach (M : Nat) : List Bytes → List Atom → Prop
  | _, [] => True
  | L, .start .dir nm it :: as =>
    PlainName (nm.take (itNameLen it)) ∧ Reach M (L ++ [nm.take (itNameLen it)]) as
  | L, .start .file _ it :: as => joinLen L + itNameLen it ≤ M ∧ Reach M L as
  | L, .dirEnd :: as => Reach M L.dropLast as
  | L, _ :: as => Reach M L as

theorem Reach.left {M : Nat} {a b : List Atom} : ∀ {L : List Bytes}, Reach M L (a ++ b) → Reach M L a := by
  induction a with
  | nil => intro L _; trivial
  | cons x a ih =>
    intro L h
    cases x with
    | start ft nm it =>
      cases ft with
      | dir => exact ⟨h.1, ih h.2⟩
      | file => exact ⟨h.1, ih h.2⟩
      | _ => exact ih (L := L) h
    | dirEnd => exact ih (L := L.dropLast) h
    | _ => exact ih (L := L) h

theorem Reach.sfx {M : Nat} {a b : List Atom} (hs : LinkSfx a b) :
    ∀ {L : List Bytes}, Reach M L b → Reach M L a := by
  induction hs with
  | nil => intro L _; trivial
  | same x _ ih =>
    intro L h
    cases x with
    | start ft nm it =>
      cases ft with
      | dir => exact ⟨h.1, ih h.2⟩
      | file => exact ⟨h.1, ih h.2⟩
      | _ => exact ih (L := L) h
    | dirEnd => exact ih (L := L.dropLast) h
    | _ => exact ih (L := L) h
  | link _ _ ih => intro L h; exact ih (L := L) h

theorem Reach.bytes {M : Nat} {L : List Bytes} (c : Bytes) {as : List Atom} (h : Reach M L as) :
    Reach M L (c.map .byte ++ as) := by
  induction c with
  | nil => exact h
  | cons b c ih => exact ih

theorem AtomsOf.reach {f : Forest} {as : List Atom} (h : AtomsOf f as) (hf : f.proper) (M : Nat) :
    ∀ (L : List Bytes) (bs : List Atom), joinLen L + f.longest ≤ M → Reach M L bs →
      Reach M L (as ++ bs) := by
  induction h with
  | nil => intro L bs _ h; exact h
  | @file name p item content mode rest as h1 h2 h3 h4 h5 _ ih =>
    intro L bs hl hb
    simp only [Forest.longest] at hl
    refine ⟨by omega, ?_⟩
    show Reach M L ((content.map .byte ++ .fileEnd :: as) ++ bs)
    rw [List.append_assoc]
    exact Reach.bytes content (ih hf.2.2 L bs (by omega) hb)
  | link h1 h2 h3 _ ih =>
    intro L bs hl hb
    exact ih hf.2.2.2.2 L bs hl hb
  | @dir name p item mode sub rest as bs' h1 h2 h3 h4 _ _ ih1 ih2 =>
    intro L bs hl hb
    simp only [Forest.longest] at hl
    have e : (name ++ p).take (itNameLen item) = name := by
      rw [h2, List.take_left' rfl]
    refine ⟨by rw [e]; exact hf.1, ?_⟩
    rw [e]
    show Reach M (L ++ [name]) ((as ++ .dirEnd :: bs') ++ bs)
    rw [List.append_assoc]
    have hj : joinLen (L ++ [name]) = joinLen L + (name.length + 1) := by simp [joinLen]
    refine ih1 hf.2.2.1 _ _ (by omega) ?_
    show Reach M (L ++ [name]).dropLast (bs' ++ bs)
    rw [List.dropLast_concat]
    exact ih2 hf.2.2.2 L bs (by omega) hb

/-- Names behind each other, each after a slash. -/
def joinAll (L : List Bytes) : Bytes := L.flatMap (fun x => 47 :: x)

theorem joinAll_length (L : List Bytes) : (joinAll L).length = joinLen L := by
  induction L with
  | nil => rfl
  | cons x L ih =>
    have : joinAll (x :: L) = 47 :: x ++ joinAll L := by simp [joinAll]
    rw [this, List.length_append, ih]
    simp [joinLen]

theorem joinLen_sub {K L : List Bytes} (h : K.Sublist L) : joinLen K ≤ joinLen L := by
  induction h with
  | slnil => exact Nat.le_refl _
  | cons a _ ih => simp only [joinLen, List.map_cons, List.sum_cons] at ih ⊢; omega
  | cons_cons a _ ih => simp only [joinLen, List.map_cons, List.sum_cons] at ih ⊢; omega

/-- The path that is kept lies below the output path, or is shorter; it has no directories but the
open ones `L`. -/
def PathIn (out : Bytes) (L : List Bytes) (p : Bytes) : Prop :=
  ∃ base K, p = base ++ joinAll K ∧ base.length ≤ out.length ∧ 0 ∉ base ∧ K.Sublist L ∧
    ∀ x ∈ K, PlainName x

theorem PathIn.length {out p : Bytes} {L : List Bytes} (h : PathIn out L p) :
    p.length ≤ out.length + joinLen L := by
  obtain ⟨base, K, rfl, h1, _, h2, _⟩ := h
  have := joinLen_sub h2
  rw [List.length_append, joinAll_length]
  omega

theorem joinAll_no0 {K : List Bytes} (h : ∀ x ∈ K, PlainName x) : (0 : UInt8) ∉ joinAll K := by
  simp only [joinAll, List.mem_flatMap, List.mem_cons, not_exists, not_and, not_or]
  intro x hx
  exact ⟨by decide, (h x hx).2.2.2.2⟩

theorem PathIn.push {out p n : Bytes} {L : List Bytes} (h : PathIn out L p) (hn : PlainName n) :
    PathIn out (L ++ [n]) (p ++ 47 :: n) := by
  obtain ⟨base, K, rfl, h1, h0, h2, h3⟩ := h
  refine ⟨base, K ++ [n], ?_, h1, h0, h2.append_right _, ?_⟩
  · simp [joinAll]
  · intro x hx
    rcases List.mem_append.mp hx with hx | hx
    · exact h3 x hx
    · rw [List.mem_singleton.mp hx]; exact hn

theorem PathIn.pop {out p : Bytes} {L : List Bytes} {i : Nat} (h : PathIn out L p)
    (hi : lastIndexOf 47 (cString p) = some i) : PathIn out L.dropLast (p.take i) := by
  obtain ⟨base, K, rfl, h1, h0, h2, h3⟩ := h
  have hz : (0 : UInt8) ∉ base ++ joinAll K := by
    simp only [List.mem_append, not_or]; exact ⟨h0, joinAll_no0 h3⟩
  rw [cString_plain _ hz] at hi
  rcases List.eq_nil_or_concat K with rfl | ⟨K', x, rfl⟩
  · refine ⟨base.take i, [], by simp [joinAll], ?_, fun hm => h0 (List.mem_of_mem_take hm),
      List.nil_sublist _, by simp⟩
    rw [List.length_take]; omega
  · rw [List.concat_eq_append] at h2 h3 hi ⊢
    have hx := h3 x (by simp)
    have e : base ++ joinAll (K' ++ [x]) = (base ++ joinAll K') ++ 47 :: x := by simp [joinAll]
    rw [e, lastIndexOf_append _ _ _ hx.2.2.2.1] at hi
    cases hi
    refine ⟨base, K', by rw [e, List.take_left' rfl], h1, h0, ?_, fun y hy => h3 y (by simp [hy])⟩
    have := h2.reverse.tail
    rw [List.reverse_append, List.reverse_singleton, List.singleton_append, List.tail_cons] at this
    have := this.reverse
    rwa [List.reverse_reverse, ← List.dropLast_reverse, List.reverse_reverse] at this

theorem Reach.dropBytes {M : Nat} {L : List Bytes} (c : Bytes) {as : List Atom}
    (h : Reach M L (c.map .byte ++ as)) : Reach M L as := by
  induction c with
  | nil => exact h
  | cons b c ih => exact ih h

/-- The path that is kept, through the callbacks. -/
theorem hlEventsS_reach (os : Os) (out : Bytes) (M : Nat) (evs : List Ev) :
    ∀ (h : HL) (L : List Bytes), (∀ e ∈ evs, e.inner) → Reach M L (atoms evs) →
    PathIn out L (h.dirPath.getD []) →
    ∀ a ∈ (hlEventsS os out h evs).1, a ≤ out.length + 4 + M := by
  induction evs with
  | nil => intro h L _ _ _ a ha; simp [hlEventsS] at ha
  | cons e evs ih =>
    intro h L hi hr hp a ha
    rw [atoms_cons] at hr
    simp only [hlEventsS] at ha
    have hask : ∀ a ∈ hlAsk h e, a ≤ out.length + 4 + M := by
      intro a ha
      cases e with
      | itemStart ft nm it =>
        cases ft with
        | file =>
          simp only [hlAsk, List.mem_singleton] at ha
          have := hr.1
          have := hp.length
          omega
        | _ => simp [hlAsk] at ha
      | _ => simp [hlAsk] at ha
    cases hx : hlEvent os out h e with
    | error x => rw [hx] at ha; exact hask a ha
    | ok h1 =>
      rw [hx] at ha
      simp only at ha
      rcases List.mem_append.mp ha with ha | ha
      · exact hask a ha
      · have hi' : ∀ e ∈ evs, e.inner := fun e he => hi e (List.mem_cons_of_mem _ he)
        have same : ∀ L', Reach M L' (atoms evs) → PathIn out L' (h1.dirPath.getD []) →
            a ≤ out.length + 4 + M := fun L' r p => ih h1 L' hi' r p a ha
        rcases hlEvent_path os out h h1 e (hi e List.mem_cons_self) hx with
          g | ⟨nm, it, rfl, g1, g2⟩ | ⟨rfl, p, i, g1, g2, g3⟩
        · -- a directory that is not entered for lack of memory is left all the same
          rw [← g] at hp
          cases e with
          | itemStart ft nm it =>
            cases ft with
            | dir =>
              refine same _ hr.2 ?_
              obtain ⟨base, K, k1, k2, k3, k4, k5⟩ := hp
              exact ⟨base, K, k1, k2, k3, k4.trans (List.sublist_append_left _ _), k5⟩
            | file => exact same L hr.2 hp
            | _ => exact same L hr hp
          | dirEnd =>
            obtain ⟨p, i, q1, q2, q3⟩ : ∃ p i, h.dirPath = some p ∧
                lastIndexOf 47 (cString p) = some i ∧ h1.dirPath = some (p.take i) := by
              simp only [hlEvent, hlDirEnd] at hx
              split at hx
              · simp at hx
              · rename_i p hpp
                split at hx
                · simp at hx
                · rename_i i hl
                  cases hx
                  exact ⟨p, i, hpp, hl, rfl⟩
            rw [g, q1] at hp
            refine same _ hr ?_
            rw [q3]
            exact hp.pop q2
          | fileRead d => exact same L (Reach.dropBytes d hr) hp
          | flRead d => exact same L (Reach.dropBytes d hr) hp
          | _ => exact same L hr hp
        · refine same _ hr.2 ?_
          rw [g2]
          exact hp.push hr.1
        · refine same _ hr ?_
          rw [g1] at hp
          rw [g3]
          exact hp.pop g2

/-- The sizes asked for while a beginning of the archive of a tree is extracted. -/
theorem log_tree_asks {junk t : Bytes} {f : Forest} (hj : junk.length = 120) (he : Encodes f t)
    (ok : AllocOracle) (hf : f.proper) {P : Bytes} {pieces : List Bytes}
    {log : List Ev} {B : Nat} (hP : P <+: headerBytes 0 1 junk ++ t) (h : ArchiveLog ok B P pieces log)
    (os : Os) (out : Bytes) (h0 : 0 ∉ out) (w : World) :
    ∀ a ∈ (hlEventsS os out (HL.init w) log).1, a ≤ out.length + 4 + f.longest := by
  obtain ⟨e1, e2, e3⟩ := C02_header_roundtrip 0 1 junk hj (by decide) (by decide)
  have e1' : (headerBytes 0 1 junk).length = 128 := e1
  have hdr : 128 ≤ P.length → P.take 128 = headerBytes 0 1 junk := by
    intro h
    rw [(take_header hP h).1, List.take_left' e1']
  cases h with
  | short h => intro a ha; simp [hlEventsS] at ha
  | version h1 h2 => intro a ha; simp [hlEventsS] at ha
  | empty h1 h2 => intro a ha; simp [hlEventsS] at ha
  | unknown h1 h2 h3 => intro a ha; simp [hlEventsS] at ha
  | @file hd _ h1 h2 h3 =>
    have := hdr (by rw [List.length_append]; omega)
    rw [List.take_left' h1] at this
    rw [this, e3] at h3
    exact absurd h3 (by decide)
  | @dir hd _ evs owed h1 h2 h3 h4 h5 h6 h7 h8 h9 h10 h11 h12 =>
    have hhd : hd = headerBytes 0 1 junk := by
      have := hdr (by rw [List.length_append]; omega)
      rwa [List.take_left' h1] at this
    subst hhd
    have hc : pieces.flatten <+: t := (List.prefix_append_right_inj _).mp hP
    obtain ⟨as, p2, p1⟩ := he.atomsAny
    have hpre := p1 ok 0 _ hc
    have hr : Reach f.longest [] as := by
      have := p2.reach hf f.longest [] [] (by simp [joinLen]) trivial
      rwa [List.append_nil] at this
    obtain ⟨v, hv⟩ := hpre
    rw [← hv] at hr
    have hr' : Reach f.longest [] (atoms evs) := (hr.left.sfx h8).left
    intro a ha
    simp only [hlEventsS, hlEvent, hlAsk, List.nil_append] at ha
    refine hlEventsS_reach os out f.longest evs _ [] (proto_inner evs .idle h10) hr' ?_ a ha
    rcases hlDirStart_path os out w with h | h <;> rw [h]
    · exact ⟨[], [], rfl, by simp, by simp, List.nil_sublist _, by simp⟩
    · exact ⟨out, [], by simp [joinAll], Nat.le_refl _, h0, List.nil_sublist _, by simp⟩

end Zwt
