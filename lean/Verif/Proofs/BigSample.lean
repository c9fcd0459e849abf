import Verif.Proofs.FirstBlock
import Verif.Proofs.Relink
import Verif.Proofs.Sample
import Verif.Spec.Toy
import Verif.Props.HLRound
import Verif.Props.Accept

/-! A tree with a link whose target lies across the 512 KiB boundary of its archive. -/

namespace Zwt.BigSample

open HLSample

/-- Content of the file before the link. -/
def zeros : Bytes := List.replicate 524048 0

/-- A big file `a` and a link `l` with target `t`. -/
def tree (t : Bytes) : Forest := .file [97] 0o644 zeros (.link [108] 0o777 t .nil)

/-- The records before the target. -/
def front (n : Nat) : Bytes :=
  item 0 524048 1 0o644 ++ [97] ++ pad 1 ++ zeros ++ pad 524048 ++ (item 4 n 1 0o777 ++ [108] ++ pad 1)

theorem zeros_length : zeros.length = 524048 := List.length_replicate

theorem encode_tree (t : Bytes) : encode (tree t) = front t.length ++ t ++ pad t.length := by
  simp only [tree, encode, front, zeros_length, List.length_cons, List.length_nil, List.append_nil,
    List.append_assoc, Nat.zero_add]

theorem fits_tree (t : Bytes) (h : t.length < 2 ^ 31) : fits (tree t) = true := by
  simp only [tree, fits, zeros_length, List.length_cons, List.length_nil, Bool.and_eq_true,
    decide_eq_true_eq]
  exact ⟨⟨⟨by decide, by decide⟩, by decide⟩, ⟨⟨by decide, by decide⟩, by omega⟩, trivial⟩

theorem item_length (k s nl m : Nat) (hk : k < 2 ^ 8) (hs : s < 2 ^ 63) (hn : nl < 2 ^ 31)
    (hm : m < 2 ^ 32) : (item k s nl m).length = 40 := (item_fields k s nl m hk hs hn hm).1

theorem front_length (n : Nat) (h : n < 2 ^ 31) : (front n).length = 524152 := by
  have h1 := item_length 0 524048 1 0o644 (by decide) (by decide) (by decide) (by decide)
  have h2 := item_length 4 n 1 0o777 (by decide) (by omega) (by decide) (by decide)
  simp only [front, List.length_append, h1, h2, zeros_length, pad, List.length_replicate,
    List.length_cons, List.length_nil]

theorem tree_proper (t : Bytes) (h1 : t ≠ []) (h2 : 0 ∉ t) : (tree t).proper :=
  ⟨by decide, by simp [Forest.names], by decide, by simp [Forest.names], h1, h2, trivial⟩

/-- A byte that occurs in one place only. -/
theorem once {x : UInt8} {a b c d : Bytes} (h1 : x ∉ a) (h2 : x ∉ b)
    (h : a ++ x :: b = c ++ x :: d) : a = c := by
  induction a generalizing c with
  | nil =>
    cases c with
    | nil => rfl
    | cons y c =>
      simp only [List.nil_append, List.cons_append, List.cons.injEq] at h
      exact absurd (h.2 ▸ List.mem_append_right _ List.mem_cons_self) h2
  | cons y a ih =>
    cases c with
    | nil =>
      simp only [List.nil_append, List.cons_append, List.cons.injEq] at h
      exact absurd (h.1 ▸ List.mem_cons_self) h1
    | cons z c =>
      simp only [List.cons_append, List.cons.injEq] at h
      rw [h.1, ih (fun hx => h1 (List.mem_cons_of_mem _ hx)) h.2]

theorem zeros_mem {x : UInt8} (h : x ∈ zeros) : x = 0 := List.eq_of_mem_replicate h

theorem cwdOk : CwdOk os (world []).fs (world []).cwd := by
  refine ⟨by decide +kernel, by decide +kernel, ?_⟩
  intro l hl
  have : l = [] ∨ l = [[104]] ∨ l = [[104], [119]] := by
    obtain ⟨t, ht⟩ := hl
    have ht' : l ++ t = [[104], [119]] := ht
    match l with
    | [] => exact .inl rfl
    | [a] => simp at ht'; exact .inr (.inl (by rw [ht'.1]))
    | [a, b] => simp at ht'; exact .inr (.inr (by rw [ht'.1, ht'.2.1]))
    | a :: b :: c :: l => simp at ht'
  rcases this with rfl | rfl | rfl <;> decide +kernel

end Zwt.BigSample

namespace Zwt

/-- Where link targets are found. -/
theorem ArchiveLog.target {ok : AllocOracle} {B : Nat} {P : Bytes} {pieces : List Bytes}
    {evs : List Ev} (h : ArchiveLog ok B P pieces (.drStart :: evs)) {t a : Bytes}
    (hm : .symLink t a ∈ evs) (ht : t ≠ []) : ∃ (n : Nat) (u : Bytes), pieces[n]? = some (u ++ t ++ a) := by
  generalize hl : Ev.drStart :: evs = log at h
  cases h with
  | file => cases hl
  | dir _ _ _ _ _ _ _ _ _ _ h11 =>
    cases hl
    obtain ⟨n, u, _, h1, _⟩ := h11 t a hm ht
    exact ⟨n, u, h1⟩
  | _ => cases hl

theorem ArchiveLog.content {ok : AllocOracle} {B : Nat} {P : Bytes} {pieces : List Bytes}
    {evs : List Ev} (h : ArchiveLog ok B P pieces (.drStart :: evs)) :
    pieces.flatten = P.drop 128 := by
  generalize hl : Ev.drStart :: evs = log at h
  cases h with
  | file => cases hl
  | dir h1 => rw [List.drop_left' h1]
  | _ => cases hl

/-- Between the ends of a buffer no other buffer ends. -/
theorem boundary {ps : List Bytes} {n k : Nat} {b : Bytes} (h : ps[n]? = some b) :
    (ps.take k).flatten.length ≤ (ps.take n).flatten.length ∨
      (ps.take n).flatten.length + b.length ≤ (ps.take k).flatten.length := by
  have mono : ∀ {i j : Nat}, i ≤ j → (ps.take i).flatten.length ≤ (ps.take j).flatten.length := by
    intro i j hij
    obtain ⟨d, rfl⟩ := Nat.le.dest hij
    rw [List.take_add, List.flatten_append, List.length_append]
    omega
  have hs : (ps.take (n+1)).flatten.length = (ps.take n).flatten.length + b.length := by
    rw [List.take_add_one, h]; simp
  rcases Nat.lt_or_ge n k with hk | hk
  · right; rw [← hs]; exact mono hk
  · left; exact mono hk

end Zwt

namespace Zwt.BigSample

open HLSample

/-- The archive. -/
def arc (t : Bytes) : Bytes := dirArc (tree t)

/-- What is known of a run on the archive that ends without fault. -/
structure Ends (t : Bytes) (r : Extracted) (s a : Bytes) (evs : List Ev) (h : HL) : Prop where
  same : r.w = h.w
  ran : hlEvents os [111] (HL.init (world [])) (.drStart :: evs) = .ok h
  sfx : s <:+ t
  ne : s ≠ []
  made : EvsOf (tree s) (evs.map Ev.closed)
  has : Ev.symLink s a ∈ evs
  place : ∃ (n : Nat) (u : Bytes), r.pieces[n]? = some (u ++ s ++ a)
  whole : r.pieces.flatten = encode (tree t)
  cut : ∃ k, (r.pieces.take k).flatten.length = 524160
  landed : Landed os (world []).fs r.w.fs [[104], [119]] [111] [] (tree s)

theorem fresh {f : Forest} (hf : f.proper) (hfe : f.enterable os) {evs rest : List Ev}
    (he : EvsOf f (evs ++ rest)) :
    ∃ h', hlEvents os [111] (HL.init (world [])) (.drStart :: evs) = .ok h' ∧
      h'.hasError = false ∧
      (rest = [] → h'.ret = CT_DIRECTORY ∧ h'.w.cwd = (world []).cwd ∧
        Landed os (world []).fs h'.w.fs [[104], [119]] [111] [] f) :=
  tree_fresh os os_quiet (world []) world_tree [] (by simp) [[104], [119]] .rel
      ⟨0o755, by decide +kernel, .inr (by decide)⟩ [111] [] (by decide +kernel) (by decide +kernel)
      (.inr (by decide)) (by decide) hf hfe (.inr cwdOk) he

theorem split_evs {s : Bytes} {es : List Ev} (h : EvsOf (tree s) es) :
    ∃ pre nm' item' after, es = pre ++ [.itemStart .symlink nm' item', .symLink s after] ∧
      EvsOf (.file [97] 0o644 zeros .nil) pre ∧ ∀ e ∈ pre, ∀ t, e ≠ .symLink t [0] := by
  generalize hfo : tree s = fo at h
  cases h with
  | nil => cases hfo
  | link => cases hfo
  | dir => cases hfo
  | @file name nm item content mode ds rest evs' a1 a2 a3 a4 a5 hev =>
  simp only [tree, Forest.file.injEq] at hfo
  obtain ⟨rfl, rfl, rfl, rfl⟩ := hfo
  cases hev with
  | @link name nm' item' target after mode rest evs'' b1 b2 b3 hev =>
  cases hev
  refine ⟨.itemStart .file nm item :: (ds.map .fileRead ++ .fileEnd :: []), nm', item', after,
    by simp, .file a1 a2 a3 a4 a5 .nil, ?_⟩
  intro e he t
  simp only [List.mem_cons, List.mem_append, List.mem_map, List.not_mem_nil, or_false] at he
  rcases he with rfl | ⟨_, _, rfl⟩ | rfl <;> simp

theorem run_ends (t : Bytes) (h0 : 0 ∉ t) (h8 : 8 ≤ t.length) (h2 : t.length < 2 ^ 31) :
    ∃ n0, ∀ fuel r, n0 ≤ fuel → extract copyI os (fun _ _ => true) fuel hdrMem itemMem [111] 0
      ⟨arc t, false⟩ (world []) = .ok r → ∃ s a evs h, Ends t r s a evs h := by
  have hne : t ≠ [] := by intro h; rw [h] at h8; simp at h8
  have hE := encodes (tree t) (fits_tree t h2)
  have hj : (List.replicate 120 (0xEE : UInt8)).length = 120 := List.length_replicate
  obtain ⟨hH, hHv, hHk⟩ := C02_header_roundtrip 0 1 _ hj (by decide) (by decide)
  have hlen : (encode (tree t)).length = 524152 + t.length + (8 - t.length % 8) := by
    rw [encode_tree, List.length_append, List.length_append, front_length _ h2, pad,
      List.length_replicate]
  have hal : ∀ d : Bytes, allowed 0 0 d = d := fun d => by simp [allowed]
  have hcat : arc t = headerBytes 0 1 (List.replicate 120 0xEE) ++ encode (tree t) := rfl
  generalize hHd : headerBytes 0 1 (List.replicate 120 0xEE) = H at hH hHv hHk hcat
  replace hH : H.length = 128 := hH
  have harcl : (arc t).length = 128 + (524152 + t.length + (8 - t.length % 8)) := by
    rw [hcat, List.length_append, hH, hlen]
  have ht128 : ((arc t).take 524288).take 128 = H := by
    rw [List.take_take, hcat]
    exact List.take_left' hH
  have htl : ((arc t).take 524288).length = 524288 := by rw [List.length_take]; omega
  have hOpen : ∀ c, Open id c := fun c => ⟨[0], by simp⟩
  obtain ⟨n1, hfirst⟩ := extract_first copyIOK rfl copyIOK_final (fun _ _ => true) hdrMem itemMem
    List.length_replicate List.length_replicate os [111] (world []) 0 (arc t)
    (by rw [hal]; omega) (hOpen _) (copyIOK_prompt _)
    (by rw [hal]; show hdrVersion (((arc t).take 524288).take 128) = 0; rw [ht128]; exact hHv)
    (by rw [hal]; show hdrKind (((arc t).take 524288).take 128) = _; rw [ht128]; exact hHk)
    (by rw [hal]; show 128 < ((arc t).take 524288).length; omega)
  obtain ⟨n2, X, e1, e2, _⟩ := extract_ends copyIOK (fun _ _ => true) hdrMem itemMem
    List.length_replicate List.length_replicate os [111] (world []) 0 ⟨arc t, false⟩
  obtain ⟨n3, hcodes⟩ := extract_codes copyIOK copyIOK_final (fun _ _ => true) hdrMem itemMem
    List.length_replicate List.length_replicate os [111] (world []) 0 ⟨arc t, false⟩
    (hOpen _) (by
      show hdrVersion ((allowed 0 0 (arc t)).take 128) = 0
      rw [hal, hcat, List.take_left' hH]; exact hHv)
  refine ⟨max n1 (max n2 n3), fun fuel r hf hr => ?_⟩
  obtain ⟨P, log, h, Dn⟩ := e2 r (by rw [← e1 fuel (by omega)]; exact hr)
  have hpre := Dn.pre
  rw [show id (allowed 0 0 (Input.mk (arc t) false).data) = arc t from hal _, hcat] at hpre
  have hproper := tree_proper t hne h0
  have hfull : r.hasError = false → P = H ++ encode (tree t) := by
    intro herr
    have hne' : allowed 0 0 (arc t) ≠ [] := by
      intro h; rw [hal] at h; rw [h] at harcl; simp at harcl; omega
    rcases Dn.full rfl herr (hcodes fuel r (by omega) hr) (.inr (copyIOK_prompt _)) (.inl hne') with
      q | ⟨q, q'⟩
    · rw [q, ← hcat]; exact hal _
    · rw [(take_header hpre q).1, List.take_left' hH] at q'
      exact absurd hHv q'
  rw [← hHd] at hpre hfull
  rcases log_relinked hj hE (fun _ _ => true) (fun _ _ => rfl) hproper hpre Dn.arch with
    ⟨rfl, q⟩ | ⟨g, evs, rest, k1, _, rfl, hev, hrest⟩
  · have hrun := Dn.run
    cases hrun
    have := q (hfull Dn.error)
    rw [this] at hlen; simp at hlen; omega
  · have hte : (tree t).enterable os := trivial
    obtain ⟨h', g1, g2, g3⟩ := fresh (k1.proper hproper) (k1.enterable os hte) hev
    rcases hlEvents_closed os [111] (.drStart :: evs) (HL.init (world [])) with q | q
    · have g1' : hlEvents os [111] (HL.init (world [])) ((.drStart :: evs).map Ev.closed) = .ok h' := g1
      rw [Dn.run, g1'] at q
      cases q
      have hP := hfull (Dn.error.trans g2)
      have hr0 := hrest hP
      subst hr0
      rw [List.append_nil] at hev
      obtain ⟨_, _, hland⟩ := g3 rfl
      cases k1 with
      | file k1 =>
        cases k1 with
        | @link _ _ s _ _ _ hs hsne k1 =>
          cases k1
          have hmem : ∃ a, Ev.symLink s a ∈ evs := by
            have : ∃ a, Ev.symLink s a ∈ evs.map Ev.closed := by
              obtain ⟨pre, nm', item', after, he, _⟩ := split_evs hev
              exact ⟨after, by rw [he]; simp⟩
            obtain ⟨a, ha⟩ := this
            obtain ⟨e, he, hc⟩ := List.mem_map.mp ha
            unfold Ev.closed at hc
            split at hc
            · cases hc; exact ⟨_, he⟩
            · subst hc; exact ⟨a, he⟩
          obtain ⟨a, ha⟩ := hmem
          refine ⟨s, a, evs, h, Dn.world, Dn.run, hs, hsne, hev, ha,
            Dn.arch.target ha hsne, ?_, ?_, by rw [Dn.world]; exact hland⟩
          · rw [Dn.arch.content, hP, hHd, List.drop_left' hH]
          · obtain ⟨k, hk⟩ := hfirst fuel r (by omega) hr
            refine ⟨k, ?_⟩
            rw [hk, hal]
            show (((arc t).take 524288).drop 128).length = _
            rw [List.length_drop, htl]
    · rw [Dn.run] at q; cases q

theorem closed_eq {e e' : Ev} (h : e.closed = e') (hn : ∀ t, e' ≠ .symLink t [0]) : e = e' := by
  unfold Ev.closed at h
  split at h
  · exact absurd h.symm (hn _)
  · exact h

theorem closed_map {es es' : List Ev} (h : es.map Ev.closed = es')
    (hn : ∀ e ∈ es', ∀ t, e ≠ .symLink t [0]) : es = es' := by
  induction es generalizing es' with
  | nil => exact h
  | cons e es ih =>
    cases es' with
    | nil => cases h
    | cons e' es' =>
      rw [List.map_cons, List.cons.injEq] at h
      rw [closed_eq h.1 (hn _ List.mem_cons_self),
        ih h.2 (fun x hx => hn x (List.mem_cons_of_mem _ hx))]

/-- A target that ends with its buffer is read beyond. -/
theorem no_link {t s : Bytes} {r : Extracted} {evs : List Ev} {h : HL} (h0 : 0 ∉ t)
    (E : Ends t r s [] evs h) : False := by
  have hs0 : 0 ∉ s := fun hx => h0 (E.sfx.mem hx)
  obtain ⟨pre, nm', item', after, he, hfile, hpre⟩ := split_evs E.made
  obtain ⟨e1, e2, rfl, q1, q2⟩ := List.map_eq_append_iff.mp he
  have q1' := closed_map q1 hpre
  subst q1'
  rw [← List.append_nil e1] at hfile
  obtain ⟨h1, f1, _, f3⟩ := fresh (f := .file [97] 0o644 zeros .nil)
    ⟨by decide, by simp [Forest.names], trivial⟩ trivial hfile
  obtain ⟨_, _, f4⟩ := f3 rfl
  obtain ⟨i, l, rfl⟩ : ∃ i l, e2 = [i, l] := by
    have := congrArg List.length q2
    rw [List.length_map] at this
    match e2, this with
    | [i, l], _ => exact ⟨i, l, rfl⟩
  simp only [List.map_cons, List.map_nil, List.cons.injEq, and_true] at q2
  have hi := closed_eq q2.1 (by simp)
  have hl : l = .symLink s [] := by
    have := E.has
    rw [List.mem_append] at this
    rcases this with k | k
    · exfalso
      have k' : Ev.symLink s [0] ∈ e1.map Ev.closed := List.mem_map.mpr ⟨_, k, rfl⟩
      rw [q1] at k'
      exact hpre _ k' s rfl
    · rw [hi, List.mem_cons, List.mem_singleton] at k
      rcases k with k | k
      · cases k
      · exact k.symm
  subst hi hl
  have hrun := E.ran
  rw [← List.cons_append, hlEvents_append, f1] at hrun
  have hk : h.w.fs = h1.w.fs := by
    simp only [hlEvents, hlEvent, hlItemStart] at hrun
    have hc : cstr? (s ++ []) = none := by rw [List.append_nil, cstr?, if_neg hs0]
    generalize hx : ({ h1 with name := some nm' } : HL) = hx1 at hrun
    have hfs : hx1.w.fs = h1.w.fs := by rw [← hx]
    rw [← hfs]
    clear hx hfs f1 f4 f3
    cases hS : hlSymLink os hx1 s [] with
    | error e => rw [hS] at hrun; cases hrun
    | ok h2 =>
      rw [hS] at hrun
      cases hrun
      have hg : (sysGetcwd os hx1.w CWD_SIZE).2.fs = hx1.w.fs := by
        simp only [sysGetcwd]
        split
        · rfl
        · split <;> rfl
      simp only [hlSymLink, hc] at hS
      generalize sysGetcwd os hx1.w CWD_SIZE = gc at hS hg
      obtain ⟨o, w⟩ := gc
      cases o with
      | none => cases hS; exact hg
      | some old =>
        cases hd : hx1.dirPath with
        | none => rw [hd] at hS; cases hS; exact hg
        | some dir =>
          rw [hd] at hS
          dsimp only at hS
          have hch := sysChdir_fs os w (cString dir)
          generalize sysChdir os w (cString dir) = cd at hS hch
          obtain ⟨b, w2⟩ := cd
          cases b with
          | false => cases hS; exact hch.trans hg
          | true =>
            cases hn : hx1.name with
            | none => rw [hn] at hS; cases hS
            | some name => rw [hn] at hS; cases hS
  have g1 := E.landed.2.1 [108] []
  have g2 := f4.2.1 [108] []
  rw [E.same, hk, g2] at g1
  simp [tree, Forest.lookup] at g1

end Zwt.BigSample
