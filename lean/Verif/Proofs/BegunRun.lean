import Verif.Proofs.BegunLog
import Verif.Props.HLRound
import Verif.Proofs.Disk

/-! What is on the disk after the callbacks for the beginning of an archive. -/

namespace Zwt

/-- As `extract_codes`, also where the header is not complete. -/
theorem extract_codes_any {Z : Inflater} {plain : Bytes → Bytes} (C : InflateOK Z plain) (hF : C.Final)
    (ok : AllocOracle) (hdr item : Bytes)
    (hh : hdr.length = 128) (hi : item.length = 40) (os : Os) (out : Bytes) (w : World) (n : Nat)
    (inp : Input) (hO : Open plain (allowed n 0 inp.data))
    (hv : 128 ≤ (plain (allowed n 0 inp.data)).length →
      hdrVersion ((plain (allowed n 0 inp.data)).take 128) = 0) :
    ∃ n0, ∀ fuel r, n0 ≤ fuel → extract Z os ok fuel hdr item out n inp w = .ok r →
      ∀ c ∈ r.codes, c = Z_OK := by
  obtain ⟨n0, X, hX, hrun⟩ := extract_end C ok hdr item hh hi os out w n inp
  refine ⟨n0, fun fuel r hf hr => ?_⟩
  rw [hrun fuel hf] at hr
  subst hr
  have key : ∀ {l : LL Z} {s : Sess} {g : Bytes}, SInv C ok item DEF_CHUNK_SIZE l s ([] ++ g) →
      g <+: allowed n 0 inp.data → ∀ c ∈ l.rets, c = Z_OK := by
    intro l s g D hp
    rw [List.nil_append] at D
    obtain ⟨t, ht⟩ := hp
    rw [← ht] at hO hv
    refine D.codes hF (hO.left C) ?_
    intro h h1 h2
    obtain ⟨u, hu⟩ := h2.trans (C.mono g t)
    have hv := hv (by rw [← hu, List.length_append]; omega)
    rwa [← hu, List.take_left' h1] at hv
  cases hX with
  | stop hS _ hp => exact key hS hp
  | readErr hS _ hp => exact key hS hp

/-- The callbacks of a beginning of an archive, carried out. -/
theorem begun_run (os : Os) (hq : os.quiet) (w : World) (ht : w.fs.tree) (pre : Bytes)
    (h0 : 0 ∉ pre) (d : Loc) (hd : InDir os w pre d) (ho : OpenDir os w.fs d) (n : Bytes)
    (ns : List Bytes) (hn : ∀ x ∈ n :: ns, PlainName x) (hnew : w.fs (d ++ [n]) = none)
    (hen : Enterable os (dirMode os 0o775)) (hlen : ns.length ≤ 61) {f g : Forest} {t u : Bytes}
    (hb : Begun f g t u) (hf : f.proper) (hfe : f.enterable os) (hfl : f.noLinks) {e1 e2 rest : List Ev}
    {more : List Atom} (hev : EvsOf f (e1 ++ e2 ++ rest)) (hg : EvsOf g (e1 ++ canon more))
    (hm : ∀ a ∈ more, (∃ ft nm it, a = .start ft nm it) ∨ a = .fileEnd ∨ a = .dirEnd) :
    ∃ h', hlEvents os (pre ++ joinNames (n :: ns)) (HL.init w) (.drStart :: (e1 ++ e2)) = .ok h' ∧
      h'.hasError = false ∧
      (∀ q m c, g.lookup os q = some (.file m c) → c ≠ [] →
        h'.w.fs (d ++ n :: ns ++ q) = some (.file m c)) ∧
      ((∀ a ∈ more, a = .dirEnd) → ∀ q a, g.lookup os q = some a → h'.w.fs (d ++ n :: ns ++ q) = some a) := by
  have fresh := fun evs rest he => tree_fresh os hq w ht pre h0 d hd ho n ns hn hnew hen hlen hf hfe
    (evs := evs) (rest := rest) (.inl hfl) he
  have freshG := fun evs rest he => tree_fresh os hq w ht pre h0 d hd ho n ns hn hnew hen hlen
    (hb.proper hf) (hb.enterable hfe) (evs := evs) (rest := rest) (.inl (hb.noLinks hfl)) he
  obtain ⟨h', r1, r2, _⟩ := fresh (e1 ++ e2) rest hev
  obtain ⟨hF, f1, _, f3⟩ := fresh (e1 ++ e2 ++ rest) [] (by simpa using hev)
  obtain ⟨_, _, f6⟩ := f3 rfl
  obtain ⟨hM, m1, _⟩ := freshG e1 (canon more) hg
  obtain ⟨hG, g1, _, g3⟩ := freshG (e1 ++ canon more) [] (by simpa using hg)
  obtain ⟨_, _, g6⟩ := g3 rfl
  have hMG : hlEvents os (pre ++ joinNames (n :: ns)) hM (canon more) = .ok hG := by
    rw [← List.cons_append, hlEvents_append, m1] at g1; exact g1
  have hM' : hlEvents os (pre ++ joinNames (n :: ns)) hM e2 = .ok h' := by
    rw [← List.cons_append, hlEvents_append, m1] at r1; exact r1
  have hF' : hlEvents os (pre ++ joinNames (n :: ns)) h' rest = .ok hF := by
    rw [← List.cons_append, hlEvents_append, r1] at f1; exact f1
  have adds := tree_fresh_adds os hq w ht pre h0 d hd ho n ns hn hnew hen hlen hf hfe (.inl hfl) hev
  -- the calls after the first part only add
  have a1 : hM.w.fs.partOf h'.w.fs := by
    have a := adds
    rw [List.append_assoc, ← List.cons_append, AddsAll, hlEventsP_append, all_andThen, hlEventsP_ok m1] at a
    have a' := a.2 _ rfl
    rw [hlEventsP_append, all_andThen] at a'
    have := (Prog.between os 0 _ _ a'.1).2
    rw [hlEventsP_ok hM'] at this
    exact this
  have a2 : h'.w.fs.partOf hF.w.fs := by
    have a := adds
    rw [← List.cons_append, AddsAll, hlEventsP_append, all_andThen, hlEventsP_ok r1] at a
    have := (Prog.between os 0 _ _ (a.2 _ rfl)).2
    rw [hlEventsP_ok hF'] at this
    exact this
  have key : ∀ q a, g.lookup os q = some a → hM.w.fs (d ++ n :: ns ++ q) = some a →
      h'.w.fs (d ++ n :: ns ++ q) = some a := by
    intro q a hl hMq
    obtain ⟨x, q, rfl, _⟩ := Forest.lookup_head hl
    have hend := f6.2.1 x q
    rw [hb.lookup _ _ hl] at hend
    obtain ⟨b, b1, b2⟩ := a1 _ _ hMq
    obtain ⟨c, c1, c2⟩ := a2 _ _ b1
    rw [hend] at c1
    cases c1
    rw [b1, c2.antisymm b2]
  refine ⟨h', r1, r2, ?_, ?_⟩
  · intro q m c hl hc
    refine key q _ hl ?_
    obtain ⟨x, q, rfl, _⟩ := Forest.lookup_head hl
    exact canon_empty more hM hG hm hMG _ _ _ (by rw [g6.2.1 x q]; exact hl) hc
  · intro hall q a hl
    refine key q _ hl ?_
    obtain ⟨x, q, rfl, _⟩ := Forest.lookup_head hl
    rw [← canon_ends more hM hG hall hMG, g6.2.1 x q]; exact hl

end Zwt
