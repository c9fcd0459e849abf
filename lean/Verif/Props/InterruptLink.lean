import Verif.Proofs.ConcClosed
import Verif.Proofs.BigSample
import Verif.Props.Interrupt

/-! C76: interrupted extraction of trees with links. -/

namespace Zwt

variable {Z : Inflater} {plain : Bytes → Bytes}

/-- C76 with links: an extraction of the archive of any tree or of a beginning of it, to a path whose
directories do not exist yet, that is interrupted after any number of calls (or by the fault of reading
beyond the buffer at the end of a link target), leaves a part of a tree: of the archived one, or of one
that differs from it in link targets that lack their beginnings.  Every directory has its mode, every
file its mode and a beginning of its content, at most one of them incomplete; what was on the disk before is still there, and nothing
else is. -/
theorem C76_interrupted_links (C : InflateOK Z plain) (ok : AllocOracle) (hok : ∀ k n, ok k n = true)
    (hdr item : Bytes) (hh : hdr.length = 128) (hi : item.length = 40)
    (os : Os) (hq : os.quiet) (w : World) (ht : w.fs.tree) (pre : Bytes)
    (h0 : 0 ∉ pre) (d : Loc) (hd : InDir os w pre d) (ho : OpenDir os w.fs d) (n : Bytes)
    (ns : List Bytes) (hn : ∀ x ∈ n :: ns, PlainName x) (hnew : w.fs (d ++ [n]) = none)
    (hen : Enterable os (dirMode os 0o775)) (hlen : ns.length ≤ 61) {f : Forest} (hf : f.proper)
    (hfe : f.enterable os) (hcwd : CwdOk os w.fs w.cwd) {junk t : Bytes} (hj : junk.length = 120)
    (he : Encodes f t) (size : Nat) (inp : Input)
    (harc : plain (allowed size 0 inp.data) <+: headerBytes 0 1 junk ++ t) :
    ∃ n0, ∀ fuel, n0 ≤ fuel → ∀ k,
      let now := ((extractP Z ok fuel hdr item (pre ++ joinNames (n :: ns)) size inp).after os k w).2.fs
      ∃ g final, Relinked f g ∧ Landed os w.fs final d n ns g ∧
        w.fs.partOf now ∧ now.partOf final ∧ (∀ l, final l = w.fs l → now l = w.fs l) ∧ now.nearly final := by
  have fresh := fun (g : Forest) (hg : Relinked f g) evs rest he =>
    tree_fresh os hq w ht pre h0 d hd ho n ns hn hnew hen hlen (hg.proper hf) (hg.enterable os hfe)
      (evs := evs) (rest := rest) (.inr hcwd) he
  have adds := fun (g : Forest) (hg : Relinked f g) evs he =>
    tree_fresh_adds os hq w ht pre h0 d hd ho n ns hn hnew hen hlen (hg.proper hf) (hg.enterable os hfe)
      (evs := evs) (.inr hcwd) he
  let J : World → Prop := fun w' => ∃ g final, Relinked f g ∧ Landed os w.fs final d n ns g ∧
    w.fs.partOf w'.fs ∧ w'.fs.partOf final ∧ w'.fs.nearly final
  have one := fun (g : Forest) (hg : Relinked f g) evs he hG g1 =>
    tree_fresh_one os hq w ht pre h0 d hd ho n ns hn hnew hen hlen (hg.proper hf) (hg.enterable os hfe)
      (evs := evs) (.inr hcwd) he (hG := hG) g1
  -- the start
  have hJ0 : J w := by
    obtain ⟨_, as, _, p2⟩ := he.atomsOf ok hok 0
    have hev : EvsOf f (canon as) := by
      have := p2.complete [] as rfl rfl hf.wellNamed (by simp)
      simpa using this
    have hself := p2.relinked_refl hf
    obtain ⟨hF, f1, f2, f3⟩ := fresh f hself (canon as) [] (by simpa using hev)
    refine ⟨f, hF.w.fs, hself, (f3 rfl).2.2, .refl _, ?_, ((f3 rfl).2.2.within (ht.absent hnew)).nearly⟩
    have := (Prog.between os 0 _ w (adds f hself _ hev)).2
    have h2 := hlEventsP_ok f1
    rw [show (HL.init w).w = w from rfl] at h2
    rw [h2] at this
    exact this
  obtain ⟨n0, hn0⟩ := extractP_all C ok hdr item hh hi os (pre ++ joinNames (n :: ns)) w size inp
    (fun c w' => J (c.exec os w').2) (by
      intro P pieces log hP hlog
      rcases log_relinked hj he ok hok hf (hP.trans harc) hlog with
        ⟨rfl, _⟩ | ⟨g, evs, rest, k1, _, rfl, hev, _⟩
      · trivial
      · refine hlEventsP_closed os _ (.drStart :: evs) _ _ ?_
        show (hlEventsP _ _ (.drStart :: evs.map Ev.closed)).All _ _ _
        generalize evs.map Ev.closed = evs at hev
        refine Prog.all_of_after os J _ w fun k => ?_
        have hall := adds g k1 _ hev
        obtain ⟨hG, g1, _, g3⟩ := fresh g k1 (evs ++ rest) [] (by simpa using hev)
        obtain ⟨_, _, g6⟩ := g3 rfl
        obtain ⟨hM, m1, _⟩ := fresh g k1 evs rest hev
        have b1 := Prog.between os k _ _ ((List.cons_append ▸ hall : AddsAll os _ (HL.init w)
          ((.drStart :: evs) ++ rest)).before)
        refine ⟨g, _, k1, g6, b1.1, b1.2.trans ?_, ?_⟩
        rotate_left
        · have := one g k1 _ hev _ g1
          rw [show Ev.drStart :: (evs ++ rest) = (Ev.drStart :: evs) ++ rest from rfl] at this
          exact Prog.after_of_all os (fun w => w.fs.nearly hG.w.fs) k _ w
            (g6.within (ht.absent hnew)).nearly this.before
        have hr : hlEvents os (pre ++ joinNames (n :: ns)) hM rest = .ok hG := by
          rw [show Ev.drStart :: (evs ++ rest) = (Ev.drStart :: evs) ++ rest from rfl,
            hlEvents_append, m1] at g1
          exact g1
        have hall' := hall
        rw [show Ev.drStart :: (evs ++ rest) = (Ev.drStart :: evs) ++ rest from rfl, AddsAll,
          hlEventsP_append, all_andThen, hlEventsP_ok m1] at hall'
        have b2 := (Prog.between os 0 _ _ (hall'.2 _ rfl)).2
        rw [hlEventsP_ok hr] at b2
        rw [hlEventsP_ok m1]
        exact b2)
  refine ⟨n0, fun fuel hfu k => ?_⟩
  obtain ⟨g, final, j1, j2, j3, j4, j5⟩ : J _ := Prog.after_of_all os J k _ w hJ0 (hn0 fuel hfu)
  refine ⟨g, final, j1, j2, j3, j4, ?_, j5⟩
  intro l hl
  cases hnow : ((extractP Z ok fuel hdr item (pre ++ joinNames (n :: ns)) size inp).after os k w).2.fs l with
  | none =>
    cases hw : w.fs l with
    | none => rfl
    | some a =>
      obtain ⟨b, hb, _⟩ := j3 l a hw
      rw [hnow] at hb
      cases hb
  | some a =>
    obtain ⟨b, hb, hab⟩ := j4 l a hnow
    rw [hl] at hb
    obtain ⟨c, hc, hbc⟩ := j3 l b hb
    rw [hnow] at hc
    cases hc
    rw [hb, hab.antisymm hbc]

open HLSample in
/-- Example: the hypotheses hold for the tree `d/l -> t`, `b` extracted to `o`; the disk after each
number of calls. -/
example : os.quiet ∧ (world []).fs.tree ∧ InDir os (world []) [] [[104], [119]] ∧
    OpenDir os (world []).fs [[104], [119]] ∧ (∀ x ∈ [[111]], PlainName x) ∧
    (world []).fs [[104], [119], [111]] = none ∧ Enterable os (dirMode os 0o775) ∧
    (Forest.dir [100] 0o755 (.link [108] 0o777 [116] .nil) (.file [98] 0o600 [3] .nil)).proper ∧
    (Forest.dir [100] 0o755 (.link [108] 0o777 [116] .nil) (.file [98] 0o600 [3] .nil)).enterable os ∧
    CwdOk os (world []).fs (world []).cwd ∧
    id (allowed 0 0 (dirArc (.dir [100] 0o755 (.link [108] 0o777 [116] .nil) (.file [98] 0o600 [3] .nil)))) =
      headerBytes 0 1 (List.replicate 120 0xEE) ++
        encode (.dir [100] 0o755 (.link [108] 0o777 [116] .nil) (.file [98] 0o600 [3] .nil)) ∧
    (List.range 15).map (fun k => [[[111]], [[111], [100]], [[111], [100], [108]],
        [[111], [98]]].filterMap fun l =>
      ((extractP copyI (fun _ _ => true) 5 hdrMem itemMem [111] 0
        ⟨dirArc (.dir [100] 0o755 (.link [108] 0o777 [116] .nil) (.file [98] 0o600 [3] .nil)), false⟩).after
          os k (world [])).2.fs ([[104], [119]] ++ l)) =
      [[], [], [.dir 0o755], [.dir 0o755], [.dir 0o755], [.dir 0o755], [.dir 0o755, .dir 0o755],
       [.dir 0o755, .dir 0o755], [.dir 0o755, .dir 0o755],
       [.dir 0o755, .dir 0o755, .link [116]], [.dir 0o755, .dir 0o755, .link [116]],
       [.dir 0o755, .dir 0o755, .link [116], .file 0o600 []],
       [.dir 0o755, .dir 0o755, .link [116], .file 0o600 [3]],
       [.dir 0o755, .dir 0o755, .link [116], .file 0o600 [3]],
       [.dir 0o755, .dir 0o755, .link [116], .file 0o600 [3]]] := by
  refine ⟨os_quiet, world_tree, .rel, ⟨0o755, by decide +kernel, .inr (by decide)⟩,
    by decide +kernel, by decide +kernel, .inr (by decide), ?_, ⟨.inr (by decide), trivial, trivial⟩,
    BigSample.cwdOk, by decide +kernel, by decide +kernel⟩
  simp +decide [Forest.proper, PlainName, Forest.names]

end Zwt
