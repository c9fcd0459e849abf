import Verif.Proofs.ConfineLink
import Verif.Proofs.RoundAny
import Verif.Props.HLConfine
import Verif.Props.HLFail

/-! C42: what extraction can touch when the archive has links. -/

namespace Zwt

variable {Z : Inflater} {plain : Bytes → Bytes}

/-- The callbacks of a directory archive, after the creation of the output directory. -/
theorem confined_log_links {os : Os} {w : World} {pre : Bytes} {d : Loc} {n : Bytes}
    (B : Base os w pre d n) (ha : Absent w.fs (d ++ [n])) (ns : List Bytes)
    (hns : ∀ x ∈ ns, PlainName x) (hmem : ∀ k, os.noMem k = false) (ok : AllocOracle)
    (Q : Bytes) (hs : LinkSafe [] [] (specParse ok 0 (Q.drop 128)).atoms)
    (hback : (∀ t, Atom.link t ∉ (specParse ok 0 (Q.drop 128)).atoms) ∨ pre.head? = some 47 ∨
      ((∀ k, os.refuses k = false) ∧ CwdBack os w.fs w.cwd))
    (P : Bytes) (hP : P <+: Q) (pieces : List Bytes)
    (log : List Ev) (size : Nat) (hlog : ArchiveLog ok size P pieces log) (h' : HL)
    (hr : hlEvents os (pre ++ n ++ slashed ns) (HL.init w) log = .ok h')
    (hret : h'.ret = CT_DIRECTORY) : ∃ L, ConfL w h'.w pre (d ++ [n]) L := by
  have c0 : ConfL w w pre (d ++ [n]) [] :=
    ⟨fun _ _ => rfl, fun q t h => by rw [ha q] at h; simp at h, .inr rfl, Keeps.refl _⟩
  cases hlog with
  | short => cases hr; exact ⟨_, c0⟩
  | version => cases hr; exact ⟨_, c0⟩
  | empty => cases hr; exact ⟨_, c0⟩
  | unknown => cases hr; exact ⟨_, c0⟩
  | @file h chunks a1 a2 a3 =>
    rw [flStart_ret os _ w _ h' hr] at hret
    rcases hlFileStart_ret os (pre ++ n ++ slashed ns) w with h | h
    · rw [h.1] at hret; exact absurd hret (by decide)
    · rw [h.1] at hret; exact absurd hret (by decide)
  | @dir hd _ evs owed a1 a2 a3 a4 a5 a6 a7 a8 a9 a10 =>
    obtain ⟨u, hu⟩ := hP
    have hd2 : Q.drop 128 = pieces.flatten ++ u := by
      rw [← hu, List.append_assoc, List.drop_left' a1]
    rw [hd2] at hs hback
    obtain ⟨v, hv⟩ := specParse_prefix ok 0 pieces.flatten u
    rw [← hv] at hs hback
    have hs' : LinkSafe [] [] (atoms evs) := (hs.prefix.sfx a8).prefix
    rw [dirStart_ret os _ w _ h' a10 hr] at hret
    rcases hlDirStart_ret os (pre ++ n ++ slashed ns) w with h | ⟨_, hmk⟩
    · rw [h] at hret; exact absurd hret (by decide)
    · have c1 := B.mkdirsL c0 ns hns (fun l hl => by simp at hl) BASE_DIR_MODE
      cases hm : mkdirRecurse os BASE_DIR_MODE (pre ++ n ++ slashed ns) w with
      | mk r w1 =>
        rw [hm] at hmk c1
        have hr0 : r = 0 := hmk
        simp only [hlEvents, hlEvent, hlDirStart, HL.init, hm, hr0, hmem] at hr
        refine inside_eventsL B ns hns (pre ++ n ++ slashed ns) hmem evs ?_ _ h' .idle [] [] ?_ a10 hs' hr
        · rcases hback with hb | hb
          · left
            intro t ht
            obtain ⟨t', ht'⟩ := a8.link_mem t (List.mem_append_left _ ht)
            exact hb t' (List.mem_append_left _ ht')
          · exact .inr hb
        · exact ⟨by simp, by simp, by simp, c1.tick, by simp, by simp⟩

/-- C42, what holds for directory archives, links included: if names are plain, directory ends do not
outnumber directory starts, and no directory or file has the path of an earlier link or a path through
one, then an extraction that reports a directory has changed nothing outside the topmost directory
created, wherever the links lead and however many calls the system refuses; if there are links and the
output path is relative, provided that the working directory can be returned to.
Missing: see the three `_false` theorems and `C42_link_chdir_false`; an output directory that cannot be
created (`C41_unavailable_outdir_false`); memory running out for the path of a directory
(`C80_failing_calls_false`). -/
theorem C42_links_partial (C : InflateOK Z plain) (ok : AllocOracle) (hdr item : Bytes)
    (hh : hdr.length = 128) (hi : item.length = 40) (os : Os) (hmem : ∀ k, os.noMem k = false)
    (w : World) (ht : w.fs.tree) (pre : Bytes) (h0 : 0 ∉ pre) (d : Loc) (hd : InDir os w pre d)
    (hsd : searchable os w.fs d = true) (n : Bytes) (ns : List Bytes)
    (hn : ∀ x ∈ n :: ns, PlainName x) (hback : 92 ∉ pre ++ n) (hnew : w.fs (d ++ [n]) = none)
    (size : Nat) (inp : Input)
    (hs : LinkSafe [] [] (specParse ok 0 ((plain (allowed size 0 inp.data)).drop 128)).atoms)
    (hc : (∀ t, Atom.link t ∉ (specParse ok 0 ((plain (allowed size 0 inp.data)).drop 128)).atoms) ∨
      pre.head? = some 47 ∨ ((∀ k, os.refuses k = false) ∧ CwdBack os w.fs w.cwd)) :
    ∃ n0 X, (∀ fuel, n0 ≤ fuel →
        extract Z os ok fuel hdr item (pre ++ joinNames (n :: ns)) size inp w = X) ∧
      ∀ r, X = .ok r → r.ret = CT_DIRECTORY → ∀ x, ¬ d ++ [n] <+: x → r.w.fs x = w.fs x := by
  have hpath : pre ++ joinNames (n :: ns) = pre ++ n ++ slashed ns := by
    rw [joinNames_slashed]; simp
  rw [hpath]
  obtain ⟨n0, X, h1, h2, _⟩ :=
    extract_ends C ok hdr item hh hi os (pre ++ n ++ slashed ns) w size inp
  have B : Base os w pre d n := ⟨hd.front hsd h0, hsd, hn n List.mem_cons_self, hback⟩
  refine ⟨n0, X, h1, ?_⟩
  intro r hr hret
  obtain ⟨P, log, h, D⟩ := h2 r hr
  have hret' : h.ret = CT_DIRECTORY := by
    rcases D.ret with h | h
    · rw [← h]; exact hret
    · rw [h.1] at hret; exact absurd hret (by decide)
  obtain ⟨L, g⟩ := confined_log_links B (ht.absent hnew) ns
    (fun x hx => hn x (List.mem_cons_of_mem _ hx)) hmem ok _ hs hc P D.pre _ log _ D.arch h D.run hret'
  rw [D.world]
  exact g.out

open HLSample in
/-- An archive with a directory `a` that holds a link `o` to `/h` and a directory `b`. -/
def awayArc : Bytes :=
  dirArc (.dir [97] 0o755 (.link [111] 0o777 [47, 104] (.dir [98] 0o755 .nil .nil)) .nil)

open HLSample in
/-- Example: extraction of this archive to `/h/w/o`; the return to
the working directory is refused. -/
example : InDir { os with refuses := fun k => k == 9 } (world []) [47, 104, 47, 119, 47] [[104], [119]] ∧
    LinkSafe [] [] (specParse (fun _ _ => true) 0 (awayArc.drop 128)).atoms ∧
    view [[[104], [119], [111], [97], [111]], [[104], [97]]] (run { os with refuses := fun k => k == 9 }
      awayArc [47, 104, 47, 119, 47, 111] (world [])) =
      .done CT_DIRECTORY [[104], [119], [111], [97]] [some (.link [47, 104]), none] := by
  refine ⟨.path (p := [47, 104, 47, 119]) (by decide +kernel), by decide +kernel, by decide +kernel⟩

open HLSample in
/-- C42 is false also for such archives if the output path is relative and the system refuses to return
to the working directory after a link has been made: the link is then followed. -/
theorem C42_link_chdir_false :
    LinkSafe [] [] (specParse (fun _ _ => true) 0 (awayArc.drop 128)).atoms ∧
    view [[[104], [97]]] (run { os with refuses := fun k => k == 9 } awayArc [111] (world [])) =
      .done CT_DIRECTORY [[104], [119], [111], [97]] [some (.dir 0o755)] := by decide +kernel

/-! ### Archives of directory trees -/

theorem pad_name {name p : Bytes} (h0 : 0 ∉ name) (hp : Pad p) :
    0 ∈ name ++ p ∧ (name ++ p).takeWhile (· != 0) = name := by
  obtain ⟨k, h1, _, rfl⟩ := hp
  cases k with
  | zero => omega
  | succ k =>
    refine ⟨by simp [List.replicate_succ], ?_⟩
    rw [List.takeWhile_append_of_pos (fun x hx => by
      simp only [bne_iff_ne, ne_eq]; intro he; exact h0 (he ▸ hx))]
    simp [List.replicate_succ]

theorem prefix_snoc {l q : List Bytes} {x : Bytes} (h : l <+: q ++ [x]) : l <+: q ∨ l = q ++ [x] := by
  rcases List.prefix_concat_iff.mp h with h | h
  · exact .inr h
  · exact .inl h

theorem prefix_same {l q : List Bytes} {x y : Bytes} (h1 : q ++ [x] <+: l) (h2 : q ++ [y] <+: l) :
    x = y := by
  have := List.prefix_of_prefix_length_le h1 h2 (by simp)
  rw [List.prefix_append_right_inj] at this
  simpa using this

/-- No path of a tree leads through a link of the tree. -/
theorem AtomsOf.safe {f : Forest} {as : List Atom} (h : AtomsOf f as) : ∀ {L : List (List Bytes)}
    {q : List Bytes} {more : List Atom}, f.proper → (∀ l ∈ L, ¬ l <+: q) →
    (∀ x ∈ f.names, ∀ l ∈ L, ¬ q ++ [x] <+: l) →
    (∀ L', (∀ l ∈ L', l ∈ L ∨ ∃ x ∈ f.names, q ++ [x] <+: l) → LinkSafe L' q more) →
    LinkSafe L q (as ++ more) := by
  induction h with
  | nil => intro L q more _ _ _ hm; exact hm L (fun l hl => .inl hl)
  | @file name p item content mode rest as hp hn _ _ _ _ ih =>
    intro L q more hf hq hx hm
    have e : (name ++ p).take (itNameLen item) = name := by rw [hn, List.take_left']; rfl
    have hq' : ∀ l ∈ L, ¬ l <+: q ++ [name] := by
      intro l hl hl'
      rcases prefix_snoc hl' with h | h
      · exact hq l hl h
      · exact hx name (by simp [Forest.names]) l hl (by rw [h]; exact List.prefix_refl _)
    refine ⟨by rw [hn]; simp, by rw [e]; exact hf.1, by rw [e]; exact hq', ?_⟩
    show LinkSafe L q ((content.map .byte ++ .fileEnd :: as) ++ more)
    rw [List.append_assoc, LinkSafe.bytes]
    refine ih (L := L) (q := q) hf.2.2 hq (fun x hx' => hx x (by simp [Forest.names, hx'])) ?_
    intro L' hL'
    refine hm L' (fun l hl => ?_)
    rcases hL' l hl with h | ⟨x, h1, h2⟩
    · exact .inl h
    · exact .inr ⟨x, by simp [Forest.names, h1], h2⟩
  | @link name p item target mode rest as hp _ _ _ ih =>
    intro L q more hf hq hx hm
    obtain ⟨g1, g2⟩ := pad_name hf.1.2.2.2.2 hp
    refine ⟨g1, by rw [g2]; exact hf.1, ?_⟩
    rw [g2]
    refine ih (L := (q ++ [name]) :: L) (q := q) hf.2.2.2.2 ?_ ?_ ?_
    · intro l hl hl'
      rcases List.mem_cons.mp hl with rfl | hl
      · have := hl'.length_le
        simp only [List.length_append, List.length_singleton] at this
        omega
      · exact hq l hl hl'
    · intro x hx' l hl hl'
      rcases List.mem_cons.mp hl with rfl | hl
      · have := prefix_same hl' (List.prefix_refl _)
        rw [this] at hx'
        exact hf.2.1 hx'
      · exact hx x (by simp [Forest.names, hx']) l hl hl'
    · intro L' hL'
      refine hm L' (fun l hl => ?_)
      rcases hL' l hl with h | ⟨x, h1, h2⟩
      · rcases List.mem_cons.mp h with rfl | h
        · exact .inr ⟨name, by simp [Forest.names], List.prefix_refl _⟩
        · exact .inl h
      · exact .inr ⟨x, by simp [Forest.names, h1], h2⟩
  | @dir name p item mode sub rest as bs hp hn _ _ _ _ ih1 ih2 =>
    intro L q more hf hq hx hm
    have e : (name ++ p).take (itNameLen item) = name := by rw [hn, List.take_left']; rfl
    have hq' : ∀ l ∈ L, ¬ l <+: q ++ [name] := by
      intro l hl hl'
      rcases prefix_snoc hl' with h | h
      · exact hq l hl h
      · exact hx name (by simp [Forest.names]) l hl (by rw [h]; exact List.prefix_refl _)
    refine ⟨by rw [hn]; simp, by rw [e]; exact hf.1, by rw [e]; exact hq', ?_⟩
    show LinkSafe L (q ++ [(name ++ p).take (itNameLen item)]) ((as ++ .dirEnd :: bs) ++ more)
    rw [e, List.append_assoc]
    refine ih1 (L := L) (q := q ++ [name]) hf.2.2.1 hq' ?_ ?_
    · intro x _ l hl hl'
      exact hx name (by simp [Forest.names]) l hl ((List.prefix_append _ _).trans hl')
    · intro L' hL'
      refine ⟨by simp, ?_⟩
      rw [List.dropLast_concat]
      refine ih2 (L := L') (q := q) hf.2.2.2 ?_ ?_ ?_
      · intro l hl hl'
        rcases hL' l hl with h | ⟨x, _, h2⟩
        · exact hq l h hl'
        · have := (h2.trans hl').length_le
          simp only [List.length_append, List.length_singleton] at this
          omega
      · intro x hx' l hl hl'
        rcases hL' l hl with h | ⟨y, _, h2⟩
        · exact hx x (by simp [Forest.names, hx']) l h hl'
        · have := prefix_same hl' ((List.prefix_append _ _).trans h2)
          rw [this] at hx'
          exact hf.2.1 hx'
      · intro L'' hL''
        refine hm L'' (fun l hl => ?_)
        rcases hL'' l hl with h | ⟨x, h1, h2⟩
        · rcases hL' l h with h | ⟨x, h1, h2⟩
          · exact .inl h
          · exact .inr ⟨name, by simp [Forest.names], (List.prefix_append _ _).trans h2⟩
        · exact .inr ⟨x, by simp [Forest.names, h1], h2⟩

/-- C42 for archives of directory trees, whole or cut off: whatever links a tree has, an extraction that
reports a directory changes nothing outside the topmost directory created, however many calls the system
refuses (if the output path is relative and the tree has links, provided that the working directory can
be returned to).
Missing: archives of anything but trees (`C42_confined_false`), extractions that report no directory
(`C41_unavailable_outdir_false`), memory running out for the path of a directory
(`C80_failing_calls_false`; allocations for names may fail). -/
theorem C42_directory_tree_partial (C : InflateOK Z plain) (ok : AllocOracle)
    (hdr item : Bytes)
    (hh : hdr.length = 128) (hi : item.length = 40) (os : Os) (hmem : ∀ k, os.noMem k = false)
    (w : World) (ht : w.fs.tree) (pre : Bytes) (h0 : 0 ∉ pre) (d : Loc) (hd : InDir os w pre d)
    (hsd : searchable os w.fs d = true) (n : Bytes) (ns : List Bytes)
    (hn : ∀ x ∈ n :: ns, PlainName x) (hback : 92 ∉ pre ++ n) (hnew : w.fs (d ++ [n]) = none)
    (size : Nat) (inp : Input) {f : Forest} {t header : Bytes} (hf : f.proper) (he : Encodes f t)
    (hhd : header.length = 128) (hp : plain (allowed size 0 inp.data) <+: header ++ t)
    (hc : f.noLinks ∨ pre.head? = some 47 ∨ ((∀ k, os.refuses k = false) ∧ CwdBack os w.fs w.cwd)) :
    ∃ n0 X, (∀ fuel, n0 ≤ fuel →
        extract Z os ok fuel hdr item (pre ++ joinNames (n :: ns)) size inp w = X) ∧
      ∀ r, X = .ok r → r.ret = CT_DIRECTORY → ∀ x, ¬ d ++ [n] <+: x → r.w.fs x = w.fs x := by
  obtain ⟨as, e2, e1⟩ := he.atomsAny
  have hpre : (specParse ok 0 ((plain (allowed size 0 inp.data)).drop 128)).atoms <+: as := by
    obtain ⟨u, hu⟩ := hp
    by_cases hl : 128 ≤ (plain (allowed size 0 inp.data)).length
    · have hd2 : (plain (allowed size 0 inp.data)).drop 128 ++ u = t := by
        rw [← List.drop_append_of_le_length hl, hu, List.drop_left' hhd]
      exact e1 ok 0 _ ⟨u, hd2⟩
    · rw [List.drop_of_length_le (by omega), specParse_short _ _ [] (by simp)]
      exact List.nil_prefix
  have hsafe : LinkSafe [] [] as := by
    have := e2.safe (L := []) (q := []) (more := []) hf (by simp) (by simp) (fun _ _ => trivial)
    simpa using this
  obtain ⟨v, hv⟩ := hpre
  rw [← hv] at hsafe
  refine C42_links_partial C ok hdr item hh hi os hmem w ht pre h0 d hd hsd n ns hn hback hnew size inp
    hsafe.prefix ?_
  rcases hc with hc | hc
  · left
    intro t ht
    have hnl : ∀ {f : Forest} {as : List Atom}, AtomsOf f as → f.noLinks → ∀ t, Atom.link t ∉ as := by
      intro f as h
      induction h with
      | nil => simp
      | file _ _ _ _ _ _ ih =>
        intro hn t ht
        simp only [List.mem_cons, List.mem_append, List.mem_map, reduceCtorEq, and_false, exists_false,
          false_or] at ht
        exact ih hn t ht
      | link => intro hn; exact hn.elim
      | dir _ _ _ _ _ _ ih1 ih2 =>
        intro hn t ht
        simp only [List.mem_cons, List.mem_append, reduceCtorEq, false_or] at ht
        rcases ht with ht | ht
        · exact ih1 hn.1 t ht
        · exact ih2 hn.2 t ht
    exact hnl e2 hc t (by rw [← hv]; exact List.mem_append_left _ ht)
  · exact .inr hc

open HLSample in
/-- Example: a link to `/h` inside a directory, encoded; all but the last three bytes arrive. -/
example : (Forest.dir [97] 0o755 (.link [111] 0o777 [47, 104] .nil) .nil).proper ∧
    Encodes (.dir [97] 0o755 (.link [111] 0o777 [47, 104] .nil) .nil)
      (encode (.dir [97] 0o755 (.link [111] 0o777 [47, 104] .nil) .nil)) ∧
    (dirArc (.dir [97] 0o755 (.link [111] 0o777 [47, 104] .nil) .nil)).dropLast.dropLast.dropLast <+:
      header CT_DIRECTORY ++ encode (.dir [97] 0o755 (.link [111] 0o777 [47, 104] .nil) .nil) := by
  refine ⟨?_, ?_, ?_⟩
  · simp only [Forest.proper]; decide +kernel
  · refine .dir (p := pad 1) (cs := []) ?_ ?_ ?_ ?_ ?_ ⟨7, by decide, by decide, by decide⟩ (.link (p := pad 1) (q := pad 2)
      ?_ ?_ ?_ ?_ ?_ ?_ ?_ ⟨7, by decide, by decide, by decide⟩ ⟨6, by decide, by decide, by decide⟩ .nil) ?_ ?_ .nil <;>
      decide +kernel
  · exact (List.dropLast_prefix _).trans ((List.dropLast_prefix _).trans (List.dropLast_prefix _))

end Zwt
