import Verif.Proofs.Retry
import Verif.Proofs.FileArchive
import Verif.Props.Interrupt
import Verif.Props.HLFail
import Verif.Props.HLRound

/-! C121: an extraction that was interrupted can be repeated. -/

namespace Zwt

variable {Z : Inflater} {plain : Bytes → Bytes}

/-- C121 for the archives of files: an extraction to a file that is new or can be overwritten is
interrupted after any number of calls; done again by another process in the same working directory, it
leaves the disk as if there had been no interruption: the file has the archived content, everything
else is as it was at first.  Missing: directories (`C121_repeat_false`). -/
theorem C121_repeat_file_partial (C : InflateOK Z plain) (hnil : plain [] = []) {content : Bytes}
    (hc : content ≠ []) {junk : Bytes} (hj : junk.length = 120) (ok ok2 : AllocOracle)
    (hdr item hdr2 item2 : Bytes) (hh : hdr.length = 128) (hi : item.length = 40)
    (hh2 : hdr2.length = 128) (hi2 : item2.length = 40) (os : Os) (hq : os.quiet) (w : World)
    (pre : Bytes) (h0 : 0 ∉ pre) (d : Loc) (hd : InDir os w pre d) (ho : OpenDir os w.fs d)
    (n : Bytes) (hn : PlainName n)
    (hx : (w.fs (d ++ [n]) = none ∧ fileWritable os (0o666 &&& os.allow) = true) ∨
      ∃ m c, w.fs (d ++ [n]) = some (.file m c) ∧ fileWritable os m = true)
    (size : Nat) (data : Bytes)
    (harc : plain (allowed size 0 data) = headerBytes 0 2 junk ++ content) :
    ∃ n0, ∀ fuel, n0 ≤ fuel → ∀ k, ∀ w2 : World,
      w2.fs = ((extractP Z ok fuel hdr item (pre ++ n) size ⟨data, false⟩).after os k w).2.fs →
      w2.cwd = w.cwd →
      ∃ n1 r, (∀ fuel, n1 ≤ fuel →
          extract Z os ok2 fuel hdr2 item2 (pre ++ n) size ⟨data, false⟩ w2 = .ok r) ∧
        (C.Final → Open plain (allowed size 0 data) → ∀ c ∈ r.codes, c = Z_OK) ∧
        ((∀ c ∈ r.codes, c = Z_OK) → 0 < r.room ∨ C.Prompt (allowed size 0 data) →
          r.ret = CT_FILE ∧ r.w.cwd = w.cwd ∧
          ∃ m, r.w.fs = w.fs.put (d ++ [n]) (.file m content) ∧
            ∀ x, w.fs (d ++ [n]) = some x → ∃ c, x = .file m c) := by
  have hopen := open_again hq h0 hd ho hn (hx.imp (·.1) id)
  have e := C02_header_roundtrip 0 2 junk hj (by decide) (by decide)
  have hl128 : (headerBytes 0 2 junk).length = 128 := e.1
  have hk : hdrKind ((plain (allowed size 0 data)).take 128) ≠ CT_DIRECTORY := by
    rw [harc, List.take_left' hl128, e.2.2]; decide
  obtain ⟨m, m1, m2, n0, hn0⟩ := C76_interrupted_file C ok hdr item hh hi os hq (pre ++ n) w (d ++ [n])
    hopen size ⟨data, false⟩ hk
  refine ⟨n0, fun fuel hf k w2 hw2 hcwd => ?_⟩
  have hm : fileWritable os m = true := by
    rcases hx with ⟨a, b⟩ | ⟨m', c, a, b⟩
    · rw [m2 a]; exact b
    · obtain ⟨c', hc'⟩ := m1 _ a
      cases hc'
      exact b
  -- the disk after the interruption
  have hnow : w2.fs = w.fs ∨ ∃ c, w2.fs = w.fs.put (d ++ [n]) (.file m c) := by
    rcases hn0 fuel hf k with h | ⟨c, _, h⟩
    · exact .inl (hw2.trans h)
    · exact .inr ⟨c, hw2.trans h⟩
  have hkeep : Keeps w.fs w2.fs := by
    rcases hnow with h | ⟨c, h⟩
    · rw [h]; exact ⟨fun _ _ h => h, fun _ _ h => h⟩
    · rw [h]
      refine ⟨fun l x hl => ?_, fun l x hl => ?_⟩
      all_goals
        simp only [FS.put]
        split
        · rename_i e
          obtain ⟨c', hc'⟩ := m1 _ (e ▸ hl)
          cases hc'
        · exact hl
  have hopen2 := open_again hq h0 (hd.mono ho hkeep hcwd) (ho.mono hkeep) hn (by
    rcases hnow with h | ⟨c, h⟩
    · rw [h]; exact hx.imp (·.1) id
    · exact .inr ⟨m, c, by rw [h]; simp [FS.put], hm⟩)
  obtain ⟨n1, r, r1, r2, r3⟩ := extract_file_content C hnil hc hj ok2 hdr2 item2 hh2 hi2 os hq (pre ++ n) w2
    (d ++ [n]) hopen2 size data harc
  refine ⟨n1, r, r1, r2, fun hcodes hroom => ?_⟩
  obtain ⟨a1, a2, _, m', a3, a4⟩ := r3 hcodes hroom
  refine ⟨a1, a2.trans hcwd, m', ?_, ?_⟩
  · rw [a3]
    rcases hnow with h | ⟨c, h⟩
    · rw [h]
    · rw [h]
      funext l
      simp only [FS.put]
      split <;> rfl
  · intro x hxx
    rcases hnow with h | ⟨c, h⟩
    · exact a4 x (by rw [h]; exact hxx)
    · obtain ⟨c1, hc1⟩ := m1 x hxx
      obtain ⟨c2, hc2⟩ := a4 (.file m c) (by rw [h]; simp [FS.put])
      cases hc2
      exact ⟨c1, hc1⟩

open HLSample in
/-- Example: the file `o` is new; after the first call it is empty; the repetition completes it. -/
example : os.quiet ∧ InDir os (world []) [] [[104], [119]] ∧ OpenDir os (world []).fs [[104], [119]] ∧
    PlainName [111] ∧ (world []).fs [[104], [119], [111]] = none ∧
    fileWritable os (0o666 &&& os.allow) = true ∧
    id (allowed 0 0 (fileArc [1, 2, 3])) = headerBytes 0 2 (List.replicate 120 0xEE) ++ [1, 2, 3] ∧
    (List.range 3).map (fun k =>
      let now := ((extractP copyI (fun _ _ => true) 5 hdrMem itemMem [111] 0
        ⟨fileArc [1, 2, 3], false⟩).after os k (world [])).2.fs
      (now [[104], [119], [111]],
        view [[[104], [119], [111]]] (run os (fileArc [1, 2, 3]) [111] { world [] with fs := now }))) =
      [(none, .done CT_FILE [[104], [119]] [some (.file 0o644 [1, 2, 3])]),
       (some (.file 0o644 []), .done CT_FILE [[104], [119]] [some (.file 0o644 [1, 2, 3])]),
       (some (.file 0o644 [1, 2, 3]), .done CT_FILE [[104], [119]] [some (.file 0o644 [1, 2, 3])])] := by
  refine ⟨os_quiet, .rel, ⟨0o755, by decide +kernel, .inr (by decide)⟩, by decide +kernel,
    by decide +kernel, by decide +kernel, by decide +kernel, by decide +kernel⟩

/-- C121 for directories, what holds: an extraction of the archive of a tree without links to a new
path is interrupted after any number of calls; extracted by another process in the same working directory
under another new name, the whole tree arrives there, and what the first left is not touched.
Missing: repetition at the same place (`C121_repeat_false`). -/
theorem C121_repeat_elsewhere_partial (C : InflateOK Z plain) (hnil : plain [] = [])
    (ok ok2 : AllocOracle) (hok2 : ∀ k n, ok2 k n = true)
    (hdr item hdr2 item2 : Bytes) (hh : hdr.length = 128) (hi : item.length = 40)
    (hh2 : hdr2.length = 128) (hi2 : item2.length = 40)
    (os : Os) (hq : os.quiet) (w : World) (ht : w.fs.tree) (pre : Bytes)
    (h0 : 0 ∉ pre) (d : Loc) (hd : InDir os w pre d) (ho : OpenDir os w.fs d) (n : Bytes)
    (ns : List Bytes) (hn : ∀ x ∈ n :: ns, PlainName x) (hnew : w.fs (d ++ [n]) = none)
    (n' : Bytes) (ns' : List Bytes) (hn' : ∀ x ∈ n' :: ns', PlainName x)
    (hnew' : w.fs (d ++ [n']) = none) (hne : n' ≠ n)
    (hen : Enterable os (dirMode os 0o775)) (hlen : ns.length ≤ 61) (hlen' : ns'.length ≤ 61)
    {f : Forest} (hf : f.proper)
    (hfe : f.enterable os) (hfl : f.noLinks) (hfn : f ≠ .nil) {junk t : Bytes} (hj : junk.length = 120)
    (he : Encodes f t) (size : Nat) (inp : Input) (hin : inp.err = false)
    (harc : plain (allowed size 0 inp.data) = headerBytes 0 1 junk ++ t) :
    ∃ n0, ∀ fuel, n0 ≤ fuel → ∀ k, ∀ w2 : World,
      w2.fs = ((extractP Z ok fuel hdr item (pre ++ joinNames (n :: ns)) size inp).after os k w).2.fs →
      w2.cwd = w.cwd →
      ∃ n1 r, (∀ fuel, n1 ≤ fuel →
          extract Z os ok2 fuel hdr2 item2 (pre ++ joinNames (n' :: ns')) size inp w2 = .ok r) ∧
        r.hasError = false ∧
        (C.Final → Open plain (allowed size 0 inp.data) → ∀ c ∈ r.codes, c = Z_OK) ∧
        ((∀ c ∈ r.codes, c = Z_OK) → 0 < r.room ∨ C.Prompt (allowed size 0 inp.data) →
          r.ret = CT_DIRECTORY ∧ r.w.cwd = w.cwd ∧ Landed os w2.fs r.w.fs d n' ns' f) := by
  obtain ⟨final, hL, n0, hn0⟩ := C76_interrupted_tree C ok hdr item hh hi os hq w ht pre h0 d hd ho n ns hn
    hnew hen hlen hf hfe hfl hj he size inp (by rw [harc]; exact List.prefix_refl _)
  refine ⟨n0, fun fuel hfu k w2 hw2 hcwd => ?_⟩
  obtain ⟨p1, _, p3, _⟩ := hn0 fuel hfu k
  rw [← hw2] at p1 p3
  have hkeep := p1.keeps
  have ht2 : w2.fs.tree := by rw [hw2]; exact Prog.after_tree os k _ w ht
  have hfree : w2.fs (d ++ [n']) = none := by
    rw [← hnew']
    refine p3 _ (hL.2.2 _ ?_ ?_)
    · intro j _ e
      have := List.append_cancel_left e
      simp only [List.cons.injEq] at this
      exact hne this.1
    · intro x q e
      rw [List.append_assoc] at e
      have := List.append_cancel_left e
      simp only [List.cons_append, List.cons.injEq] at this
      exact hne this.1
  obtain ⟨n1, X, x1, x2, x3⟩ := extract_tree C hnil ok2 hok2 hdr2 item2 hh2 hi2 os hq w2 ht2 pre h0 d
    (hd.mono ho hkeep hcwd) (ho.mono hkeep) n' ns' hn' hfree hen hlen' hf hfe hfn hj he size inp hin harc
  obtain ⟨r, rfl⟩ := x2 hfl
  obtain ⟨y1, y2, y3⟩ := x3 r rfl (.inl hfl)
  refine ⟨n1, r, x1, y1, y2, fun hcodes hroom => ?_⟩
  obtain ⟨z1, z2, z3⟩ := y3 hcodes hroom
  exact ⟨z1, z2.trans hcwd, z3⟩

/-- C121 for directories, what happens at the same place: if the interrupted extraction got as far as
making the output directory (whose path has no backslash), the repetition reports that nothing was
extracted.  Missing: that the tree arrives (`C121_repeat_false`). -/
theorem C121_repeat_reports_partial (C : InflateOK Z plain)
    (ok ok2 : AllocOracle) (hdr item hdr2 item2 : Bytes) (hh : hdr.length = 128) (hi : item.length = 40)
    (hh2 : hdr2.length = 128) (hi2 : item2.length = 40)
    (os : Os) (hq : os.quiet) (w : World) (ht : w.fs.tree) (pre : Bytes)
    (h0 : 0 ∉ pre) (d : Loc) (hd : InDir os w pre d) (ho : OpenDir os w.fs d) (n : Bytes)
    (hn : PlainName n) (hback : 92 ∉ pre ++ n) (hnew : w.fs (d ++ [n]) = none)
    (hen : Enterable os (dirMode os 0o775)) {f : Forest} (hf : f.proper)
    (hfe : f.enterable os) (hfl : f.noLinks) {junk t : Bytes} (hj : junk.length = 120)
    (he : Encodes f t) (size : Nat) (inp : Input)
    (harc : plain (allowed size 0 inp.data) = headerBytes 0 1 junk ++ t) :
    ∃ n0, ∀ fuel, n0 ≤ fuel → ∀ k, ∀ w2 : World,
      w2.fs = ((extractP Z ok fuel hdr item (pre ++ n) size inp).after os k w).2.fs →
      w2.cwd = w.cwd → w2.fs (d ++ [n]) ≠ none →
      ∃ n1 X, (∀ fuel, n1 ≤ fuel → extract Z os ok2 fuel hdr2 item2 (pre ++ n) size inp w2 = X) ∧
        ∀ r, X = .ok r → r.ret = CT_NONE := by
  obtain ⟨final, hL, n0, hn0⟩ := C76_interrupted_tree C ok hdr item hh hi os hq w ht pre h0 d hd ho n []
    (by simpa using hn) hnew hen (by simp) hf hfe hfl hj he size inp (by rw [harc]; exact List.prefix_refl _)
  refine ⟨n0, fun fuel hfu k w2 hw2 hcwd hthere => ?_⟩
  obtain ⟨p1, p2, _, _⟩ := hn0 fuel hfu k
  simp only [joinNames] at p1 p2
  rw [← hw2] at p1 p2
  have hkeep := p1.keeps
  have e := C02_header_roundtrip 0 1 junk hj (by decide) (by decide)
  have hl128 : (headerBytes 0 1 junk).length = 128 := e.1
  cases hx : w2.fs (d ++ [n]) with
  | none => exact absurd hx hthere
  | some x =>
    refine C41_existing_output_partial C ok2 hdr2 item2 hh2 hi2 os (pre ++ n) ?_ ?_ w2 size inp ?_ (d ++ [n]) ?_ hthere
    · simp only [List.mem_append, not_or]; exact ⟨h0, hn.2.2.2.2⟩
    · exact hback
    · rw [harc, List.take_left' hl128, e.2.2]; rfl
    · have hF := (hd.mono ho hkeep hcwd).front (ho.mono hkeep).searchable h0
      refine hF.at (ho.mono hkeep).searchable hn true hx ?_
      intro _ t' ht'
      subst ht'
      obtain ⟨b, b1, b2⟩ := p2 _ _ hx
      have := hL.1 0 (Nat.zero_le _)
      rw [List.take_zero] at this
      rw [this] at b1
      cases b1
      cases b2

open HLSample in
/-- Example: an archive with the files `a` and `b`, extracted to `o`, interrupted after 4 calls: `a` is
empty, `b` is missing.  A repetition at `o` reports that nothing was extracted, and `a` and `b` are as
before; a repetition at `p` is complete. -/
example : let f := Forest.file [97] 0o640 [1, 2] (.file [98] 0o600 [3] .nil)
    os.quiet ∧ (world []).fs.tree ∧ InDir os (world []) [] [[104], [119]] ∧
    OpenDir os (world []).fs [[104], [119]] ∧ PlainName [111] ∧ PlainName [112] ∧
    (world []).fs [[104], [119], [111]] = none ∧ (world []).fs [[104], [119], [112]] = none ∧
    Enterable os (dirMode os 0o775) ∧ f.enterable os ∧ f.noLinks ∧
    id (allowed 0 0 (dirArc f)) = headerBytes 0 1 (List.replicate 120 0xEE) ++ encode f ∧
    (let now := ((extractP copyI (fun _ _ => true) 5 hdrMem itemMem [111] 0
        ⟨dirArc f, false⟩).after os 4 (world [])).2.fs
      let seen := [[[104], [119], [111]], [[104], [119], [111], [97]], [[104], [119], [111], [98]],
        [[104], [119], [112]], [[104], [119], [112], [97]], [[104], [119], [112], [98]]]
      (seen.map now, view seen (run os (dirArc f) [111] { world [] with fs := now }),
        view seen (run os (dirArc f) [112] { world [] with fs := now }))) =
      ([some (.dir 0o755), some (.file 0o640 []), none, none, none, none],
       .done CT_NONE [[104], [119]] [some (.dir 0o755), some (.file 0o640 []), none, none, none, none],
       .done CT_DIRECTORY [[104], [119]] [some (.dir 0o755), some (.file 0o640 []), none,
         some (.dir 0o755), some (.file 0o640 [1, 2]), some (.file 0o600 [3])]) := by
  refine ⟨os_quiet, world_tree, .rel, ⟨0o755, by decide +kernel, .inr (by decide)⟩, by decide +kernel,
    by decide +kernel, by decide +kernel, by decide +kernel, .inr (by decide), trivial,
    trivial, by decide +kernel, by decide +kernel⟩

open HLSample in
/-- C121 is false for directories: an archive with the files `a` and `b` is extracted to `o` and
interrupted after 4 calls; the same command again, by another process in the same working directory,
with nothing refused by the system, does not complete the tree: `o/b` is not there, though it is after
an extraction that is not interrupted. -/
theorem C121_repeat_false :
    ¬ ∀ (Z : Inflater) (plain : Bytes → Bytes) (_ : InflateOK Z plain) (ok : AllocOracle)
      (fuel : Nat) (hdr item : Bytes) (os : Os) (out : Bytes) (w : World) (n : Nat) (inp : Input)
      (k : Nat) (r r2 : Extracted), hdr.length = 128 → item.length = 40 → os.quiet →
      extract Z os ok fuel hdr item out n inp w = .ok r → r.ret = CT_DIRECTORY → r.hasError = false →
      extract Z os ok fuel hdr item out n inp
        { w with fs := ((extractP Z ok fuel hdr item out n inp).after os k w).2.fs } = .ok r2 →
      ∀ l, w.fs l = none → r.w.fs l ≠ none → r2.w.fs l ≠ none := by
  intro h
  let f := Forest.file [97] 0o640 [1, 2] (.file [98] 0o600 [3] .nil)
  let w2 : World := { world [] with fs := ((extractP copyI (fun _ _ => true) 5 hdrMem itemMem [111] 0
        ⟨dirArc f, false⟩).after os 4 (world [])).2.fs }
  have hb : ∀ a b : Run Extracted, a = run os (dirArc f) [111] (world []) →
      b = run os (dirArc f) [111] w2 →
      (match a, b with
        | .ok r, .ok r2 => decide (r.ret = CT_DIRECTORY ∧ r.hasError = false ∧
            r.w.fs [[104], [119], [111], [98]] ≠ none ∧ r2.w.fs [[104], [119], [111], [98]] = none)
        | _, _ => false) = true → False := by
    intro a b ha hb hm
    cases a with
    | error e => simp at hm
    | ok r =>
      cases b with
      | error e => simp at hm
      | ok r2 =>
        obtain ⟨m1, m2, m3, m4⟩ := of_decide_eq_true hm
        exact h copyI id copyIOK (fun _ _ => true) 5 hdrMem itemMem os [111] (world []) 0
          ⟨dirArc f, false⟩ 4 r r2 (by decide +kernel) (by decide +kernel) os_quiet ha.symm m1 m2 hb.symm
          [[104], [119], [111], [98]] (by decide +kernel) m3 m4
  refine hb _ _ rfl rfl ?_
  decide +kernel

end Zwt
