import Verif.Props.Tools
import Verif.Props.HLExtra

/-! C70: compressdir from the command line to the extracted tree. -/

namespace Zwt

variable {D : Deflater} {Z : Inflater} {plain : Bytes → Bytes}

/-- C54: what the program writes is what compressing its input passed to the callback, and its exit
status is the result of that; without an input nothing is written. -/
theorem C54_written (canOpen : Bytes → Bool) (compress : Bytes → Run (Int × List Bytes))
    (args : List Bytes) {r : ToolRun} (h : compressdirMain canOpen compress args = .ok r) :
    (∀ dir, r.source = some dir → compress dir = .ok (r.ret, r.written)) ∧
      (r.source = none → r.written = []) := by
  obtain ⟨p, hp⟩ := compressdir_built
  rw [← compressdir_parser] at hp
  unfold compressdirMain at h
  rw [hp] at h
  simp only [bind, Except.bind, pure, Except.pure] at h
  cases hpa : p.parse args with
  | error e => rw [hpa] at h; cases h
  | ok pr =>
    obtain ⟨p', left⟩ := pr
    rw [hpa] at h
    obtain ⟨g1, g2, g3, g4, _⟩ := compressdir_reports hp hpa
    dsimp only at h
    rw [g1, g2, g3, g4] at h
    dsimp only at h
    have one : ∀ {out dir : Bytes}, (compress dir >>= fun v => pure ⟨v.1, some out, some dir, v.2⟩ : Run ToolRun) = .ok r →
        (∀ dir, r.source = some dir → compress dir = .ok (r.ret, r.written)) ∧
          (r.source = none → r.written = []) := by
      intro out dir hr
      cases hc : compress dir with
      | error e => rw [hc] at hr; cases hr
      | ok v =>
        rw [hc] at hr
        cases hr
        refine ⟨fun d hd => ?_, by simp⟩
        rw [← Option.some.inj hd, hc]
    have none' : ∀ {ret : Int} {o : Option Bytes}, (.ok ⟨ret, o, none, []⟩ : Run ToolRun) = .ok r →
        (∀ dir, r.source = some dir → compress dir = .ok (r.ret, r.written)) ∧
          (r.source = none → r.written = []) := by
      intro ret o hr; cases hr; exact ⟨by simp, fun _ => rfl⟩
    split at h
    · exact none' h
    · split at h
      · exact none' h
      · split at h
        · exact none' h
        · split at h
          · exact none' h
          · split at h
            · exact one h
            · split at h
              · cases ha : argAt left 0 with
                | error e => rw [ha] at h; cases h
                | ok d => rw [ha] at h; exact one h
              · exact none' h

example := C54_written (fun _ => true) (fun d => if d = strB "d" then .ok (0, [[1]]) else .ok (2, []))
  [strB "-if", strB "d", strB "-of", strB "o"] (r := ⟨0, some (strB "o"), some (strB "d"), [[1]]⟩)
  (by decide +kernel)

/-- C70, what holds: compressdir is given a readable directory (with `-if` or as first argument) and
an output file that can be opened, and ends without a fault.  Then it returns 0, and extracting what it
wrote to a new directory recreates the directory: every file with its content and mode (less the
umask), every directory with its mode, every link, without the entries that cannot be archived
(devices, sockets, …); nothing else changes.
Missing: what C39 misses (nothing to archive; directories whose mode does not let their owner add
entries; archives whose last output piece fills the 512 KiB buffer; trees with links whose archive is
not below 512 KiB), and argument vectors on which the parser faults (see `C54_crash`). -/
theorem C70_compressdir_round_trip_partial (CD : DeflateOK D plain) (C : InflateOK Z plain)
    (env : Env) (henv : env.ok) {dir : Bytes} {es : List Entry} {f : Forest}
    (hl : env.list dir = some es) (hm : Mirror env dir es f) (z : D.τ) (hz : D.init 9 = some z)
    (junk : Bytes) (hj : junk.length = 120) (hr : f.readable (fun _ _ => true) dir)
    (hne : f.prune (fun _ _ => true) dir ≠ .nil)
    (ok : AllocOracle) (hok : ∀ k n, ok k n = true) (hdr item : Bytes) (hh : hdr.length = 128)
    (hi : item.length = 40) (os : Os) (hq : os.quiet) (w : World) (ht : w.fs.tree) (pre : Bytes)
    (h0 : 0 ∉ pre) (d : Loc) (hd : InDir os w pre d) (ho : OpenDir os w.fs d) (n : Bytes)
    (ns : List Bytes) (hn : ∀ x ∈ n :: ns, PlainName x) (hnew : w.fs (d ++ [n]) = none)
    (hen : Enterable os (dirMode os 0o775)) (hlen : ns.length ≤ 61) (hf : f.proper)
    (hfe : (f.prune (fun _ _ => true) dir).enterable os)
    (hnl : (f.prune (fun _ _ => true) dir).noLinks ∨
      CwdOk os w.fs w.cwd ∧ (f.prune (fun _ _ => true) dir).bulk < 524288) :
    ∃ n1, ∀ (canOpen : Bytes → Bool) (args : List Bytes) (fuel : Nat) (t : ToolRun), n1 ≤ fuel →
      compressdirWith D env fuel junk canOpen args = .ok t → t.source = some dir →
      t.ret = 0 ∧ ∃ b, t.written.getLast? = some b ∧ (b.length < 524288 →
        (f.prune (fun _ _ => true) dir).noLinks ∨ t.written.flatten.length < 524288 →
        ∃ n0 r, (∀ fuel, n0 ≤ fuel → extract Z os ok fuel hdr item (pre ++ joinNames (n :: ns)) 0
            ⟨t.written.flatten, false⟩ w = .ok r) ∧
          (C.Final → CD.Fits → ∀ c ∈ r.codes, c = Z_OK) ∧
          ((∀ c ∈ r.codes, c = Z_OK) → 0 < r.room ∨ C.Prompt t.written.flatten →
            r.ret = CT_DIRECTORY ∧ r.w.cwd = w.cwd ∧
            Landed os w.fs r.w.fs d n ns (f.prune (fun _ _ => true) dir))) := by
  obtain ⟨s1, s2⟩ := select_prune (fun _ _ => true) f dir hr
  have hk : keepFilter (fun _ _ => true) = compressdirFilter := rfl
  rw [hk] at s1 s2
  have hst : (select compressdirFilter dir f ()).status ≠ .failed := by rw [s1]; decide
  obtain ⟨n1, log, d1, t, d2, d3, b, c2, d5⟩ := C27_directory_archive CD env henv
    compressdirFilter hl hm () 9 z hz junk hj hst
  rw [← s2] at hne hfe
  have key : ∀ log' : List Bytes, log' = log → b.length < 524288 →
      (f.prune (fun _ _ => true) dir).noLinks ∨ log'.flatten.length < 524288 →
      ∃ n0 r, (∀ fuel, n0 ≤ fuel → extract Z os ok fuel hdr item (pre ++ joinNames (n :: ns)) 0
          ⟨log'.flatten, false⟩ w = .ok r) ∧
        (C.Final → CD.Fits → ∀ c ∈ r.codes, c = Z_OK) ∧
        ((∀ c ∈ r.codes, c = Z_OK) → 0 < r.room ∨ C.Prompt log'.flatten →
          r.ret = CT_DIRECTORY ∧ r.w.cwd = w.cwd ∧
          Landed os w.fs r.w.fs d n ns (f.prune (fun _ _ => true) dir)) := by
    rintro log' rfl hb hs
    have hal : allowed 0 0 log'.flatten = log'.flatten := by simp [allowed]
    rw [← s2] at hnl hs ⊢
    by_cases hno : (select compressdirFilter dir f ()).forest.noLinks
    · obtain ⟨n2, log, b', c1, c2', c3⟩ := C39_round_trip_partial CD C env henv compressdirFilter hl
        hm () 9 z hz junk hj hst hne ok hok hdr item hh hi os hq w ht pre h0 d hd ho n ns hn hnew hen
        hlen hf hfe hno
      have e1 := c1 (max n1 n2) (by omega)
      rw [d1 (max n1 n2) (by omega)] at e1
      cases e1
      rw [c2] at c2'
      cases c2'
      exact c3 0 log'.flatten hal hb
    · obtain ⟨hcw, hbk⟩ := hnl.resolve_left hno
      obtain ⟨n2, log, c1, c3⟩ := C39_round_trip_small_partial CD C env henv compressdirFilter hl
        hm () 9 z hz junk hj hst hne ok hok hdr item hh hi os hq w ht pre h0 d hd ho n ns hn hnew hen
        hlen hf hfe hcw hbk
      have e1 := c1 (max n1 n2) (by omega)
      rw [d1 (max n1 n2) (by omega)] at e1
      cases e1
      exact c3 (hs.resolve_left hno) 0 log'.flatten hal
  refine ⟨n1, fun canOpen args fuel t hfu hrun hsrc => ?_⟩
  have e1 := (C54_written _ _ _ hrun).1 dir hsrc
  rw [d1 fuel hfu] at e1
  injection e1 with e1
  injection e1 with e2 e3
  exact ⟨e2.symm, b, by rw [← e3]; exact c2, fun hb => key _ e3.symm hb⟩

open HLSample in
/-- Example: a directory with two files and a subdirectory, named by `-if`. -/
example : ∃ (_ : DeflateOK queueD id) (_ : InflateOK copyI id), selfDirEnv.ok ∧
    Mirror selfDirEnv [114] ((selfDirEnv.list [114]).getD []) selfDirForest ∧
    (queueD.init 9).isSome ∧ selfDirForest.readable (fun _ _ => true) [114] ∧
    selfDirForest.prune (fun _ _ => true) [114] = selfDirForest ∧
    selfDirForest.proper ∧ selfDirForest.enterable os ∧ selfDirForest.noLinks ∧
    os.quiet ∧ (world []).fs.tree ∧ InDir os (world []) [] (world []).cwd ∧
    OpenDir os (world []).fs (world []).cwd ∧ PlainName [111] ∧
    (world []).fs ((world []).cwd ++ [[111]]) = none ∧ Enterable os (dirMode os 0o775) ∧
    compressdirMain (fun _ => true) (fun d => if d = [114] then .ok (0, [[1]]) else .ok (2, []))
      [strB "-if", [114], strB "-of", strB "f"] =
        .ok ⟨0, some (strB "f"), some [114], [[1]]⟩ := by
  refine ⟨queueDOK, copyIOK, fun _ => by simp [selfDirEnv], ?_, by decide,
    ⟨fun _ => trivial, trivial⟩, by decide +kernel, ?_, ⟨.inr (by decide), trivial, trivial⟩,
    ⟨trivial, trivial⟩, os_quiet, world_tree, .rel, ⟨0o755, by decide +kernel, .inr (by decide)⟩,
    by decide +kernel, by decide +kernel, .inr (by decide), by decide +kernel⟩
  · refine .file (sample_fits ?_ ?_ ?_) ?_ ?_ (.file (sample_fits ?_ ?_ ?_) ?_ ?_
      (.dir (es' := [⟨[98], .file⟩]) (sample_fits ?_ ?_ ?_) ?_ ?_
        (.file (sample_fits ?_ ?_ ?_) ?_ ?_ .nil) .nil))
    all_goals first | decide | rfl
  · simp only [selfDirForest, Forest.proper]
    decide +kernel

open HLSample in
/-- C70 is false for an empty directory: compressdir returns 0, and extracting what it wrote returns
'none' and creates nothing. -/
theorem C70_empty_directory_false :
    ¬ ∀ (D : Deflater) (Z : Inflater) (plain : Bytes → Bytes) (_ : DeflateOK D plain)
      (_ : InflateOK Z plain) (env : Env) (dir : Bytes) (args : List Bytes) (junk : Bytes)
      (fuel fuel' : Nat) (t : ToolRun) (r : Extracted), env.ok → env.list dir ≠ none →
      junk.length = 120 → compressdirWith D env fuel junk (fun _ => true) args = .ok t →
      t.source = some dir → t.ret = 0 →
      extract Z os (fun _ _ => true) fuel' hdrMem itemMem [111] 0 ⟨t.written.flatten, false⟩ (world []) =
        .ok r →
      r.ret = CT_DIRECTORY ∧ (r.w.fs [[104], [119], [111]]).isSome = true := by
  intro h
  have key : (match compressdirWith queueD emptyEnv 5 (List.replicate 120 0xEE) (fun _ => true)
        [strB "-if", [114], strB "-of", strB "f"] with
      | .ok t => decide (t.ret = 0 ∧ t.source = some [114]) &&
          decide (view [[[104], [119], [111]]] (run os t.written.flatten [111] (world [])) =
            .done CT_NONE [[104], [119]] [none])
      | .error _ => false) = true := by decide +kernel
  cases ht : compressdirWith queueD emptyEnv 5 (List.replicate 120 0xEE) (fun _ => true)
      [strB "-if", [114], strB "-of", strB "f"] with
  | error e => rw [ht] at key; simp at key
  | ok t =>
    rw [ht] at key
    simp only [Bool.and_eq_true, decide_eq_true_eq] at key
    obtain ⟨x, hx, h2, _, _⟩ := view_done key.2
    have := (h queueD copyI id queueDOK copyIOK emptyEnv [114] _ _ 5 5 t x
      (fun _ => by simp [emptyEnv]) (by decide +kernel) List.length_replicate ht key.1.2 key.1.1 hx).1
    rw [h2] at this
    exact absurd this (by decide)

end Zwt
