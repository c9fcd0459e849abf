import Verif.Proofs.WinAgain
import Verif.Props.WinCopy

/-! C118: copies on Windows can be copied again. -/

namespace Zwt

/-- Drives with directories that are copies of each other, `n` of them after the first. -/
inductive WCopies (src : WFS) (l : Loc) : Nat → WFS → Loc → Prop
  | first : WCopies src l 0 src l
  | next {n : Nat} {v fs fs' : WFS} {b top b' : Loc} : WCopies src l n v b → WCopyOf v b fs fs' top b' →
      WCopies src l (n + 1) fs' b'

section

variable {plain : Bytes → Bytes} {D : Deflater} {Z : Inflater}

/-- C118: after any number of copies the directory is the first one. -/
theorem C118_generations {src v : WFS} {l b : Loc} {n : Nat} (h : WCopies src l n v b) :
    ∀ q, q ≠ [] → v (b ++ q) = src (l ++ q) := by
  induction h with
  | first => intro q _; rfl
  | next _ h ih => intro q hq; rw [h.2.1 q hq]; exact ih q hq

/-- C118: a copy on a Windows drive of a directory that can be archived, with a file or directory in it,
is archived with success, and the archive, extracted to a new place of a Windows drive, gives a copy again:
the same files and directories as the first, with the same content and the same protection.
Missing: as C110; the paths of the copy must be short again, which is a matter of where it is. -/
theorem C118_again_partial (CD : DeflateOK D plain) (C : InflateOK Z plain) (win : Win) (hq : win.quiet)
    -- the original
    (w : WWorld) (ht : w.fs.tree) (env : Env) (p : Bytes) (l : Loc) (A : WArchivable win w env p l)
    (hne : ∃ q, q ≠ [] ∧ w.fs (l ++ q) ≠ none)
    -- the first copy
    (w' : WWorld) (ht' : w'.fs.tree) (out : Bytes) (top : Loc) (ns : List Bytes) (hw : WFresh win w' out top ns)
    (v : WWorld) (hv : v.cwd = w'.cwd) (h1 : WCopyOf w.fs l w'.fs v.fs top (top ++ ns.map win.same))
    -- its compression
    (env' : Env) (henv : env'.ok) (H : WShows win v env') (hout : out.length ≤ 240)
    (hshort : ∀ (ms : List Bytes) (es : List Entry) (e : Entry), (∀ x ∈ ms, WinName win x) →
      env'.list (out ++ (ms.map (47 :: ·)).flatten) = some es → e ∈ es → WinName win e.name →
      (out ++ (ms.map (47 :: ·)).flatten).length + 1 + e.name.length ≤ 240)
    (level : Int) (z : D.τ) (hz : D.init level = some z) (junk : Bytes) (hj : junk.length = 120)
    -- extraction
    (ok : AllocOracle) (hok : ∀ k n, ok k n = true) (hdr item : Bytes) (hh : hdr.length = 128)
    (hi : item.length = 40) (w2 : WWorld) (out2 : Bytes) (top2 : Loc) (ns2 : List Bytes)
    (hw2 : WFresh win w2 out2 top2 ns2) :
    ∃ n1 log last, (∀ fuel, n1 ≤ fuel →
        winCompressDir D env' acceptAll fuel .plain out () level junk = .ok (0, log)) ∧
      log.getLast? = some last ∧
      ∀ size data, allowed size 0 data = log.flatten → last.length < 524288 →
        ∃ n0 r, (∀ fuel, n0 ≤ fuel →
            winExtract Z win ok fuel hdr item out2 size ⟨data, false⟩ w2 = .ok r) ∧
          r.hasError = false ∧
          (C.Final → CD.Fits → ∀ c ∈ r.codes, c = Z_OK) ∧
          ((∀ c ∈ r.codes, c = Z_OK) → 0 < r.room ∨ C.Prompt log.flatten →
            r.ret = CT_DIRECTORY ∧ r.w.cwd = w2.cwd ∧
            WCopyOf w.fs l w2.fs r.w.fs top2 (top2 ++ ns2.map win.same)) := by
  have hvt := h1.tree ht ht' hw.ne hw.parent
  have A2 := WCopyOf.archivable (env' := env') A hw hv h1 hout hshort
  obtain ⟨q, hq1, hq2⟩ := hne
  obtain ⟨n1, log, last, c1, c2, c3⟩ := C110_copy_partial CD C win hq v hvt env' henv H out _ A2
    ⟨q, hq1, by rw [h1.2.1 q hq1]; exact hq2⟩ level z hz junk hj ok hok hdr item hh hi w2 out2 top2 ns2 hw2
  refine ⟨n1, log, last, c1, c2, fun size data hal hb => ?_⟩
  obtain ⟨n0, r, x1, x2, x3, x4⟩ := c3 size data hal hb
  refine ⟨n0, r, x1, x2, x3, fun a b => ?_⟩
  obtain ⟨y1, y2, y3⟩ := x4 a b
  exact ⟨y1, y2, y3.1, fun q hq => (y3.2.1 q hq).trans (h1.2.1 q hq), y3.2.2⟩

end

namespace WinSample

/-- The drive `drive` with a copy of the directory `s` of `source`, at `o`. -/
def copied : WWorld where
  fs l := if l = [] ∨ l = [[99]] ∨ l = [[99], [111]] ∨ l = [[99], [111], [100]] then some .dir
    else if l = [[99], [111], [114]] then some (.file true [1, 2])
    else if l = [[99], [111], [100], [102]] then some (.file false []) else none
  cwd := [[99]]
  calls := 7

/-- The entries of its directories, in another order. -/
def listed (l : Loc) : List Entry :=
  if l = [] then [⟨[99], .dir⟩]
  else if l = [[99]] then [⟨[46], .dir⟩, ⟨[46, 46], .dir⟩, ⟨[111], .dir⟩]
  else if l = [[99], [111]] then [⟨[46], .dir⟩, ⟨[100], .dir⟩, ⟨[46, 46], .dir⟩, ⟨[82], .file⟩]
  else [⟨[46], .dir⟩, ⟨[46, 46], .dir⟩, ⟨[102], .file⟩]

/-- What the compression functions see of it. -/
def copiedEnv : Env where
  list p := match winLocate win copied.cwd p with
    | none => none
    | some l => if copied.fs l = some .dir then some (listed l) else none
  statMode _ := 0o40777
  fopen p := match winLocate win copied.cwd p with
    | none => none
    | some l => match copied.fs l with
      | some (.file ro c) => some ⟨some (0o100000 ||| if ro then 0o444 else 0o666, c.length), c, false⟩
      | _ => none
  lstat _ := (0, 0)
  readlink _ := none
  itemMem _ := List.replicate 40 170
  linkMem _ := []

/-- The drive before. -/
def empty : WWorld where
  fs l := if l = [] ∨ l = [[99]] then some .dir else none
  cwd := [[99]]
  calls := 0

theorem copied_places {l : Loc} (h : copied.fs l ≠ none) :
    l = [] ∨ l = [[99]] ∨ l = [[99], [111]] ∨ l = [[99], [111], [100]] ∨ l = [[99], [111], [114]] ∨
      l = [[99], [111], [100], [102]] := by
  simp only [copied] at h
  split at h
  · rename_i h'
    rcases h' with h' | h' | h' | h' <;> simp [h']
  · split at h
    · rename_i h'; simp [h']
    · split at h
      · rename_i h'; simp [h']
      · exact absurd rfl h

theorem copied_dir {l : Loc} (h : copied.fs l = some .dir) :
    l = [] ∨ l = [[99]] ∨ l = [[99], [111]] ∨ l = [[99], [111], [100]] := by
  rcases copied_places (l := l) (by rw [h]; simp) with rfl | rfl | rfl | rfl | rfl | rfl
  · simp
  · simp
  · simp
  · simp
  · exact absurd h (by decide +kernel)
  · exact absurd h (by decide +kernel)

theorem copied_lists {l : Loc} (h : copied.fs l = some .dir) : WLists win copied.fs l (listed l) := by
  rcases copied_dir h with rfl | rfl | rfl | rfl
  all_goals
    refine ⟨by decide, by simp +decide [listed], ?_, ?_⟩
    · intro e he
      simp only [listed] at he
      revert e
      simp +decide [WinName, PlainName, win, copied, Win.same, WNode.type]
    · intro k n hk
      have := copied_places (by rw [hk]; simp)
      simp only [List.cons_append, List.nil_append, List.cons.injEq, reduceCtorEq, and_false, and_true,
        true_and, false_or, or_false] at this
      first
        | (rcases this with rfl | rfl
           · exact ⟨⟨[100], .dir⟩, by decide, by simp +decide [WinName, PlainName, win], by decide⟩
           · exact ⟨⟨[82], .file⟩, by decide, by simp +decide [WinName, PlainName, win], by decide⟩)
        | (subst this
           first
             | exact ⟨⟨[99], .dir⟩, by decide, by simp +decide [WinName, PlainName, win], by decide⟩
             | exact ⟨⟨[111], .dir⟩, by decide, by simp +decide [WinName, PlainName, win], by decide⟩
             | exact ⟨⟨[102], .file⟩, by decide, by simp +decide [WinName, PlainName, win], by decide⟩)

theorem copied_shows : WShows win copied copiedEnv where
  list p l _ hp hl := ⟨listed l, by simp only [copiedEnv, hp, hl, if_true], copied_lists hl⟩
  stat _ _ _ _ _ := by simp only [copiedEnv]; decide
  open' p l ro c _ hp hl _ := by simp only [copiedEnv, hp, hl]

theorem copied_tree : copied.fs.tree := by
  intro l k n h
  have hx := copied_places (l := l ++ [k]) (by rw [h]; simp)
  have e : (l ++ [k]).dropLast = l := by simp
  rw [← e]
  generalize l ++ [k] = x at hx h
  rcases hx with rfl | rfl | rfl | rfl | rfl | rfl <;> decide +kernel

theorem copied_archivable : WArchivable win copied copiedEnv [111] [[99], [111]] where
  leads := by decide +kernel
  isDir := by decide +kernel
  files q ro c h := by
    simp only [copied] at h
    split at h
    · simp at h
    · split at h
      · simp only [Option.some.injEq, WNode.file.injEq] at h; rw [← h.2]; decide
      · split at h
        · simp only [Option.some.injEq, WNode.file.injEq] at h; rw [← h.2]; decide
        · simp at h
  top := by decide
  short ns es e hn hl he _ := by
    have hloc := winLocate_extend win copied.cwd ns [111] [[99], [111]] hn (by decide +kernel)
    rw [extendPath_eq] at hloc
    simp only [copiedEnv, hloc] at hl
    split at hl
    · rename_i hd
      have hlen : ∀ x, WinName win x → (win.same x).length = x.length := by
        intro x hx
        have := hx.2.2
        simp only [win] at this
        simp only [Win.same, win]
        split at this
        · exact absurd rfl this
        · rename_i hc; rw [if_neg hc]; simp
      have hent : ∀ l, ∀ e ∈ listed l, e.name.length ≤ 2 := by
        intro l
        simp only [listed]
        split
        · simp
        · split
          · simp
          · split <;> simp
      have h2 := hent _ e (by cases hl; exact he)
      rcases copied_dir hd with h | h | h | h
      · simp at h
      · simp at h
      · simp only [List.cons_append, List.nil_append, List.cons.injEq, true_and, List.map_eq_nil_iff] at h
        subst h
        simp; omega
      · simp only [List.cons_append, List.nil_append, List.cons.injEq, true_and] at h
        match ns, h with
        | [], h => simp at h
        | _ :: _ :: _, h => simp at h
        | [x], h =>
          have := hlen x (hn x (by simp))
          simp only [List.map_cons, List.map_nil, List.cons.injEq, and_true] at h
          rw [h] at this
          simp at this ⊢
          omega
    · cases hl

theorem empty_tree : empty.fs.tree := by
  intro l k n h
  simp only [empty] at h ⊢
  split at h
  · rename_i h'
    rcases h' with h' | h'
    · simp at h'
    · rw [show [[99]] = [] ++ [([99] : Bytes)] from rfl] at h'
      rw [(List.append_inj' h' rfl).1]; simp
  · cases h

theorem empty_fresh : WFresh win empty [111] [[99], [111]] [] :=
  ⟨⟨[111], by decide, by decide, by decide +kernel⟩, by simp, by decide, by decide, by decide +kernel, fun q => by
    simp only [empty]
    rw [if_neg (by simp)]⟩

theorem copied_copy : WCopyOf source.fs [[99], [115]] empty.fs copied.fs [[99], [111]]
    ([[99], [111]] ++ ([] : List Bytes).map win.same) := by
  refine ⟨?_, ?_, ?_⟩
  · intro l' h1 h2
    have : l' = [[99], [111]] := by
      have e := h1.eq_of_length_le (by simpa using h2.length_le)
      exact e.symm
    subst this
    decide +kernel
  · intro q hq
    simp [source, copied]
  · intro l' h1 h2
    simp only [List.map_nil, List.append_nil] at h1 h2
    have a : l' ≠ [[99], [111]] := by rintro rfl; exact h1 ⟨List.prefix_rfl, List.prefix_rfl⟩
    have b := h2 [[100]] (by simp)
    have c := h2 [[114]] (by simp)
    have d := h2 [[100], [102]] (by simp)
    simp only [List.cons_append, List.nil_append] at b c d
    simp [copied, empty, a, b, c, d]

end WinSample

open WinSample HLSample in
/-- The theorem for this copy, extracted to `o\\P` of another drive. -/
example := C118_again_partial queueDOK copyIOK win win_quiet source source_tree sourceEnv [115] [[99], [115]]
  source_archivable ⟨[[114]], by simp, by decide +kernel⟩ empty empty_tree [111] [[99], [111]] [] empty_fresh
  copied rfl copied_copy copiedEnv (fun _ => by simp [copiedEnv]) copied_shows (by decide) copied_archivable.short
  6 [] rfl (List.replicate 120 0xEE) List.length_replicate
  (fun _ _ => true) (fun _ _ => rfl) hdrMem itemMem List.length_replicate List.length_replicate drive
  [111, 47, 80] [[99], [111]] [[80]]
  ⟨⟨[111], by decide, by decide, by decide +kernel⟩, by simp +decide [WinName, PlainName, win], by decide,
    by decide, by decide +kernel, fun q => by
      simp only [drive]
      rw [if_neg (by simp), if_neg (by simp)]⟩

open WinSample in
/-- A first copy. -/
example : WCopies source.fs [[99], [115]] 1 copied.fs [[99], [111]] := .next .first copied_copy

end Zwt
