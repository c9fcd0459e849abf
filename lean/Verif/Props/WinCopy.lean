import Verif.Proofs.WinDisk
import Verif.Props.Win
import Verif.Props.Accept

/-! C110: compression of directories on Windows. -/

namespace Zwt

variable {σ : Type} {plain : Bytes → Bytes} {D : Deflater} {Z : Inflater}

/-- C110, every archive of a directory made on Windows is, byte for byte, the one that Unix makes of the
same files and directories when the filter also refuses links; so everything proved about archives made
on Unix holds of it.  This is for the functions without extra buffers and with extra buffers at the top;
nested extra buffers get other permissions. -/
theorem C110_no_links (D : Deflater) {env env' : Env} (he : env.sameFiles env') (flt : Filter σ)
    (fuel : Nat) {fn : DirFn} (hfn : ∀ xs, fn ≠ .nested xs) (dir : Bytes) (fs : σ) (level : Int)
    (junk : Bytes) :
    winCompressDir D env flt fuel fn dir fs level junk =
      compressDir D env' flt.noLinks fuel fn dir fs level junk :=
  winCompressDir_eq D he flt fuel hfn dir fs level junk

/-- C110: a directory of a Windows drive that has a file or a directory in it is archived with success,
and the archive, extracted to a new place of a Windows drive, gives a copy: the same files and
directories, with the same content and the same protection against writing, and nothing else changes.
Missing: links, which are left out (`C110_links_false`), files of 2 GiB and more, paths of more than 240
bytes, empty directories (C43), archives whose last piece fills the buffer (C39). -/
theorem C110_copy_partial (CD : DeflateOK D plain) (C : InflateOK Z plain) (win : Win) (hq : win.quiet)
    -- compression
    (w : WWorld) (ht : w.fs.tree) (env : Env) (henv : env.ok) (H : WShows win w env) (p : Bytes) (l : Loc)
    (A : WArchivable win w env p l) (hne : ∃ q, q ≠ [] ∧ w.fs (l ++ q) ≠ none) (level : Int) (z : D.τ)
    (hz : D.init level = some z) (junk : Bytes) (hj : junk.length = 120)
    -- extraction
    (ok : AllocOracle) (hok : ∀ k n, ok k n = true) (hdr item : Bytes) (hh : hdr.length = 128)
    (hi : item.length = 40) (w' : WWorld) (out : Bytes) (top : Loc) (ns : List Bytes)
    (hw : WFresh win w' out top ns) :
    ∃ n1 log last, (∀ fuel, n1 ≤ fuel →
        winCompressDir D env acceptAll fuel .plain p () level junk = .ok (0, log)) ∧
      log.getLast? = some last ∧
      ∀ size data, allowed size 0 data = log.flatten → last.length < 524288 →
        ∃ n0 r, (∀ fuel, n0 ≤ fuel →
            winExtract Z win ok fuel hdr item out size ⟨data, false⟩ w' = .ok r) ∧
          r.hasError = false ∧
          (C.Final → CD.Fits → ∀ c ∈ r.codes, c = Z_OK) ∧
          ((∀ c ∈ r.codes, c = Z_OK) → 0 < r.room ∨ C.Prompt log.flatten →
            r.ret = CT_DIRECTORY ∧ r.w.cwd = w'.cwd ∧
            WCopyOf w.fs l w'.fs r.w.fs top (top ++ ns.map win.same)) := by
  have he : env.sameFiles env.anyLinks := ⟨rfl, rfl, rfl, rfl⟩
  have H' : WShows win w env.anyLinks := ⟨H.list, H.stat, H.open'⟩
  have A' : WArchivable win w env.anyLinks p l := ⟨A.leads, A.isDir, A.files, A.top, A.short⟩
  obtain ⟨es, f, h1, h2, h3, h4, h5, h6, h7⟩ := A'.mirror ht H' fun _ => ⟨rfl, rfl⟩
  have hfl : Filter.noLinks acceptAll = keepFilter noLink := noLinks_all
  obtain ⟨s1, s2⟩ := select_prune noLink f p (f.pure_readable noLink h4 p)
  obtain ⟨p1, _, p3, p4⟩ := f.prune_noLink win p
  have hnil : f.prune noLink p ≠ .nil := by
    intro h
    obtain ⟨q, hq, hx⟩ := hne
    cases hn : w.fs (l ++ q) with
    | none => exact hx hn
    | some node =>
      have := (h7 [] q node hq).mpr hn
      rw [p4 h] at this
      cases this
  obtain ⟨n1, log, last, c1, c2, c3⟩ := C100_windows_partial CD C env.anyLinks henv (keepFilter noLink)
    h1 h2 () level z hz junk hj (by rw [s1]; decide) (by rw [s2]; exact hnil) ok hok hdr item hh hi win hq w'
    out top ns hw h3 (by rw [s2]; exact p3 h5)
  refine ⟨n1, log, last, fun fuel hfu => ?_, c2, fun size data hal hb => ?_⟩
  · rw [C110_no_links D he acceptAll fuel (fn := .plain) (by intro xs h; cases h), hfl]
    exact c1 fuel hfu
  · obtain ⟨n0, r, x1, x2, x3, x4⟩ := c3 size data hal hb
    refine ⟨n0, r, x1, x2, x3, fun a b => ?_⟩
    obtain ⟨y1, y2, y3⟩ := x4 a b
    rw [s2] at y3
    refine ⟨y1, y2, WLanded.copy hw y3 (fun b => ?_) fun b q => ?_⟩
    · rw [p1]; exact h6 b
    · rw [p1]; exact h7 b q

namespace WinSample

/-- Working directory `c`; in it `s`, with a protected file `R`, and a directory `d` with an empty file
`f`. -/
def source : WWorld where
  fs l := if l = [] ∨ l = [[99]] ∨ l = [[99], [115]] ∨ l = [[99], [115], [100]] then some .dir
    else if l = [[99], [115], [114]] then some (.file true [1, 2])
    else if l = [[99], [115], [100], [102]] then some (.file false []) else none
  cwd := [[99]]
  calls := 0

/-- The entries of the directories; there is also a link `L` in `s`. -/
def entries (l : Loc) : List Entry :=
  if l = [] then [⟨[99], .dir⟩]
  else if l = [[99]] then [⟨[46], .dir⟩, ⟨[46, 46], .dir⟩, ⟨[115], .dir⟩]
  else if l = [[99], [115]] then [⟨[46], .dir⟩, ⟨[46, 46], .dir⟩, ⟨[82], .file⟩, ⟨[100], .dir⟩, ⟨[76], .symlink⟩]
  else [⟨[46], .dir⟩, ⟨[46, 46], .dir⟩, ⟨[102], .file⟩]

/-- What the compression functions see of it. -/
def sourceEnv : Env where
  list p := match winLocate win source.cwd p with
    | none => none
    | some l => if source.fs l = some .dir then some (entries l) else none
  statMode _ := 0o40777
  fopen p := match winLocate win source.cwd p with
    | none => none
    | some l => match source.fs l with
      | some (.file ro c) => some ⟨some (0o100000 ||| if ro then 0o444 else 0o666, c.length), c, false⟩
      | _ => none
  lstat _ := (0, 0)
  readlink _ := none
  itemMem _ := List.replicate 40 170
  linkMem _ := []

theorem source_places {l : Loc} (h : source.fs l ≠ none) :
    l = [] ∨ l = [[99]] ∨ l = [[99], [115]] ∨ l = [[99], [115], [100]] ∨ l = [[99], [115], [114]] ∨
      l = [[99], [115], [100], [102]] := by
  simp only [source] at h
  split at h
  · rename_i h'
    rcases h' with h' | h' | h' | h' <;> simp [h']
  · split at h
    · rename_i h'; simp [h']
    · split at h
      · rename_i h'; simp [h']
      · exact absurd rfl h

theorem source_dir {l : Loc} (h : source.fs l = some .dir) :
    l = [] ∨ l = [[99]] ∨ l = [[99], [115]] ∨ l = [[99], [115], [100]] := by
  rcases source_places (l := l) (by rw [h]; simp) with rfl | rfl | rfl | rfl | rfl | rfl
  · simp
  · simp
  · simp
  · simp
  · exact absurd h (by decide +kernel)
  · exact absurd h (by decide +kernel)

theorem source_lists {l : Loc} (h : source.fs l = some .dir) : WLists win source.fs l (entries l) := by
  rcases source_dir h with rfl | rfl | rfl | rfl
  all_goals
    refine ⟨by decide, by simp +decide [entries], ?_, ?_⟩
    · intro e he
      simp only [entries] at he
      revert e
      simp +decide [WinName, PlainName, win, source, Win.same, WNode.type]
    · intro k n hk
      have := source_places (by rw [hk]; simp)
      simp only [List.cons_append, List.nil_append, List.cons.injEq, reduceCtorEq, and_false, and_true,
        true_and, false_or, or_false] at this
      first
        | (rcases this with rfl | rfl
           · exact ⟨⟨[100], .dir⟩, by decide, by simp +decide [WinName, PlainName, win], by decide⟩
           · exact ⟨⟨[82], .file⟩, by decide, by simp +decide [WinName, PlainName, win], by decide⟩)
        | (subst this
           first
             | exact ⟨⟨[99], .dir⟩, by decide, by simp +decide [WinName, PlainName, win], by decide⟩
             | exact ⟨⟨[115], .dir⟩, by decide, by simp +decide [WinName, PlainName, win], by decide⟩
             | exact ⟨⟨[102], .file⟩, by decide, by simp +decide [WinName, PlainName, win], by decide⟩)

theorem source_shows : WShows win source sourceEnv where
  list p l _ hp hl := ⟨entries l, by simp only [sourceEnv, hp, hl, if_true], source_lists hl⟩
  stat _ _ _ _ _ := by simp only [sourceEnv]; decide
  open' p l ro c _ hp hl _ := by simp only [sourceEnv, hp, hl]

theorem source_tree : source.fs.tree := by
  intro l k n h
  have hx := source_places (l := l ++ [k]) (by rw [h]; simp)
  have e : (l ++ [k]).dropLast = l := by simp
  rw [← e]
  generalize l ++ [k] = x at hx h
  rcases hx with rfl | rfl | rfl | rfl | rfl | rfl <;> decide +kernel

theorem source_archivable : WArchivable win source sourceEnv [115] [[99], [115]] where
  leads := by decide +kernel
  isDir := by decide +kernel
  files q ro c h := by
    simp only [source] at h
    split at h
    · simp at h
    · split at h
      · simp only [Option.some.injEq, WNode.file.injEq] at h; rw [← h.2]; decide
      · split at h
        · simp only [Option.some.injEq, WNode.file.injEq] at h; rw [← h.2]; decide
        · simp at h
  top := by decide
  short ns es e hn hl he _ := by
    have hloc := winLocate_extend win source.cwd ns [115] [[99], [115]] hn (by decide +kernel)
    rw [extendPath_eq] at hloc
    simp only [sourceEnv, hloc] at hl
    split at hl
    · rename_i hd
      have hlen : ∀ x, WinName win x → (win.same x).length = x.length := by
        intro x hx
        have := hx.2.2
        simp only [win] at this
        simp only [Win.same, win]
        split at this
        · exact absurd rfl this
        · rename_i hc; rw [if_neg hc]; simp
      have hent : ∀ l, ∀ e ∈ entries l, e.name.length ≤ 2 := by
        intro l
        simp only [entries]
        split
        · simp
        · split
          · simp
          · split <;> simp
      have h2 := hent _ e (by cases hl; exact he)
      rcases source_dir hd with h | h | h | h
      · simp at h
      · simp at h
      · simp only [List.cons_append, List.nil_append, List.cons.injEq, true_and, List.map_eq_nil_iff] at h
        subst h
        simp; omega
      · simp only [List.cons_append, List.nil_append, List.cons.injEq, true_and] at h
        match ns, h with
        | [], h => simp at h
        | _ :: _ :: _, h => simp at h
        | [x], h =>
          have := hlen x (hn x (by simp))
          simp only [List.map_cons, List.map_nil, List.cons.injEq, and_true] at h
          rw [h] at this
          simp at this ⊢
          omega
    · cases hl

end WinSample

open WinSample HLSample in
/-- The theorem for this directory, extracted to `o\\P` of another drive. -/
example := C110_copy_partial queueDOK copyIOK win win_quiet source source_tree sourceEnv
  (fun _ => by simp [sourceEnv]) source_shows [115] [[99], [115]] source_archivable
  ⟨[[114]], by simp, by decide +kernel⟩ 6 [] rfl (List.replicate 120 0xEE) List.length_replicate
  (fun _ _ => true) (fun _ _ => rfl) hdrMem itemMem List.length_replicate List.length_replicate drive
  [111, 47, 80] [[99], [111]] [[80]]
  ⟨⟨[111], by decide, by decide, by decide +kernel⟩, by simp +decide [WinName, PlainName, win], by decide,
    by decide, by decide +kernel, fun q => by
      simp only [drive]
      rw [if_neg (by simp), if_neg (by simp)]⟩

namespace WinSample

/-- The directory `r` of an environment, archived on Windows and extracted to `o` on Unix. -/
def fromWin (env : Env) : Run Extracted :=
  match winCompressDir queueD env acceptAll 20 .plain [114] () 6 (List.replicate 120 0xEE) with
  | .ok (0, log) => HLSample.run HLSample.os log.flatten [111] (HLSample.world [])
  | .ok _ => .error .outOfFuel
  | .error e => .error e

end WinSample

open WinSample in
/-- C110 is false for links: success is reported for the archive and for its extraction, and nothing is
in the place of the link. -/
theorem C110_links_false :
    ¬ ∀ (env : Env) (es : List Entry) (r : Extracted), env.ok → env.list [114] = some es →
      fromWin env = .ok r → r.ret = CT_DIRECTORY →
      ∀ e ∈ es, e.ty ≠ .other → r.w.fs [[104], [119], [111], e.name] ≠ none := by
  intro h
  have key : HLSample.view [[[104], [119], [111], [97]], [[104], [119], [111], [108]]] (fromWin linkEnv) =
      .done CT_DIRECTORY [[104], [119]] [some (.file 0o644 [1, 2, 3]), none] := by
    decide +kernel
  obtain ⟨r, h1, h2, _, h4⟩ := HLSample.view_done key
  simp only [List.map_cons, List.map_nil, List.cons.injEq] at h4
  exact h linkEnv _ r (flat_ok _ _) rfl h1 h2 ⟨[108], .symlink⟩ (by simp) (by decide) h4.2.1


end Zwt
