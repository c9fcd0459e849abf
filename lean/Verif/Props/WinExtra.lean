import Verif.Proofs.WinExtra
import Verif.Props.WinCopy
import Verif.Props.HLExtra

/-! C111: extra buffers on Windows. -/

namespace Zwt

variable {σ : Type} {plain : Bytes → Bytes} {D : Deflater} {Z : Inflater}

theorem Forest.winSpots_append (win : Win) (f g : Forest) : ∀ p,
    (f ++ g).winSpots win p = f.winSpots win p ++ g.winSpots win p := by
  show ∀ p, (f.append g).winSpots win p = _
  induction f with
  | nil => intro p; rfl
  | file n m c r ih => intro p; simp [Forest.append, winSpots, ih]
  | link n m t r ih => intro p; simp [Forest.append, winSpots, ih]
  | dir n m s r _ ih => intro p; simp [Forest.append, winSpots, ih]
  | other n r ih => intro p; simp [Forest.append, winSpots, ih]
  | bad n r ih => intro p; simp [Forest.append, winSpots, ih]

theorem nest_spot (win : Win) (mode : Nat) (content : Bytes) (rest : List Bytes) : ∀ (name : Bytes) (p : Loc),
    (p ++ (name :: rest).map win.same, .file (mode &&& 0o200 == 0) content) ∈
      (nest mode content name rest).winSpots win p := by
  induction rest with
  | nil => intro name p; simp [nest, Forest.winSpots]
  | cons next rest ih =>
    intro name p
    have := ih next (p ++ [win.same name])
    simp only [nest, Forest.winSpots]
    refine List.mem_cons_of_mem _ (List.mem_append_left _ ?_)
    simpa using this

theorem nested_spot (win : Win) {mode : Extra → Nat} {xs : List Extra} {f : Forest}
    (h : NestedTree mode xs f) (x : Extra) (hx : x ∈ xs) (p : Loc) :
    ∃ name rest, x.path = name ++ (rest.map (47 :: ·)).flatten ∧ (∀ q ∈ name :: rest, 47 ∉ q) ∧
      (p ++ (name :: rest).map win.same, .file (mode x &&& 0o200 == 0) x.content) ∈ f.winSpots win p := by
  induction h with
  | nil => simp at hx
  | cons h1 h2 _ ih =>
    rcases List.mem_cons.mp hx with rfl | hx
    · exact ⟨_, _, h1, h2, by rw [Forest.winSpots_append]; exact List.mem_append_left _ (nest_spot ..)⟩
    · obtain ⟨name, rest, a, b, c⟩ := ih hx
      exact ⟨name, rest, a, b, by rw [Forest.winSpots_append]; exact List.mem_append_right _ c⟩

theorem root_spot (win : Win) (p : Loc) (xs : List Extra) (x : Extra) (hx : x ∈ xs) :
    (p ++ [win.same x.path], .file (x.mode &&& 0o200 == 0) x.content) ∈ (rootForest xs).winSpots win p := by
  induction xs with
  | nil => simp at hx
  | cons y xs ih =>
    rcases List.mem_cons.mp hx with rfl | hx
    · exact List.mem_cons_self
    · exact List.mem_cons_of_mem _ (ih hx)

/-- C111, buffers at the top: added on Windows to the archive of a directory, every buffer is extracted as
a file with its content, protected against writing exactly if its mode asks for it; the files of the
directory are there as well.
Missing: names that are not a single name for Windows or that occur twice, links of the directory
(C110), an output path that exists, archives whose last piece fills the buffer (C39). -/
theorem C111_root_partial (CD : DeflateOK D plain) (C : InflateOK Z plain)
    -- compression
    {env env' : Env} (he : env.sameFiles env') (henv : env.ok) (flt : Filter σ) (xs : List Extra)
    (hxs : ∀ x ∈ xs, x.fits) {dir : Bytes} {es : List Entry} {f : Forest}
    (hl : env'.list dir = some es) (hm : Mirror env' dir es f) (fs : σ) (level : Int) (z : D.τ)
    (hz : D.init level = some z) (junk : Bytes) (hj : junk.length = 120)
    (hst : (select flt.noLinks dir f fs).status ≠ .failed) {T : Forest}
    (hT : T = rootForest xs ++ (select flt.noLinks dir f fs).forest) (hne : T ≠ .nil)
    -- extraction
    (ok : AllocOracle) (hok : ∀ k n, ok k n = true) (hdr item : Bytes) (hh : hdr.length = 128)
    (hi : item.length = 40) (win : Win) (hq : win.quiet) (w : WWorld) (out : Bytes) (top : Loc)
    (ns : List Bytes) (hw : WFresh win w out top ns) (hf : T.proper) (hfw : T.winOk win) :
    ∃ n1 log last, (∀ fuel, n1 ≤ fuel →
        winCompressDir D env flt fuel (.root xs) dir fs level junk = .ok (0, log)) ∧
      log.getLast? = some last ∧
      ∀ size data, allowed size 0 data = log.flatten → last.length < 524288 →
        ∃ n0 r, (∀ fuel, n0 ≤ fuel →
            winExtract Z win ok fuel hdr item out size ⟨data, false⟩ w = .ok r) ∧
          r.hasError = false ∧
          (C.Final → CD.Fits → ∀ c ∈ r.codes, c = Z_OK) ∧
          ((∀ c ∈ r.codes, c = Z_OK) → 0 < r.room ∨ C.Prompt log.flatten →
            r.ret = CT_DIRECTORY ∧ r.w.cwd = w.cwd ∧
            WLanded win w.fs r.w.fs top (top ++ ns.map win.same) T ∧
            ∀ x ∈ xs, r.w.fs (top ++ ns.map win.same ++ [win.same x.path]) =
              some (.file (x.mode &&& 0o200 == 0) x.content)) := by
  have henv' : env'.ok := fun k => by rw [he.2.2.2]; exact henv k
  obtain ⟨n1, log, g, hg, c1, copen, t, c2, _, last, c3, c4⟩ :=
    compressDir_good CD env' henv' flt.noLinks (.root xs) hxs hl hm fs level z hz junk hj hst
  have hg' : g = rootForest xs := hg
  rw [hg', ← hT] at c2
  refine ⟨n1, log, last, fun fuel hfu => ?_, c3, fun size data hal hb => ?_⟩
  · rw [C110_no_links D he flt fuel (fn := .root xs) (by intro _ h; cases h)]
    exact c1 fuel hfu
  obtain ⟨n0, r, x1, x2, x3, x4⟩ := winExtract_tree C (CD.plain_nil hz) ok hok hdr item hh hi win hq w
    out top ns hw hf hfw hne hj c2 size ⟨data, false⟩ rfl (by
      show plain (allowed size 0 data) = _
      rw [hal]; exact c4 hb)
  refine ⟨n0, r, x1, x2,
    fun hF hT => x3 hF (by show Open plain (allowed size 0 data); rw [hal]; exact copen hT), fun a b => ?_⟩
  obtain ⟨y1, y2, y3⟩ := x4 a (by show _ ∨ C.Prompt (allowed size 0 data); rw [hal]; exact b)
  refine ⟨y1, y2, y3, fun x hx => ?_⟩
  refine y3.2.1 (_, _) ?_
  rw [hT, Forest.winSpots_append]
  exact List.mem_append_left _ (root_spot win _ xs x hx)

/-- C111, buffers at nested paths: every buffer is extracted as a file with its content, in directories for
the parts of its path before a slash; on Windows this needs no rights that Unix would need (compare
`C68_nested_buffers_false`).
Missing: the mode, which is always read and write (`C111_mode_false`), buffers that share a directory,
what is missing from `C111_root_partial`. -/
theorem C111_nested_partial (CD : DeflateOK D plain) (C : InflateOK Z plain)
    -- compression
    {env env' : Env} (he : env.sameFiles env') (henv : env.ok) (flt : Filter σ) (xs : List Extra)
    (hxs : ∀ x ∈ xs, x.fits) {dir : Bytes} {es : List Entry} {f : Forest}
    (hl : env'.list dir = some es) (hm : Mirror env' dir es f) (fs : σ) (level : Int) (z : D.τ)
    (hz : D.init level = some z) (junk : Bytes) (hj : junk.length = 120)
    (hst : (select flt.noLinks dir f fs).status ≠ .failed) {g T : Forest}
    (hg : NestedTree (fun _ => 0o600) xs g)
    (hT : T = g ++ (select flt.noLinks dir f fs).forest) (hne : T ≠ .nil)
    -- extraction
    (ok : AllocOracle) (hok : ∀ k n, ok k n = true) (hdr item : Bytes) (hh : hdr.length = 128)
    (hi : item.length = 40) (win : Win) (hq : win.quiet) (w : WWorld) (out : Bytes) (top : Loc)
    (ns : List Bytes) (hw : WFresh win w out top ns) (hf : T.proper) (hfw : T.winOk win) :
    ∃ n1 log last, (∀ fuel, n1 ≤ fuel →
        winCompressDir D env flt fuel (.nested xs) dir fs level junk = .ok (0, log)) ∧
      log.getLast? = some last ∧
      ∀ size data, allowed size 0 data = log.flatten → last.length < 524288 →
        ∃ n0 r, (∀ fuel, n0 ≤ fuel →
            winExtract Z win ok fuel hdr item out size ⟨data, false⟩ w = .ok r) ∧
          r.hasError = false ∧
          (C.Final → CD.Fits → ∀ c ∈ r.codes, c = Z_OK) ∧
          ((∀ c ∈ r.codes, c = Z_OK) → 0 < r.room ∨ C.Prompt log.flatten →
            r.ret = CT_DIRECTORY ∧ r.w.cwd = w.cwd ∧
            WLanded win w.fs r.w.fs top (top ++ ns.map win.same) T ∧
            ∀ x ∈ xs, ∃ name rest, x.path = name ++ (rest.map (47 :: ·)).flatten ∧
              (∀ p ∈ name :: rest, 47 ∉ p) ∧
              r.w.fs (top ++ ns.map win.same ++ (name :: rest).map win.same) =
                some (.file false x.content)) := by
  obtain ⟨n1, log, g', hg', c1, copen, t, c2, _, last, c3, c4⟩ :=
    winCompressDir_nested CD he henv flt xs hxs hl hm fs level z hz junk hj hst
  rw [NestedTree.unique hg' hg, ← hT] at c2
  refine ⟨n1, log, last, c1, c3, fun size data hal hb => ?_⟩
  obtain ⟨n0, r, x1, x2, x3, x4⟩ := winExtract_tree C (CD.plain_nil hz) ok hok hdr item hh hi win hq w
    out top ns hw hf hfw hne hj c2 size ⟨data, false⟩ rfl (by
      show plain (allowed size 0 data) = _
      rw [hal]; exact c4 hb)
  refine ⟨n0, r, x1, x2,
    fun hF hT => x3 hF (by show Open plain (allowed size 0 data); rw [hal]; exact copen hT), fun a b => ?_⟩
  obtain ⟨y1, y2, y3⟩ := x4 a (by show _ ∨ C.Prompt (allowed size 0 data); rw [hal]; exact b)
  refine ⟨y1, y2, y3, fun x hx => ?_⟩
  obtain ⟨name, rest, e1, e2, e3⟩ := nested_spot win hg x hx (top ++ ns.map win.same)
  refine ⟨name, rest, e1, e2, ?_⟩
  refine y3.2.1 (_, _) ?_
  rw [hT, Forest.winSpots_append]
  exact List.mem_append_left _ e3

/-! ### Examples and witnesses -/

namespace WinSample

/-- Extra buffers alone, archived on Windows and extracted to `o` on the drive. -/
def winExtraRun (fn : DirFn) : Run WExtracted :=
  match winCompressDir queueD emptyEnv acceptAll 20 fn [114] () 6 (List.replicate 120 0xEE) with
  | .ok (_, log) => winExtract copyI win (fun _ _ => true) 20 HLSample.hdrMem HLSample.itemMem [111] 0
      ⟨log.flatten, false⟩ drive
  | .error e => .error e

/-- The buffers of the examples. -/
theorem fits_small {xs : List Extra} {x : Extra} (hx : x ∈ xs)
    (h : ∀ x ∈ xs, x.path.length < 9 ∧ x.content.length < 9 ∧ x.mode < 512 := by decide) : x.fits := by
  have := h x hx
  exact ⟨by omega, by omega, by omega⟩

theorem drive_fresh : WFresh win drive [111] [[99], [111]] [] :=
  ⟨⟨[111], by decide, by decide, by decide +kernel⟩, by simp, by decide, by decide, by decide +kernel, fun q => by
    simp only [drive]
    rw [if_neg (by simp), if_neg (by simp)]⟩

end WinSample

open WinSample HLSample in
/-- The buffers `x` (protected) and `Y` in front of the directory `r` with the file `a` and the link `l`. -/
example := C111_root_partial (plain := fun b => b) queueDOK copyIOK (env := linkEnv) (env' := linkEnv)
  ⟨rfl, rfl, rfl, rfl⟩ (flat_ok _ _) (keepFilter fun _ _ => true) [⟨[120], [1, 2], 0o444⟩, ⟨[89], [], 0o644⟩]
  (fun x hx => fits_small hx) rfl linkMirror () 6 [] rfl (List.replicate 120 0xEE)
  List.length_replicate (by decide) (T := .file [120] 0o444 [1, 2] (.file [89] 0o644 []
    (.file [97] 0o644 [1, 2, 3] .nil))) (by decide) (by decide) (fun _ _ => true) (fun _ _ => rfl) hdrMem itemMem
  List.length_replicate List.length_replicate win win_quiet drive [111] [[99], [111]] [] drive_fresh
  (by simp +decide [Forest.proper, PlainName])
  (by simp +decide [Forest.winOk, WinName, PlainName, win, Forest.winNames, Win.same])

open WinSample HLSample in
/-- The buffer `a/b`, for a directory of which the filter takes nothing but links. -/
example := C111_nested_partial (plain := fun b => b) queueDOK copyIOK (env := linkEnv) (env' := linkEnv)
  ⟨rfl, rfl, rfl, rfl⟩ (flat_ok _ _) (keepFilter fun _ e => e.ty = .symlink) [⟨[97, 47, 98], [7], 0o444⟩]
  (fun x hx => fits_small hx) rfl linkMirror () 6 [] rfl (List.replicate 120 0xEE)
  List.length_replicate (by decide) (g := .dir [97] 0 (.file [98] 0o600 [7] .nil) .nil)
  (.cons (name := [97]) (rest := [[98]]) (by decide) (by decide) .nil)
  (T := .dir [97] 0 (.file [98] 0o600 [7] .nil) .nil) (by decide) (by decide) (fun _ _ => true)
  (fun _ _ => rfl) hdrMem itemMem
  List.length_replicate List.length_replicate win win_quiet drive [111] [[99], [111]] [] drive_fresh
  (by simp +decide [Forest.proper, PlainName])
  (by simp +decide [Forest.winOk, WinName, PlainName, win, Forest.winNames, Win.same])

open WinSample in
/-- C111 is false of modes of nested buffers: a buffer for a protected file becomes a file that is not. -/
theorem C111_mode_false :
    ¬ ∀ (x : Extra) (r : WExtracted), x.fits → PlainName x.path → winExtraRun (.nested [x]) = .ok r →
      r.ret = CT_DIRECTORY → r.hasError = false →
      r.w.fs [[99], [111], win.same x.path] = some (.file (x.mode &&& 0o200 == 0) x.content) := by
  intro h
  have key : WinSample.view [[[99], [111], [97]]] (winExtraRun (.nested [⟨[97], [7], 0o444⟩])) =
      .done CT_DIRECTORY false [some (.file false [7])] := by decide +kernel
  obtain ⟨r, h1, h2, h3, h4⟩ := WinSample.view_done key
  have := h ⟨[97], [7], 0o444⟩ r ⟨by decide, by decide, by decide⟩ (by decide) h1 h2 h3
  simp only [List.map_cons, List.map_nil, List.cons.injEq, and_true] at h4
  rw [show win.same [97] = [97] by decide, h4] at this
  exact absurd this (by decide)

end Zwt
