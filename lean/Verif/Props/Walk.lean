import Verif.Proofs.WalkMore
import Verif.Proofs.DirFeed
import Verif.Spec.WalkSample
import Verif.Spec.Toy

/-! C26–C32, C35, C36: compressing directories. -/

namespace Zwt

variable {σ : Type} {D : Deflater} {plain : Bytes → Bytes}

/-! ### C26 -/

theorem LinkSfx.balance_eq {a b : List Atom} (h : LinkSfx a b) : ∀ d, balance d a = balance d b := by
  induction h with
  | nil => intro d; rfl
  | same x _ ih =>
    intro d
    cases x with
    | start ft nm it => cases ft <;> cases d <;> simp only [balance, ih]
    | dirEnd => cases d <;> simp only [balance, ih]
    | _ => cases d <;> simp only [balance, ih]
  | link _ _ ih => intro d; cases d <;> simp only [balance, ih]

/-- C26, what holds: for every tree, every encoding of it and every way of cutting the encoding
into buffers, directory ends match directory starts like brackets and every directory is closed.
Missing: archives not written by the compression functions. -/
theorem C26_balanced_directories_partial {f : Forest} {t : Bytes} (h : Encodes f t)
    (ok : AllocOracle) (hok : ∀ k n, ok k n = true) (junk : Bytes) (hj : junk.length = 11)
    (chunks : List Bytes) (hc : chunks.flatten = t) :
    ∃ s evs, dirFeed ok (dirInit junk) (chunks ++ [[], []]) = .ok (s, evs) ∧
      balance 0 (atoms evs) = some 0 := by
  obtain ⟨s, evs, h1, h2, _⟩ := feed_init_flush ok junk hj chunks
  refine ⟨s, evs, h1, ?_⟩
  obtain ⟨k', as, p1, _, p3⟩ := h.parse ok hok 0
  have e1 := p1 []
  rw [List.append_nil, specParse_short _ _ [] (by simp)] at e1
  rw [h2.balance_eq, hc, e1]
  simpa [Parsed.after, balance] using p3 0 []

example : ∃ f t, Encodes f t ∧ f = .dir [100] 0 .nil .nil :=
  ⟨_, _, .dir (name := [100]) (mode := 0) (p := [0, 0])
    (item := itemBytes ⟨0, 0, 1, 3, 0, 1⟩ (List.replicate 11 0))
    (e := itemBytes ⟨0, 0, 1, 3, 0, 2⟩ (List.replicate 11 0)) (by decide +kernel)
    (by decide +kernel) (by decide +kernel) (by decide +kernel) (by decide +kernel)
    ⟨2, by decide, by decide, rfl⟩ .nil (by decide +kernel) (by decide +kernel) .nil, rfl⟩

/-- C26 is false: a record with nothing before it closes a directory never opened. -/
theorem C26_balanced_directories_false :
    ¬ ∀ (ok : AllocOracle) (junk : Bytes) (chunks : List Bytes) (s : DirSt) (evs : List Ev),
      junk.length = 11 → dirFeed ok (dirInit junk) chunks = .ok (s, evs) →
      balance 0 (atoms evs) ≠ none := by
  intro h
  have key : ∃ s evs, dirFeed (fun _ _ => true) (dirInit (List.replicate 11 0))
      [itemBytes ⟨0, 0, 0, 0, 0, 2⟩ (List.replicate 11 0)] = .ok (s, evs) ∧
      atoms evs = [.dirEnd] := by
    refine ⟨_, _, rfl, ?_⟩
    decide +kernel
  obtain ⟨s, evs, h1, h2⟩ := key
  have := h _ _ _ s evs (by decide +kernel) h1
  rw [h2] at this
  exact this rfl

/-! ### C27 -/

theorem sampleEnv_ok : sampleEnv.ok := fun _ => by simp [sampleEnv]

/-- The listing of the sample directory. -/
theorem sampleList : sampleEnv.list [114] = some ((sampleEnv.list [114]).getD []) := rfl

/-- C27: compressing a directory returns 0 and the archive is the header and the encoding of the
selected tree, for every tree, filter and conforming codec. -/
theorem C27_directory_archive (C : DeflateOK D plain) (env : Env) (henv : env.ok) (flt : Filter σ)
    {dir : Bytes} {es : List Entry} {f : Forest} (hl : env.list dir = some es)
    (hm : Mirror env dir es f) (fs : σ) (level : Int) (z : D.τ) (hz : D.init level = some z)
    (junk : Bytes) (hj : junk.length = 120) (hst : (select flt dir f fs).status ≠ .failed) :
    ∃ n0 log, (∀ fuel, n0 ≤ fuel →
        compressDir D env flt fuel .plain dir fs level junk = .ok (0, log)) ∧
      IsArchive plain junk (select flt dir f fs).forest log := by
  obtain ⟨n0, log, g, rfl, h1, _, h2⟩ := compressDir_good C env henv flt .plain trivial hl hm fs level z
    hz junk hj hst
  exact ⟨n0, log, h1, h2⟩

example := C27_directory_archive queueDOK sampleEnv sampleEnv_ok (keepFilter fun _ e => e.name ≠ [117])
    sampleList sampleMirror () 6 [] rfl (List.replicate 120 0) List.length_replicate (by decide)

/-- C27: an encoding determines the tree: every entry, its place, name, mode and content. -/
theorem C27_encoding_determines_tree {f g : Forest} {t : Bytes} (hf : Encodes f t)
    (hg : Encodes g t) : f = g := by
  obtain ⟨_, as, a1, a2, _⟩ := hf.parse (fun _ _ => true) (fun _ _ => rfl) 0
  obtain ⟨_, bs, b1, b2, _⟩ := hg.parse (fun _ _ => true) (fun _ _ => rfl) 0
  have e1 := a1 []
  have e2 := b1 []
  rw [List.append_nil, specParse_short _ _ [] (by simp)] at e1 e2
  rw [e1] at e2
  simp only [Parsed.after, List.append_nil, Parsed.mk.injEq, and_true] at e2
  refine (Forest.shapes_inj f g hf.isPure hg.isPure [] [] (.inl rfl) (.inl rfl) ?_).1
  rw [← a2, ← b2, e2]

example : Encodes (.nil) ([] : Bytes) ∧ ¬ Encodes (.file [97] 0 [] .nil) ([] : Bytes) :=
  ⟨.nil, fun h => by have := C27_encoding_determines_tree h .nil; cases this⟩

/-- C27: reading an encoding back through the directory parser, in any buffers that do not cut a
link target, tells exactly the tree. -/
theorem C27_reads_back {f : Forest} {t : Bytes} (h : Encodes f t) (ok : AllocOracle)
    (hok : ∀ k n, ok k n = true) (junk : Bytes) (hj : junk.length = 11) (chunks : List Bytes)
    (hc : chunks.flatten = t) (hcut : NoLinkCut ok chunks) :
    ∃ s evs, dirFeed ok (dirInit junk) (chunks ++ [[], []]) = .ok (s, evs) ∧
      (atoms evs).map Atom.shape = f.shapes := by
  obtain ⟨s, evs, h1, _, h2⟩ := feed_init_flush ok junk hj chunks
  refine ⟨s, evs, h1, ?_⟩
  obtain ⟨k', as, p1, p2, _⟩ := h.parse ok hok 0
  have e1 := p1 []
  rw [List.append_nil, specParse_short _ _ [] (by simp)] at e1
  rw [h2 hcut, hc, e1]
  simpa [Parsed.after] using p2

example : sampleEnv.ok ∧ Mirror sampleEnv [114] ((sampleEnv.list [114]).getD []) sampleForest ∧
    (queueD.init 6).isSome ∧
    (select (keepFilter fun _ e => e.name ≠ [117]) [114] sampleForest ()).forest =
      .file [97] 0o640 [1, 2] (.dir [100] 0o755 (.file [98] 0o600 [] .nil) (.link [108] 0o777 [116] .nil)) ∧
    (select (keepFilter fun _ e => e.name ≠ [117]) [114] sampleForest ()).status = .done :=
  ⟨sampleEnv_ok, sampleMirror, by decide, by decide, by decide⟩

/-! ### C28 -/

/-- C28: no filter is ever shown `.` or `..`, on any file system whatsoever. -/
theorem C28_dots_never_shown {env : Env} {flt : Filter σ} {fuel : Nat} {fn : DirFn} {dir : Bytes}
    {fs : σ} {ret : Int} {w : W σ} (h : dirWrites env flt fuel fn dir fs = .ok (ret, w)) :
    ∀ x ∈ w.shown, x.2.1.name ≠ [46] ∧ x.2.1.name ≠ [46, 46] :=
  (dirWrites_inv h).1.dots

/-- The sample directory does list `.`. -/
example : (match dirWrites sampleEnv acceptAll 5 .plain [114] () with
    | .ok (_, w) => decide (w.shown.map (·.2.1.name) = [[97], [100], [98], [108], [115], [117]])
    | .error _ => false) = true ∧
    ([46] : Bytes) ∈ ((sampleEnv.list [114]).getD []).map Entry.name := by decide +kernel

/-- C28: the archive holds exactly the entries the filter returned 0 for (those of a type that can
be archived), and entries are shown only from the top directory and from directories the filter
accepted before. -/
theorem C28_archived_iff_accepted (C : DeflateOK D plain) (env : Env) (henv : env.ok)
    (flt : Filter σ) {dir : Bytes} {es : List Entry} {f : Forest} (hl : env.list dir = some es)
    (hm : Mirror env dir es f) (fs : σ) (level : Int) (z : D.τ) (hz : D.init level = some z)
    (junk : Bytes) (hj : junk.length = 120) (hst : (select flt dir f fs).status ≠ .failed) :
    ∃ n0 log w f', (∀ fuel, n0 ≤ fuel →
        compressDir D env flt fuel .plain dir fs level junk = .ok (0, log) ∧
        dirWrites env flt fuel .plain dir fs = .ok (0, w)) ∧
      IsArchive plain junk f' log ∧ f'.entries dir = accepted w.shown ∧ Guarded dir w.shown := by
  obtain ⟨n0, log, h1, h2⟩ := C27_directory_archive C env henv flt hl hm fs level z hz junk hj hst
  obtain ⟨n1, g, _, hw⟩ := dirWrites_good env henv flt .plain trivial hl hm fs
  obtain ⟨w, b1, _, b3, _⟩ := hw n1 (Nat.le_refl _)
  rw [if_neg hst] at b1
  refine ⟨max n0 n1, log, w, _, fun fuel hf => ⟨h1 fuel (by omega),
    dirWrites_mono env flt (by omega) b1⟩, h2, ?_, ?_⟩
  · rw [b3]; exact select_accepted flt f dir fs hst
  · rw [b3]
    intro l1 x l2 h
    simpa using select_guarded flt dir f dir fs [] (.inl rfl) l1 x l2 h

example := C28_archived_iff_accepted queueDOK sampleEnv sampleEnv_ok (keepFilter fun _ e => e.name ≠ [117])
    sampleList sampleMirror () 6 [] rfl (List.replicate 120 0) List.length_replicate (by decide)

/-- C28: with a filter that has no memory the archive is the tree with the refused entries cut
out, directories with all their content. -/
theorem C28_refused_pruned (C : DeflateOK D plain) (env : Env) (henv : env.ok)
    (keep : Bytes → Entry → Bool) {dir : Bytes} {es : List Entry} {f : Forest}
    (hl : env.list dir = some es) (hm : Mirror env dir es f) (hr : f.readable keep dir)
    (level : Int) (z : D.τ) (hz : D.init level = some z) (junk : Bytes) (hj : junk.length = 120) :
    ∃ n0 log, (∀ fuel, n0 ≤ fuel →
        compressDir D env (keepFilter keep) fuel .plain dir () level junk = .ok (0, log)) ∧
      IsArchive plain junk (f.prune keep dir) log := by
  obtain ⟨h1, h2⟩ := select_prune keep f dir hr
  have := C27_directory_archive C env henv (keepFilter keep) hl hm () level z hz junk hj
    (by rw [h1]; decide)
  rwa [h2] at this

example : sampleForest.readable (fun _ e => e.name ≠ [117] ∧ e.name ≠ [100]) [114] ∧
    sampleForest.prune (fun _ e => e.name ≠ [117] ∧ e.name ≠ [100]) [114] =
      .file [97] 0o640 [1, 2] (.link [108] 0o777 [116] .nil) :=
  ⟨⟨fun _ => trivial, by decide, trivial⟩, by decide⟩

/-! ### C29, C30 -/

/-- What a directory function returns once it has its session. -/
theorem compressDir_ret {env : Env} {flt : Filter σ} {fuel : Nat} {fn : DirFn} {dir : Bytes}
    {fs : σ} {level : Int} {junk : Bytes} {ret : Int} {log : List Bytes} {s : CS D}
    (hc : CS.create D fuel CT_DIRECTORY level DEF_CHUNK_SIZE junk = .ok (some s))
    (h : compressDir D env flt fuel fn dir fs level junk = .ok (ret, log)) :
    ∃ w, dirWrites env flt fuel fn dir fs = .ok (ret, w) := by
  simp only [compressDir, hc] at h
  split at h
  · cases h
  · rename_i r w hw
    split at h
    · cases h
    · cases h; exact ⟨w, hw⟩

/-- C29: on any file system and for every filter, a request to stop is the last call of the filter,
and the function returns 0. -/
theorem C29_stop_is_final {env : Env} {flt : Filter σ} {fuel : Nat} {fn : DirFn} {dir : Bytes}
    {fs : σ} {level : Int} {junk : Bytes} {ret r : Int} {log : List Bytes} {s : CS D} {w : W σ}
    (hc : CS.create D fuel CT_DIRECTORY level DEF_CHUNK_SIZE junk = .ok (some s))
    (h : compressDir D env flt fuel fn dir fs level junk = .ok (ret, log))
    (hw : dirWrites env flt fuel fn dir fs = .ok (r, w))
    {l1 l2 : List (Bytes × Entry × Int)} {d : Bytes} {e : Entry}
    (hs : w.shown = l1 ++ (d, e, 387) :: l2) : l2 = [] ∧ ret = 0 := by
  obtain ⟨w', hw'⟩ := compressDir_ret hc h
  rw [hw] at hw'
  cases hw'
  obtain ⟨hi, hr⟩ := dirWrites_inv hw
  have h2 : l2 = [] := hi.fin l1 _ l2 hs (.inl rfl)
  refine ⟨h2, ?_⟩
  have hne : w.hasError = false := by
    rw [← Bool.not_eq_true, ← hi.err]
    rintro ⟨x, hx, hf⟩
    rw [hs, h2] at hx
    rcases List.mem_append.mp hx with hx | hx
    · obtain ⟨a, b, rfl⟩ := List.append_of_mem hx
      have := hi.fin a x (b ++ (d, e, 387) :: l2) (by rw [hs]; simp) (.inr hf)
      simp at this
    · rw [List.mem_singleton.mp hx] at hf
      exact absurd hf.1 (by simp)
  rw [hr, hne]
  rfl

/-- C29: when the filter asks to stop, what is archived is the tree of the entries accepted before
that, every directory that had been opened being closed. -/
theorem C29_stop_archive (C : DeflateOK D plain) (env : Env) (henv : env.ok) (flt : Filter σ)
    {dir : Bytes} {es : List Entry} {f : Forest} (hl : env.list dir = some es)
    (hm : Mirror env dir es f) (fs : σ) (level : Int) (z : D.τ) (hz : D.init level = some z)
    (junk : Bytes) (hj : junk.length = 120) (hst : (select flt dir f fs).status = .stopped) :
    ∃ n0 log w f' before d e, (∀ fuel, n0 ≤ fuel →
        compressDir D env flt fuel .plain dir fs level junk = .ok (0, log) ∧
        dirWrites env flt fuel .plain dir fs = .ok (0, w)) ∧
      w.shown = before ++ [(d, e, 387)] ∧ IsArchive plain junk f' log ∧
      f'.entries dir = accepted before := by
  obtain ⟨n0, log, h1, h2⟩ := C27_directory_archive C env henv flt hl hm fs level z hz junk hj
    (by rw [hst]; decide)
  obtain ⟨n1, g, _, hw⟩ := dirWrites_good env henv flt .plain trivial hl hm fs
  obtain ⟨w, b1, _, b3, _⟩ := hw n1 (Nat.le_refl _)
  rw [hst] at b1
  obtain ⟨⟨d, e, r⟩, hx, hr⟩ := (select_history flt f dir fs).stopped.mp hst
  simp only at hr
  subst hr
  obtain ⟨before, hb⟩ := List.getLast?_eq_some_iff.mp hx
  refine ⟨max n0 n1, log, w, _, before, d, e, fun fuel hf => ⟨h1 fuel (by omega),
    dirWrites_mono env flt (by omega) b1⟩, by rw [b3, hb], h2, ?_⟩
  rw [select_accepted flt f dir fs (by rw [hst]; decide), hb, accepted_append]
  simp [accepted]

example := C29_stop_archive queueDOK sampleEnv sampleEnv_ok (countFilter 2)
    sampleList sampleMirror 0 6 [] rfl (List.replicate 120 0) List.length_replicate (by decide)

/-- Stopping at the file inside the directory `d`. -/
example : (select (countFilter 2) [114] sampleForest 0).status = .stopped ∧
    (select (countFilter 2) [114] sampleForest 0).forest =
      .file [97] 0o640 [1, 2] (.dir [100] 0o755 .nil .nil) := by decide

/-- C30: on any file system and for every filter, an accepted file that cannot be opened, examined
or read is the last entry the filter is shown, and the function returns 2. -/
theorem C30_input_error_reported {env : Env} {flt : Filter σ} {fuel : Nat} {fn : DirFn} {dir : Bytes}
    {fs : σ} {level : Int} {junk : Bytes} {ret r : Int} {log : List Bytes} {s : CS D} {w : W σ}
    (hc : CS.create D fuel CT_DIRECTORY level DEF_CHUNK_SIZE junk = .ok (some s))
    (h : compressDir D env flt fuel fn dir fs level junk = .ok (ret, log))
    (hw : dirWrites env flt fuel fn dir fs = .ok (r, w))
    {l1 l2 : List (Bytes × Entry × Int)} {d name : Bytes}
    (hs : w.shown = l1 ++ (d, ⟨name, .file⟩, 0) :: l2) (hp : (pathOf d name).length ≤ 4094)
    (hu : Unreadable env (pathOf d name)) : l2 = [] ∧ ret = 2 := by
  obtain ⟨w', hw'⟩ := compressDir_ret hc h
  rw [hw] at hw'
  cases hw'
  obtain ⟨hi, hr⟩ := dirWrites_inv hw
  have hf : FailsAt env (d, ⟨name, .file⟩, 0) := ⟨rfl, rfl, by
    simp only [joinPath_eq hp]; exact hu⟩
  refine ⟨hi.fin l1 _ l2 hs (.inr hf), ?_⟩
  rw [hr, hi.err.mp ⟨_, by rw [hs]; simp, hf⟩]
  rfl

/-- C30: and 2 is returned for no other reason. -/
theorem C30_two_means_input_error {env : Env} {flt : Filter σ} {fuel : Nat} {fn : DirFn} {dir : Bytes}
    {fs : σ} {r : Int} {w : W σ} (hw : dirWrites env flt fuel fn dir fs = .ok (r, w)) :
    r = 0 ∨ r = 2 ∧ ∃ before d name, w.shown = before ++ [(d, ⟨name, .file⟩, 0)] ∧
      Unreadable env (joinPath d name) := by
  obtain ⟨hi, hr⟩ := dirWrites_inv hw
  by_cases he : w.hasError = true
  · right
    refine ⟨by rw [hr, he]; rfl, ?_⟩
    obtain ⟨⟨d, ⟨name, ty⟩, v⟩, hx, hf⟩ := hi.err.mpr he
    obtain ⟨a, b, hab⟩ := List.append_of_mem hx
    have := hi.fin a _ b hab (.inr hf)
    subst this
    obtain ⟨rfl, rfl, hu⟩ := hf
    exact ⟨a, d, name, hab, hu⟩
  · left; rw [hr]; simp [he]

/-- The sample tree ends in an unreadable file. -/
example : (match dirWrites sampleEnv acceptAll 5 .plain [114] () with
    | .ok (r, w) => decide (r = 2 ∧ w.shown.getLast? = some ([114], ⟨[117], .file⟩, 0))
    | .error _ => false) = true := by decide +kernel

example : Unreadable sampleEnv (pathOf [114] [117]) := .inl rfl

/-! ### C31 -/

/-- C31, root variant: the extra buffers come first, each as a file whose name is its path, with its
mode and content. -/
theorem C31_root_buffers (C : DeflateOK D plain) (env : Env) (henv : env.ok) (flt : Filter σ)
    (xs : List Extra) (hx : ∀ x ∈ xs, x.fits)
    {dir : Bytes} {es : List Entry} {f : Forest} (hl : env.list dir = some es)
    (hm : Mirror env dir es f) (fs : σ) (level : Int) (z : D.τ) (hz : D.init level = some z)
    (junk : Bytes) (hj : junk.length = 120) (hst : (select flt dir f fs).status ≠ .failed) :
    ∃ n0 log, (∀ fuel, n0 ≤ fuel →
        compressDir D env flt fuel (.root xs) dir fs level junk = .ok (0, log)) ∧
      IsArchive plain junk (rootForest xs ++ (select flt dir f fs).forest) log := by
  obtain ⟨n0, log, g, rfl, h1, _, h2⟩ := compressDir_good C env henv flt (.root xs) hx hl hm fs level z
    hz junk hj hst
  exact ⟨n0, log, h1, h2⟩

example := C31_root_buffers queueDOK sampleEnv sampleEnv_ok (keepFilter fun _ e => e.name ≠ [117]) [⟨[97, 47, 98], [7], 0o600⟩]
    (fun x hx => by rw [List.mem_singleton.mp hx]; exact ⟨by decide, by decide, by decide⟩)
    sampleList sampleMirror () 6 [] rfl (List.replicate 120 0) List.length_replicate (by decide)

/-- C31, nested variant, what holds: a directory level for every `'/'` and the content in a file
at the bottom.  Missing: the mode, which is 0644 for every buffer (and 0 for the directories). -/
theorem C31_nested_buffers_partial (C : DeflateOK D plain) (env : Env) (henv : env.ok)
    (flt : Filter σ) (xs : List Extra) (hx : ∀ x ∈ xs, x.fits)
    {dir : Bytes} {es : List Entry} {f : Forest} (hl : env.list dir = some es)
    (hm : Mirror env dir es f) (fs : σ) (level : Int) (z : D.τ) (hz : D.init level = some z)
    (junk : Bytes) (hj : junk.length = 120) (hst : (select flt dir f fs).status ≠ .failed) :
    ∃ n0 log g, (∀ fuel, n0 ≤ fuel →
        compressDir D env flt fuel (.nested xs) dir fs level junk = .ok (0, log)) ∧
      NestedTree (fun _ => 0o644) xs g ∧
      IsArchive plain junk (g ++ (select flt dir f fs).forest) log := by
  obtain ⟨n0, log, g, hg, h1, _, h2⟩ := compressDir_good C env henv flt (.nested xs) hx hl hm fs level z
    hz junk hj hst
  exact ⟨n0, log, g, h1, hg, h2⟩

example := C31_nested_buffers_partial queueDOK sampleEnv sampleEnv_ok (keepFilter fun _ e => e.name ≠ [117]) [⟨[97, 47, 98], [7], 0o600⟩]
    (fun x hx => by rw [List.mem_singleton.mp hx]; exact ⟨by decide, by decide, by decide⟩)
    sampleList sampleMirror () 6 [] rfl (List.replicate 120 0) List.length_replicate (by decide)

/-- The buffer `a/b` of mode 0600. -/
example : NestedTree (fun _ => 0o644) [⟨[97, 47, 98], [7], 0o600⟩]
    (.dir [97] 0 (.file [98] 0o644 [7] .nil) .nil) :=
  .cons (x := ⟨[97, 47, 98], [7], 0o600⟩) (name := [97]) (rest := [[98]]) rfl (by decide) .nil

example : rootForest [⟨[97, 47, 98], [7], 0o600⟩] = .file [97, 47, 98] 0o600 [7] .nil ∧
    (⟨[97, 47, 98], [7], 0o600⟩ : Extra).fits := ⟨rfl, by decide, by decide, by decide⟩

/-- An empty directory `r`. -/
def emptyEnv : Env where
  list _ := some []
  statMode _ := 0
  fopen _ := none
  lstat _ := (0, 0)
  readlink _ := none
  itemMem _ := List.replicate 40 0
  linkMem _ := []

/-- C31 is false of the nested variant: the mode of the buffer is not the one in the archive. -/
theorem C31_nested_mode_false :
    ¬ ∀ (xs : List Extra), (∀ x ∈ xs, x.fits) → ∀ fuel w,
      dirWrites emptyEnv acceptAll fuel (.nested xs) [114] () = .ok (0, w) →
      ∃ g, NestedTree (fun x => x.mode) xs g ∧ Encodes g w.out.flatten := by
  intro h
  obtain ⟨n0, g, hg, hw⟩ := dirWrites_good emptyEnv (fun _ => by simp [emptyEnv]) acceptAll
    (.nested [⟨[97], [1], 0o600⟩]) (fun x hx => by
      rw [List.mem_singleton.mp hx]; exact ⟨by decide, by decide, by decide⟩)
    (dir := [114]) rfl .nil ()
  obtain ⟨w, b1, _, _, b4⟩ := hw n0 (Nat.le_refl _)
  have e1 := (b4 (by decide)).2
  obtain ⟨g', hg', e2⟩ := h [⟨[97], [1], 0o600⟩] (fun x hx => by
      rw [List.mem_singleton.mp hx]; exact ⟨by decide, by decide, by decide⟩) n0 w b1
  have := C27_encoding_determines_tree e1 e2
  have key : ∀ {mode : Extra → Nat} {t : Forest}, NestedTree mode [⟨[97], [1], 0o600⟩] t →
      t = .file [97] (mode ⟨[97], [1], 0o600⟩) [1] .nil := by
    intro mode t ht
    cases ht with
    | @cons x xs f name rest hpath hno hnil =>
      cases hnil
      cases rest with
      | nil => simp at hpath; subst hpath; rfl
      | cons a r =>
        cases name with
        | nil => simp at hpath
        | cons c name => simp at hpath
  rw [key hg', key hg] at this
  revert this
  decide

/-! ### C32 -/

/-- The size found by `fstat` is not the number of bytes then read. -/
def Changed (env : Env) (path : Bytes) : Prop :=
  ∃ mode size data, env.fopen path = some ⟨some (mode, size), data, false⟩ ∧ data.length ≠ size

/-- A directory with the file `a`, found empty but read as 40 bytes, and the file `b`. -/
def growEnv : Env where
  list p := if p = [114] then some [⟨[97], .file⟩, ⟨[98], .file⟩] else none
  statMode _ := 0
  fopen p := if p = [114, 47, 97] then
      some ⟨some (0o644, 0), List.replicate 8 0 ++ List.replicate 16 255 ++ List.replicate 16 0, false⟩
    else some ⟨some (0o644, 1), [1], false⟩
  lstat _ := (0, 0)
  readlink _ := none
  itemMem _ := List.replicate 40 0
  linkMem _ := []

/-- C32 is false: a file that grows can hide all files after it. -/
theorem C32_size_change_harmless_false :
    ¬ ∀ (env : Env), env.ok → ∀ (dir name : Bytes) (es : List Entry) (f : Forest),
      env.list dir = some (⟨name, .file⟩ :: es) → FitsName dir name 0 →
      Changed env (pathOf dir name) → Mirror env dir es f → ∀ fuel w,
      dirWrites env acceptAll fuel .plain dir () = .ok (0, w) →
      (select acceptAll dir f ()).forest.shapes <:+
        (specParse (fun _ _ => true) 0 w.out.flatten).atoms.map Atom.shape := by
  intro h
  have key : (match dirWrites growEnv acceptAll 2 .plain [114] () with
      | .ok (0, w) => decide (¬ (Forest.file [98] 0o644 [1] .nil).shapes <:+
        (specParse (fun _ _ => true) 0 w.out.flatten).atoms.map Atom.shape)
      | _ => false) = true := by decide +kernel
  split at key
  · rename_i w hw
    refine of_decide_eq_true key (h growEnv (fun _ => by simp [growEnv]) [114] [97] _
      (.file [98] 0o644 [1] .nil) rfl (sample_fits (by decide) (by decide) (by decide)) ?_ ?_ 2 w hw)
    · exact ⟨0o644, 0, _, rfl, by decide⟩
    · exact .file (sample_fits (by decide) (by decide) (by decide)) (by decide) rfl .nil
  · cases key

/-- C32, what holds: entries listed before the changed file are not affected, whatever happens
later.  Missing: the entries after it. -/
theorem C32_size_change_harmless_partial (env : Env) (henv : env.ok) (flt : Filter σ) (dir : Bytes)
    {es rest : List Entry} {f : Forest} (hl : env.list dir = some (es ++ rest))
    (hm : Mirror env dir es f) (fs : σ) (hst : (select flt dir f fs).status = .done) :
    ∃ n0, ∀ fuel, n0 ≤ fuel → ∀ ret w, dirWrites env flt fuel .plain dir fs = .ok (ret, w) →
      ∀ ok : AllocOracle, (∀ k n, ok k n = true) →
      (select flt dir f fs).forest.shapes <+:
        (specParse ok 0 w.out.flatten).atoms.map Atom.shape := by
  obtain ⟨n0, hw⟩ := walk_good env henv flt hm
  refine ⟨n0, fun fuel hf ret w h ok hok => ?_⟩
  obtain ⟨w1, h1, h2⟩ := hw fuel hf ⟨fs, false, false, [], []⟩ ⟨rfl, rfl⟩
  simp only at h2
  have hlive : w1.live := ⟨by rw [h2.err, hst]; rfl, by rw [h2.ex, hst]; rfl⟩
  obtain ⟨new, o1, o2, _⟩ := h2.out (by rw [hst]; decide)
  simp only [dirWrites, dirExtras, walk, hl, Option.getD_some] at h
  split at h
  · cases h
  · rename_i w2 hw2
    cases h
    rw [iterate_append _ _ h1 hlive] at hw2
    obtain ⟨more, hmore⟩ := iterate_out env flt fuel dir rest hw2
    rw [o1, List.nil_append] at hmore
    obtain ⟨k', as, p1, p2, _⟩ := o2.parse ok hok 0
    rw [← hmore, List.flatten_append, p1]
    simp only [Parsed.after, List.map_append, p2]
    exact List.prefix_append _ _

/-- The file `b` before the growing file. -/
example := C32_size_change_harmless_partial
    { growEnv with list := fun p => if p = [114] then some ([⟨[98], .file⟩] ++ [⟨[97], .file⟩]) else none }
    (fun _ => by simp [growEnv]) acceptAll [114] (f := .file [98] 0o644 [1] .nil) rfl
    (.file (sample_fits (by decide) (by decide) (by decide)) (by decide) rfl .nil) () (by decide)

/-! ### C35 -/

/-- C35, what holds: if all paths are within 4094 bytes, every file of the archive has the mode and
content that opening its path gives.  Missing: longer paths. -/
theorem C35_source_paths_partial (C : DeflateOK D plain) (env : Env) (henv : env.ok) (flt : Filter σ)
    {dir : Bytes} {es : List Entry} {f : Forest} (hl : env.list dir = some es)
    (hm : Mirror env dir es f) (fs : σ) (level : Int) (z : D.τ) (hz : D.init level = some z)
    (junk : Bytes) (hj : junk.length = 120) (hst : (select flt dir f fs).status ≠ .failed) :
    ∃ n0 log f', (∀ fuel, n0 ≤ fuel →
        compressDir D env flt fuel .plain dir fs level junk = .ok (0, log)) ∧
      IsArchive plain junk f' log ∧ ∀ d name mode content, (d, name, mode, content) ∈ f'.files dir →
        env.fopen (pathOf d name) = some ⟨some (mode, content.length), content, false⟩ := by
  obtain ⟨n0, log, h1, h2⟩ := C27_directory_archive C env henv flt hl hm fs level z hz junk hj hst
  exact ⟨n0, log, _, h1, h2, fun d name mode content hx =>
    hm.files _ (select_files flt f dir fs _ hx)⟩

example := C35_source_paths_partial queueDOK sampleEnv sampleEnv_ok (keepFilter fun _ e => e.name ≠ [117])
    sampleList sampleMirror () 6 [] rfl (List.replicate 120 0) List.length_replicate (by decide)

example : sampleForest.files [114] =
    [([114], [97], 0o640, [1, 2]), ([114, 47, 100], [98], 0o600, [])] := by decide

/-- A directory with a path of 4090 bytes and a file with a name of 10 bytes in it; opening a path
gives a file with one byte telling whether the path has more than 4094 bytes. -/
def deepEnv (dir name : Bytes) : Env where
  list p := if p = dir then some [⟨name, .file⟩] else none
  statMode _ := 0
  fopen p := some ⟨some (0o644, 1), [if p.length ≤ 4094 then 0 else 1], false⟩
  lstat _ := (0, 0)
  readlink _ := none
  itemMem _ := List.replicate 40 0
  linkMem _ := []

theorem deep_writes (dir name : Bytes) (hn : name.length = 10) (hd : dir.length = 4090) :
    ∃ w, dirWrites (deepEnv dir name) acceptAll 1 .plain dir () = .ok (0, w) ∧
      Encodes (.file name 0o644 [0] .nil) w.out.flatten := by
  obtain ⟨item, p, q, a1, _, _, _, a5⟩ := asFile_good (σ := Unit)
    (W.ask ⟨(), false, false, [], []⟩ acceptAll dir ⟨name, .file⟩) (m := List.replicate 40 0)
    (name := name) (mode := 0o644) (content := [0]) (pieces := (readFile [0] false).1) (by simp)
    (by omega) (by decide) (by decide) (by decide +kernel)
  have e5 := a5 .nil [] .nil
  rw [List.append_nil] at e5
  obtain ⟨w, a1, hout, herr⟩ : ∃ w : W Unit, asFile
      (W.ask ⟨(), false, false, [], []⟩ acceptAll dir ⟨name, .file⟩) (List.replicate 40 0) name 0o644 1
      (readFile [0] false).1 false = .ok (0, w) ∧
      w.out = [item, name, p] ++ (readFile [0] false).1 ++ [q] ∧ w.hasError = false :=
    ⟨_, a1, rfl, rfl⟩
  refine ⟨w, ?_, by rw [hout]; exact e5⟩
  have hdot : isDot name = false := by
    unfold isDot
    cases h : (name == [46] || name == [46, 46]) with
    | false => rfl
    | true =>
      simp only [Bool.or_eq_true, beq_iff_eq] at h
      rcases h with rfl | rfl <;> simp at hn
  have hj : (joinPath dir name).length ≤ 4094 := by
    simp [joinPath, MAX_PATH_MIN1]; omega
  have hv : visit (deepEnv dir name) acceptAll 1 dir ⟨name, .file⟩ ⟨(), false, false, [], []⟩ =
      .ok (0, w) := by
    have hr : (readFile [0] false).2 = false := by decide +kernel
    simp only [visit, hdot, acceptAll, Bool.false_eq_true, or_self, if_false, ne_eq,
      not_true_eq_false, visitEntry, visitFile, deepEnv, hj, if_true, hr]
    exact a1
  have hl : (deepEnv dir name).list dir = some [⟨name, .file⟩] := if_pos rfl
  simp only [dirWrites, dirExtras, walk, hl, Option.getD_some]
  simp only [iterate, hv]
  simp [herr, EXIT_ALL]

/-- C35 is false: with longer paths the content archived under a name is that of another file. -/
theorem C35_source_paths_false :
    ¬ ∀ (env : Env) (dir : Bytes) (fuel : Nat) (w : W Unit) (f : Forest),
      dirWrites env acceptAll fuel .plain dir () = .ok (0, w) → Encodes f w.out.flatten →
      ∀ d name mode content, (d, name, mode, content) ∈ f.files dir →
        ∃ o, env.fopen (pathOf d name) = some o ∧ o.data = content := by
  intro h
  obtain ⟨w, h1, h2⟩ := deep_writes (List.replicate 4090 97) (List.replicate 10 98)
    List.length_replicate List.length_replicate
  have hlen : ¬ (pathOf (List.replicate 4090 (97 : UInt8)) (List.replicate 10 (98 : UInt8))).length ≤ 4094 := by
    simp only [pathOf, List.length_append, List.length_cons, List.length_replicate]; omega
  generalize List.replicate 4090 (97 : UInt8) = dir at *
  generalize List.replicate 10 (98 : UInt8) = name at *
  obtain ⟨o, h3, h4⟩ := h _ _ _ _ _ h1 h2 dir name 0o644 [0] (List.mem_singleton.mpr rfl)
  simp only [deepEnv, if_neg hlen, Option.some.injEq] at h3
  subst h3
  revert h4
  decide

/-! ### C36 -/

/-- A directory that cannot be listed gives 0 and the archive of the empty directory. -/
theorem C36_unlistable_returns_zero (C : DeflateOK D plain) (env : Env) (flt : Filter σ)
    {dir : Bytes} (hl : env.list dir = none) (fs : σ) (level : Int) (z : D.τ)
    (hz : D.init level = some z) (junk : Bytes) (hj : junk.length = 120) :
    ∃ n0 log, (∀ fuel, n0 ≤ fuel →
        compressDir D env flt fuel .plain dir fs level junk = .ok (0, log)) ∧
      IsArchive plain junk .nil log := by
  obtain ⟨s0, s, n2, rets, c1, _, c2, c3⟩ := session_writes_good C CT_DIRECTORY level z hz junk hj []
    (by simp)
  refine ⟨n2, s.log, fun fuel hf => ?_, [], .nil, c2, c3⟩
  simp only [compressDir, (c1 fuel hf).1, dirWrites, dirExtras, walk, hl, Option.getD_none, iterate,
    (c1 fuel hf).2]
  simp

example := C36_unlistable_returns_zero queueDOK sampleEnv acceptAll (dir := [1]) rfl () 6 [] rfl
    (List.replicate 120 0) List.length_replicate

/-- C36 is false. -/
theorem C36_missing_directory_reported_false :
    ¬ ∀ (D : Deflater) (plain : Bytes → Bytes), DeflateOK D plain → ∀ (env : Env) (dir : Bytes),
      env.list dir = none → ∀ (level : Int) (junk : Bytes) (fuel : Nat) (ret : Int)
      (log : List Bytes), junk.length = 120 →
      compressDir D env acceptAll fuel .plain dir () level junk = .ok (ret, log) → ret ≠ 0 := by
  intro h
  obtain ⟨n0, log, h1, _⟩ := C36_unlistable_returns_zero queueDOK sampleEnv acceptAll (dir := [1])
    rfl () 6 [] rfl (List.replicate 120 0) List.length_replicate
  exact h queueD id queueDOK sampleEnv [1] rfl 6 _ n0 0 log List.length_replicate
    (h1 n0 (Nat.le_refl _)) rfl

end Zwt
