import Verif.Spec.Merge
import Verif.Proofs.MergeStop
import Verif.Proofs.BigSample
import Verif.Props.HLExtra

/-! C97: added buffers whose directories are in the tree, or in the paths of other buffers. -/

namespace Zwt

variable {Z : Inflater} {D : Deflater} {plain : Bytes → Bytes} {σ : Type}

/-! ### Trees with repeated directories -/

theorem firstAt_file {L : List (Loc × Node)} (h : OnlyDirsTwice L) {l : Loc} {n : Node}
    (hm : (l, n) ∈ L) (hn : ∀ m, n ≠ .dir m) : firstAt L l = some n := by
  induction L with
  | nil => cases hm
  | cons x L ih =>
    have h' := List.pairwise_cons.mp h
    rcases List.mem_cons.mp hm with rfl | hm
    · simp [firstAt]
    · by_cases e : x.1 = l
      · obtain ⟨_, m, hd⟩ := h'.1 _ hm e
        exact absurd hd (hn m)
      · have := ih h'.2 hm
        simpa [firstAt, e] using this

theorem firstAt_dir {L : List (Loc × Node)} (h : OnlyDirsTwice L) {l : Loc} {m : Nat}
    (hm : (l, .dir m) ∈ L) : ∃ m', firstAt L l = some (.dir m') := by
  induction L with
  | nil => cases hm
  | cons x L ih =>
    have h' := List.pairwise_cons.mp h
    rcases List.mem_cons.mp hm with rfl | hm
    · exact ⟨m, by simp [firstAt]⟩
    · by_cases e : x.1 = l
      · obtain ⟨⟨m', hd⟩, _⟩ := h'.1 _ hm e
        exact ⟨m', by simp [firstAt, e, hd]⟩
      · obtain ⟨m', hm'⟩ := ih h'.2 hm
        exact ⟨m', by simpa [firstAt, e] using hm'⟩

theorem Forest.spots_append (os : Os) (f g : Forest) (p : Loc) :
    (f ++ g).spots os p = f.spots os p ++ g.spots os p := by
  show (f.append g).spots os p = _
  induction f with
  | nil => rfl
  | file n m c r ih => simp [append, spots, ih]
  | link n m t r ih => simp [append, spots, ih]
  | dir n m s r _ ih => simp [append, spots, ih]
  | other n r ih => exact ih
  | bad n r ih => exact ih

theorem Forest.lookup_spots (os : Os) (f : Forest) : ∀ (q : List Bytes) (n : Node),
    f.lookup os q = some n → (q, n) ∈ f.spots os [] := by
  induction f with
  | nil => intro q n h; cases h
  | file n m c r ih =>
    intro q x h
    rw [lookup] at h
    split at h
    · simp_all [spots]
    · exact List.mem_cons_of_mem _ (ih q x h)
  | link n m t r ih =>
    intro q x h
    rw [lookup] at h
    split at h
    · simp_all [spots]
    · exact List.mem_cons_of_mem _ (ih q x h)
  | dir n m s r ihs ih =>
    intro q x h
    cases q with
    | nil => simp [lookup] at h
    | cons y ys =>
      simp only [lookup] at h
      by_cases e : y = n
      · subst e
        simp only [if_true] at h
        by_cases e2 : ys = []
        · subst e2
          simp only [if_true, Option.some.injEq] at h
          simp [spots, h]
        · simp only [if_neg e2] at h
          have := ihs ys x h
          rw [spots, s.spots_base os]
          refine List.mem_cons_of_mem _ (List.mem_append_left _ (List.mem_map.mpr ⟨_, this, ?_⟩))
          simp
      · simp only [if_neg e] at h
        exact List.mem_cons_of_mem _ (List.mem_append_right _ (ih _ _ h))
  | other n r ih => intro q x h; exact ih q x h
  | bad n r ih => intro q x h; exact ih q x h

/-- In a tree without repeated names the first entry of a place is the entry of the place. -/
theorem Forest.firstAt_proper (os : Os) (f : Forest) (hf : f.proper) (x : Bytes) (q : List Bytes) :
    firstAt (f.spots os []) (x :: q) = f.lookup os (x :: q) := by
  induction f generalizing x q with
  | nil => rfl
  | file n m c r ih =>
    rw [lookup]
    by_cases e : x :: q = [n]
    · simp [spots, firstAt, e]
    · rw [if_neg e, ← ih hf.2.2]
      have e' : ¬ [n] = x :: q := fun h => e h.symm
      simp only [spots, firstAt, List.nil_append, List.find?_cons, e', decide_false]
  | link n m t r ih =>
    rw [lookup]
    by_cases e : x :: q = [n]
    · simp [spots, firstAt, e]
    · rw [if_neg e, ← ih hf.2.2.2.2]
      have e' : ¬ [n] = x :: q := fun h => e h.symm
      simp only [spots, firstAt, List.nil_append, List.find?_cons, e', decide_false]
  | dir n m s r ihs ih =>
    obtain ⟨_, h2, h3, h4⟩ := hf
    simp only [lookup]
    by_cases e : x = n
    · subst e
      rw [if_pos rfl]
      cases q with
      | nil => simp [spots, firstAt]
      | cons y ys =>
        rw [if_neg (by simp), ← ihs h3, spots, s.spots_base os]
        have hr : firstAt (r.spots os []) (x :: y :: ys) = none := by
          rw [ih h4, lookup_none os r x _ h2]
        have hs := firstAt_shift [x] (s.spots os []) (y :: ys)
        simp only [firstAt, List.nil_append, List.find?_cons, List.find?_append, List.cons.injEq,
          reduceCtorEq, and_false, decide_false, List.cons_append, Option.map_eq_none_iff,
          true_and] at hr hs ⊢
        rw [hr, Option.or_none]
        exact hs
    · rw [if_neg e, ← ih h4, spots, s.spots_base os]
      have hs : firstAt ((s.spots os []).map fun y => ([n] ++ y.1, y.2)) (x :: q) = none := by
        refine firstAt_none fun y hy h => ?_
        obtain ⟨z, _, rfl⟩ := List.mem_map.mp hy
        simp only [List.cons_append, List.cons.injEq] at h
        exact e h.1.symm
      have e' : ¬ n = x := fun h => e h.symm
      simp only [firstAt, List.nil_append, List.find?_cons, List.find?_append, List.cons.injEq,
        e', false_and, decide_false, Option.map_eq_none_iff] at hs ⊢
      rw [hs, Option.none_or]
  | other n r ih => exact ih hf x q
  | bad n r ih => exact ih hf x q

/-- For such trees `LandedAll` is `Landed`. -/
theorem landedAll_proper (os : Os) (fs fs' : FS) (d : Loc) (n : Bytes) (ns : List Bytes) (f : Forest)
    (hf : f.proper) : LandedAll os fs fs' d n ns f ↔ Landed os fs fs' d n ns f := by
  unfold LandedAll Landed
  constructor
  · rintro ⟨h1, h2, h3⟩
    exact ⟨h1, fun x q => by rw [h2, f.firstAt_proper os hf], h3⟩
  · rintro ⟨h1, h2, h3⟩
    exact ⟨h1, fun x q => by rw [h2, f.firstAt_proper os hf], h3⟩

/-- Extraction of a small archive, which is read at once. -/
theorem extract_merge (C : InflateOK Z plain) (hnil : plain [] = []) (ok : AllocOracle)
    (hok : ∀ k n, ok k n = true) (hdr item : Bytes) (hh : hdr.length = 128) (hi : item.length = 40)
    (os : Os) (hq : os.quiet) (w : World) (ht : w.fs.tree) (pre : Bytes)
    (h0 : 0 ∉ pre) (d : Loc) (hd : InDir os w pre d) (ho : OpenDir os w.fs d) (n : Bytes)
    (ns : List Bytes) (hn : ∀ x ∈ n :: ns, PlainName x) (hnew : w.fs (d ++ [n]) = none)
    (hen : Enterable os (dirMode os 0o775)) (hlen : ns.length ≤ 61) {f : Forest} (hf : f.wellNamed)
    (htw : OnlyDirsTwice (f.spots os []))
    (hfe : f.enterable os) (hfn : f ≠ .nil) {junk t : Bytes} (hj : junk.length = 120)
    (he : Encodes f t) (size : Nat) (data : Bytes)
    (hlk : f.noLinks ∨ (CwdOk os w.fs w.cwd ∧ f.bulk < 524288))
    (hdl : (allowed size 0 data).length < 524288)
    (harc : plain (allowed size 0 data) = headerBytes 0 1 junk ++ t) :
    ∃ n0 r, (∀ fuel, n0 ≤ fuel →
        extract Z os ok fuel hdr item (pre ++ joinNames (n :: ns)) size ⟨data, false⟩ w = .ok r) ∧
      (C.Final → Open plain (allowed size 0 data) → ∀ c ∈ r.codes, c = Z_OK) ∧
      ((∀ c ∈ r.codes, c = Z_OK) → 0 < r.room ∨ C.Prompt (allowed size 0 data) →
        r.ret = CT_DIRECTORY ∧ r.w.cwd = w.cwd ∧ LandedAll os w.fs r.w.fs d n ns f) := by
  obtain ⟨l, s, n1, S, hp, hrun⟩ := extract_single C ok hdr item hh hi os
    (pre ++ joinNames (n :: ns)) w size data hdl
  have e2 := C02_header_roundtrip 0 1 junk hj (by decide) (by decide)
  have hl128 : (headerBytes 0 1 junk).length = 128 := e2.1
  have hver : hdrVersion (headerBytes 0 1 junk) = 0 := e2.2.1
  have htne : t ≠ [] := by
    intro h
    cases he with
    | nil => exact hfn rfl
    | file h1 => have := congrArg List.length h; simp [h1] at this
    | link h1 => have := congrArg List.length h; simp [h1] at this
    | dir h1 => have := congrArg List.length h; simp [h1] at this
  have hne : allowed size 0 data ≠ [] := by
    intro h
    rw [h, hnil] at harc
    have := congrArg List.length harc
    simp only [List.length_append, List.length_nil] at this
    omega
  have hw : f.noLinks ∨ LinksWhole ok s.pieces := by
    rcases hlk with h | ⟨_, hsm⟩
    · exact .inl h
    · have hpc : s.pieces = [] ∨ s.pieces = [t] := by
        have := he.bulk
        have := hp (by rw [harc, List.length_append, hl128]; omega)
        rwa [harc, List.drop_left' hl128] at this
      exact .inr (he.linksWhole ok hok hpc)
  have hcw : f.noLinks ∨ CwdOk os w.fs w.cwd := by
    rcases hlk with h | h
    · exact .inl h
    · exact .inr h.1
  have hv : ∀ h : Bytes, h.length = 128 → h <+: plain (allowed size 0 data) → hdrVersion h = 0 := by
    intro h hl hpre
    rw [harc] at hpre
    obtain ⟨u, hu⟩ := hpre
    have := congrArg (List.take 128) hu
    rw [List.take_left' hl, List.take_left' hl128] at this
    rw [this]; exact hver
  obtain ⟨P, p1, p2, p3⟩ := S.archive hi
  have p3' : (∀ r ∈ l.rets, r = Z_OK) → 0 < l.availOut ∨ C.Prompt (allowed size 0 data) →
      P = headerBytes 0 1 junk ++ t := by
    intro a b
    rcases p3 a b (.inl hne) with h | ⟨h, h'⟩
    · rw [h, harc]
    · refine absurd (hv (P.take 128) ?_ ((List.take_prefix _ _).trans p1)) h'
      rw [List.length_take]; omega
  have p1' : P <+: headerBytes 0 1 junk ++ t := by rw [← harc]; exact p1
  have key : ∃ h, hlEvents os (pre ++ joinNames (n :: ns)) (HL.init w) s.log = .ok h ∧
      (P = headerBytes 0 1 junk ++ t → h.ret = CT_DIRECTORY ∧ h.w.cwd = w.cwd ∧
        LandedAll os w.fs h.w.fs d n ns f) := by
    rcases log_tree hj he ok hok hf p1' p2 hw with ⟨hl, hemp⟩ | ⟨evs, rest, hl, hev, hrest⟩
    · exact ⟨_, by rw [hl]; rfl, fun h => absurd (hemp h) htne⟩
    · obtain ⟨h', g1, _, _, g2⟩ := tree_fresh_merge os hq w ht pre h0 d hd ho n ns hn hnew hen hlen hf htw
        hfe hcw hev
      exact ⟨h', by rw [hl]; exact g1, fun h => g2 (hrest h)⟩
  obtain ⟨h, hev, hgood⟩ := key
  refine ⟨n1, ⟨h.ret, h.w, (allowed size 0 data).length, h.hasError, l.rets, l.availOut, s.pieces⟩,
    fun fuel hf => ?_, fun hF hO => S.codes hF hO hv, fun a b => hgood (p3' a b)⟩
  rw [hrun fuel hf, hev]; rfl

theorem nest_spots (os : Os) (mode : Nat) (content : Bytes) (rest : List Bytes) : ∀ (name : Bytes),
    (name :: rest, Node.file (fileMode os mode) content) ∈
      (nest mode content name rest).spots os [] := by
  intro name
  have := lookup_nest os mode content rest name .nil
  have e : nest mode content name rest ++ .nil = nest mode content name rest := by cases rest <;> rfl
  rw [e] at this
  exact Forest.lookup_spots os _ _ _ this

theorem NestedTree.spots (os : Os) {mode : Extra → Nat} {xs : List Extra} {g : Forest}
    (h : NestedTree mode xs g) (x : Extra) (hx : x ∈ xs) :
    ∃ name rest, x.path = name ++ (rest.map (47 :: ·)).flatten ∧ (∀ p ∈ name :: rest, 47 ∉ p) ∧
      (name :: rest, Node.file (fileMode os (mode x)) x.content) ∈ g.spots os [] := by
  induction h with
  | nil => cases hx
  | @cons y ys f name rest h1 h2 _ ih =>
    rw [Forest.spots_append]
    rcases List.mem_cons.mp hx with rfl | hx
    · exact ⟨name, rest, h1, h2, List.mem_append_left _ (nest_spots os _ _ _ _)⟩
    · obtain ⟨n', r', a1, a2, a3⟩ := ih hx
      exact ⟨n', r', a1, a2, List.mem_append_right _ a3⟩

/-- C97, what holds: let buffers with paths be compressed with a directory, so that no file or link
has the place of anything else (directories may be in the paths of several buffers, and in the
tree).  Then extraction of the archive to a fresh place, by a user who may add entries to directories
of mode 0, puts every buffer into a file at its path, and every file and link of the tree at its
place, and changes nothing else; a directory has the mode of its first occurrence (0 if it is in the
path of a buffer).
Missing: ordinary users (`C97_user_false`); archives of 512 KiB and more (`C97_large_false`); files
that occur twice (`C68_same_name_false`). -/
theorem C97_shared_directories_partial (CD : DeflateOK D plain) (C : InflateOK Z plain)
    -- compression
    (env : Env) (henv : env.ok) (flt : Filter σ) (xs : List Extra) (hxs : ∀ x ∈ xs, x.fits)
    {dir : Bytes} {es : List Entry} {f : Forest}
    (hl : env.list dir = some es) (hm : Mirror env dir es f) (fs : σ) (level : Int) (z : D.τ)
    (hz : D.init level = some z) (junk : Bytes) (hj : junk.length = 120)
    (hst : (select flt dir f fs).status ≠ .failed) {g T : Forest}
    (hg : NestedTree (fun _ => 0o644) xs g)
    (hT : T = g ++ (select flt dir f fs).forest) (hne : T ≠ .nil)
    -- extraction
    (ok : AllocOracle) (hok : ∀ k n, ok k n = true) (hdr item : Bytes) (hh : hdr.length = 128)
    (hi : item.length = 40) (os : Os) (hq : os.quiet) (w : World) (ht : w.fs.tree) (pre : Bytes)
    (h0 : 0 ∉ pre) (d : Loc) (hd : InDir os w pre d) (ho : OpenDir os w.fs d) (n : Bytes)
    (ns : List Bytes) (hn : ∀ x ∈ n :: ns, PlainName x) (hnew : w.fs (d ++ [n]) = none)
    (hen : Enterable os (dirMode os 0o775)) (hlen : ns.length ≤ 61) (hf : T.wellNamed)
    (htw : OnlyDirsTwice (T.spots os [])) (hfe : T.enterable os)
    (hk : T.noLinks ∨ (CwdOk os w.fs w.cwd ∧ T.bulk < 524288)) :
    ∃ n1 log, (∀ fuel, n1 ≤ fuel →
        compressDir D env flt fuel (.nested xs) dir fs level junk = .ok (0, log)) ∧
      (log.flatten.length < 524288 → ∀ size data, allowed size 0 data = log.flatten →
        ∃ n0 r, (∀ fuel, n0 ≤ fuel → extract Z os ok fuel hdr item (pre ++ joinNames (n :: ns)) size
            ⟨data, false⟩ w = .ok r) ∧
          (C.Final → CD.Fits → ∀ c ∈ r.codes, c = Z_OK) ∧
          ((∀ c ∈ r.codes, c = Z_OK) → 0 < r.room ∨ C.Prompt log.flatten →
            r.ret = CT_DIRECTORY ∧ r.w.cwd = w.cwd ∧ LandedAll os w.fs r.w.fs d n ns T ∧
            (∀ x ∈ xs, ∃ name rest, x.path = name ++ (rest.map (47 :: ·)).flatten ∧
              (∀ p ∈ name :: rest, 47 ∉ p) ∧
              r.w.fs (d ++ n :: ns ++ name :: rest) =
                some (.file (fileMode os 0o644) x.content)) ∧
            ∀ a q node, (select flt dir f fs).forest.lookup os (a :: q) = some node →
              ((∀ m, node ≠ .dir m) → r.w.fs (d ++ n :: ns ++ a :: q) = some node) ∧
              ∀ m, node = .dir m → ∃ m', r.w.fs (d ++ n :: ns ++ a :: q) = some (.dir m'))) := by
  obtain ⟨n1, log, g', hg', c1, copen, t, c2, _, b, c3, c4⟩ :=
    compressDir_good CD env henv flt (.nested xs) hxs hl hm fs level z hz junk hj hst
  refine ⟨n1, log, c1, ?_⟩
  intro hsmall size data hal
  rw [NestedTree.unique hg' hg, ← hT] at c2
  have hb : b.length < 524288 := by
    have hmem : b ∈ log := List.mem_of_getLast? c3
    have := (List.sublist_flatten_of_mem hmem).length_le
    omega
  have := extract_merge C (CD.plain_nil hz) ok hok hdr item hh hi os hq w ht pre h0 d hd ho n ns
    hn hnew hen hlen hf htw hfe hne hj c2 size data hk (by rw [hal]; exact hsmall)
    (by rw [hal]; exact c4 hb)
  rw [hal] at this
  obtain ⟨n0, r, a1, a2, a3⟩ := this
  refine ⟨n0, r, a1, fun hF hT => a2 hF (copen hT), fun k1 k2 => ?_⟩
  obtain ⟨b1, b2, b3⟩ := a3 k1 k2
  refine ⟨b1, b2, b3, fun x hx => ?_, fun a q node hq => ?_⟩
  · obtain ⟨name, rest, e1, e2, e3⟩ := hg.spots os x hx
    refine ⟨name, rest, e1, e2, ?_⟩
    rw [b3.2.1]
    refine firstAt_file htw ?_ (by simp)
    rw [hT, Forest.spots_append]; exact List.mem_append_left _ e3
  · have hm : (a :: q, node) ∈ T.spots os [] := by
      rw [hT, Forest.spots_append]
      exact List.mem_append_right _ (Forest.lookup_spots os _ _ _ hq)
    refine ⟨fun h => ?_, fun m h => ?_⟩
    · rw [b3.2.1]; exact firstAt_file htw hm h
    · subst h
      rw [b3.2.1]; exact firstAt_dir htw hm

/-! ### Examples, and what is false -/

namespace MergeSample

open HLSample

/-- Buffers `d/x` and `d/y`; the tree has a directory `d` too. -/
def xs : List Extra := [⟨[100, 47, 120], [7], 0o600⟩, ⟨[100, 47, 121], [8], 0o600⟩]

def added : Forest :=
  .dir [100] 0 (.file [120] 0o644 [7] .nil) (.dir [100] 0 (.file [121] 0o644 [8] .nil) .nil)

def flt : Filter Unit := keepFilter fun _ e => e.name ≠ [117]

def su : Os := { os with root := true }

theorem su_quiet : su.quiet := ⟨fun _ => rfl, fun _ n => Nat.le_refl n, fun _ => rfl⟩

theorem xs_fits : ∀ x ∈ xs, x.fits := by
  intro x hx
  rcases List.mem_cons.mp hx with rfl | hx
  · exact ⟨by decide, by decide, by decide⟩
  · rw [List.mem_singleton.mp hx]; exact ⟨by decide, by decide, by decide⟩

theorem nested : NestedTree (fun _ => 0o644) xs added :=
  .cons (name := [100]) (rest := [[120]]) (by decide) (by decide)
    (.cons (name := [100]) (rest := [[121]]) (by decide) (by decide) .nil)

/-- The buffers and the tree. -/
def whole : Forest := added ++ (select flt [114] sampleForest ()).forest

theorem whole_eq : whole = .dir [100] 0 (.file [120] 0o644 [7] .nil) (.dir [100] 0
    (.file [121] 0o644 [8] .nil) (.file [97] 0o640 [1, 2] (.dir [100] 0o755 (.file [98] 0o600 [] .nil)
      (.link [108] 0o777 [116] .nil)))) := by decide

theorem whole_named : whole.wellNamed := by
  rw [whole_eq]
  simp only [Forest.wellNamed]
  decide +kernel

theorem whole_twice : OnlyDirsTwice (whole.spots su []) := by
  rw [whole_eq]
  simp [OnlyDirsTwice, Forest.spots]

theorem whole_enterable : whole.enterable su := by
  rw [whole_eq]
  exact ⟨.inl rfl, trivial, .inl rfl, trivial, .inl rfl, trivial, trivial⟩

theorem cwdOk : CwdOk su (world []).fs (world []).cwd := by
  refine ⟨by decide +kernel, by decide +kernel, ?_⟩
  intro l hl
  have : l = [] ∨ l = [[104]] ∨ l = [[104], [119]] := by
    obtain ⟨t, ht⟩ := hl
    have ht' : l ++ t = [[104], [119]] := ht
    match l with
    | [] => exact .inl rfl
    | [a] => simp at ht'; exact .inr (.inl (by rw [ht'.1]))
    | [a, b] => simp at ht'; exact .inr (.inr (by rw [ht'.1, ht'.2.1]))
    | a :: b :: c :: l => simp at ht'
  rcases this with rfl | rfl | rfl <;> decide +kernel

/-- Whole runs: compression of the tree with the buffers, extraction to `o`. -/
def both (os : Os) (xs : List Extra) : Run Extracted :=
  match compressDir queueD sampleEnv flt 20 (.nested xs) [114] () 6 (List.replicate 120 0xEE) with
  | .ok (_, log) => run os log.flatten [111] (world [])
  | .error e => .error e

/-- The theorem for these buffers, the sample tree and the superuser. -/
example := C97_shared_directories_partial queueDOK copyIOK sampleEnv
  (fun _ => by simp [sampleEnv]) flt xs xs_fits rfl sampleMirror () 6 [] rfl
  (List.replicate 120 0xEE) List.length_replicate (by decide) nested rfl (by decide)
  (fun _ _ => true) (fun _ _ => rfl) hdrMem itemMem List.length_replicate List.length_replicate su
  su_quiet (world []) world_tree [] (by simp) [[104], [119]] .rel
  ⟨0o755, by decide +kernel, .inl rfl⟩ [111] [] (by decide +kernel) (by decide +kernel)
  (.inl rfl) (by decide) whole_named whole_twice whole_enterable
  (.inr ⟨cwdOk, by rw [← whole, whole_eq]; decide⟩)

/-- The run: both buffers and the file of the tree are in the directory `d`, of mode 0. -/
example : view [[[104], [119], [111], [100]], [[104], [119], [111], [100], [120]],
    [[104], [119], [111], [100], [121]], [[104], [119], [111], [100], [98]],
    [[104], [119], [111], [97]], [[104], [119], [111], [108]]] (both su xs) =
    .done CT_DIRECTORY [[104], [119]] [some (.dir 0), some (.file 0o644 [7]), some (.file 0o644 [8]),
      some (.file 0o600 []), some (.file 0o640 [1, 2]), some (.link [116])] := by decide +kernel

end MergeSample

open HLSample MergeSample in
/-- C97 is false for ordinary users: with the buffer `d/x`, the file `d/b` of the tree does not
arrive, nor does the buffer, and success is reported. -/
theorem C97_user_false :
    ¬ ∀ (xs : List Extra) (g : Forest) (r : Extracted), (∀ x ∈ xs, x.fits) →
      NestedTree (fun _ => 0o644) xs g →
      OnlyDirsTwice ((g ++ (select flt [114] sampleForest ()).forest).spots os []) →
      both os xs = .ok r → r.ret = CT_DIRECTORY →
      ∀ a q m c, (select flt [114] sampleForest ()).forest.lookup os (a :: q) = some (.file m c) →
        r.w.fs ([104] :: [119] :: [111] :: a :: q) = some (.file m c) := by
  intro h
  have key : view [[[104], [119], [111], [100]], [[104], [119], [111], [100], [120]],
      [[104], [119], [111], [100], [98]]] (both os xs) =
      .done CT_DIRECTORY [[104], [119]] [some (.dir 0), none, none] := by decide +kernel
  obtain ⟨r, h1, h2, _, h4⟩ := view_done key
  have h5 := h xs added r xs_fits nested (by
      have : added ++ (select flt [114] sampleForest ()).forest = _ := whole_eq
      rw [this]
      simp [OnlyDirsTwice, Forest.spots]) h1 h2 [100] [[98]] 0o600 [] (by decide +kernel)
  simp only [List.map_cons, List.map_nil, List.cons.injEq, and_true] at h4
  rw [h4.2.2] at h5
  cases h5

namespace MergeSample

open HLSample

/-- A file of one byte, and a file of 600000 bytes. -/
def small : Forest := .file [115] 0o644 [1] .nil
def zeros : Bytes := List.replicate 600000 0
def rest : Forest := .file [122] 0o644 zeros .nil

theorem zeros_length : zeros.length = 600000 := List.length_replicate

theorem big_eq : added ++ (small ++ rest) = .dir [100] 0 (.file [120] 0o644 [7] .nil) (.dir [100] 0
    (.file [121] 0o644 [8] .nil) (.file [115] 0o644 [1] (.file [122] 0o644 zeros .nil))) := rfl

theorem big_named : (added ++ (small ++ rest)).wellNamed := by
  rw [big_eq]
  simp only [Forest.wellNamed]
  decide +kernel

theorem big_twice : OnlyDirsTwice ((added ++ (small ++ rest)).spots su []) := by
  rw [big_eq]
  simp [OnlyDirsTwice, Forest.spots]

theorem big_noLinks : (added ++ (small ++ rest)).noLinks := by
  rw [big_eq]
  simp [Forest.noLinks]

end MergeSample

open HLSample MergeSample in
/-- C97 is false for archives of 512 KiB and more, also for the superuser: with the buffers `d/x` and
`d/y`, and a tree of a file of one byte and a file of 600000 bytes, the latter does not arrive as it
is, and success is reported. -/
theorem C97_large_false :
    ¬ ∀ (xs : List Extra) (g f : Forest) (t : Bytes) (fuel : Nat) (r : Extracted),
      (∀ x ∈ xs, x.fits) → NestedTree (fun _ => 0o644) xs g → f.proper → Encodes (g ++ f) t →
      OnlyDirsTwice ((g ++ f).spots su []) → (g ++ f).noLinks →
      extract copyI su (fun _ _ => true) fuel hdrMem itemMem [111] 0
        ⟨header CT_DIRECTORY ++ t, false⟩ (world []) = .ok r →
      r.ret = CT_DIRECTORY → (∀ c ∈ r.codes, c = Z_OK) →
      ∀ a q node, f.lookup su (a :: q) = some node →
        r.w.fs ([104] :: [119] :: [111] :: a :: q) = some node := by
  intro h
  have hj : (List.replicate 120 (0xEE : UInt8)).length = 120 := List.length_replicate
  have hfr : fits rest = true := by
    simp only [rest, fits, zeros_length, Bool.and_eq_true, decide_eq_true_eq]
    exact ⟨⟨⟨by decide, by decide⟩, by decide⟩, trivial⟩
  have ea := encodes added (by decide)
  have es := encodes small (by decide)
  have er := encodes rest hfr
  have la : (encode added).length = 288 := by decide +kernel
  have ls : (encode small).length = 56 := by decide +kernel
  have hH : (headerBytes 0 1 (List.replicate 120 0xEE)).length = 128 :=
    (C02_header_roundtrip 0 1 _ hj (by decide) (by decide)).1
  have lr : 600000 ≤ (encode rest).length := by
    simp only [rest, encode, List.length_append, zeros_length]
    omega
  have e2 := es.append er
  have hal : ∀ d : Bytes, allowed 0 0 d = d := fun d => by simp [allowed]
  have hlen : (header CT_DIRECTORY ++ (encode added ++ (encode small ++ encode rest))).length =
      128 + (288 + (56 + (encode rest).length)) := by
    rw [List.length_append, List.length_append, List.length_append, la, ls]
    rw [show (header CT_DIRECTORY).length = 128 from hH]
  have hq : headerBytes 0 1 (List.replicate 120 0xEE) ++ (encode added ++ encode small) <+:
      id ((allowed 0 0 (header CT_DIRECTORY ++ (encode added ++ (encode small ++ encode rest)))).take
        524288) := by
    rw [hal]
    refine List.prefix_of_prefix_length_le (l₃ := header CT_DIRECTORY ++ (encode added ++
      (encode small ++ encode rest))) ⟨encode rest, ?_⟩ (List.take_prefix _ _) ?_
    · simp only [List.append_assoc]; rfl
    · rw [id, List.length_take, hlen, List.length_append, List.length_append, hH, la, ls]
      omega
  have h3 : ∀ k, 3 ≤ (specParse (fun _ _ => true) k (encode small)).atoms.length := by
    intro k
    obtain ⟨k', as, p1, p2, _⟩ := es.parse (fun _ _ => true) (fun _ _ => rfl) k
    have := p1 []
    rw [List.append_nil] at this
    rw [this, Parsed.after, List.length_append]
    have := congrArg List.length p2
    rw [List.length_map] at this
    simp [small, Forest.shapes] at this
    omega
  have key := extract_merge_stop copyIOK rfl copyIOK_final (fun _ _ => true) (fun _ _ => rfl) hdrMem
    itemMem List.length_replicate List.length_replicate su su_quiet (world []) world_tree [] (by simp)
    [[104], [119]] .rel ⟨0o755, by decide +kernel, .inl rfl⟩ [111] [] (by decide +kernel)
    (by decide +kernel) (.inl rfl) (by decide) (g := added) (v := small ++ rest)
    (by simp only [Forest.wellNamed, added]; decide +kernel)
    big_named (by simp [OnlyDirsTwice, Forest.spots, added]) big_twice
    ⟨.inl rfl, trivial, .inl rfl, trivial, trivial⟩
    ⟨.inl rfl, trivial, .inl rfl, trivial, trivial⟩ (by simp [Forest.noLinks, added]) big_noLinks
    (by simp [Forest.spots, added]) hj ea e2 (q := encode small) 0
    (header CT_DIRECTORY ++ (encode added ++ (encode small ++ encode rest)))
    (by rw [hal, hlen]; omega) ⟨[0], by simp⟩ (copyIOK_prompt _) (List.take_prefix _ _) hq h3
  obtain ⟨n0, r, k1, k2, _, k4, k5⟩ := key
  have := h xs added (small ++ rest) _ n0 r xs_fits nested (by
      show Forest.proper (.file [115] 0o644 [1] (.file [122] 0o644 zeros .nil))
      simp only [Forest.proper]; decide +kernel) (ea.append e2) big_twice
    big_noLinks (k1 n0 (Nat.le_refl _)) k2 k4 [122] [] (.file 0o644 zeros) (by
      show (Forest.file [115] 0o644 [1] (.file [122] 0o644 zeros .nil)).lookup su [[122]] = _
      simp [Forest.lookup, su, os, fileMode])
  have := k5 _ _ _ (by decide +kernel) this
  rw [zeros_length] at this
  have h' : (List.take 524288 (allowed 0 0 (header CT_DIRECTORY ++
    (encode added ++ (encode small ++ encode rest))))).length ≤ 524288 := List.length_take_le _ _
  simp only [id] at this
  omega

end Zwt
