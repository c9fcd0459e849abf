import Verif.Props.Remove
import Verif.Props.SelfLoose

/-! C93: what a self-extracting program leaves behind. -/

namespace Zwt

variable {Z : Inflater} {D : Deflater} {plain : Bytes → Bytes}

theorem KeptAt.node {keep : Bytes → Entry → Bool} {fs : FS} :
    ∀ {q : List Bytes} {p : Bytes} {l : Loc} {x : Bytes}, KeptAt keep fs p l (x :: q) →
      ∃ node, fs (l ++ x :: q) = some node := by
  intro q
  induction q with
  | nil => rintro p l x ⟨⟨node, h, _⟩, _⟩; exact ⟨node, h⟩
  | cons y q ih =>
    rintro p l x ⟨_, h⟩
    obtain ⟨node, h⟩ := ih h
    exact ⟨node, by simpa using h⟩

theorem KeptAt.init {keep : Bytes → Entry → Bool} {fs : FS} {c : Bytes} :
    ∀ {q : List Bytes} {p : Bytes} {l : Loc}, KeptAt keep fs p l (q ++ [c]) → KeptAt keep fs p l q := by
  intro q
  induction q with
  | nil => intros; trivial
  | cons y q ih => rintro p l ⟨h, h'⟩; exact ⟨h, ih h'⟩

/-- A disk with a copy on it is a tree. -/
theorem LooseCopy.tree {os : Os} {src : FS} (hs : src.tree) {p : Bytes} {l : Loc}
    {keep : Bytes → Entry → Bool} {fs fs' : FS} (ht : fs.tree) {d : Loc} (hd : ∃ m, fs d = some (.dir m))
    {n : Bytes} (h : LooseCopy os src p l keep fs fs' d n []) : fs'.tree := by
  obtain ⟨h1, h2, h3, h4⟩ := h
  have hn : fs' (d ++ [n]) = some (.dir (dirMode os 0o775)) := by simpa using h1 0 (Nat.le_refl _)
  have hout : ∀ x, ¬ d ++ [n] <+: x → fs' x = fs x := by
    intro x hx
    refine h4 x (fun j hj e => ?_) (fun y q e => ?_)
    · simp only [List.take_nil] at e
      exact hx ⟨[], by simp [e]⟩
    · exact hx ⟨y :: q, by simp [e]⟩
  refine ⟨?_, fun x c node hx => ?_⟩
  · rw [hout [] (by simp)]; exact ht.1
  · by_cases hp : d ++ [n] <+: x ++ [c]
    · obtain ⟨q, hq⟩ := hp
      rcases List.eq_nil_or_concat q with rfl | ⟨q', c', e⟩
      · rw [List.append_nil] at hq
        have e := List.append_inj_left' hq rfl
        subst e
        rw [hout d (fun h => by have := h.length_le; simp at this; omega)]
        exact hd
      · rw [List.concat_eq_append] at e
        subst e
        rw [← List.append_assoc] at hq
        have e := List.append_inj_left' hq rfl
        have e' : c' = c := by simpa using List.append_inj_right' hq rfl
        subst e e'
        cases q' with
        | nil => rw [List.append_nil]; exact ⟨_, hn⟩
        | cons y q =>
          have hk : KeptAt keep src p l (y :: (q ++ [c'])) := by
            refine Classical.byContradiction fun hk => ?_
            have := h3 _ _ hk
            simp only [List.append_assoc, List.cons_append, List.nil_append] at this hx
            rw [this] at hx; cases hx
          obtain ⟨nd, hnd⟩ := hk.node
          obtain ⟨m, hm⟩ := hs.2 (l ++ y :: q) c' nd (by simpa using hnd)
          rcases h2 y q (KeptAt.init (q := y :: q) (c := c') hk) with e | ⟨t, _, e, _⟩
          · rw [hm] at e
            exact ⟨dirMode os m, by simpa [Node.copied] using e⟩
          · rw [hm] at e; cases e
    · have hp' : ¬ d ++ [n] <+: x := fun h => hp (h.trans ⟨_, rfl⟩)
      rw [hout _ hp] at hx
      obtain ⟨m, hm⟩ := ht.2 x c node hx
      exact ⟨m, by rw [hout _ hp']; exact hm⟩

/-- C93 for one copy: a copy of a directory made under the name `n` in the working directory, where
nothing was before, is removed completely, and the disk is as before. -/
theorem C93_copy_removed (env : RmEnv) {os : Os} (hq : os.quiet) {src : FS} (hs : src.tree) {p : Bytes}
    {l : Loc} {keep : Bytes → Entry → Bool} {v w : World} (ht : v.fs.tree) (hc : w.cwd = v.cwd)
    (ho : OpenDir os v.fs v.cwd) {n : Bytes} (hn : PlainName n) (hnone : ∀ x, v.cwd ++ [n] <+: x → v.fs x = none)
    (h : LooseCopy os src p l keep v.fs w.fs v.cwd n []) (R : Reads os env w)
    (hnames : ∀ q x, KeptAt keep src p l (q ++ [x]) → PlainName x)
    (hlim : ∀ q, KeptAt keep src p l q → (n ++ (q.map (47 :: ·)).flatten).length ≤ 4094)
    (hown0 : ReadMode os (dirMode os 0o775) ∧ Enterable os (dirMode os 0o775))
    (hown : ∀ q m, KeptAt keep src p l q → q ≠ [] → src (l ++ q) = some (.dir m) →
      ReadMode os (dirMode os m) ∧ Enterable os (dirMode os m)) (fuel : Nat) (hf : 4095 ≤ fuel) :
    ∃ w', removeDir env os fuel n w = .ok w' ∧ w'.cwd = v.cwd ∧ ∀ x, w'.fs x = v.fs x := by
  obtain ⟨mo, hmo, hmo'⟩ := ho
  have htw := h.tree hs ht ⟨mo, hmo⟩
  obtain ⟨h1, h2, h3, h4⟩ := h
  have hroot : w.fs (v.cwd ++ [n]) = some (.dir (dirMode os 0o775)) := by simpa using h1 0 (Nat.le_refl _)
  have hout : ∀ x, ¬ v.cwd ++ [n] <+: x → w.fs x = v.fs x := by
    intro x hx
    refine h4 x (fun j hj e => ?_) (fun y q e => ?_)
    · simp only [List.take_nil] at e
      exact hx ⟨[], by simp [e]⟩
    · exact hx ⟨y :: q, by simp [e]⟩
  have hkept : ∀ q node, w.fs (v.cwd ++ n :: q) = some node → KeptAt keep src p l q := by
    intro q node hx
    cases q with
    | nil => trivial
    | cons y q =>
      refine Classical.byContradiction fun hk => ?_
      have := h3 _ _ hk
      simp only [List.append_assoc, List.cons_append, List.nil_append] at this hx
      rw [this] at hx; cases hx
  have S : ShortBelow w n := by
    refine ⟨hn, fun q x node hx => ?_, fun q node hx => ?_⟩ <;> rw [hc] at hx
    · exact hnames q x (hkept (q ++ [x]) node (by simpa using hx))
    · exact hlim q (hkept q node hx)
  have O : OwnBelow os w n := by
    intro q m hx
    rw [hc] at hx
    cases q with
    | nil =>
      rw [hroot] at hx
      cases hx
      exact hown0
    | cons y q =>
      have hk := hkept _ _ hx
      rcases h2 y q hk with e | ⟨t, s, _, e, _⟩
      · have hx' : w.fs (v.cwd ++ [n] ++ y :: q) = some (.dir m) := by simpa using hx
        rw [hx'] at e
        cases hsrc : src (l ++ y :: q) with
        | none => rw [hsrc] at e; cases e
        | some nd =>
          rw [hsrc] at e
          cases nd with
          | dir m' =>
            simp only [Option.map_some, Node.copied, Option.some.injEq, Node.dir.injEq] at e
            rw [e]
            exact hown _ m' hk (by simp) hsrc
          | file _ _ => cases e
          | link _ => cases e
      · rw [show v.cwd ++ [n] ++ y :: q = v.cwd ++ n :: y :: q by simp] at e
        rw [hx] at e; cases e
  have hcw : w.fs v.cwd = v.fs v.cwd := hout _ (fun h => by have := h.length_le; simp at this; omega)
  obtain ⟨w', a, b⟩ := C92_removed_partial env os hq w htw n R S O
    ⟨mo, by rw [hc, hcw]; exact hmo, hmo'⟩
    (fun node hx => by rw [hc, hroot] at hx; cases hx; exact ⟨_, rfl⟩) fuel hf
  refine ⟨w', a, b.cwd.trans hc, fun x => ?_⟩
  by_cases hx : v.cwd ++ [n] <+: x
  · rw [b.gone x (by rw [hc]; exact hx), hnone x hx]
  · rw [b.rest x (by rw [hc]; exact hx), hout x hx]


/-- C93: under the hypotheses of C87, if the programs are as in C92 and the started program exits with 0
and changes nothing, the second run exits with 0, and the disk is as it was before, but for an earlier
`.out_dir`, which is gone (or the run reads beyond its output buffer, `C39_link_end_false`).
Missing: what C87 and C92 miss; programs that exit with another code, after which `.out_dir` stays
(`C93_other_code_false`). -/
theorem C93_nothing_left_partial (CD : DeflateOK D plain) (C : InflateOK Z plain) (hfin : C.Final)
    (hfit : CD.Fits) {os : Os} (hq : os.quiet) {w : World} (ht : w.fs.tree) (env : SelfDiskEnv)
    (hj : env.junk.length = 120) (z : D.τ) (hz : D.init 9 = some z) (ndebug : Bool)
    {dir n : Bytes} {l : Loc} {exe : Bytes} (hexe : InFile os w (dir ++ 47 :: n) (l ++ [n]) exe)
    (hlen : (dir ++ 47 :: n).length < 4191) (hbs : 92 ∉ dir ++ 47 :: n) (hn : PlainName n)
    (hno : n ≠ strB "__out.exe") (hsize : exe.length ≤ if ndebug then 524288 else 2097152)
    {m : Nat} (hout : OutProg os w (strB "__out.exe") m)
    (hone : OnlyIn w.fs l n l) (hone' : OnlyIn w.fs l (strB "__out.exe") w.cwd)
    (hne : ∃ x, KeptAt (packable n (strB "__out.exe")) w.fs dir l [x])
    (hA : ∀ w' : World, w'.cwd = w.cwd → w'.fs = w.fs.put (w.cwd ++ [strB "__out.exe"]) (.file m exe) →
      Archivable os w' dir l ∧ Shows os w' (env.see w') ∧ (env.see w').ok) :
    ∃ (n1 : Nat) (log : List Bytes) (b packed : Bytes) (w2 : World), (∀ fuel, n1 ≤ fuel →
        selfDiskMain D Z os fuel env ndebug (dir ++ 47 :: n) w = .ok (0, w2)) ∧
      log.getLast? = some b ∧ Stored w.fs w2.fs (w.cwd ++ [strB "__out.exe"]) packed ∧
      (b.length < 524288 → C.Prompt log.flatten →
        ∀ (os' : Os) (_ : os'.quiet) (w' : World) (_ : w'.fs.tree) (env' : SelfDiskEnv)
          (_ : env'.hdr.length = 128) (_ : env'.item.length = 40) (_ : ∀ k n, env'.ok k n = true)
          (a : Bytes) (la : Loc) (_ : InFile os' w' a la packed) (_ : a.length < 4191)
          (_ : OpenDir os' w'.fs w'.cwd) (_ : CwdOk os' w'.fs w'.cwd)
          -- the removal, and what it needs of an earlier extraction directory
          (renv : RmEnv) (_ : ∀ v v', removeDir renv os' 4095 (strB ".out_dir") v = .ok v' → env'.remove v = v')
          (_ : Reads os' renv w') (_ : ShortBelow w' (strB ".out_dir"))
          (_ : OwnBelow os' w' (strB ".out_dir"))
          (_ : ∀ node, w'.fs (w'.cwd ++ [strB ".out_dir"]) = some node → ∃ m, node = .dir m)
          -- and of the new one
          (_ : ∀ v w3 : World, Without (strB ".out_dir") w' v → w3.cwd = w'.cwd →
            LooseCopy os' w.fs dir l (packable n (strB "__out.exe")) v.fs w3.fs w'.cwd
              (strB ".out_dir") [] → Reads os' renv w3)
          (_ : ∀ q, KeptAt (packable n (strB "__out.exe")) w.fs dir l q →
            (strB ".out_dir" ++ (q.map (47 :: ·)).flatten).length ≤ 4094)
          (_ : ReadMode os' (dirMode os' 0o775) ∧ Enterable os' (dirMode os' 0o775))
          (_ : ∀ q m, KeptAt (packable n (strB "__out.exe")) w.fs dir l q → q ≠ [] →
            w.fs (l ++ q) = some (.dir m) → ReadMode os' (dirMode os' m) ∧ Enterable os' (dirMode os' m))
          -- the program started
          (_ : ∀ v, (env'.start (strB ".out_dir/maind.exe") v).1 = some 0 ∧
            (env'.start (strB ".out_dir/maind.exe") v).2.fs = v.fs ∧
            (env'.start (strB ".out_dir/maind.exe") v).2.cwd = v.cwd),
        (∃ n0, ∀ fuel, n0 ≤ fuel → selfDiskMain D Z os' fuel env' ndebug a w' = .error .oobRead) ∨
        ∃ (n0 : Nat) (w4 : World), Without (strB ".out_dir") w' w4 ∧
          ∀ fuel, n0 ≤ fuel → selfDiskMain D Z os' fuel env' ndebug a w' = .ok (0, w4)) := by
  obtain ⟨n1, log, b, packed, w2, c1, c2, c3, c4, _, c6⟩ := C87_copy_any_partial CD C hfin hfit hq ht env
    hj z hz ndebug hexe hlen hbs hn hno hsize hout hone hone' hne hA
  refine ⟨n1, log, b, packed, w2, c1, c2, c4, ?_⟩
  intro hb hpr os' hq' w' ht' env' hh hi hok a la ha hal hop hcw renv hrm hR hS hO hdir hR3 hlim hown0 hown
    hstart
  have hrem := C92_self_extract env' renv os' hq' 4095 (Nat.le_refl _) hrm w' ht' hR hS hO hop hdir
  rcases c6 hb hpr os' hq' w' ht' env' hh hi hok a la ha hal hop hown0.2 hrem
    (fun q m hk hq0 hd => (hown q m hk hq0 hd).2) hcw with h | ⟨n0, v, w3, d1, d2, d3, d4⟩
  · exact .inl h
  right
  have hnames : ∀ q x, KeptAt (packable n (strB "__out.exe")) w.fs dir l (q ++ [x]) → PlainName x := by
    intro q x hk
    obtain ⟨A, _⟩ := hA ⟨w.fs.put (w.cwd ++ [strB "__out.exe"]) (.file m exe), w.cwd, 0⟩ rfl rfl
    have hnode : ∃ node, w.fs (l ++ q ++ [x]) = some node := by
      cases q with
      | nil => simpa using hk.node
      | cons y q => simpa using KeptAt.node (q := q ++ [x]) hk
    obtain ⟨node, hnode⟩ := hnode
    have : ∃ node, (w.fs.put (w.cwd ++ [strB "__out.exe"]) (.file m exe)) (l ++ q ++ [x]) = some node := by
      unfold FS.put
      split
      · exact ⟨_, rfl⟩
      · exact ⟨_, hnode⟩
    obtain ⟨node', h'⟩ := this
    exact A.names q x node' h'
  obtain ⟨s1, s2, s3⟩ := hstart w3
  generalize hst : (env'.start (strB ".out_dir/maind.exe") w3).2 = w5 at s2 s3
  have hvc := d1.cwd
  have hopv : OpenDir os' v.fs v.cwd := by
    obtain ⟨mo, h1, h2⟩ := hop
    exact ⟨mo, by rw [hvc, d1.above List.prefix_rfl]; exact h1, h2⟩
  have hR5 : Reads os' renv w5 := hR3 v w5 d1 (by rw [s3, d2]) (by rw [s2]; exact d3)
  rw [← hvc] at d3
  obtain ⟨w4, e1, e2, e3⟩ := C93_copy_removed renv hq' ht (d1.tree ht') (by rw [s3, d2, hvc]) hopv hS.name
    (fun x hx => d1.gone x (by rw [← hvc]; exact hx)) (by rw [s2]; exact d3) hR5 hnames hlim hown0 hown 4095
    (Nat.le_refl _)
  refine ⟨n0, w4, ⟨e2.trans hvc, fun x hx => by rw [e3]; exact d1.gone x hx,
    fun x hx => by rw [e3]; exact d1.rest x hx⟩, fun fuel hf => ?_⟩
  rw [d4 fuel hf, if_pos s1, hst, hrm _ _ e1]

/-! ### Examples and witness -/

namespace CleanSample
open HLSample CopySample

/-- A packed file in `/h/w`. -/
def nodes (packed : Bytes) : List (Loc × Node) := [([[104], [119], [120]], .file 0o755 packed)]

/-- All places of the disk, before and after the extraction of the directory of `SelfSample`. -/
def names : List Loc :=
  [[], [[104]], [[104], [119]], [[104], [119], [120]]] ++
    ([] :: (places SelfSample.nodes).filterMap fun x =>
      if [[104], [119], [114]] <+: x ∧ x ≠ [[104], [119], [114]] then some (x.drop 3) else none).map
      fun q => [[104], [119], strB ".out_dir"] ++ q

def renv : RmEnv := rmEnvOf os names

/-- The programs exit with `code`, and change nothing. -/
def env (renv : RmEnv) (code : Int) : SelfDiskEnv :=
  { SelfSample.env with
    hdr := hdrMem
    item := itemMem
    remove := fun v => match removeDir renv os 4095 (strB ".out_dir") v with
      | .ok v' => v'
      | .error _ => v
    start := fun _ v => (some code, v) }

theorem places_nodes (packed : Bytes) : ∀ x, (world (nodes packed)).fs x ≠ none →
    x ∈ [[], [[104]], [[104], [119]], [[104], [119], [120]]] := by
  intro x hx
  have := world_places (nodes packed) x hx
  simp only [places, nodes, List.map_cons, List.map_nil] at this
  simp only [List.mem_append, List.mem_cons, List.not_mem_nil, or_false] at this ⊢
  grind

/-- An archive of one file, behind a program. -/
def arc : Bytes := dirArc (.file [97] 0o100644 [5] .nil)

def packed : Bytes := List.replicate 524288 0 ++ arc

/-- The exit code, and whether there is an extraction directory. -/
def look : Run (Int × World) → Option (Int × Bool)
  | .ok (c, w) => some (c, (w.fs [[104], [119], strB ".out_dir"]).isSome)
  | .error _ => none

theorem look_ok {r : Run (Int × World)} {c : Int} {b : Bool} (h : look r = some (c, b)) :
    ∃ w, r = .ok (c, w) ∧ (w.fs [[104], [119], strB ".out_dir"]).isSome = b := by
  unfold look at h
  split at h
  · simp only [Option.some.injEq, Prod.mk.injEq] at h
    exact ⟨_, by rw [← h.1], h.2⟩
  · cases h

theorem nothing (packed : Bytes) (q : List Bytes) :
    (world (nodes packed)).fs ([[104], [119], strB ".out_dir"] ++ q) = none := by
  refine Classical.byContradiction fun h => ?_
  have := places_nodes packed _ h
  revert this
  simp only [List.mem_cons, List.not_mem_nil, or_false]
  cases q <;> simp +decide

end CleanSample

open HLSample CleanSample in
/-- Example: what `C93_nothing_left_partial` requires of the second run, for the directory `r` of
`SelfSample` and every packed file. -/
example (packed : Bytes) :
    (∀ x, (world (nodes packed)).fs x ≠ none → x ∈ CleanSample.names) ∧
    Reads os renv (world (nodes packed)) ∧ ShortBelow (world (nodes packed)) (strB ".out_dir") ∧
    OwnBelow os (world (nodes packed)) (strB ".out_dir") ∧
    (∀ v w3 : World, Without (strB ".out_dir") (world (nodes packed)) v → w3.cwd = [[104], [119]] →
      LooseCopy os (world SelfSample.nodes).fs [114] [[104], [119], [114]]
        (packable [115] (strB "__out.exe")) v.fs w3.fs [[104], [119]] (strB ".out_dir") [] →
      Reads os renv w3) ∧
    InFile os (world (nodes packed)) [120] [[104], [119], [120]] packed := by
  have hall : ∀ x, (world (nodes packed)).fs x ≠ none → x ∈ CleanSample.names := fun x hx =>
    List.mem_append_left _ (places_nodes packed x hx)
  have hnd : CleanSample.names.Nodup := by decide +kernel
  have hdot : ∀ x ∈ CleanSample.names, x.getLast? ≠ some [46] ∧ x.getLast? ≠ some [46, 46] := by decide +kernel
  refine ⟨hall, reads_rmEnvOf os _ _ hnd hall hdot, ⟨by decide +kernel, fun q x node h => ?_, fun q node h => ?_⟩,
    fun q m h => ?_, fun v w3 hv hc hl => reads_rmEnvOf os _ _ hnd (fun x hx => ?_) hdot,
    by decide, rfl, 0o755, rfl, by decide⟩
  · have := nothing packed (q ++ [x])
    simp only [world, List.append_assoc, List.cons_append, List.nil_append] at h this
    rw [this] at h; cases h
  · have := nothing packed q
    simp only [world, List.cons_append, List.nil_append] at h this
    rw [this] at h; cases h
  · have := nothing packed q
    simp only [world, List.cons_append, List.nil_append] at h this
    rw [this] at h; cases h
  · by_cases hp : [[104], [119], strB ".out_dir"] <+: x
    · obtain ⟨q, rfl⟩ := hp
      refine List.mem_append_right _ (List.mem_map.2 ⟨q, ?_, rfl⟩)
      cases q with
      | nil => exact List.mem_cons_self
      | cons y q =>
        refine List.mem_cons_of_mem _ (List.mem_filterMap.2 ⟨[[104], [119], [114]] ++ y :: q, ?_, ?_⟩)
        · refine CopySample.world_places SelfSample.nodes _ ?_
          have hk : KeptAt (packable [115] (strB "__out.exe")) (world SelfSample.nodes).fs [114]
              [[104], [119], [114]] (y :: q) := by
            refine Classical.byContradiction fun hk => hx ?_
            have := hl.2.2.1 y q hk
            simpa using this
          obtain ⟨nd, hnd⟩ := hk.node
          rw [hnd]; simp
        · rw [if_pos ⟨⟨_, rfl⟩, by simp⟩]; rfl
    · refine hall x ?_
      have h4 := hl.2.2.2 x (fun j _ e => hp ⟨[], by simp [e]⟩) (fun y q e => hp ⟨y :: q, by simp [e]⟩)
      rw [h4, hv.rest x hp] at hx
      exact hx

open HLSample SelfSample in
/-- Example: `r/s` started in `/h/w`, with a link in its directory. -/
example := C93_nothing_left_partial queueDOK copyIOK copyIOK_final queueDOK_fits os_quiet tree SelfSample.env
  List.length_replicate [] rfl true (dir := [114]) (n := [115]) (l := [[104], [119], [114]]) (exe := [7, 8])
  ⟨by decide, by decide +kernel, 0o755, by decide +kernel, by decide⟩ (by decide) (by decide) (by decide)
  (by decide +kernel) (by decide) outProg (onlyIn_of (by decide +kernel)) (onlyIn_of (by decide +kernel))
  ⟨[97], ⟨.file 0o640 [1, 2], by decide +kernel, by decide +kernel⟩, trivial⟩
  (fun w' hc hf => by
    rw [after_fs] at hf
    obtain ⟨a, b, _⟩ := sees (exe := [7, 8]) hc hf
    exact ⟨archivable_of hc hf (by decide) (by decide +kernel) (m := 0o755) (by decide +kernel)
      (by decide +kernel), a, b⟩)

open HLSample CleanSample in
/-- Example: nothing stays if the program exits with 0. -/
example : look (selfDiskRun copyI os 99 (CleanSample.env CleanSample.renv 0) arc (world (nodes packed))) =
    some (0, false) := by decide +kernel

open HLSample SelfSample in
/-- Example: a copy of `r` in `/h/w`, where there is no `.out_dir`. -/
example (w : World) (hc : w.cwd = [[104], [119]]) (names : List Loc) (hn : names.Nodup)
    (hall : ∀ x, w.fs x ≠ none → x ∈ names)
    (hdot : ∀ x ∈ names, x.getLast? ≠ some [46] ∧ x.getLast? ≠ some [46, 46])
    (h : LooseCopy os (world nodes).fs [114] [[104], [119], [114]] (packable [115] (strB "__out.exe"))
      (world nodes).fs w.fs (world nodes).cwd (strB ".out_dir") []) :=
  C93_copy_removed (rmEnvOf os names) os_quiet tree tree hc ⟨0o755, by decide +kernel, .inr (by decide)⟩
    (by decide +kernel)
    (fun x hx => Classical.byContradiction fun hx' => by
      have key : ∀ x ∈ CopySample.places nodes, ¬ [[104], [119], strB ".out_dir"] <+: x := by decide +kernel
      exact key x (CopySample.world_places nodes x hx') hx) h
    (reads_rmEnvOf os w names hn hall hdot)
    (fun q x hk => by
      have key : ∀ x ∈ CopySample.places nodes, ∀ y ∈ x, PlainName y := by decide +kernel
      have hk' : ∃ nd, (world nodes).fs ([[104], [119], [114]] ++ (q ++ [x])) = some nd := by
        cases q with
        | nil => exact hk.node
        | cons y q => exact KeptAt.node (q := q ++ [x]) hk
      obtain ⟨nd, hnd⟩ := hk'
      exact key _ (CopySample.world_places nodes _ (by rw [hnd]; simp)) x (by simp))
    (fun q hk => by
      have key : ∀ x ∈ CopySample.places nodes, (strB ".out_dir" ++ ((x.drop 3).map (47 :: ·)).flatten).length ≤
        4094 := by decide +kernel
      cases q with
      | nil => decide
      | cons y q =>
        obtain ⟨nd, hnd⟩ := hk.node
        exact key _ (CopySample.world_places nodes ([[104], [119], [114]] ++ y :: q) (by rw [hnd]; simp)))
    ⟨.inr (by decide), .inr (by decide)⟩
    (fun q m _ _ hm => by
      have key : ∀ x ∈ CopySample.places nodes, (match (world nodes).fs x with
        | some (.dir m) => decide (dirMode os m &&& 0o400 ≠ 0 ∧ dirMode os m &&& 0o100 ≠ 0 ∧ dirMode os m &&& 0o200 ≠ 0)
        | _ => true) = true := by decide +kernel
      have := key _ (CopySample.world_places nodes _ (by rw [hm]; simp))
      rw [hm] at this
      have := of_decide_eq_true this
      exact ⟨.inr this.1, .inr this.2⟩) 4095 (Nat.le_refl _)

open HLSample CleanSample in
/-- C93 is false of programs that exit with another code: `.out_dir` stays, though the self extractor
exits with 0. -/
theorem C93_other_code_false :
    ¬ ∀ (D : Deflater) (Z : Inflater) (plain : Bytes → Bytes) (_ : DeflateOK D plain)
      (_ : InflateOK Z plain) (os : Os) (renv : RmEnv) (w w' : World) (env : SelfDiskEnv) (fuel : Nat)
      (a : Bytes), os.quiet → w.fs.tree → Reads os renv w →
      (∀ v v', removeDir renv os 4095 (strB ".out_dir") v = .ok v' → env.remove v = v') →
      (∀ p v, (env.start p v).1 ≠ none ∧ (env.start p v).2 = v) →
      selfDiskMain D Z os fuel env true a w = .ok (0, w') → w'.fs (w.cwd ++ [strB ".out_dir"]) = none := by
  intro h
  have htree : (world (nodes packed)).fs.tree := by
    refine ⟨⟨0o755, rfl⟩, fun l c n hn => ?_⟩
    have := places_nodes packed _ (by rw [hn]; simp)
    simp only [List.mem_cons, List.not_mem_nil, or_false] at this
    rcases this with e | e | e | e
    · simp at e
    · rw [show l = [] from List.append_inj_left' (t₁ := [c]) (t₂ := [[104]]) e rfl]; exact ⟨0o755, rfl⟩
    · rw [show l = [[104]] from List.append_inj_left' (t₁ := [c]) (t₂ := [[119]]) e rfl]; exact ⟨0o755, rfl⟩
    · rw [show l = [[104], [119]] from List.append_inj_left' (t₁ := [c]) (t₂ := [[120]]) e rfl]
      exact ⟨0o755, rfl⟩
  have hread := InFile.read os_quiet (w := world (nodes packed)) (a := [120])
    (l := [[104], [119], [120]]) (c := packed) ⟨by decide, rfl, 0o755, rfl, by decide⟩
  have hev : look (selfDiskMain queueD copyI os 99 (CleanSample.env CleanSample.renv 3) true [120]
      (world (nodes packed))) = some (0, true) := by
    rw [selfDiskMain, if_neg (by decide), hread]
    have hc : contentAt (world (nodes packed)).tick [[104], [119], [120]] = ⟨packed, false⟩ := rfl
    simp only [hc]
    rw [if_pos (by simp only [packed, maxExe, List.length_append, List.length_replicate]; decide +kernel),
      show packed.drop (maxExe true) = arc from List.drop_left' List.length_replicate]
    decide +kernel
  obtain ⟨w', h1, h2⟩ := look_ok hev
  have := h queueD copyI id queueDOK copyIOK os CleanSample.renv (world (nodes packed)) w'
    (CleanSample.env CleanSample.renv 3) 99 [120] os_quiet htree
    (reads_rmEnvOf os _ _ (by decide +kernel)
      (fun x hx => List.mem_append_left _ (places_nodes packed x hx)) (by decide +kernel))
    (fun v v' hr => by simp only [CleanSample.env, hr]) (fun p v => ⟨by simp [CleanSample.env], rfl⟩) h1
  rw [show (world (nodes packed)).cwd ++ [strB ".out_dir"] = [[104], [119], strB ".out_dir"] from rfl] at this
  rw [this] at h2
  cases h2

end Zwt
