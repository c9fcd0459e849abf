import Verif.Proofs.SelfDisk

/-! C87: the self extractor on a disk. -/

namespace Zwt

variable {Z : Inflater} {D : Deflater} {plain : Bytes → Bytes}

/-- C87, what holds: the program `dir/n`, which is small enough, is started and packs its directory: it
exits with 0 and stores, in the working directory, `__out.exe`, which is the program, zeros up to the
limit, and the archive; nothing else changes.  When that file is started, anywhere, it exits with 0
after it has removed `.out_dir` from the working directory, has put there a copy of everything in the
source directory but the program and the output file, and has started `.out_dir/maind.exe`, and, if
that is not possible or fails, `.out_dir/main.exe`; otherwise it removes `.out_dir` again.
Missing: what C79 misses; paths without a slash, directly in the root, or with a backslash (false,
below); other files with the name of the program or of the output file (C53); programs beyond the limit
(C52); an archive whose last output piece fills the buffer; the removal itself, a parameter (C92). -/
theorem C87_copy_partial (CD : DeflateOK D plain) (C : InflateOK Z plain) (hfin : C.Final)
    (hfit : CD.Fits) {os : Os} (hq : os.quiet) {w : World} (ht : w.fs.tree) (env : SelfDiskEnv)
    (hj : env.junk.length = 120) (z : D.τ) (hz : D.init 9 = some z) (ndebug : Bool)
    -- the program
    {dir n : Bytes} {l : Loc} {exe : Bytes} (hexe : InFile os w (dir ++ 47 :: n) (l ++ [n]) exe)
    (hlen : (dir ++ 47 :: n).length < 4191) (hbs : 92 ∉ dir ++ 47 :: n) (hn : PlainName n)
    (hno : n ≠ strB "__out.exe") (hsize : exe.length ≤ if ndebug then 524288 else 2097152)
    -- the output file
    {m : Nat} (hout : OutProg os w (strB "__out.exe") m)
    (hone : OnlyIn w.fs l n l) (hone' : OnlyIn w.fs l (strB "__out.exe") w.cwd)
    -- the directory, with the copy of the program
    (hne : ∃ x, KeptAt (packable n (strB "__out.exe")) w.fs dir l [x])
    (hA : ∀ w' : World, w'.cwd = w.cwd → w'.fs = w.fs.put (w.cwd ++ [strB "__out.exe"]) (.file m exe) →
      Archivable os w' dir l ∧ Shows os w' (env.see w') ∧ (env.see w').ok) :
    ∃ (n1 : Nat) (log : List Bytes) (b packed : Bytes) (w2 : World), (∀ fuel, n1 ≤ fuel →
        selfDiskMain D Z os fuel env ndebug (dir ++ 47 :: n) w = .ok (0, w2)) ∧
      log.getLast? = some b ∧ w2.cwd = w.cwd ∧
      Stored w.fs w2.fs (w.cwd ++ [strB "__out.exe"]) packed ∧
      packed = exe ++ List.replicate ((if ndebug then 524288 else 2097152) - exe.length) 0 ++ log.flatten ∧
      (b.length < 524288 → C.Prompt log.flatten →
        ∀ (os' : Os) (_ : os'.quiet) (w' : World) (_ : w'.fs.tree) (env' : SelfDiskEnv)
          (_ : env'.hdr.length = 128) (_ : env'.item.length = 40) (_ : ∀ k n, env'.ok k n = true)
          (a : Bytes) (la : Loc) (_ : InFile os' w' a la packed) (_ : a.length < 4191)
          (_ : OpenDir os' w'.fs w'.cwd) (_ : Enterable os' (dirMode os' 0o775))
          (_ : ∀ v, v.fs = w'.fs → v.cwd = w'.cwd → Without (strB ".out_dir") v (env'.remove v))
          (_ : ∀ q m, KeptAt (packable n (strB "__out.exe")) w.fs dir l q → q ≠ [] →
            w.fs (l ++ q) = some (.dir m) → Enterable os' (dirMode os' m))
          (_ : (∀ q t, KeptAt (packable n (strB "__out.exe")) w.fs dir l q →
              w.fs (l ++ q) ≠ some (.link t)) ∨
            CwdOk os' w'.fs w'.cwd ∧ SmallKept (packable n (strB "__out.exe")) w.fs dir l ∧
              log.flatten.length < 524288),
        ∃ (n0 : Nat) (v w3 : World), Without (strB ".out_dir") w' v ∧ w3.cwd = w'.cwd ∧
          CopyOf os' w.fs dir l (packable n (strB "__out.exe")) v.fs w3.fs w'.cwd (strB ".out_dir") [] ∧
          ∀ fuel, n0 ≤ fuel → selfDiskMain D Z os' fuel env' ndebug a w' =
            .ok (0,
              if (env'.start (strB ".out_dir/maind.exe") w3).1 = some 0
              then env'.remove (env'.start (strB ".out_dir/maind.exe") w3).2
              else (env'.start (strB ".out_dir/main.exe")
                (env'.start (strB ".out_dir/maind.exe") w3).2).2)) := by
  have hno : n ≠ OUT_FILE := hno
  have hout : OutProg os w OUT_FILE m := hout
  have hmax : (if ndebug then 524288 else 2097152) = maxExe ndebug := rfl
  rw [hmax] at hsize
  simp only [hmax]
  change OnlyIn w.fs l OUT_FILE w.cwd at hone'
  have hparts := exeParts_slash hbs hn.2.2.2.1
  obtain ⟨wb, hwbc, hwbfs, htb, o3, hrun⟩ := self_pack D Z hq ht env ndebug hlen hexe hsize hout
  obtain ⟨A, H, hE⟩ := hA wb hwbc hwbfs
  generalize hlo : w.cwd ++ [OUT_FILE] = lo at *
  have hlast : lo.getLast? = some OUT_FILE := by rw [← hlo]; simp
  -- what is packed is as before
  have hne1 : ∀ x, x ≠ lo → wb.fs x = w.fs x := by
    intro x hx; rw [hwbfs, FS.put, if_neg hx]
  have hnd1 : ∀ x, w.fs lo = some x → x.type ≠ .dir := by
    intro x hx; obtain ⟨c, rfl⟩ := o3 x hx; simp [Node.type]
  have hnd2 : ∀ x, wb.fs lo = some x → x.type ≠ .dir := by
    intro x hx; rw [hwbfs, FS.put_same] at hx; cases hx; simp [Node.type]
  have hkeep := fun q => (keptAt_out (exe := n) hlast hne1 hnd1 hnd2 q dir l)
  have hsame : ∀ q, q ≠ [] → KeptAt (packable n OUT_FILE) w.fs dir l q → wb.fs (l ++ q) = w.fs (l ++ q) :=
    fun q hq0 hk => hne1 _ ((hkeep q).2 hq0 hk)
  have hone1 : OnlyIn wb.fs l n l := by
    intro q node hx hty
    by_cases e : l ++ q ++ [n] = lo
    · rw [← hlo] at e
      exact absurd (List.append_inj_right' e rfl) (by simpa using hno)
    · exact hone q node (by rw [← hne1 _ e]; exact hx) hty
  have hone2 : OnlyIn wb.fs l OUT_FILE w.cwd := by
    intro q node hx hty
    by_cases e : l ++ q ++ [OUT_FILE] = lo
    · rw [← hlo] at e
      exact List.append_inj_left' e rfl
    · exact hone' q node (by rw [← hne1 _ e]; exact hx) hty
  obtain ⟨x, hx⟩ := hne
  obtain ⟨n1, log, b, k1, k2, k3, k4⟩ := self_tree CD C htb hE H A hno hone1 hone2
    ⟨x, (hkeep [x]).1.2 hx⟩ z hz env.junk hj
  obtain ⟨w2, p2, p1, p3⟩ := hrun 0 log
  rw [pwrite_far _ _ _ k3 hsize] at p1
  refine ⟨n1, log, b, _, w2, fun fuel hf => p3 fuel (by rw [hparts]; exact k1 fuel hf), k2, p2,
    ⟨⟨m, ?_, fun x hx => o3 x (by rw [← hlo]; exact hx)⟩, ?_⟩, rfl, ?_⟩
  · rw [p1, show strB "__out.exe" = OUT_FILE from rfl, hlo, FS.put_same]
  · intro l' hl'
    rw [show strB "__out.exe" = OUT_FILE from rfl, hlo] at hl'
    rw [p1, FS.put, if_neg hl']
  intro hb hpr os' hq' w' ht' env' hh hi hok a la ha hal hop hen hrm hfe hnl
  have hrd' := ha.read hq'
  obtain ⟨_, a2, ma, a3, a4⟩ := ha
  generalize hv : env'.remove w'.tick.tick = v
  have hwo : Without OUT_FOLDER w'.tick.tick v := by rw [← hv]; exact hrm w'.tick.tick rfl rfl
  have hwo' : Without OUT_FOLDER w' v := ⟨hwo.1, hwo.2, hwo.3⟩
  have hvc : v.cwd = w'.cwd := hwo.cwd
  have hdir : ∀ {l m}, l <+: w'.cwd → w'.fs l = some (.dir m) → v.fs l = some (.dir m) :=
    fun h h' => by rw [hwo'.above h]; exact h'
  obtain ⟨mo, hmo, hmo'⟩ := hop
  obtain ⟨n0, r, r1, r2, r3⟩ := k4 env'.ok hok env'.hdr env'.item hh hi os' hq' v (hwo'.tree ht') []
    (by simp) v.cwd .rel ⟨mo, hdir (by rw [hvc]; exact List.prefix_rfl) (by rw [hvc]; exact hmo), hmo'⟩
    OUT_FOLDER [] (by intro x hx; simp at hx; rw [hx]; exact outFolder_plain)
    (hwo.gone _ (by rw [hvc]; exact List.prefix_rfl)) hen (by simp)
    (fun q mq hk hq0 hd => by
      have hk' := (hkeep q).1.1 hk
      exact hfe q mq hk' hq0 (by rw [← hsame q hq0 hk']; exact hd))
    (by
      have hl0 : ∀ t, wb.fs l ≠ some (.link t) := by
        obtain ⟨mm, hm⟩ := A.isDir
        intro t h
        have hm : wb.fs l = _ := hm
        rw [h] at hm; cases hm
      refine hnl.imp (fun h q t hk => ?_) (fun ⟨g1, g2, g3⟩ => ⟨?_, ?_, g3⟩)
      · by_cases hq0 : q = []
        · subst hq0; rw [List.append_nil]; exact hl0 t
        · have hk' := (hkeep q).1.1 hk
          show wb.fs _ ≠ _
          rw [hsame q hq0 hk']; exact h q t hk'
      · rw [hvc]
        refine ⟨g1.1, g1.2.1, fun x hx => ?_⟩
        have := g1.2.2 x hx
        simp only [searchable, hwo'.above hx] at this ⊢
        exact this
      · obtain ⟨qs, q1, q2⟩ := g2
        refine ⟨qs.filter (fun q => decide (wb.fs (l ++ q) = w.fs (l ++ q))), fun q hq0 hk => ?_, ?_⟩
        · have hk' := (hkeep q).1.1 hk
          rw [List.mem_filter]
          exact ⟨q1 q hq0 hk', by simpa using hsame q hq0 hk'⟩
        · refine Nat.lt_of_le_of_lt ?_ q2
          clear q1 q2
          induction qs with
          | nil => simp
          | cons q qs ih =>
            rw [List.filter_cons]
            split
            · rename_i e
              have e : wb.fs (l ++ q) = w.fs (l ++ q) := by simpa using e
              have e' : placeCost wb.fs (l ++ q) = placeCost w.fs (l ++ q) := by
                show placeCost wb.fs (l ++ q) = _
                simp only [placeCost, e]
              simp only [List.map_cons, List.sum_cons, e']
              omega
            · simp only [List.map_cons, List.sum_cons]
              omega) hb
  obtain ⟨f1, f2, f3⟩ := r3 (r2 hfin hfit) (.inr hpr)
  rw [hvc] at f2 f3
  refine ⟨n0, v, r.w, hwo', f2, CopyOf.source_out hlast hne1 hnd1 hnd2 f3, fun fuel hf => ?_⟩
  rw [selfDiskMain, if_neg (by simp only [VC_BUFFER_SIZE]; omega), hrd']
  have hc : contentAt w'.tick la = ⟨exe ++ List.replicate (maxExe ndebug - exe.length) 0 ++ log.flatten,
      false⟩ := by
    simp only [contentAt, World.tick, a3]
  have hlen1 : (exe ++ List.replicate (maxExe ndebug - exe.length) (0 : UInt8)).length = maxExe ndebug := by
    simp; omega
  have hpos : 0 < log.flatten.length := List.length_pos_iff.2 k3
  simp only [hc]
  rw [if_pos (by rw [List.length_append, hlen1]; omega), List.drop_left' hlen1, selfDiskRun]
  have r1' := r1 fuel hf
  rw [show ([] : Bytes) ++ joinNames [OUT_FOLDER] = OUT_FOLDER from rfl] at r1'
  simp only [hq'.2.2, Bool.false_eq_true, if_false, hv, r1', f1, ne_eq, not_true_eq_false]
  have g1 : FIRST_PROG = strB ".out_dir/maind.exe" := by decide +kernel
  have g2 : secondProg = strB ".out_dir/main.exe" := by decide +kernel
  rw [g1, g2]
  by_cases hs : (env'.start (strB ".out_dir/maind.exe") r.w).1 = some 0
  · rw [if_pos hs]
    have h0 : (env'.start (strB ".out_dir/maind.exe") r.w).1.getD 1 = 0 := by rw [hs]; rfl
    exact if_neg (fun h => h h0)
  · rw [if_neg hs]
    have h0 : (env'.start (strB ".out_dir/maind.exe") r.w).1.getD 1 ≠ 0 := by
      cases h : (env'.start (strB ".out_dir/maind.exe") r.w).1 with
      | none => simp
      | some k => rw [h] at hs; simpa using hs
    exact if_pos h0

/-! ### A disk -/

theorem KeptAt.there {keep : Bytes → Entry → Bool} {fs : FS} {q : List Bytes} : ∀ {d : Bytes} {l : Loc},
    KeptAt keep fs d l q → q ≠ [] → fs (l ++ q) ≠ none := by
  induction q with
  | nil => intro d l _ h; exact absurd rfl h
  | cons x q ih =>
    intro d l h _
    cases q with
    | nil => exact h.exists
    | cons y q =>
      have := ih h.2 (by simp)
      simpa using this

namespace SelfSample
open HLSample CopySample

/-- In `/h/w`: the program `r/s` beside a file, a directory, and a link; the program `\q/t`
beside a file; the program `v`.  In the root: the program `u`. -/
def nodes : List (Loc × Node) :=
  [([[104], [119], [114]], .dir 0o755), ([[104], [119], [114], [97]], .file 0o640 [1, 2]),
   ([[104], [119], [114], [115]], .file 0o755 [7, 8]), ([[104], [119], [114], [100]], .dir 0o750),
   ([[104], [119], [114], [100], [98]], .file 0o600 []), ([[104], [119], [114], [100], [107]], .link [98]),
   ([[104], [119], [92, 113]], .dir 0o755), ([[104], [119], [92, 113], [97]], .file 0o644 [3]),
   ([[104], [119], [92, 113], [116]], .file 0o755 [7]), ([[104], [119], [118]], .file 0o755 [9]),
   ([[117]], .file 0o755 [9])]

/-- With the copy of the program. -/
def after (exe : Bytes) : List (Loc × Node) :=
  ([[104], [119], strB "__out.exe"], .file 0o755 exe) :: nodes

theorem after_fs (exe : Bytes) : (world nodes).fs.put ((world nodes).cwd ++ [strB "__out.exe"])
    (.file 0o755 exe) = (world (after exe)).fs := by
  funext x
  simp only [FS.put, world, fsOf, after, List.cons_append, List.find?_cons]
  by_cases h : x = [[104], [119], strB "__out.exe"]
  · simp [h]
  · simp [h, Ne.symm h]

/-- A world with these nodes. -/
theorem same_world {ns : List (Loc × Node)} {w' : World} (h1 : w'.cwd = [[104], [119]])
    (h2 : w'.fs = (world ns).fs) : ∃ k, w' = ⟨(world ns).fs, [[104], [119]], k⟩ := by
  obtain ⟨a, b, c⟩ := w'
  dsimp only at h1 h2
  exact ⟨c, by rw [h1, h2]⟩

/-- What an entry has to satisfy. -/
def fine (os : Os) (p : Bytes) (l : Loc) (x : Loc) : Option Node → Bool
  | none => true
  | some n =>
    decide (p.length + (((x.drop l.length).map (47 :: ·)).flatten).length ≤ 4094) &&
    (decide (x = l) || decide (PlainName (x.getLast?.getD []))) &&
    match n with
    | .dir m => decide (ReadMode os m ∧ (os.root = true ∨ m &&& 0o100 ≠ 0) ∧ m < 0o10000)
    | .file m c => decide (ReadMode os m ∧ m < 0o10000 ∧ c.length + 8 < 2 ^ 64)
    | .link t => decide (t ≠ [] ∧ 0 ∉ t ∧ t.length < 2 ^ 32)

theorem archivable_of {ns : List (Loc × Node)} {p : Bytes} {l : Loc} {w' : World}
    (hc : w'.cwd = [[104], [119]]) (hf : w'.fs = (world ns).fs) (h1 : p ≠ [] ∧ 0 ∉ p)
    (h2 : locate os (world ns) true p = some l) {m : Nat} (h3 : (world ns).fs l = some (.dir m))
    (h : ∀ x ∈ places ns, l <+: x → fine os p l x ((world ns).fs x) = true) : Archivable os w' p l := by
  obtain ⟨k, rfl⟩ := same_world hc hf
  have key : ∀ q n, (world ns).fs (l ++ q) = some n → fine os p l (l ++ q) (some n) = true := by
    intro q n hn
    rw [← hn]
    exact h _ (world_places ns _ (by rw [hn]; simp)) ⟨q, rfl⟩
  constructor
  · exact h1
  · exact h2
  · exact ⟨m, h3⟩
  · intro q m hm; have := key q _ hm; simp only [fine, Bool.and_eq_true, decide_eq_true_eq] at this; exact this.2
  · intro q m c hm; have := key q _ hm; simp only [fine, Bool.and_eq_true, decide_eq_true_eq] at this; exact this.2
  · intro q t hm; have := key q _ hm; simp only [fine, Bool.and_eq_true, decide_eq_true_eq] at this; exact this.2
  · intro q x n hm
    have := key (q ++ [x]) n (by rw [← List.append_assoc]; exact hm)
    simp only [fine, Bool.and_eq_true, Bool.or_eq_true, decide_eq_true_eq] at this
    have := this.1.2
    simpa using this
  · intro q n hm
    have := key q _ hm
    simp only [fine, Bool.and_eq_true, decide_eq_true_eq] at this
    have := this.1.1
    simpa using this

theorem tree : (world nodes).fs.tree := by
  refine ⟨⟨0o755, by decide +kernel⟩, ?_⟩
  intro l c n h
  have hx := world_places nodes (l ++ [c]) (by rw [h]; simp)
  have key : ∀ x ∈ places nodes, x ≠ [] → (match (world nodes).fs x.dropLast with
      | some (.dir _) => true
      | _ => false) = true := by decide +kernel
  have := key _ hx (by simp)
  rw [List.dropLast_concat] at this
  split at this
  · rename_i m hm; exact ⟨m, hm⟩
  · cases this

theorem onlyIn_of {l d : Loc} {n : Bytes} (h : ∀ x ∈ places nodes, l <+: x → x.getLast? = some n →
    x.dropLast = d) : OnlyIn (world nodes).fs l n d := by
  intro q node hn _
  have := h _ (world_places nodes (l ++ q ++ [n]) (by rw [hn]; simp)) ⟨q ++ [n], by simp⟩ (by simp)
  rwa [List.dropLast_concat] at this

theorem outProg : OutProg os (world nodes) (strB "__out.exe") 0o755 :=
  ⟨⟨0o755, by decide +kernel, by simp [Enterable]⟩, .inr (by decide),
    .inl ⟨by decide +kernel, by decide⟩⟩

def env : SelfDiskEnv where
  ok := fun _ _ => true
  junk := List.replicate 120 0xEE
  hdr := hdrMem
  item := itemMem
  see := fun w => envOf os ⟨w.fs, w.cwd, 0⟩ (places (after []))
  remove := fun w => { w with fs := fun x => if w.cwd ++ [strB ".out_dir"] <+: x then none else w.fs x }
  start := fun _ w => (none, w)

theorem sees {exe : Bytes} {w' : World} (hc : w'.cwd = [[104], [119]])
    (hf : w'.fs = (world (after exe)).fs) : Shows os w' (env.see w') ∧ (env.see w').ok ∧
      env.see w' = envOf os (world (after exe)) (places (after [])) := by
  obtain ⟨k, rfl⟩ := same_world hc hf
  have e : places (after []) = places (after exe) := rfl
  have h : Shows os (world (after exe)) (envOf os (world (after exe)) (places (after []))) := by
    rw [e]
    exact shows_envOf _ _ _ (by rw [← e]; decide +kernel) (world_places _)
  have e2 : env.see ⟨(world (after exe)).fs, [[104], [119]], k⟩ =
      envOf os (world (after exe)) (places (after [])) := rfl
  refine ⟨?_, fun _ => by simp [env, envOf], e2⟩
  rw [e2]
  obtain ⟨a1, a2, a3, a4, a5⟩ := h
  exact ⟨a1, a2, a3, a4, a5⟩

/-- Only the header of an archive is written. -/
def onlyHeader (arg0 exe : Bytes) : Bool :=
  match compressDir queueD (envOf os (world (after exe)) (places (after [])))
      (selfFilter (exeParts arg0).2 OUT_FILE) 9 .plain (exeParts arg0).1 ⟨true, true⟩ 9 env.junk with
  | .ok (0, log) => decide (log.flatten.length = 128)
  | _ => false

theorem packs_nothing {arg0 : Bytes} {le : Loc} {exe : Bytes} (hin : InFile os (world nodes) arg0 le exe)
    (hl : arg0.length < 4191) (he : exe.length ≤ 524288) (hh : onlyHeader arg0 exe = true) :
    ∃ w2 packed, selfDiskMain queueD copyI os 9 env true arg0 (world nodes) = .ok (0, w2) ∧
      Stored (world nodes).fs w2.fs ((world nodes).cwd ++ [strB "__out.exe"]) packed ∧
      (packed.drop 524288).length = 128 := by
  obtain ⟨wb, b1, b2, _, b4, hrun⟩ := self_pack queueD copyI os_quiet tree env true hl hin he outProg
  have b2' := b2
  rw [show OUT_FILE = strB "__out.exe" from rfl, after_fs] at b2'
  obtain ⟨_, _, e⟩ := sees b1 b2'
  simp only [onlyHeader] at hh
  rw [← e] at hh
  split at hh
  · rename_i log hc
    have hlen : log.flatten.length = 128 := of_decide_eq_true hh
    obtain ⟨w2, p1, p2, p3⟩ := hrun 0 log
    have hne : log.flatten ≠ [] := by intro h; rw [h] at hlen; simp at hlen
    have hmx : maxExe true = 524288 := rfl
    rw [hmx, pwrite_far _ _ _ hne he] at p2
    refine ⟨w2, _, p3 9 hc, ⟨⟨0o755, by rw [p2]; exact FS.put_same _ _ _, b4⟩, fun x hx => ?_⟩, ?_⟩
    · rw [p2]; exact if_neg hx
    · rw [List.drop_left' (by simp; omega)]
      exact hlen
  · cases hh

theorem cwd_out (packed : Bytes) : (world (after packed)).fs [[104], [119]] = some (.dir 0o755) := by
  simp [world, after, fsOf, nodes]

theorem locate_out (packed : Bytes) : locate os (world (after packed)) true (strB "__out.exe") =
    some [[104], [119], strB "__out.exe"] := by
  have hs : searchable os (world (after packed)).fs (world (after packed)).cwd = true :=
    OpenDir.searchable ⟨0o755, cwd_out packed, by simp [Enterable]⟩
  have hf := InDir.front (os := os) (w := world (after packed)) .rel hs (by simp)
  have := hf.at (x := strB "__out.exe") hs (by decide +kernel) true (n := .file 0o755 packed)
    (by simp [world, after, fsOf]) (by simp)
  exact this

end SelfSample

open HLSample SelfSample in
/-- Example: `r/s` started in `/h/w` meets the hypotheses of `C87_copy_partial` about the first run. -/
example : InFile os (world nodes) ([114] ++ 47 :: [115]) ([[104], [119], [114]] ++ [[115]]) [7, 8] ∧
    92 ∉ ([114] ++ 47 :: [115] : Bytes) ∧ PlainName [115] ∧ ([115] : Bytes) ≠ strB "__out.exe" ∧
    OutProg os (world nodes) (strB "__out.exe") 0o755 ∧
    OnlyIn (world nodes).fs [[104], [119], [114]] [115] [[104], [119], [114]] ∧
    OnlyIn (world nodes).fs [[104], [119], [114]] (strB "__out.exe") (world nodes).cwd ∧
    (∃ x, KeptAt (packable [115] (strB "__out.exe")) (world nodes).fs [114] [[104], [119], [114]] [x]) ∧
    ∀ w' : World, w'.cwd = (world nodes).cwd →
      w'.fs = (world nodes).fs.put ((world nodes).cwd ++ [strB "__out.exe"]) (.file 0o755 [7, 8]) →
      Archivable os w' [114] [[104], [119], [114]] ∧ Shows os w' (env.see w') ∧ (env.see w').ok := by
  refine ⟨⟨by decide, by decide +kernel, 0o755, by decide +kernel, by decide⟩, by decide, by decide,
    by decide +kernel, outProg, onlyIn_of (by decide +kernel), onlyIn_of (by decide +kernel),
    ⟨[97], ⟨.file 0o640 [1, 2], by decide +kernel, by decide +kernel⟩, trivial⟩, fun w' hc hf => ?_⟩
  rw [after_fs] at hf
  obtain ⟨a, b, _⟩ := sees hc hf
  exact ⟨archivable_of hc hf (by decide) (by decide +kernel) (m := 0o755) (by decide +kernel)
    (by decide +kernel), a, b⟩

open HLSample SelfSample in
/-- Example: the hypotheses about the second run, for the file at `/h/w/__out.exe` on the same disk. -/
example (packed : Bytes) : InFile os (world (after packed)) (strB "__out.exe")
      [[104], [119], strB "__out.exe"] packed ∧
    OpenDir os (world (after packed)).fs (world (after packed)).cwd ∧
    Enterable os (dirMode os 0o775) ∧
    (∀ v, v.fs = (world (after packed)).fs → v.cwd = (world (after packed)).cwd →
      Without (strB ".out_dir") v (env.remove v)) ∧
    (∀ q m, KeptAt (packable [115] (strB "__out.exe")) (world nodes).fs [114] [[104], [119], [114]] q →
      q ≠ [] → (world nodes).fs ([[104], [119], [114]] ++ q) = some (.dir m) →
      Enterable os (dirMode os m)) ∧
    CwdOk os (world (after packed)).fs (world (after packed)).cwd ∧
    SmallKept (packable [115] (strB "__out.exe")) (world nodes).fs [114] [[104], [119], [114]] := by
  refine ⟨⟨by decide +kernel, ?_, 0o755, ?_, by decide⟩, ⟨0o755, ?_, ?_⟩, ?_, ?_, ?_, ?_, ?_⟩
  · exact locate_out packed
  · simp [world, after, fsOf]
  · exact cwd_out packed
  · simp [Enterable]
  · simp [Enterable]; decide
  · intro v _ _
    exact ⟨rfl, fun x hx => if_pos hx, fun x hx => if_neg hx⟩
  · intro q m _ hq hm
    have hp := CopySample.world_places nodes _ (by rw [hm]; simp)
    have key : ∀ x ∈ CopySample.places nodes, [[104], [119], [114]] <+: x → x ≠ [[104], [119], [114]] →
        (match (world nodes).fs x with
          | some (.dir m) => decide (m = 0o750)
          | _ => true) = true := by decide +kernel
    have := key _ hp ⟨q, rfl⟩ (by simpa using hq)
    rw [hm] at this
    have : m = 0o750 := by simpa using this
    subst this
    simp [Enterable]; decide
  · refine ⟨by show ([47, 104, 47, 119] : Bytes).length < 1023; decide,
      by show ∀ c ∈ ([[104], [119]] : Loc), PlainName c; decide, fun l hl => ?_⟩
    have hl : l ∈ ([[], [[104]], [[104], [119]]] : List Loc) := by
      obtain ⟨t, ht⟩ := hl
      have ht : l ++ t = [[104], [119]] := ht
      match l, ht with
      | [], _ => simp
      | [a], ht => simp at ht; simp [ht.1]
      | [a, b], ht => simp at ht; simp [ht.1, ht.2.1]
      | a :: b :: c :: r, ht => simp at ht
    simp only [List.mem_cons, List.not_mem_nil, or_false] at hl
    rcases hl with rfl | rfl | rfl <;> simp [searchable, world, after, fsOf, nodes] <;> decide
  · refine ⟨[[[97]], [[100]], [[100], [98]], [[100], [107]]], fun q hq h => ?_, by decide +kernel⟩
    have hp := CopySample.world_places nodes _ (h.there hq)
    have key : ∀ x ∈ CopySample.places nodes, [[104], [119], [114]] <+: x → x ≠ [[104], [119], [114]] →
        x ≠ [[104], [119], [114]] ++ [[115]] →
        x.drop 3 ∈ ([[[97]], [[100]], [[100], [98]], [[100], [107]]] : List (List Bytes)) := by
      decide +kernel
    refine key _ hp ⟨q, rfl⟩ (by simpa using hq) (fun e => ?_)
    have e := List.append_cancel_left e
    subst e
    obtain ⟨⟨node, h1, h2⟩, _⟩ := h
    have h3 : (world nodes).fs ([[104], [119], [114]] ++ [[115]]) = some (.file 0o755 [7, 8]) := by
      decide +kernel
    rw [h3] at h1
    cases h1
    revert h2
    decide

open HLSample SelfSample in
/-- C87 is false for paths with a backslash: `\q/t` is started in `/h/w`; the run exits with 0, but no
entry is packed. -/
theorem C87_backslash_false :
    ¬ ∀ (D : Deflater) (Z : Inflater) (plain : Bytes → Bytes) (_ : DeflateOK D plain)
      (_ : InflateOK Z plain) (os : Os) (w : World) (env : SelfDiskEnv) (fuel : Nat) (dir n : Bytes)
      (l : Loc) (exe : Bytes) (m : Nat) (w2 : World) (packed : Bytes), os.quiet → w.fs.tree →
      env.junk.length = 120 → InFile os w (dir ++ 47 :: n) (l ++ [n]) exe → PlainName n →
      n ≠ strB "__out.exe" → exe.length ≤ 524288 → OutProg os w (strB "__out.exe") m →
      OnlyIn w.fs l n l → OnlyIn w.fs l (strB "__out.exe") w.cwd →
      (∃ x, KeptAt (packable n (strB "__out.exe")) w.fs dir l [x]) →
      (∀ w' : World, w'.cwd = w.cwd → w'.fs = w.fs.put (w.cwd ++ [strB "__out.exe"]) (.file m exe) →
        Archivable os w' dir l ∧ Shows os w' (env.see w') ∧ (env.see w').ok) →
      selfDiskMain D Z os fuel env true (dir ++ 47 :: n) w = .ok (0, w2) →
      Stored w.fs w2.fs (w.cwd ++ [strB "__out.exe"]) packed →
      128 < (plain (packed.drop 524288)).length := by
  intro h
  have hin : InFile os (world nodes) ([92, 113] ++ 47 :: [116]) ([[104], [119], [92, 113]] ++ [[116]]) [7] :=
    ⟨by decide, by decide +kernel, 0o755, by decide +kernel, by decide⟩
  obtain ⟨w2, packed, h1, h2, h3⟩ := packs_nothing (arg0 := [92, 113] ++ 47 :: [116]) hin (by decide)
    (by decide) (by decide +kernel)
  have := h queueD copyI id queueDOK copyIOK os (world nodes) env 9 [92, 113] [116]
    [[104], [119], [92, 113]] [7] 0o755 w2 packed os_quiet tree List.length_replicate hin (by decide)
    (by decide +kernel) (by decide) outProg (onlyIn_of (by decide +kernel))
    (onlyIn_of (by decide +kernel)) ⟨[97], ⟨.file 0o644 [3], by decide +kernel, by decide +kernel⟩, trivial⟩
    (fun w' hc hf => by
      rw [after_fs] at hf
      obtain ⟨a, b, _⟩ := sees hc hf
      exact ⟨archivable_of hc hf (by decide) (by decide +kernel) (m := 0o755) (by decide +kernel)
        (by decide +kernel), a, b⟩) h1 h2
  rw [id, h3] at this
  exact Nat.lt_irrefl _ this

open HLSample SelfSample in
/-- C87 is false for a program that is started by its name alone: `v` in `/h/w` exits with 0, but no
entry of the directory is packed. -/
theorem C87_no_slash_false :
    ¬ ∀ (D : Deflater) (Z : Inflater) (plain : Bytes → Bytes) (_ : DeflateOK D plain)
      (_ : InflateOK Z plain) (os : Os) (w : World) (env : SelfDiskEnv) (fuel : Nat) (n : Bytes)
      (exe : Bytes) (m : Nat) (w2 : World) (packed : Bytes), os.quiet → w.fs.tree →
      env.junk.length = 120 → InFile os w n (w.cwd ++ [n]) exe → 92 ∉ n → PlainName n →
      n ≠ strB "__out.exe" → exe.length ≤ 524288 → OutProg os w (strB "__out.exe") m →
      OnlyIn w.fs w.cwd n w.cwd → OnlyIn w.fs w.cwd (strB "__out.exe") w.cwd →
      (∃ x, KeptAt (packable n (strB "__out.exe")) w.fs [46] w.cwd [x]) →
      (∀ w' : World, w'.cwd = w.cwd → w'.fs = w.fs.put (w.cwd ++ [strB "__out.exe"]) (.file m exe) →
        Archivable os w' [46] w.cwd ∧ Shows os w' (env.see w') ∧ (env.see w').ok) →
      selfDiskMain D Z os fuel env true n w = .ok (0, w2) →
      Stored w.fs w2.fs (w.cwd ++ [strB "__out.exe"]) packed →
      128 < (plain (packed.drop 524288)).length := by
  intro h
  have hin : InFile os (world nodes) [118] ((world nodes).cwd ++ [[118]]) [9] :=
    ⟨by decide, by decide +kernel, 0o755, by decide +kernel, by decide⟩
  obtain ⟨w2, packed, h1, h2, h3⟩ := packs_nothing (arg0 := [118]) hin (by decide)
    (by decide) (by decide +kernel)
  have := h queueD copyI id queueDOK copyIOK os (world nodes) env 9 [118] [9] 0o755 w2 packed os_quiet
    tree List.length_replicate hin (by decide) (by decide)
    (by decide +kernel) (by decide) outProg (onlyIn_of (by decide +kernel))
    (onlyIn_of (by decide +kernel)) ⟨[114], ⟨.dir 0o755, by decide +kernel, by decide +kernel⟩, trivial⟩
    (fun w' hc hf => by
      rw [after_fs] at hf
      obtain ⟨a, b, _⟩ := sees hc hf
      exact ⟨archivable_of hc hf (by decide) (by decide +kernel) (m := 0o755) (by decide +kernel)
        (by decide +kernel), a, b⟩) h1 h2
  rw [id, h3] at this
  exact Nat.lt_irrefl _ this

open HLSample SelfSample in
/-- C87 is false for a program in the root: `/u` exits with 0, but no entry of the root is packed. -/
theorem C87_root_false :
    ¬ ∀ (D : Deflater) (Z : Inflater) (plain : Bytes → Bytes) (_ : DeflateOK D plain)
      (_ : InflateOK Z plain) (os : Os) (w : World) (env : SelfDiskEnv) (fuel : Nat) (n : Bytes)
      (exe : Bytes) (m : Nat) (w2 : World) (packed : Bytes), os.quiet → w.fs.tree →
      env.junk.length = 120 → InFile os w (47 :: n) [n] exe → 92 ∉ n → PlainName n →
      n ≠ strB "__out.exe" → exe.length ≤ 524288 → OutProg os w (strB "__out.exe") m →
      OnlyIn w.fs [] n [] → OnlyIn w.fs [] (strB "__out.exe") w.cwd →
      (∃ x, KeptAt (packable n (strB "__out.exe")) w.fs [47] [] [x]) →
      (∀ w' : World, w'.cwd = w.cwd → w'.fs = w.fs.put (w.cwd ++ [strB "__out.exe"]) (.file m exe) →
        Archivable os w' [47] [] ∧ Shows os w' (env.see w') ∧ (env.see w').ok) →
      selfDiskMain D Z os fuel env true (47 :: n) w = .ok (0, w2) →
      Stored w.fs w2.fs (w.cwd ++ [strB "__out.exe"]) packed →
      128 < (plain (packed.drop 524288)).length := by
  intro h
  have hin : InFile os (world nodes) (47 :: [117]) [[117]] [9] :=
    ⟨by decide, by decide +kernel, 0o755, by decide +kernel, by decide⟩
  obtain ⟨w2, packed, h1, h2, h3⟩ := packs_nothing (arg0 := 47 :: [117]) hin (by decide)
    (by decide) (by decide +kernel)
  have := h queueD copyI id queueDOK copyIOK os (world nodes) env 9 [117] [9] 0o755 w2 packed os_quiet
    tree List.length_replicate hin (by decide) (by decide)
    (by decide +kernel) (by decide) outProg (onlyIn_of (by decide +kernel))
    (onlyIn_of (by decide +kernel)) ⟨[104], ⟨.dir 0o755, by decide +kernel, by decide +kernel⟩, trivial⟩
    (fun w' hc hf => by
      rw [after_fs] at hf
      obtain ⟨a, b, _⟩ := sees hc hf
      exact ⟨archivable_of hc hf (by decide) (by decide +kernel) (m := 0o755) (by decide +kernel)
        (by decide +kernel), a, b⟩) h1 h2
  rw [id, h3] at this
  exact Nat.lt_irrefl _ this

end Zwt
