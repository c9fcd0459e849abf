import Verif.Proofs.CopyAgain

/-! C109: copies can be copied again. -/

namespace Zwt

variable {Z : Inflater} {D : Deflater} {plain : Bytes → Bytes}

/-- C109, what holds: a copy of a directory (made in any way) can be archived and extracted again, to
any new place: compression succeeds, extraction returns 'directory', and the second copy is exactly the
first, permissions included, if the umask is the same and leaves the permissions of the owner.
Missing: what C79 misses (here for sources and archives below 512 KiB); an umask that takes permissions
of the owner away (`C109_umask_false`); copies at paths beyond 4094 bytes. -/
theorem C109_succeeds_partial {os : Os} {w : World} (ht : w.fs.tree) {p : Bytes} {l : Loc}
    (A : Archivable os w p l) (keep : Bytes → Entry → Bool) (hne : ∃ x, KeptAt keep w.fs p l [x])
    (hsm : SmallDir w.fs l) (os' : Os) (hq : os'.quiet) (hroot : os.root = true → os'.root = true)
    (hown : OwnerKeeps os') (w' : World) (ht' : w'.fs.tree) (pre : Bytes)
    (h0 : 0 ∉ pre) (d : Loc) (hd : InDir os' w' pre d) (ho : OpenDir os' w'.fs d) (n : Bytes)
    (ns : List Bytes) (hn : ∀ x ∈ n :: ns, PlainName x) (hnew : w'.fs (d ++ [n]) = none)
    (hlen : ns.length ≤ 61)
    (hfe : ∀ q m, KeptAt keep w.fs p l q → q ≠ [] → w.fs (l ++ q) = some (.dir m) →
      Enterable os' (dirMode os' m))
    (hcw : CwdOk os' w'.fs w'.cwd)
    (hlim : ∀ q node, w.fs (l ++ q) = some node →
      (pre ++ joinNames (n :: ns)).length + ((q.map (47 :: ·)).flatten).length ≤ 4094)
    -- the first copy
    (v : World) (hv : v.cwd = w'.cwd)
    (h1 : CopyResult os w p keep os' w' (pre ++ joinNames (n :: ns)) v.fs)
    -- compressor and decompressor of the second
    (CD : DeflateOK D plain) (C : InflateOK Z plain) {env : Env} (henv : env.ok) (H : Shows os' v env)
    (level : Int) (z : D.τ) (hz : D.init level = some z) (junk : Bytes) (hj : junk.length = 120)
    (ok : AllocOracle) (hok : ∀ k n, ok k n = true) (hdr item : Bytes) (hh : hdr.length = 128)
    (hi : item.length = 40)
    -- the second copy
    (w2 : World) (ht2 : w2.fs.tree) (pre2 : Bytes) (h02 : 0 ∉ pre2) (d2 : Loc)
    (hd2 : InDir os' w2 pre2 d2) (ho2 : OpenDir os' w2.fs d2) (n2 : Bytes) (ns2 : List Bytes)
    (hn2 : ∀ x ∈ n2 :: ns2, PlainName x) (hnew2 : w2.fs (d2 ++ [n2]) = none)
    (hlen2 : ns2.length ≤ 61) (hcw2 : CwdOk os' w2.fs w2.cwd) :
    ∃ n1 log b, (∀ fuel, n1 ≤ fuel →
        compressDir D env (keepFilter fun _ _ => true) fuel .plain (pre ++ joinNames (n :: ns)) () level
          junk = .ok (0, log)) ∧
      log.getLast? = some b ∧
      (b.length < 524288 → log.flatten.length < 524288 → C.Final → CD.Fits → C.Prompt log.flatten →
        ∃ n0 r, (∀ fuel, n0 ≤ fuel → extract Z os' ok fuel hdr item (pre2 ++ joinNames (n2 :: ns2)) 0
            ⟨log.flatten, false⟩ w2 = .ok r) ∧
          r.ret = CT_DIRECTORY ∧ r.w.cwd = w2.cwd ∧
          ∀ q, q ≠ [] → r.w.fs (d2 ++ n2 :: ns2 ++ q) = v.fs (d ++ n :: ns ++ q)) := by
  have c1 := h1.copy ht A hne hsm hq ht' h0 hd ho hn hnew hown.enter hlen hfe hcw
  have A2 := c1.archivable rfl rfl rfl hv ht' A hroot hown h0 hd ho hn hnew hlim
  have hvt : v.fs.tree := c1.tree ht ht' (by obtain ⟨m, hm, _⟩ := ho; exact ⟨m, hm⟩) hnew
  obtain ⟨x, hx⟩ := hne
  obtain ⟨n1, log, b, e1, e2, e3⟩ := C79_copy_partial CD C hvt henv H A2 (fun _ _ => true)
    ⟨x, c1.kept hx _⟩ level z hz junk hj ok hok hdr item hh hi os' hq w2 ht2 pre2 h02 d2 hd2 ho2 n2 ns2
    hn2 hnew2 hown.enter hlen2 (fun q m _ => c1.enters hfe q m) (.inr ⟨hcw2, c1.small hsm⟩)
  refine ⟨n1, log, b, e1, e2, fun hb hl hF hFi hP => ?_⟩
  obtain ⟨n0, r, r1, r2, r3⟩ := e3 0 log.flatten rfl hb (.inr hl)
  obtain ⟨a1, a2, a3⟩ := r3 (r2 hF hFi) (.inr hP)
  exact ⟨n0, r, r1, a1, a2, C79_copy_of_copy c1 hvt a3⟩

/-- C109, what holds: the second copy is exactly the first however both are made (compressors, levels,
listing orders, decompressors).
Missing: as `C109_succeeds_partial`. -/
theorem C109_again_partial {os : Os} {w : World} (ht : w.fs.tree) {p : Bytes} {l : Loc}
    (A : Archivable os w p l) (keep : Bytes → Entry → Bool) (hne : ∃ x, KeptAt keep w.fs p l [x])
    (hsm : SmallDir w.fs l) (os' : Os) (hq : os'.quiet) (hroot : os.root = true → os'.root = true)
    (hown : OwnerKeeps os') (w' : World) (ht' : w'.fs.tree) (pre : Bytes)
    (h0 : 0 ∉ pre) (d : Loc) (hd : InDir os' w' pre d) (ho : OpenDir os' w'.fs d) (n : Bytes)
    (ns : List Bytes) (hn : ∀ x ∈ n :: ns, PlainName x) (hnew : w'.fs (d ++ [n]) = none)
    (hlen : ns.length ≤ 61)
    (hfe : ∀ q m, KeptAt keep w.fs p l q → q ≠ [] → w.fs (l ++ q) = some (.dir m) →
      Enterable os' (dirMode os' m))
    (hcw : CwdOk os' w'.fs w'.cwd)
    (hlim : ∀ q node, w.fs (l ++ q) = some node →
      (pre ++ joinNames (n :: ns)).length + ((q.map (47 :: ·)).flatten).length ≤ 4094)
    -- the first copy
    (v : World) (hv : v.cwd = w'.cwd)
    (h1 : CopyResult os w p keep os' w' (pre ++ joinNames (n :: ns)) v.fs)
    -- the second
    (w2 : World) (ht2 : w2.fs.tree) (pre2 : Bytes) (h02 : 0 ∉ pre2) (d2 : Loc)
    (hd2 : InDir os' w2 pre2 d2) (ho2 : OpenDir os' w2.fs d2) (n2 : Bytes) (ns2 : List Bytes)
    (hn2 : ∀ x ∈ n2 :: ns2, PlainName x) (hnew2 : w2.fs (d2 ++ [n2]) = none)
    (hlen2 : ns2.length ≤ 61) (hcw2 : CwdOk os' w2.fs w2.cwd) (fs2 : FS)
    (h2 : CopyResult os' v (pre ++ joinNames (n :: ns)) (fun _ _ => true) os' w2
      (pre2 ++ joinNames (n2 :: ns2)) fs2) :
    ∀ q, q ≠ [] → fs2 (d2 ++ n2 :: ns2 ++ q) = v.fs (d ++ n :: ns ++ q) := by
  have c1 := h1.copy ht A hne hsm hq ht' h0 hd ho hn hnew hown.enter hlen hfe hcw
  have A2 := c1.archivable rfl rfl rfl hv ht' A hroot hown h0 hd ho hn hnew hlim
  have hvt : v.fs.tree := c1.tree ht ht' (by obtain ⟨m, hm, _⟩ := ho; exact ⟨m, hm⟩) hnew
  obtain ⟨x, hx⟩ := hne
  have c2 := h2.copy hvt A2 ⟨x, c1.kept hx _⟩ (c1.small hsm) hq ht2 h02 hd2 ho2 hn2 hnew2 hown.enter
    hlen2 (fun q m _ => c1.enters hfe q m) hcw2
  exact C79_copy_of_copy c1 hvt c2

/-! ### Example and witness -/

namespace CopySample
open HLSample

/-- A process whose umask takes the right to read from the owner. -/
def shut : Os := { os with allow := 0o377 }

/-- The disk of `nodes` with a copy of `/h/w/r` at `/h/w/o/p`, made with some umask. -/
def nodes2 (o : Os) : List (Loc × Node) :=
  nodes ++ [([[104], [119], [111]], .dir (dirMode o 0o775)),
    ([[104], [119], [111], [112]], .dir (dirMode o 0o775)),
    ([[104], [119], [111], [112], [97]], .file (fileMode o 0o640) [1, 2]),
    ([[104], [119], [111], [112], [100]], .dir (dirMode o 0o750)),
    ([[104], [119], [111], [112], [100], [98]], .file (fileMode o 0o600) []),
    ([[104], [119], [111], [112], [100], [107]], .link [98])]

theorem below2 (o : Os) (q : List Bytes) (h : (world (nodes2 o)).fs ([[104], [119], [111], [112]] ++ q) ≠ none) :
    q = [] ∨ q = [[97]] ∨ q = [[100]] ∨ q = [[100], [98]] ∨ q = [[100], [107]] := by
  have hx := world_places (nodes2 o) _ h
  simp only [places, nodes2, nodes, List.map_cons, List.map_nil, List.cons_append, List.nil_append,
    List.mem_cons, List.not_mem_nil, or_false, List.cons.injEq, reduceCtorEq, true_and, and_false,
    false_or] at hx
  simpa using hx

theorem twice {o : Os} (ho : o = os ∨ o = shut) : CopyOf o (world nodes).fs [114] [[104], [119], [114]]
    (fun _ _ => true) (world nodes).fs (world (nodes2 o)).fs [[104], [119]] [111] [[112]] := by
  refine ⟨?_, ?_, ?_, ?_⟩
  · intro j hj
    match j with
    | 0 => rcases ho with rfl | rfl <;> decide +kernel
    | 1 => rcases ho with rfl | rfl <;> decide +kernel
    | j + 2 => simp at hj
  · intro x q hk
    obtain ⟨nd, hnd⟩ := hk.node
    rcases below (x :: q) (by rw [hnd]; simp) with e | e | e | e | e
    · cases e
    all_goals
      cases e
      rcases ho with rfl | rfl <;> decide +kernel
  · intro x q hk
    refine Classical.byContradiction fun h => hk ?_
    refine keptAt_true _ tree _ _ _ ?_
    rcases below2 o (x :: q) h with e | e | e | e | e
    · cases e
    all_goals
      cases e
      decide +kernel
  · intro l' h1 h2
    have a0 := h1 0 (by decide)
    have a1 := h1 1 (by decide)
    have b1 := h2 [97] []
    have b2 := h2 [100] []
    have b3 := h2 [100] [[98]]
    have b4 := h2 [100] [[107]]
    simp only [List.cons_append, List.nil_append, List.take_zero, List.take_succ_cons] at a0 a1 b1 b2 b3 b4
    simp only [world, fsOf, nodes2, List.append_assoc, List.find?_append]
    congr 2
    simp [List.find?_cons, Ne.symm a0, Ne.symm a1, Ne.symm b1, Ne.symm b2, Ne.symm b3, Ne.symm b4]

theorem cwd_okay {o : Os} (ho : o = os ∨ o = shut) {ns : List (Loc × Node)}
    (h1 : (world ns).fs [] = some (.dir 0o755))
    (h2 : (world ns).fs [[104]] = some (.dir 0o755)) (h3 : (world ns).fs [[104], [119]] = some (.dir 0o755)) :
    CwdOk o (world ns).fs (world ns).cwd := by
  refine ⟨show (absPath [[104], [119]]).length < 1023 by decide,
    show ∀ c ∈ [[104], [119]], PlainName c by decide, ?_⟩
  intro l hl
  have : l = [] ∨ l = [[104]] ∨ l = [[104], [119]] := by
    obtain ⟨t, ht⟩ := hl
    have ht' : l ++ t = [[104], [119]] := ht
    match l with
    | [] => exact .inl rfl
    | [a] => simp at ht'; exact .inr (.inl (by rw [ht'.1]))
    | [a, b] => simp at ht'; exact .inr (.inr (by rw [ht'.1, ht'.2.1]))
    | a :: b :: c :: l => simp at ht'
  rcases this with rfl | rfl | rfl <;> rcases ho with rfl | rfl <;> simp +decide [searchable, h1, h2, h3]

theorem enters2 {o : Os} (ho : o = os ∨ o = shut) (q : List Bytes) (m : Nat) (hq : q ≠ [])
    (h : (world nodes).fs ([[104], [119], [114]] ++ q) = some (.dir m)) : Enterable o (dirMode o m) := by
  rcases below q (by rw [h]; simp) with rfl | rfl | rfl | rfl | rfl
  · exact absurd rfl hq
  · rw [at_a] at h; cases h
  · rw [at_d] at h; cases h; rcases ho with rfl | rfl <;> exact .inr (by decide)
  · rw [at_b] at h; cases h
  · rw [at_k] at h; cases h

/-- `nodes2` is what archiving and extracting gives. -/
theorem result {o : Os} (ho : o = os ∨ o = shut) : CopyResult os (world nodes) [114] (fun _ _ => true) o
    (world nodes) ([] ++ joinNames [[111], [112]]) (world (nodes2 o)).fs := by
  have key : (match compressDir queueD (envOf os (world nodes) (places nodes))
        (keepFilter fun _ _ => true) 50 .plain [114] () 6 (List.replicate 120 0xEE) with
      | .ok (c, log) => decide (c = 0) && decide (log.flatten.length < 524288)
      | .error _ => false) = true := by decide +kernel
  split at key
  · rename_i c log hc
    simp only [Bool.and_eq_true, decide_eq_true_eq] at key
    obtain ⟨rfl, hl⟩ := key
    obtain ⟨n1, log', b, c1, c2, c3⟩ := C79_copy_partial queueDOK copyIOK tree (by intro; simp [envOf])
      shows archivable (fun _ _ => true) ⟨[97], ⟨_, at_a, rfl⟩, trivial⟩ 6 [] rfl
      (List.replicate 120 0xEE) List.length_replicate (fun _ _ => true) (by simp) hdrMem itemMem
      List.length_replicate List.length_replicate
      o (by rcases ho with rfl | rfl <;> exact ⟨fun _ => rfl, fun _ n => Nat.le_refl n, fun _ => rfl⟩)
      (world nodes) tree [] (by simp) [[104], [119]] .rel
      ⟨0o755, by decide +kernel, .inr (by decide)⟩ [111] [[112]] (by decide +kernel) (by decide +kernel)
      (.inr (by rcases ho with rfl | rfl <;> decide)) (by decide) (fun q m _ => enters2 ho q m)
      (.inr ⟨cwd_okay ho (by decide +kernel) (by decide +kernel) (by decide +kernel), small⟩)
    have e1 := c1 (max n1 50) (by omega)
    rw [compressDir_mono (by omega : 50 ≤ max n1 50) hc] at e1
    cases e1
    have hb : b.length < 524288 := by
      obtain ⟨l, hl2⟩ := List.getLast?_eq_some_iff.mp c2
      rw [hl2] at hl
      simp at hl
      omega
    obtain ⟨n0, r, r1, r2, r3⟩ := c3 0 log.flatten rfl hb (.inr hl)
    refine ⟨id, queueD, copyI, queueDOK, copyIOK, _, 6, _, _, _, _, log, b, r, max n0 50,
      queueDOK_fits, copyIOK_final, copyIOK_prompt _, by decide, shows, by intro; simp [envOf],
      List.length_replicate, List.length_replicate,
      List.length_replicate, by simp, compressDir_mono (by omega) hc, c2, hb, hl,
      fun fuel hf => r1 fuel (by omega), ?_⟩
    exact (twice ho).unique (r3 (r2 copyIOK_final queueDOK_fits) (.inr (copyIOK_prompt _))).2.2
  · cases key

end CopySample

open HLSample CopySample in
/-- Example: `/h/w/r` copied to `/h/w/o/p`, and this to `/h/w/q`. -/
example := C109_succeeds_partial tree archivable (fun _ _ => true) ⟨[97], ⟨_, at_a, rfl⟩, trivial⟩ small os
  os_quiet id (show os.allow &&& 0o700 = 0o700 by decide) (world nodes) tree [] (by decide) [[104], [119]] .rel
  ⟨0o755, by decide +kernel, .inr (by decide)⟩ [111] [[112]] (by decide +kernel)
  (by decide +kernel) (by decide) (fun q m _ => enters q m) cwd_ok
  (by
    intro q n h
    rcases below q (by rw [h]; simp) with rfl | rfl | rfl | rfl | rfl <;> decide)
  (world (nodes2 os)) rfl (result (.inl rfl)) queueDOK copyIOK
  (env := envOf os (world (nodes2 os)) (places (nodes2 os))) (fun _ => by simp [envOf])
  (shows_envOf _ _ _ (by decide +kernel) (world_places (nodes2 os))) 6 [] rfl
  (List.replicate 120 0) List.length_replicate (fun _ _ => true) (fun _ _ => rfl) hdrMem itemMem
  List.length_replicate List.length_replicate (world (nodes2 os))
  ((twice (.inl rfl)).tree tree tree ⟨0o755, by decide +kernel⟩ (by decide +kernel)) [] (by decide) [[104], [119]] .rel
  ⟨0o755, by decide +kernel, .inr (by decide)⟩ [113] [] (by decide +kernel) (by decide +kernel) (by decide)
  (cwd_okay (.inl rfl) (by decide +kernel) (by decide +kernel) (by decide +kernel))

open HLSample CopySample in
/-- C109 is false for processes whose umask takes permissions of the owner away: with umask 0400 a
directory is copied, but archiving the copy gives an archive of nothing, without any error, and
extracting this creates nothing. -/
theorem C109_umask_false :
    ¬ ∀ (os os' : Os) (w v : World) (p out out2 : Bytes) (l : Loc) (D : Deflater) (Z : Inflater)
      (plain : Bytes → Bytes) (_ : DeflateOK D plain) (_ : InflateOK Z plain) (env : Env) (junk : Bytes)
      (fuel : Nat) (ret : Int) (log : List Bytes) (r : Extracted),
      os'.quiet → os.root = os'.root → Archivable os w p l → SmallDir w.fs l →
      CopyResult os w p (fun _ _ => true) os' w out v.fs → v.cwd = w.cwd → env.ok → Shows os' v env →
      junk.length = 120 →
      compressDir D env (keepFilter fun _ _ => true) fuel .plain out () 6 junk = .ok (ret, log) →
      extract Z os' (fun _ _ => true) fuel hdrMem itemMem out2 0 ⟨log.flatten, false⟩ v = .ok r →
      ret ≠ 0 ∨ r.ret = CT_DIRECTORY := by
  intro h
  have key : (match compressDir queueD (envOf shut (world (nodes2 shut)) (places (nodes2 shut)))
        (keepFilter fun _ _ => true) 5 .plain [111, 47, 112] () 6 (List.replicate 120 0xEE) with
      | .ok (c, log) => decide (c = 0) &&
          decide (view [[[104], [119], [113]]] (run shut log.flatten [113] (world (nodes2 shut))) =
            .done CT_NONE [[104], [119]] [none])
      | .error _ => false) = true := by decide +kernel
  split at key
  · rename_i c log hc
    simp only [Bool.and_eq_true, decide_eq_true_eq] at key
    obtain ⟨rfl, key⟩ := key
    obtain ⟨x, hx, h2, _, _⟩ := view_done key
    have := h os shut (world nodes) (world (nodes2 shut)) [114] [111, 47, 112] [113] _ queueD copyI id
      queueDOK copyIOK _ _ 5 0 log x
      ⟨fun _ => rfl, fun _ n => Nat.le_refl n, fun _ => rfl⟩ rfl archivable small (result (.inr rfl)) rfl
      (fun _ => by simp [envOf]) (shows_envOf _ _ _ (by decide +kernel) (world_places _))
      List.length_replicate hc hx
    rcases this with this | this
    · exact this rfl
    · rw [h2] at this
      exact absurd this (by decide)
  · cases key

end Zwt
