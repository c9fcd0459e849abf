import Verif.Proofs.Disk
import Verif.Props.HLRound
import Verif.Proofs.WalkMore
import Verif.Props.Walk

/-! C79: copying a directory through an archive, from disk to disk. -/

namespace Zwt

variable {Z : Inflater} {D : Deflater} {plain : Bytes → Bytes}

theorem KeptAt.exists {keep : Bytes → Entry → Bool} {fs : FS} {d : Bytes} {l : Loc} {x : Bytes}
    {q : List Bytes} (h : KeptAt keep fs d l (x :: q)) : fs (l ++ [x]) ≠ none := by
  obtain ⟨⟨n, h, _⟩, _⟩ := h
  rw [h]; simp

/-- The tree a filter keeps, in terms of the disk. -/
theorem prune_disk {os : Os} {fs : FS} {f : Forest} (hp : f.proper) (hu : f.pure) {l : Loc}
    (hl : ∀ x q, f.lookup os (x :: q) = (fs (l ++ x :: q)).map (Node.copied os))
    (keep : Bytes → Entry → Bool) (d : Bytes) (x : Bytes) (q : List Bytes) :
    (KeptAt keep fs d l (x :: q) →
      (f.prune keep d).lookup os (x :: q) = (fs (l ++ x :: q)).map (Node.copied os)) ∧
    (¬ KeptAt keep fs d l (x :: q) → (f.prune keep d).lookup os (x :: q) = none) := by
  by_cases hx : x ∈ f.names
  · have := Forest.prune_lookup (os := os) keep f d l hp hu (fun x _ q => hl x q) x q hx
    rw [← hl x q]; exact this
  · have h1 := Forest.lookup_none os (f.prune keep d) x q (fun h => hx (Forest.prune_names keep f d x h))
    refine ⟨fun hk => ?_, fun _ => h1⟩
    have h2 := hl x []
    rw [Forest.lookup_none os f x [] hx] at h2
    have := hk.exists
    cases hf : fs (l ++ [x]) with
    | none => exact absurd hf this
    | some n => rw [hf] at h2; cases h2

theorem copy_of_landed {os : Os} {src : FS} {p : Bytes} {l : Loc} {f : Forest} (hp : f.proper)
    (hu : f.pure) (hl : ∀ x q, f.lookup os (x :: q) = (src (l ++ x :: q)).map (Node.copied os))
    {keep : Bytes → Entry → Bool} {fs fs' : FS} {d : Loc} {n : Bytes} {ns : List Bytes}
    (h : Landed os fs fs' d n ns (f.prune keep p)) : CopyOf os src p l keep fs fs' d n ns :=
  ⟨h.1, fun x q hk => by rw [h.2.1]; exact (prune_disk hp hu hl keep p x q).1 hk,
    fun x q hk => by rw [h.2.1]; exact (prune_disk hp hu hl keep p x q).2 hk, h.2.2⟩

/-- C79, what holds: a directory on a disk is archived through a filter without memory, and the
archive is extracted to a new directory on the same or another disk.  Then compression succeeds,
extraction has no undefined behaviour and returns 'directory', and the target has a copy of every
entry that the filter accepted together with the directories above it: files with their content, links
with their targets, directories, with their permissions as far as the umask allows, and nothing else;
the rest of the target disk is as before.
Missing: what C39 misses (nothing to archive; directories whose mode does not let their owner add
entries; archives whose last output piece fills the 512 KiB buffer; links in sources that are not
below 512 KiB), and sources with unreadable or special files or paths beyond 4094 bytes (see C26, C28,
C29 for what compression does there). -/
theorem C79_copy_partial (CD : DeflateOK D plain) (C : InflateOK Z plain)
    -- the source
    {os : Os} {w : World} (ht : w.fs.tree) {env : Env} (henv : env.ok) (H : Shows os w env) {p : Bytes}
    {l : Loc} (A : Archivable os w p l) (keep : Bytes → Entry → Bool)
    (hne : ∃ x, KeptAt keep w.fs p l [x]) (level : Int) (z : D.τ)
    (hz : D.init level = some z) (junk : Bytes) (hj : junk.length = 120)
    -- the target
    (ok : AllocOracle) (hok : ∀ k n, ok k n = true) (hdr item : Bytes) (hh : hdr.length = 128)
    (hi : item.length = 40) (os' : Os) (hq : os'.quiet) (w' : World) (ht' : w'.fs.tree) (pre : Bytes)
    (h0 : 0 ∉ pre) (d : Loc) (hd : InDir os' w' pre d) (ho : OpenDir os' w'.fs d) (n : Bytes)
    (ns : List Bytes) (hn : ∀ x ∈ n :: ns, PlainName x) (hnew : w'.fs (d ++ [n]) = none)
    (hen : Enterable os' (dirMode os' 0o775)) (hlen : ns.length ≤ 61)
    (hfe : ∀ q m, KeptAt keep w.fs p l q → q ≠ [] → w.fs (l ++ q) = some (.dir m) →
      Enterable os' (dirMode os' m))
    (hnl : (∀ q t, KeptAt keep w.fs p l q → w.fs (l ++ q) ≠ some (.link t)) ∨
      CwdOk os' w'.fs w'.cwd ∧ SmallDir w.fs l) :
    ∃ n1 log b, (∀ fuel, n1 ≤ fuel →
        compressDir D env (keepFilter keep) fuel .plain p () level junk = .ok (0, log)) ∧
      log.getLast? = some b ∧
      ∀ size data, allowed size 0 data = log.flatten → b.length < 524288 →
        (∀ q t, KeptAt keep w.fs p l q → w.fs (l ++ q) ≠ some (.link t)) ∨
          log.flatten.length < 524288 →
        ∃ n0 r, (∀ fuel, n0 ≤ fuel → extract Z os' ok fuel hdr item (pre ++ joinNames (n :: ns)) size
            ⟨data, false⟩ w' = .ok r) ∧
          (C.Final → CD.Fits → ∀ c ∈ r.codes, c = Z_OK) ∧
          ((∀ c ∈ r.codes, c = Z_OK) → 0 < r.room ∨ C.Prompt log.flatten →
            r.ret = CT_DIRECTORY ∧ r.w.cwd = w'.cwd ∧
            CopyOf os' w.fs p l keep w'.fs r.w.fs d n ns) := by
  obtain ⟨es, f, m1, m2, m3, m4, m5⟩ := A.mirror (os' := os') ht H
  obtain ⟨s1, s2⟩ := select_prune keep f p (Forest.pure_readable keep f m4 p)
  have hst : (select (keepFilter keep) p f ()).status ≠ .failed := by rw [s1]; decide
  have hpr : (f.prune keep p).proper := by
    rw [← s2]; exact (select_proper (keepFilter keep) f p ()).2 m3
  have hkept : ∀ {q node}, (f.prune keep p).lookup os' q = some node →
      q ≠ [] ∧ KeptAt keep w.fs p l q ∧ some node = (w.fs (l ++ q)).map (Node.copied os') := by
    intro q node h
    obtain ⟨x, q, rfl, _⟩ := Forest.lookup_head h
    by_cases hk : KeptAt keep w.fs p l (x :: q)
    · have := (prune_disk m3 m4 m5 keep p x q).1 hk
      exact ⟨by simp, hk, by rw [← this, h]⟩
    · have := (prune_disk m3 m4 m5 keep p x q).2 hk
      rw [h] at this; cases this
  have hne' : (select (keepFilter keep) p f ()).forest ≠ .nil := by
    rw [s2]
    intro he
    obtain ⟨x, hx⟩ := hne
    have := (prune_disk m3 m4 m5 keep p x []).1 hx
    rw [he] at this
    have h2 := hx.exists
    cases hf : w.fs (l ++ [x]) with
    | none => exact h2 hf
    | some n => rw [hf] at this; cases this
  have hfe' : (select (keepFilter keep) p f ()).forest.enterable os' := by
    rw [s2]
    refine Forest.enterable_of _ hpr (fun q m h => ?_)
    obtain ⟨h1, h2, h3⟩ := hkept h
    obtain ⟨m', h4, h5⟩ := Node.copied_dir h3
    rw [h5]
    exact hfe q m' h2 h1 h4
  obtain ⟨n1, log, d1, t, d2, d3, b, c2, d5⟩ := C27_directory_archive CD env henv
    (keepFilter keep) m1 m2 () level z hz junk hj hst
  refine ⟨n1, log, b, d1, c2, fun size data hal hb hs => ?_⟩
  have fin : ∀ {fs' : FS}, Landed os' w'.fs fs' d n ns (select (keepFilter keep) p f ()).forest →
      CopyOf os' w.fs p l keep w'.fs fs' d n ns := by
    intro fs' h
    rw [s2] at h
    exact copy_of_landed m3 m4 m5 h
  by_cases hno : ∀ q t, KeptAt keep w.fs p l q → w.fs (l ++ q) ≠ some (.link t)
  · have hno' : (select (keepFilter keep) p f ()).forest.noLinks := by
      rw [s2]
      refine Forest.noLinks_of (os := os') _ hpr (fun q t h => ?_)
      obtain ⟨_, h2, h3⟩ := hkept h
      exact hno q t h2 (Node.copied_link h3)
    obtain ⟨n2, log', b', c1, c2', c3⟩ := C39_round_trip_partial CD C env henv (keepFilter keep) m1
      m2 () level z hz junk hj hst hne' ok hok hdr item hh hi os' hq w' ht' pre h0 d hd ho n ns hn hnew
      hen hlen m3 hfe' hno'
    have e1 := c1 (max n1 n2) (by omega)
    rw [d1 (max n1 n2) (by omega)] at e1
    cases e1
    rw [c2] at c2'
    cases c2'
    obtain ⟨n0, r, r1, r2, r3⟩ := c3 size data hal hb
    exact ⟨n0, r, r1, r2, fun a b => ⟨(r3 a b).1, (r3 a b).2.1, fin (r3 a b).2.2⟩⟩
  · obtain ⟨hcw, hsm⟩ := hnl.resolve_left hno
    have hbk : (select (keepFilter keep) p f ()).forest.bulk < 524288 := by
      rw [s2]
      have h1 := Forest.prune_bulk keep f p
      have h2 := Forest.bulk_small m3 m4 m5 hsm
      omega
    obtain ⟨n2, log', c1, c3⟩ := C39_round_trip_small_partial CD C env henv (keepFilter keep) m1
      m2 () level z hz junk hj hst hne' ok hok hdr item hh hi os' hq w' ht' pre h0 d hd ho n ns hn hnew
      hen hlen m3 hfe' hcw hbk
    have e1 := c1 (max n1 n2) (by omega)
    rw [d1 (max n1 n2) (by omega)] at e1
    cases e1
    obtain ⟨n0, r, r1, r2, r3⟩ := c3 (hs.resolve_left hno) size data hal
    exact ⟨n0, r, r1, r2, fun a b => ⟨(r3 a b).1, (r3 a b).2.1, fin (r3 a b).2.2⟩⟩

theorem and_of_bits {m a b : Nat} (h : ∀ i, m.testBit i = true → a.testBit i = true ∧ b.testBit i = true) :
    m &&& a &&& b = m := by
  apply Nat.eq_of_testBit_eq
  intro i
  rw [Nat.testBit_and, Nat.testBit_and]
  cases hm : m.testBit i with
  | false => rfl
  | true => rw [(h i hm).1, (h i hm).2]; rfl

theorem Node.copied_within {os : Os} {B : Nat} {n : Node} (h : n.within os B) : n.copied os = n := by
  cases n with
  | dir m => simp only [copied, dirMode]; rw [and_of_bits h]
  | file m c =>
    simp only [copied, fileMode]
    rw [Nat.and_comm 0o777 m, and_of_bits h.2]
  | link t => rfl

theorem Node.copied_copied (os : Os) (n : Node) : (n.copied os).copied os = n.copied os := by
  cases n with
  | dir m =>
    simp only [copied, dirMode, Node.dir.injEq]
    exact and_of_bits (fun i hi => by
      rw [Nat.testBit_and, Nat.testBit_and, Bool.and_eq_true, Bool.and_eq_true] at hi
      exact ⟨hi.1.2, hi.2⟩)
  | file m c =>
    simp only [copied, fileMode, Node.file.injEq, and_true]
    rw [Nat.and_comm 0o777 (0o777 &&& m &&& os.allow)]
    exact and_of_bits (fun i hi => by
      rw [Nat.testBit_and, Nat.testBit_and, Bool.and_eq_true, Bool.and_eq_true] at hi
      exact ⟨hi.1.1, hi.2⟩)
  | link t => rfl

theorem keptAt_true (fs : FS) (ht : fs.tree) : ∀ (q : List Bytes) (d : Bytes) (l : Loc),
    fs (l ++ q) ≠ none → KeptAt (fun _ _ => true) fs d l q := by
  intro q
  induction q with
  | nil => intro d l _; trivial
  | cons x q ih =>
    intro d l h
    have e : l ++ x :: q = l ++ [x] ++ q := by simp
    refine ⟨?_, ih _ _ (by rw [← e]; exact h)⟩
    cases q with
    | nil =>
      cases hn : fs (l ++ [x]) with
      | none => exact absurd hn h
      | some n => exact ⟨n, rfl, rfl⟩
    | cons y ys =>
      rw [e] at h
      cases hx : fs (l ++ [x] ++ y :: ys) with
      | none => exact absurd hx h
      | some n =>
        obtain ⟨m, hm⟩ := ht.below_aux _ _ (y :: ys) rfl (by simp) h
        exact ⟨_, hm, rfl⟩

/-- C79: without a filter, and if no node of the source has permissions that the umask of the
extracting process takes away (and no set-user-ID and the like), the copy is exact. -/
theorem C79_exact {os : Os} {src : FS} (ht : src.tree) {p : Bytes} {l : Loc} {fs fs' : FS} {d : Loc}
    {n : Bytes} {ns : List Bytes} (h : CopyOf os src p l (fun _ _ => true) fs fs' d n ns)
    (hw : ∀ q node, q ≠ [] → src (l ++ q) = some node → ∃ B, node.within os B) :
    ∀ q, q ≠ [] → fs' (d ++ n :: ns ++ q) = src (l ++ q) := by
  intro q hq
  cases q with
  | nil => exact absurd rfl hq
  | cons x q =>
    cases hs : src (l ++ x :: q) with
    | none =>
      by_cases hk : KeptAt (fun _ _ => true) src p l (x :: q)
      · rw [h.2.1 x q hk, hs]; rfl
      · exact h.2.2.1 x q hk
    | some node =>
      rw [h.2.1 x q (keptAt_true src ht _ p l (by rw [hs]; simp)), hs, Option.map_some]
      obtain ⟨B, hB⟩ := hw _ _ hq hs
      rw [Node.copied_within hB]

/-- C79: a copy of a copy, made by a process with the same umask, is exactly the copy. -/
theorem C79_copy_of_copy {os : Os} {src : FS} {p : Bytes} {l : Loc} {fs fs' : FS} {d : Loc} {n : Bytes}
    {ns : List Bytes} {keep : Bytes → Entry → Bool} (h : CopyOf os src p l keep fs fs' d n ns)
    {p2 : Bytes} {gs gs' : FS} {d2 : Loc} {n2 : Bytes} {ns2 : List Bytes} (ht : fs'.tree)
    (h2 : CopyOf os fs' p2 (d ++ n :: ns) (fun _ _ => true) gs gs' d2 n2 ns2) :
    ∀ q, q ≠ [] → gs' (d2 ++ n2 :: ns2 ++ q) = fs' (d ++ n :: ns ++ q) := by
  intro q hq
  cases q with
  | nil => exact absurd rfl hq
  | cons x q =>
    cases hs : fs' (d ++ n :: ns ++ x :: q) with
    | none =>
      by_cases hk : KeptAt (fun _ _ => true) fs' p2 (d ++ n :: ns) (x :: q)
      · rw [h2.2.1 x q hk, hs]; rfl
      · exact h2.2.2.1 x q hk
    | some node =>
      rw [h2.2.1 x q (keptAt_true fs' ht _ p2 _ (by rw [hs]; simp)), hs, Option.map_some]
      by_cases hk : KeptAt keep src p l (x :: q)
      · have := h.2.1 x q hk
        rw [hs] at this
        cases hsrc : src (l ++ x :: q) with
        | none => rw [hsrc] at this; cases this
        | some m =>
          rw [hsrc] at this
          simp only [Option.map_some, Option.some.injEq] at this
          rw [this, Node.copied_copied]
      · rw [h.2.2.1 x q hk] at hs; cases hs

/-! ### Example and witness -/

namespace CopySample
open HLSample

/-- `/h/w/r` with the file `a`, the directory `d`, in it the file `b` and the link `k`. -/
def nodes : List (Loc × Node) :=
  [([[104], [119], [114]], .dir 0o755), ([[104], [119], [114], [97]], .file 0o640 [1, 2]),
   ([[104], [119], [114], [100]], .dir 0o750), ([[104], [119], [114], [100], [98]], .file 0o600 []),
   ([[104], [119], [114], [100], [107]], .link [98])]

/-- All places. -/
def places (nodes : List (Loc × Node)) : List Loc :=
  nodes.map (·.1) ++ [[], [[104]], [[104], [119]]]

theorem world_places (nodes : List (Loc × Node)) (x : Loc) (h : (world nodes).fs x ≠ none) :
    x ∈ places nodes := by
  simp only [world, fsOf, ne_eq, Option.map_eq_none_iff, List.find?_eq_none, List.mem_append,
    decide_eq_true_eq, Classical.not_forall, Classical.not_not] at h
  obtain ⟨y, hy, rfl⟩ := h
  rcases hy with hy | hy
  · exact List.mem_append.mpr (.inl (List.mem_map.mpr ⟨y, hy, rfl⟩))
  · refine List.mem_append.mpr (.inr ?_)
    simp only [List.mem_cons, List.not_mem_nil, or_false] at hy
    rcases hy with rfl | rfl | rfl <;> simp

theorem shows : Shows os (world nodes) (envOf os (world nodes) (places nodes)) :=
  shows_envOf _ _ _ (by decide +kernel) (world_places nodes)

theorem tree : (world nodes).fs.tree := by
  refine ⟨⟨0o755, by decide +kernel⟩, ?_⟩
  intro l c n h
  have hx := world_places nodes (l ++ [c]) (by rw [h]; simp)
  have e : (l ++ [c]).dropLast = l := by simp
  rw [← e]
  generalize l ++ [c] = x at hx h
  simp only [places, nodes, List.map_cons, List.map_nil, List.cons_append, List.nil_append,
    List.mem_cons, List.not_mem_nil, or_false] at hx
  rcases hx with rfl | rfl | rfl | rfl | rfl | rfl | rfl | rfl
  · exact ⟨0o755, by decide +kernel⟩
  · exact ⟨0o755, by decide +kernel⟩
  · exact ⟨0o755, by decide +kernel⟩
  · exact ⟨0o750, by decide +kernel⟩
  · exact ⟨0o750, by decide +kernel⟩
  · exact ⟨0o755, by decide +kernel⟩
  · exact ⟨0o755, by decide +kernel⟩
  · exact ⟨0o755, by decide +kernel⟩

/-- What is below `/h/w/r`. -/
theorem below (q : List Bytes) (h : (world nodes).fs ([[104], [119], [114]] ++ q) ≠ none) :
    q = [] ∨ q = [[97]] ∨ q = [[100]] ∨ q = [[100], [98]] ∨ q = [[100], [107]] := by
  have hx := world_places nodes _ h
  simp only [places, nodes, List.map_cons, List.map_nil, List.cons_append, List.nil_append,
    List.mem_cons, List.not_mem_nil, or_false, List.cons.injEq, reduceCtorEq, true_and, and_false,
    false_or] at hx
  exact hx

theorem at_nil : (world nodes).fs ([[104], [119], [114]] ++ []) = some (.dir 0o755) := by decide +kernel
theorem at_a : (world nodes).fs ([[104], [119], [114]] ++ [[97]]) = some (.file 0o640 [1, 2]) := by
  decide +kernel
theorem at_d : (world nodes).fs ([[104], [119], [114]] ++ [[100]]) = some (.dir 0o750) := by
  decide +kernel
theorem at_b : (world nodes).fs ([[104], [119], [114]] ++ [[100], [98]]) = some (.file 0o600 []) := by
  decide +kernel
theorem at_k : (world nodes).fs ([[104], [119], [114]] ++ [[100], [107]]) = some (.link [98]) := by
  decide +kernel

/-- The relative path `r`. -/
theorem archivable : Archivable os (world nodes) [114] [[104], [119], [114]] where
  path := by decide
  leads := by decide +kernel
  isDir := ⟨0o755, by decide +kernel⟩
  dirs := by
    intro q m h
    rcases below q (by rw [h]; simp) with rfl | rfl | rfl | rfl | rfl
    · rw [at_nil] at h; cases h; decide
    · rw [at_a] at h; cases h
    · rw [at_d] at h; cases h; decide
    · rw [at_b] at h; cases h
    · rw [at_k] at h; cases h
  files := by
    intro q m c h
    rcases below q (by rw [h]; simp) with rfl | rfl | rfl | rfl | rfl
    · rw [at_nil] at h; cases h
    · rw [at_a] at h; cases h; decide
    · rw [at_d] at h; cases h
    · rw [at_b] at h; cases h; decide
    · rw [at_k] at h; cases h
  links := by
    intro q t h
    rcases below q (by rw [h]; simp) with rfl | rfl | rfl | rfl | rfl
    · rw [at_nil] at h; cases h
    · rw [at_a] at h; cases h
    · rw [at_d] at h; cases h
    · rw [at_b] at h; cases h
    · rw [at_k] at h; cases h; decide
  names := by
    intro q x n h
    rw [List.append_assoc] at h
    have hq := below (q ++ [x]) (by rw [h]; simp)
    have e : (q ++ [x]).getLast? = some x := by simp
    generalize q ++ [x] = y at hq e
    rcases hq with rfl | rfl | rfl | rfl | rfl <;> cases e <;> decide
  limit := by
    intro q n h
    rcases below q (by rw [h]; simp) with rfl | rfl | rfl | rfl | rfl <;> decide

theorem small : SmallDir (world nodes).fs [[104], [119], [114]] := by
  refine ⟨[[[97]], [[100]], [[100], [98]], [[100], [107]]], fun q hq h => ?_, by decide +kernel⟩
  rcases below q h with rfl | rfl | rfl | rfl | rfl
  · exact absurd rfl hq
  all_goals simp

theorem enters (q : List Bytes) (m : Nat) (hq : q ≠ [])
    (h : (world nodes).fs ([[104], [119], [114]] ++ q) = some (.dir m)) : Enterable os (dirMode os m) := by
  rcases below q (by rw [h]; simp) with rfl | rfl | rfl | rfl | rfl
  · exact absurd rfl hq
  · rw [at_a] at h; cases h
  · rw [at_d] at h; cases h; exact .inr (by decide)
  · rw [at_b] at h; cases h
  · rw [at_k] at h; cases h

theorem cwd_ok : CwdOk os (world nodes).fs (world nodes).cwd := by
  refine ⟨by decide +kernel, by decide +kernel, ?_⟩
  intro l hl
  have : l = [] ∨ l = [[104]] ∨ l = [[104], [119]] := by
    obtain ⟨t, ht⟩ := hl
    have ht' : l ++ t = [[104], [119]] := ht
    match l with
    | [] => exact .inl rfl
    | [a] => simp at ht'; exact .inr (.inl (by rw [ht'.1]))
    | [a, b] => simp at ht'; exact .inr (.inr (by rw [ht'.1, ht'.2.1]))
    | a :: b :: c :: l => simp at ht'
  rcases this with rfl | rfl | rfl <;> decide +kernel

end CopySample

open HLSample CopySample in
/-- Example: `/h/w/r` copied to `/h/w/o/p`, with a filter that rejects the link `k`: the hypotheses of
`C79_copy_partial`. -/
example : ∃ (_ : DeflateOK queueD id) (_ : InflateOK copyI id), (world nodes).fs.tree ∧
    (envOf os (world nodes) (places nodes)).ok ∧
    Shows os (world nodes) (envOf os (world nodes) (places nodes)) ∧
    Archivable os (world nodes) [114] [[104], [119], [114]] ∧
    KeptAt (fun _ e => e.ty != .symlink) (world nodes).fs [114] [[104], [119], [114]] [[97]] ∧
    KeptAt (fun _ e => e.ty != .symlink) (world nodes).fs [114] [[104], [119], [114]] [[100], [98]] ∧
    ¬ KeptAt (fun _ e => e.ty != .symlink) (world nodes).fs [114] [[104], [119], [114]]
      [[100], [107]] ∧
    (queueD.init 6).isSome ∧ os.quiet ∧ InDir os (world nodes) [] [[104], [119]] ∧
    OpenDir os (world nodes).fs [[104], [119]] ∧ (∀ x ∈ [[111], [112]], PlainName x) ∧
    (world nodes).fs [[104], [119], [111]] = none ∧ Enterable os (dirMode os 0o775) ∧
    (∀ q m, q ≠ [] → (world nodes).fs ([[104], [119], [114]] ++ q) = some (.dir m) →
      Enterable os (dirMode os m)) ∧ SmallDir (world nodes).fs [[104], [119], [114]] ∧
    CwdOk os (world nodes).fs (world nodes).cwd := by
  refine ⟨queueDOK, copyIOK, tree, fun _ => by simp [envOf], shows, archivable,
    ⟨⟨_, at_a, rfl⟩, trivial⟩, ⟨⟨_, at_d, rfl⟩, ⟨_, at_b, rfl⟩, trivial⟩, ?_, by decide, os_quiet, .rel,
    ⟨0o755, by decide +kernel, .inr (by decide)⟩, by decide +kernel, by decide +kernel,
    .inr (by decide), enters, small, cwd_ok⟩
  rintro ⟨_, ⟨n, h1, h2⟩, _⟩
  have h1' : (world nodes).fs ([[104], [119], [114]] ++ [[100], [107]]) = some n := h1
  rw [at_k] at h1'
  cases h1'
  simp [Node.type] at h2

open HLSample CopySample in
/-- Example: the same with the link. -/
example := C79_copy_partial queueDOK copyIOK tree (env := envOf os (world nodes) (places nodes))
  (fun _ => by simp [envOf]) shows archivable (fun _ _ => true) ⟨[97], ⟨_, at_a, rfl⟩, trivial⟩ 6 [] rfl
  (List.replicate 120 0) List.length_replicate (fun _ _ => true) (fun _ _ => rfl) hdrMem itemMem
  List.length_replicate List.length_replicate os os_quiet (world nodes) tree [] (by decide)
  [[104], [119]] .rel ⟨0o755, by decide +kernel, .inr (by decide)⟩ [111] [[112]] (by decide +kernel)
  (by decide +kernel) (.inr (by decide)) (by decide) (fun q m _ => enters q m) (.inr ⟨cwd_ok, small⟩)

open HLSample CopySample in
/-- Example: a node of the source with permissions within a umask of 022, and one outside. -/
example : (Node.within os 2 (.file 0o640 [1, 2])) ∧ (Node.copied os (.file 0o666 [1])) = .file 0o644 [1] ∧
    Node.copied os (.dir 0o4775) = .dir 0o755 := by
  refine ⟨⟨by decide, fun i hi => ?_⟩, by decide, by decide⟩
  by_cases h : i < 9
  · have : i = 0 ∨ i = 1 ∨ i = 2 ∨ i = 3 ∨ i = 4 ∨ i = 5 ∨ i = 6 ∨ i = 7 ∨ i = 8 := by omega
    rcases this with rfl | rfl | rfl | rfl | rfl | rfl | rfl | rfl | rfl <;> revert hi <;> decide
  · rw [Nat.testBit_lt_two_pow (Nat.lt_of_lt_of_le (by decide : 0o640 < 2 ^ 9)
      (Nat.pow_le_pow_right (by decide) (by omega)))] at hi
    cases hi

namespace CopySample
open HLSample

/-- An empty directory `/h/w/r`. -/
def bare : List (Loc × Node) := [([[104], [119], [114]], .dir 0o755)]

theorem bare_below (q : List Bytes) (h : (world bare).fs ([[104], [119], [114]] ++ q) ≠ none) : q = [] := by
  have hx := world_places bare _ h
  simp only [places, bare, List.map_cons, List.map_nil, List.cons_append, List.nil_append,
    List.mem_cons, List.not_mem_nil, or_false, List.cons.injEq, reduceCtorEq, true_and, and_false,
    false_or] at hx
  exact hx

theorem bare_at : (world bare).fs ([[104], [119], [114]] ++ []) = some (.dir 0o755) := by
  decide +kernel

theorem bare_archivable : Archivable os (world bare) [114] [[104], [119], [114]] where
  path := by decide
  leads := by decide +kernel
  isDir := ⟨0o755, by decide +kernel⟩
  dirs := by
    intro q m h
    cases bare_below q (by rw [h]; simp)
    rw [bare_at] at h; cases h; decide
  files := by
    intro q m c h
    cases bare_below q (by rw [h]; simp)
    rw [bare_at] at h; cases h
  links := by
    intro q t h
    cases bare_below q (by rw [h]; simp)
    rw [bare_at] at h; cases h
  names := by
    intro q x n h
    rw [List.append_assoc] at h
    have := bare_below (q ++ [x]) (by rw [h]; simp)
    simp at this
  limit := by
    intro q n h
    cases bare_below q (by rw [h]; simp)
    decide

end CopySample

open HLSample CopySample in
/-- C79 is false for an empty directory: compressing it succeeds, extracting the archive returns
'none' and creates nothing. -/
theorem C79_empty_directory_false :
    ¬ ∀ (D : Deflater) (Z : Inflater) (plain : Bytes → Bytes) (_ : DeflateOK D plain)
      (_ : InflateOK Z plain) (w : World) (env : Env) (p : Bytes) (l : Loc) (junk : Bytes)
      (fuel fuel' : Nat) (log : List Bytes) (r : Extracted), env.ok → Shows os w env →
      Archivable os w p l → junk.length = 120 →
      compressDir D env (keepFilter fun _ _ => true) fuel .plain p () 6 junk = .ok (0, log) →
      extract Z os (fun _ _ => true) fuel' hdrMem itemMem [111] 0 ⟨log.flatten, false⟩ w = .ok r →
      r.ret = CT_DIRECTORY := by
  intro h
  have key : (match compressDir queueD (envOf os (world bare) (places bare))
        (keepFilter fun _ _ => true) 5 .plain [114] () 6 (List.replicate 120 0xEE) with
      | .ok (c, log) => decide (c = 0) &&
          decide (view [[[104], [119], [111]]] (run os log.flatten [111] (world bare)) =
            .done CT_NONE [[104], [119]] [none])
      | .error _ => false) = true := by decide +kernel
  cases hc : compressDir queueD (envOf os (world bare) (places bare))
        (keepFilter fun _ _ => true) 5 .plain [114] () 6 (List.replicate 120 0xEE) with
  | error e => rw [hc] at key; simp at key
  | ok x =>
    obtain ⟨c, log⟩ := x
    rw [hc] at key
    simp only [Bool.and_eq_true, decide_eq_true_eq] at key
    obtain ⟨rfl, key⟩ := key
    obtain ⟨x, hx, h2, _, _⟩ := view_done key
    have := h queueD copyI id queueDOK copyIOK (world bare) _ [114] _ _ 5 5 log x
      (fun _ => by simp [envOf]) (shows_envOf _ _ _ (by decide +kernel) (world_places bare))
      bare_archivable List.length_replicate hc hx
    rw [h2] at this
    exact absurd this (by decide)

end Zwt
