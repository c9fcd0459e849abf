import Verif.Props.Copy
import Verif.Props.Accept
import Verif.Proofs.WalkHistory

/-! C83: copies do not depend on how they are made. -/

namespace Zwt

/-- `fs'` is a disk that can result when the directory `p` (at `l` of the disk of `w`) is archived
with some compressor that meets the contract, at some level, the directory being listed in some order,
and the archive is extracted to `out` on the disk of `w'` with some decompressor that meets the
contract; the uninitialised memory of both being anything. -/
def CopyResult (os : Os) (w : World) (p : Bytes) (keep : Bytes → Entry → Bool) (os' : Os) (w' : World)
    (out : Bytes) (fs' : FS) : Prop :=
  ∃ (plain : Bytes → Bytes) (D : Deflater) (Z : Inflater) (CD : DeflateOK D plain)
    (C : InflateOK Z plain) (env : Env) (level : Int) (junk hdr item : Bytes) (ok : AllocOracle)
    (log : List Bytes) (b : Bytes) (r : Extracted) (n : Nat),
    CD.Fits ∧ C.Final ∧ C.Prompt log.flatten ∧ (D.init level).isSome ∧ Shows os w env ∧ env.ok ∧
    junk.length = 120 ∧ hdr.length = 128 ∧ item.length = 40 ∧ (∀ k n, ok k n = true) ∧
    compressDir D env (keepFilter keep) n .plain p () level junk = .ok (0, log) ∧
    log.getLast? = some b ∧ b.length < 524288 ∧ log.flatten.length < 524288 ∧
    (∀ fuel, n ≤ fuel → extract Z os' ok fuel hdr item out 0 ⟨log.flatten, false⟩ w' = .ok r) ∧
    fs' = r.w.fs

theorem compressRun_mono {D : Deflater} {n m : Nat} (hnm : n ≤ m) : ∀ (ops : List COp) (s : CS D)
    {r : List Int × CS D}, compressRun n ops s = .ok r → compressRun m ops s = .ok r := by
  intro ops
  induction ops with
  | nil => intro s r h; exact h
  | cons op ops ih =>
    intro s r h
    cases op with
    | setBuffer k => exact ih _ h
    | compress data =>
      simp only [compressRun] at h ⊢
      split at h
      · cases h
      · rename_i ret s1 h1
        have h1' : compress m s data = .ok (ret, s1) := compressLoop_mono hnm _ _ h1
        rw [h1']
        split at h
        · cases h
        · rename_i rets s2 h2
          simp only [ih _ h2]
          exact h

theorem CS.create_mono {D : Deflater} {n m : Nat} (hnm : n ≤ m) {kind : Nat} {level : Int}
    {bufSize : Nat} {junk : Bytes} {r : Option (CS D)}
    (h : CS.create D n kind level bufSize junk = .ok r) :
    CS.create D m kind level bufSize junk = .ok r := by
  unfold CS.create at *
  split at h
  · exact h
  · split at h
    · cases h
    · rename_i ret s1 h1
      have h1' := compressLoop_mono hnm _ _ h1
      simp only [compress] at h1' ⊢
      rw [h1']
      exact h

theorem compressDir_mono {D : Deflater} {env : Env} {flt : Filter σ} {n m : Nat} (hnm : n ≤ m)
    {fn : DirFn} {dir : Bytes} {fs : σ} {level : Int} {junk : Bytes} {r : Int × List Bytes}
    (h : compressDir D env flt n fn dir fs level junk = .ok r) :
    compressDir D env flt m fn dir fs level junk = .ok r := by
  unfold compressDir at *
  split at h
  · cases h
  · rename_i h1
    rw [CS.create_mono hnm h1]
    exact h
  · rename_i s h1
    rw [CS.create_mono hnm h1]
    split at h
    · cases h
    · rename_i ret w h2
      simp only [dirWrites_mono env flt hnm h2]
      split at h
      · cases h
      · rename_i x s2 h3
        simp only [compressRun_mono hnm _ _ h3]
        exact h

theorem CopyOf.unique {os : Os} {src : FS} {p : Bytes} {l : Loc} {keep : Bytes → Entry → Bool}
    {fs fs1 fs2 : FS} {d : Loc} {n : Bytes} {ns : List Bytes} (h1 : CopyOf os src p l keep fs fs1 d n ns)
    (h2 : CopyOf os src p l keep fs fs2 d n ns) : fs1 = fs2 := by
  obtain ⟨a1, a2, a3, a4⟩ := h1
  obtain ⟨b1, b2, b3, b4⟩ := h2
  funext l'
  by_cases hj : ∃ j, j ≤ ns.length ∧ l' = d ++ n :: ns.take j
  · obtain ⟨j, hj, rfl⟩ := hj
    rw [a1 j hj, b1 j hj]
  by_cases hq : ∃ x q, l' = d ++ n :: ns ++ x :: q
  · obtain ⟨x, q, rfl⟩ := hq
    by_cases hk : KeptAt keep src p l (x :: q)
    · rw [a2 x q hk, b2 x q hk]
    · rw [a3 x q hk, b3 x q hk]
  have h1 : ∀ j, j ≤ ns.length → l' ≠ d ++ n :: ns.take j := fun j h e => hj ⟨j, h, e⟩
  have h2 : ∀ x q, l' ≠ d ++ n :: ns ++ x :: q := fun x q e => hq ⟨x, q, e⟩
  rw [a4 l' h1 h2, b4 l' h1 h2]

/-- Such a disk has a copy. -/
theorem CopyResult.copy {os : Os} {w : World} {p : Bytes} {keep : Bytes → Entry → Bool} {os' : Os}
    {w' : World} {pre : Bytes} {n : Bytes} {ns : List Bytes} {fs' : FS}
    (h : CopyResult os w p keep os' w' (pre ++ joinNames (n :: ns)) fs') (ht : w.fs.tree) {l : Loc}
    (A : Archivable os w p l) (hne : ∃ x, KeptAt keep w.fs p l [x]) (hsm : SmallDir w.fs l)
    (hq : os'.quiet) (ht' : w'.fs.tree) (h0 : 0 ∉ pre) {d : Loc} (hd : InDir os' w' pre d)
    (ho : OpenDir os' w'.fs d) (hn : ∀ x ∈ n :: ns, PlainName x) (hnew : w'.fs (d ++ [n]) = none)
    (hen : Enterable os' (dirMode os' 0o775)) (hlen : ns.length ≤ 61)
    (hfe : ∀ q m, KeptAt keep w.fs p l q → q ≠ [] → w.fs (l ++ q) = some (.dir m) →
      Enterable os' (dirMode os' m))
    (hcw : CwdOk os' w'.fs w'.cwd) : CopyOf os' w.fs p l keep w'.fs fs' d n ns := by
  obtain ⟨plain, D, Z, CD, C, env, level, junk, hdr, item, ok, log, b, r, n2, x1, x2, x3, x4, x5, x6,
    x7, x8, x9, x10, x11, x12, x13, x14, x15, rfl⟩ := h
  obtain ⟨z, hz⟩ := Option.isSome_iff_exists.mp x4
  obtain ⟨n1, log', b', c1, c2, c3⟩ := C79_copy_partial CD C ht x6 x5 A keep hne level z hz junk x7 ok
    x10 hdr item x8 x9 os' hq w' ht' pre h0 d hd ho n ns hn hnew hen hlen hfe (.inr ⟨hcw, hsm⟩)
  have e1 := c1 (max n1 n2) (by omega)
  rw [compressDir_mono (by omega : n2 ≤ max n1 n2) x11] at e1
  cases e1
  rw [x12] at c2
  cases c2
  obtain ⟨n0, r', r1, r2, r3⟩ := c3 0 log.flatten rfl x13 (.inr x14)
  have e2 := r1 (max n0 n2) (by omega)
  rw [x15 (max n0 n2) (by omega)] at e2
  cases e2
  exact (r3 (r2 x2 x1) (.inr x3)).2.2

/-- C83: of a directory (all of which can be read, and of which something is accepted by the filter)
there is at most one copy in a given new place of a given disk, however the copy is made: two
compressors, levels, listing orders, decompressors and contents of uninitialised memory give the same
disk, node by node, if the source and the archives are below 512 KiB. -/
theorem C83_same_copy {os : Os} {w : World} (ht : w.fs.tree) {p : Bytes} {l : Loc}
    (A : Archivable os w p l) (keep : Bytes → Entry → Bool) (hne : ∃ x, KeptAt keep w.fs p l [x])
    (hsm : SmallDir w.fs l) (os' : Os) (hq : os'.quiet) (w' : World) (ht' : w'.fs.tree) (pre : Bytes)
    (h0 : 0 ∉ pre) (d : Loc) (hd : InDir os' w' pre d) (ho : OpenDir os' w'.fs d) (n : Bytes)
    (ns : List Bytes) (hn : ∀ x ∈ n :: ns, PlainName x) (hnew : w'.fs (d ++ [n]) = none)
    (hen : Enterable os' (dirMode os' 0o775)) (hlen : ns.length ≤ 61)
    (hfe : ∀ q m, KeptAt keep w.fs p l q → q ≠ [] → w.fs (l ++ q) = some (.dir m) →
      Enterable os' (dirMode os' m))
    (hcw : CwdOk os' w'.fs w'.cwd) (fs1 fs2 : FS)
    (h1 : CopyResult os w p keep os' w' (pre ++ joinNames (n :: ns)) fs1)
    (h2 : CopyResult os w p keep os' w' (pre ++ joinNames (n :: ns)) fs2) : fs1 = fs2 := by
  exact (h1.copy ht A hne hsm hq ht' h0 hd ho hn hnew hen hlen hfe hcw).unique
    (h2.copy ht A hne hsm hq ht' h0 hd ho hn hnew hen hlen hfe hcw)

open HLSample CopySample in
/-- Example: `/h/w/r` copied to `/h/w/o/p`: the hypotheses of `C83_same_copy` (see also the example at
`C79_copy_partial`), and a copy. -/
example : Archivable os (world nodes) [114] [[104], [119], [114]] ∧
    SmallDir (world nodes).fs [[104], [119], [114]] ∧
    ∃ fs', CopyResult os (world nodes) [114] (fun _ e => e.ty != .symlink) os (world nodes)
      ([] ++ joinNames [[111], [112]]) fs' ∧
      fs' [[104], [119], [111], [112], [97]] = some (.file 0o640 [1, 2]) := by
  refine ⟨archivable, small, ?_⟩
  have key : (match compressDir queueD (envOf os (world nodes) (places nodes))
        (keepFilter fun _ e => e.ty != .symlink) 50 .plain [114] () 6 (List.replicate 120 0xEE) with
      | .ok (c, log) => decide (c = 0) && decide (log.flatten.length < 524288)
      | .error _ => false) = true := by decide +kernel
  split at key
  · rename_i c log hc
    simp only [Bool.and_eq_true, decide_eq_true_eq] at key
    obtain ⟨rfl, hl⟩ := key
    have hfe : ∀ q m, KeptAt (fun _ e => e.ty != .symlink) (world nodes).fs [114] [[104], [119], [114]] q →
        q ≠ [] → (world nodes).fs ([[104], [119], [114]] ++ q) = some (.dir m) →
        Enterable os (dirMode os m) := by
      intro q m _ hq h
      rcases below q (by rw [h]; simp) with rfl | rfl | rfl | rfl | rfl
      · exact absurd rfl hq
      · rw [at_a] at h; cases h
      · rw [at_d] at h; cases h; exact .inr (by decide)
      · rw [at_b] at h; cases h
      · rw [at_k] at h; cases h
    have hcw : CwdOk os (world nodes).fs (world nodes).cwd := by
      refine ⟨by decide +kernel, by decide +kernel, fun l hl => ?_⟩
      have : l = [] ∨ l = [[104]] ∨ l = [[104], [119]] := by
        obtain ⟨t, ht⟩ := hl
        have ht' : l ++ t = [[104], [119]] := ht
        match l with
        | [] => exact .inl rfl
        | [a] => simp at ht'; exact .inr (.inl (by rw [ht'.1]))
        | [a, b] => simp at ht'; exact .inr (.inr (by rw [ht'.1, ht'.2.1]))
        | a :: b :: c :: l => simp at ht'
      rcases this with rfl | rfl | rfl <;> decide +kernel
    obtain ⟨n1, log', b, c1, c2, c3⟩ := C79_copy_partial queueDOK copyIOK tree (by intro; simp [envOf])
      shows archivable (fun _ e => e.ty != .symlink) ⟨[97], ⟨_, at_a, rfl⟩, trivial⟩ 6 [] rfl
      (List.replicate 120 0xEE) List.length_replicate (fun _ _ => true) (by simp) hdrMem itemMem
      List.length_replicate List.length_replicate
      os os_quiet (world nodes) tree [] (by simp) [[104], [119]] .rel
      ⟨0o755, by decide +kernel, .inr (by decide)⟩ [111] [[112]] (by decide +kernel) (by decide +kernel)
      (.inr (by decide)) (by decide) hfe (.inr ⟨hcw, small⟩)
    · have e1 := c1 (max n1 50) (by omega)
      rw [compressDir_mono (by omega : 50 ≤ max n1 50) hc] at e1
      cases e1
      have hb : b.length < 524288 := by
        obtain ⟨l, hl2⟩ := List.getLast?_eq_some_iff.mp c2
        rw [hl2] at hl
        simp at hl
        omega
      obtain ⟨n0, r, r1, r2, r3⟩ := c3 0 log.flatten rfl hb (.inr hl)
      refine ⟨r.w.fs, ⟨id, queueD, copyI, queueDOK, copyIOK, _, 6, _, _, _, _, log, b, r, max n0 50,
        queueDOK_fits, copyIOK_final, copyIOK_prompt _, by decide, shows, by intro; simp [envOf],
        List.length_replicate, List.length_replicate,
        List.length_replicate, by simp, compressDir_mono (by omega) hc, c2, hb, hl, fun fuel hf => r1 fuel (by omega),
        rfl⟩, ?_⟩
      have h := (r3 (r2 copyIOK_final queueDOK_fits) (.inr (copyIOK_prompt _))).2.2.2.1 [97] []
        ⟨⟨_, at_a, rfl⟩, trivial⟩
      have h' := at_a
      simp only [List.cons_append, List.nil_append] at h h'
      rw [h, h']
      rfl
  · cases key

end Zwt
