import Verif.Spec.UnixWin
import Verif.Props.WinUnix
import Verif.Props.Copy

/-! C115: from Unix to Windows, from disk to drive. -/

namespace Zwt

section

variable {plain : Bytes → Bytes} {D : Deflater} {Z : Inflater}

theorem Forest.winNames_lookup {os : Os} (win : Win) (f : Forest) (hf : f.proper) : ∀ k ∈ f.winNames win,
    ∃ x n, win.same x = k ∧ x ∈ f.names ∧ f.lookup os [x] = some n ∧ n.solid := by
  induction f with
  | nil => intro k hk; cases hk
  | file n m c r ih =>
    intro k hk
    rcases List.mem_cons.mp hk with rfl | hk
    · exact ⟨n, .file (fileMode os m) c, rfl, List.mem_cons_self, by rw [lookup, if_pos rfl], trivial⟩
    · obtain ⟨x, nd, a, b, c, d⟩ := ih hf.2.2 k hk
      refine ⟨x, nd, a, List.mem_cons_of_mem _ b, ?_, d⟩
      rw [lookup, if_neg (by rintro ⟨⟩; exact hf.2.1 b)]; exact c
  | link n m t r ih =>
    intro k hk
    obtain ⟨x, nd, a, b, c, d⟩ := ih hf.2.2.2.2 k hk
    refine ⟨x, nd, a, List.mem_cons_of_mem _ b, ?_, d⟩
    rw [lookup, if_neg (by rintro ⟨⟩; exact hf.2.1 b)]; exact c
  | dir n m s r ihs ih =>
    intro k hk
    rcases List.mem_cons.mp hk with rfl | hk
    · exact ⟨n, .dir (dirMode os m), rfl, List.mem_cons_self, by simp [lookup], trivial⟩
    · obtain ⟨x, nd, a, b, c, d⟩ := ih hf.2.2.2 k hk
      refine ⟨x, nd, a, List.mem_cons_of_mem _ b, ?_, d⟩
      rw [lookup, if_neg (by rintro rfl; exact hf.2.1 b)]; exact c
  | other n r ih => exact ih hf
  | bad n r ih => exact ih hf

/-- The names in a tree, from what is found in it. -/
theorem Forest.winOk_of {os : Os} {win : Win} (f : Forest) (hf : f.proper)
    (hn : ∀ q x n, f.lookup os (q ++ [x]) = some n → n.solid → WinName win x)
    (ha : ∀ q x y n n', f.lookup os (q ++ [x]) = some n → n.solid → f.lookup os (q ++ [y]) = some n' →
      n'.solid → win.same x = win.same y → x = y) : f.winOk win := by
  have up : ∀ {g r : Forest} {k : Bytes}, k ∉ r.names → (∀ x q, x ≠ k → g.lookup os (x :: q) = r.lookup os (x :: q)) →
      ∀ {q nd}, r.lookup os q = some nd → g.lookup os q = some nd := by
    intro g r k hk h q nd hq
    obtain ⟨x, q, rfl, hx⟩ := lookup_head hq
    rw [h x q (fun e => hk (e ▸ hx))]; exact hq
  induction f with
  | nil => trivial
  | file n m c r ih =>
    have u := @up (.file n m c r) r n hf.2.1 (fun x q h => by
      rw [lookup, if_neg]; rintro e; exact h (List.cons.inj e).1)
    have h0 : (Forest.file n m c r).lookup os [n] = some (.file (fileMode os m) c) := by rw [lookup, if_pos rfl]
    refine ⟨hn [] n _ h0 trivial, fun hk => ?_, ih hf.2.2 (fun q x nd h => hn q x nd (u h))
      (fun q x y nd nd' h s h' => ha q x y nd nd' (u h) s (u h'))⟩
    obtain ⟨x, nd, a, b, c', d⟩ := winNames_lookup (os := os) win r hf.2.2 _ hk
    have := ha [] n x _ nd h0 trivial (u c') d a.symm
    exact hf.2.1 (this ▸ b)
  | link n m t r ih =>
    have u := @up (.link n m t r) r n hf.2.1 (fun x q h => by
      rw [lookup, if_neg]; rintro e; exact h (List.cons.inj e).1)
    exact ih hf.2.2.2.2 (fun q x nd h => hn q x nd (u h))
      (fun q x y nd nd' h s h' => ha q x y nd nd' (u h) s (u h'))
  | dir n m s r ihs ih =>
    have u := @up (.dir n m s r) r n hf.2.1 (fun x q h => by rw [lookup, if_neg h])
    have v : ∀ {q nd}, s.lookup os q = some nd → (Forest.dir n m s r).lookup os (n :: q) = some nd := by
      intro q nd hq
      obtain ⟨x, q, rfl, hx⟩ := lookup_head hq
      simp [lookup, hq]
    have h0 : (Forest.dir n m s r).lookup os [n] = some (.dir (dirMode os m)) := by simp [lookup]
    refine ⟨hn [] n _ h0 trivial, fun hk => ?_, ihs hf.2.2.1 (fun q x nd h => hn (n :: q) x nd (v h))
      (fun q x y nd nd' h s h' => ha (n :: q) x y nd nd' (v h) s (v h')),
      ih hf.2.2.2 (fun q x nd h => hn q x nd (u h))
      (fun q x y nd nd' h s h' => ha q x y nd nd' (u h) s (u h'))⟩
    obtain ⟨x, nd, a, b, c', d⟩ := winNames_lookup (os := os) win r hf.2.2.2 _ hk
    have := ha [] n x _ nd h0 trivial (u c') d a.symm
    exact hf.2.1 (this ▸ b)
  | other n r ih => exact ih hf hn ha
  | bad n r ih => exact ih hf hn ha

/-- What is found in a tree on Unix and is no link is found on Windows. -/
theorem Forest.lookup_solid {os : Os} (ho : OwnerKeeps os) (win : Win) (f : Forest) :
    ∀ (ds : List Bytes) (un : Node) (p : Loc), f.lookup os ds = some un → un.solid →
      ∃ wn, (p ++ ds.map win.same, wn) ∈ f.winSpots win p ∧ un.carries wn := by
  induction f with
  | nil => intro ds un p h; cases h
  | file n m c r ih =>
    intro ds un p h hs
    simp only [lookup] at h
    split at h
    · rename_i e; subst e; cases h
      exact ⟨_, List.mem_cons_self, rfl, ho.write m⟩
    · obtain ⟨wn, a, b⟩ := ih ds un p h hs
      exact ⟨wn, List.mem_cons_of_mem _ a, b⟩
  | link n m t r ih =>
    intro ds un p h hs
    simp only [lookup] at h
    split at h
    · cases h; exact absurd hs id
    · exact ih ds un p h hs
  | dir n m s r ihs ih =>
    intro ds un p h hs
    cases ds with
    | nil => cases h
    | cons x xs =>
      simp only [lookup] at h
      split at h
      · rename_i e; subst e
        split at h
        · rename_i e; subst e; cases h
          exact ⟨_, List.mem_cons_self, trivial⟩
        · obtain ⟨wn, a, b⟩ := ihs xs un (p ++ [win.same x]) h hs
          exact ⟨wn, List.mem_cons_of_mem _ (List.mem_append_left _ (by simpa using a)), b⟩
      · obtain ⟨wn, a, b⟩ := ih (x :: xs) un p h hs
        exact ⟨wn, List.mem_cons_of_mem _ (List.mem_append_right _ a), b⟩
  | other n r ih => exact ih
  | bad n r ih => exact ih

/-- The process whose files get the permissions asked for. -/
def plainOs : Os := ⟨fun _ => false, fun _ n => n, 0o777, false, fun _ => false⟩

theorem plainOs_keeps : OwnerKeeps plainOs := by unfold OwnerKeeps; decide

theorem Node.copied_solid {os : Os} {n : Node} : (n.copied os).solid ↔ n.solid := by cases n <;> rfl

theorem Node.copied_carries {os : Os} (ho : OwnerKeeps os) {n : Node} {wn : WNode} :
    (n.copied os).carries wn ↔ n.carries wn := by
  cases n with
  | dir m => cases wn <;> rfl
  | link t => cases wn <;> rfl
  | file m c =>
    cases wn with
    | dir => rfl
    | file ro c' => simp only [copied, carries, ho.write m]

/-- C115: a directory of a Unix disk that has anything in it is archived with success, and the archive,
extracted to a new place of a Windows drive, gives the same files and directories there: the same content,
and protected exactly if not writable for the owner; nothing else is there and nothing else changes.
Missing: links, which are left out (C100), names that Windows does not accept or takes for the same (C100),
sources with unreadable or special files or paths beyond 4094 bytes, empty directories (C43), archives
whose last piece fills the buffer (C39). -/
theorem C115_to_windows_partial (CD : DeflateOK D plain) (C : InflateOK Z plain)
    -- compression
    {os : Os} {w : World} (ht : w.fs.tree) {env : Env} (henv : env.ok) (H : Shows os w env) {p : Bytes}
    {l : Loc} (A : Archivable os w p l) (hne : ∃ q, q ≠ [] ∧ w.fs (l ++ q) ≠ none) (level : Int) (z : D.τ)
    (hz : D.init level = some z) (junk : Bytes) (hj : junk.length = 120)
    -- extraction
    (ok : AllocOracle) (hok : ∀ k n, ok k n = true) (hdr item : Bytes) (hh : hdr.length = 128)
    (hi : item.length = 40) (win : Win) (hq : win.quiet) (R : WinReady win w.fs l) (w' : WWorld)
    (out : Bytes) (top : Loc) (ns : List Bytes) (hw : WFresh win w' out top ns) :
    ∃ n1 log last, (∀ fuel, n1 ≤ fuel →
        compressDir D env acceptAll fuel .plain p () level junk = .ok (0, log)) ∧
      log.getLast? = some last ∧
      ∀ size data, allowed size 0 data = log.flatten → last.length < 524288 →
        ∃ n0 r, (∀ fuel, n0 ≤ fuel →
            winExtract Z win ok fuel hdr item out size ⟨data, false⟩ w' = .ok r) ∧
          r.hasError = false ∧
          (C.Final → CD.Fits → ∀ c ∈ r.codes, c = Z_OK) ∧
          ((∀ c ∈ r.codes, c = Z_OK) → 0 < r.room ∨ C.Prompt log.flatten →
            r.ret = CT_DIRECTORY ∧ r.w.cwd = w'.cwd ∧
            WArrived win w.fs l w'.fs r.w.fs top (top ++ ns.map win.same)) := by
  obtain ⟨es, f, m1, m2, m3, m4, m5⟩ := A.mirror (os' := plainOs) ht H
  have hfl : acceptAll = keepFilter (fun _ _ => true) := rfl
  obtain ⟨s1, s2⟩ := select_prune (fun _ _ => true) f p (Forest.pure_readable (fun _ _ => true) f m4 p)
  have hpr : (f.prune (fun _ _ => true) p).proper := by
    rw [← s2]; exact (select_proper (keepFilter fun _ _ => true) f p ()).2 m3
  have hlook : ∀ q, q ≠ [] → (f.prune (fun _ _ => true) p).lookup plainOs q =
      (w.fs (l ++ q)).map (Node.copied plainOs) := by
    intro q hq
    cases q with
    | nil => exact absurd rfl hq
    | cons x q =>
      by_cases hk : KeptAt (fun _ _ => true) w.fs p l (x :: q)
      · exact (prune_disk m3 m4 m5 _ p x q).1 hk
      · rw [(prune_disk m3 m4 m5 _ p x q).2 hk]
        cases hx : w.fs (l ++ x :: q) with
        | none => rfl
        | some nd => exact absurd (keptAt_true _ ht _ _ _ (by rw [hx]; simp)) hk
  have hback : ∀ q x nd, (f.prune (fun _ _ => true) p).lookup plainOs (q ++ [x]) = some nd →
      ∃ un, w.fs (l ++ q ++ [x]) = some un ∧ nd = un.copied plainOs := by
    intro q x nd h
    rw [hlook _ (by simp), ← List.append_assoc] at h
    cases hx : w.fs (l ++ q ++ [x]) with
    | none => rw [hx] at h; cases h
    | some un => rw [hx] at h; exact ⟨un, rfl, (Option.some.inj h).symm⟩
  have hwin : (f.prune (fun _ _ => true) p).winOk win := by
    refine Forest.winOk_of (os := plainOs) _ hpr (fun q x nd h s => ?_) (fun q x y nd nd' h s h' s' => ?_)
    · obtain ⟨un, a, rfl⟩ := hback _ _ _ h
      exact R.names q x un a (Node.copied_solid.mp s)
    · obtain ⟨un, a, rfl⟩ := hback _ _ _ h
      obtain ⟨un', a', rfl⟩ := hback _ _ _ h'
      exact R.apart q x y un un' a (Node.copied_solid.mp s) a' (Node.copied_solid.mp s')
  have hnil : f.prune (fun _ _ => true) p ≠ .nil := by
    intro h
    obtain ⟨q, hq, hx⟩ := hne
    have := hlook q hq
    rw [h] at this
    cases hn : w.fs (l ++ q) with
    | none => exact hx hn
    | some nd => rw [hn] at this; cases this
  obtain ⟨n1, log, last, c1, c2, c3⟩ := C100_windows_partial CD C env henv (keepFilter fun _ _ => true) m1 m2 ()
    level z hz junk hj (by rw [s1]; decide) (by rw [s2]; exact hnil) ok hok hdr item hh hi win hq w' out top ns
    hw m3 (by rw [s2]; exact hwin)
  refine ⟨n1, log, last, c1, c2, fun size data hal hb => ?_⟩
  obtain ⟨n0, r, x1, x2, x3, x4⟩ := c3 size data hal hb
  refine ⟨n0, r, x1, x2, x3, fun a b => ?_⟩
  obtain ⟨y1, y2, y3, y4, y5⟩ := x4 a b
  rw [s2] at y4 y5
  refine ⟨y1, y2, y3, ?_, ?_, ?_⟩
  · intro q un hq hu hs
    obtain ⟨wn, e1, e2⟩ := Forest.lookup_solid plainOs_keeps win (f.prune (fun _ _ => true) p) q
      (un.copied plainOs) (top ++ ns.map win.same) (by rw [hlook q hq, hu]; rfl) (Node.copied_solid.mpr hs)
    exact ⟨wn, y4 _ e1, (Node.copied_carries plainOs_keeps).mp e2⟩
  · intro k wn hk hwn
    have hlen : k.length ≠ 0 := fun h => hk (List.length_eq_zero_iff.mp h)
    refine Classical.byContradiction fun hno => ?_
    have := y5 (top ++ ns.map win.same ++ k) (fun hp => by
        have := hp.2.length_le
        simp only [List.length_append] at *
        omega) (fun s hs e => by
          have e2 := y4 s hs
          rw [← e, hwn] at e2
          obtain ⟨x, xs, un, g1, _, g3, g4⟩ := Forest.spot_lookup plainOs_keeps win _ hpr _ s hs
          rw [hlook _ (by simp)] at g3
          cases hx : w.fs (l ++ x :: xs) with
          | none => rw [hx] at g3; cases g3
          | some nd =>
            rw [hx] at g3
            cases g3
            refine hno ⟨x :: xs, nd, ?_, hx, ?_⟩
            · rw [g1] at e; exact (List.append_cancel_left e).symm
            · rw [Option.some.inj e2]; exact (Node.copied_carries plainOs_keeps).mp g4)
    rw [hwn, List.append_assoc, hw.absent] at this
    cases this
  · intro l' hl' hb'
    refine y5 l' hl' (fun s hs e => ?_)
    obtain ⟨x, xs, un, g1, _⟩ := Forest.spot_lookup plainOs_keeps win _ hpr _ s hs
    exact hb' ((x :: xs).map win.same) (by simp) (e.trans g1)

end

namespace CopySample
open HLSample WinSample

theorem ready : WinReady win (world nodes).fs [[104], [119], [114]] := by
  have key : ∀ q x n, (world nodes).fs ([[104], [119], [114]] ++ q ++ [x]) = some n →
      q = [] ∧ x = [97] ∨ q = [] ∧ x = [100] ∨ q = [[100]] ∧ x = [98] ∨ q = [[100]] ∧ x = [107] := by
    intro q x n h
    rw [List.append_assoc] at h
    rcases below (q ++ [x]) (by rw [h]; simp) with e | e | e | e | e
    · simp at e
    · have := List.append_inj' (t₁ := [x]) (s₂ := []) (t₂ := [[97]]) e rfl; simp_all
    · have := List.append_inj' (t₁ := [x]) (s₂ := []) (t₂ := [[100]]) e rfl; simp_all
    · have := List.append_inj' (t₁ := [x]) (s₂ := [[100]]) (t₂ := [[98]]) e rfl; simp_all
    · have := List.append_inj' (t₁ := [x]) (s₂ := [[100]]) (t₂ := [[107]]) e rfl; simp_all
  refine ⟨fun q x n h _ => ?_, fun q x y n n' h _ h' _ e => ?_⟩
  · rcases key q x n h with ⟨_, rfl⟩ | ⟨_, rfl⟩ | ⟨_, rfl⟩ | ⟨_, rfl⟩ <;>
      simp +decide [WinName, PlainName, win]
  · rcases key q x n h with ⟨rfl, rfl⟩ | ⟨rfl, rfl⟩ | ⟨rfl, rfl⟩ | ⟨rfl, rfl⟩ <;>
      rcases key _ y n' h' with ⟨a, rfl⟩ | ⟨a, rfl⟩ | ⟨a, rfl⟩ | ⟨a, rfl⟩ <;>
      first | rfl | exact absurd a (by decide) | exact absurd e (by decide)

end CopySample

open CopySample WinSample HLSample in
/-- The theorem for the directory `r` with `a`, `d/b` and a link, extracted to `o` of the drive. -/
example := C115_to_windows_partial queueDOK copyIOK tree (fun _ => by simp [envOf]) CopySample.shows archivable
  ⟨[[97]], by simp, by decide +kernel⟩ 6 [] rfl (List.replicate 120 0xEE) List.length_replicate
  (fun _ _ => true) (fun _ _ => rfl) hdrMem itemMem List.length_replicate List.length_replicate win win_quiet
  ready drive [111] [[99], [111]] []
  ⟨⟨[111], by decide, by decide, by decide +kernel⟩, by simp, by decide, by decide, by decide +kernel, fun q => by
    simp only [drive]
    rw [if_neg (by simp), if_neg (by simp)]⟩

end Zwt
