import Verif.Spec.WinUnix
import Verif.Props.WinCopy
import Verif.Props.HLRound
import Verif.Proofs.CopyAgain

/-! C112: from Windows to Unix. -/

namespace Zwt

variable {plain : Bytes → Bytes} {D : Deflater} {Z : Inflater}

theorem OwnerKeeps.write {os : Os} (h : OwnerKeeps os) (m : Nat) :
    (fileMode os m &&& 0o200 == 0) = (m &&& 0o200 == 0) := by
  by_cases hm : m &&& 2 ^ 7 = 0
  · have h2 : fileMode os m &&& 2 ^ 7 = 0 := by
      have e : fileMode os m &&& 2 ^ 7 = (m &&& 2 ^ 7) &&& (0o777 &&& os.allow) := by
        simp only [fileMode]
        ac_rfl
      rw [e, hm, Nat.zero_and]
    rw [show (0o200 : Nat) = 2 ^ 7 from rfl, hm, h2]
  · have h2 := h.file (k := 7) (by decide) (by decide) hm
    rw [show (0o200 : Nat) = 2 ^ 7 from rfl, beq_eq_false_iff_ne.mpr hm, beq_eq_false_iff_ne.mpr h2]

theorem Forest.prune_links (f : Forest) : ∀ d, (f.prune noLink d).noLinks := by
  induction f with
  | nil => intro d; trivial
  | file n m c r ih => intro d; rw [prune, if_pos (noLink_file d n)]; exact ih d
  | link n m t r ih => intro d; rw [prune, if_neg (by rw [noLink_link]; decide)]; exact ih d
  | dir n m s r ihs ih => intro d; rw [prune, if_pos (noLink_dir d n)]; exact ⟨ihs _, ih d⟩
  | other n r ih => exact ih
  | bad n r ih => exact ih

theorem Forest.prune_enterable (os : Os) (f : Forest) (h : f.enterable os) : ∀ d,
    (f.prune noLink d).enterable os := by
  induction f with
  | nil => intro d; trivial
  | file n m c r ih => intro d; rw [prune, if_pos (noLink_file d n)]; exact ih h d
  | link n m t r ih => intro d; rw [prune, if_neg (by rw [noLink_link]; decide)]; exact ih h d
  | dir n m s r ihs ih =>
    intro d; rw [prune, if_pos (noLink_dir d n)]; exact ⟨h.1, ihs h.2.1 _, ih h.2.2 d⟩
  | other n r ih => exact ih h
  | bad n r ih => exact ih h

theorem Mirror.enterable {env : Env} {os : Os} 
    (hd : ∀ p es, env.list p = some es → Enterable os (dirMode os (env.statMode p)))
    {p : Bytes} {es : List Entry} {f : Forest} (h : Mirror env p es f) : f.enterable os := by
  induction h with
  | nil => trivial
  | dot _ _ ih => exact ih
  | file _ _ _ _ ih => exact ih
  | bad _ _ _ ih => exact ih
  | link _ _ _ _ _ ih => exact ih
  | dir _ h2 h3 _ _ ih1 ih2 => exact ⟨by rw [← h2]; exact hd _ _ h3, ih1, ih2⟩
  | other _ _ ih => exact ih

theorem SpelledIn.more {list : Bytes → Option (List Entry)} {p : Bytes} {e : Entry} {es : List Entry}
    {ds : List Bytes} (h : SpelledIn list p es ds) : SpelledIn list p (e :: es) ds := by
  cases ds with
  | nil => trivial
  | cons x xs =>
    obtain ⟨⟨e', h1, h2⟩, h3⟩ := h
    exact ⟨⟨e', List.mem_cons_of_mem _ h1, h2⟩, h3⟩

/-- The names in the tree are those of the listings. -/
theorem Mirror.spelled {env : Env} (os : Os) {p : Bytes} {es : List Entry} {f : Forest}
    (h : Mirror env p es f) : ∀ ds, (f.prune noLink p).lookup os ds ≠ none → SpelledIn env.list p es ds := by
  induction h with
  | nil => intro ds hd; exact absurd rfl hd
  | dot _ _ ih => intro ds hd; exact (ih ds hd).more
  | @file dir name mode content es f _ _ _ _ ih =>
    intro ds hd
    rw [Forest.prune, if_pos (noLink_file _ _)] at hd
    simp only [Forest.lookup] at hd
    split at hd
    · rename_i e; subst e; exact ⟨⟨_, List.mem_cons_self, rfl⟩, .inl rfl⟩
    · exact (ih ds hd).more
  | bad _ _ _ ih => intro ds hd; exact (ih ds hd).more
  | link _ _ _ _ _ ih =>
    intro ds hd
    rw [Forest.prune, if_neg (by rw [noLink_link]; decide)] at hd
    exact (ih ds hd).more
  | @dir dir name mode es es' sub f _ _ h3 _ _ ih1 ih2 =>
    intro ds hd
    rw [Forest.prune, if_pos (noLink_dir _ _)] at hd
    cases ds with
    | nil => trivial
    | cons x xs =>
      simp only [Forest.lookup] at hd
      split at hd
      · rename_i e; subst e
        refine ⟨⟨_, List.mem_cons_self, rfl⟩, ?_⟩
        split at hd
        · rename_i e; exact .inl e
        · exact .inr ⟨es', h3, ih1 xs hd⟩
      · exact (ih2 _ hd).more
  | other _ _ ih => intro ds hd; exact (ih ds hd).more

/-- What is found in a tree on Unix is found on Windows. -/
theorem Forest.lookup_spot {os : Os} (ho : OwnerKeeps os) (win : Win) (f : Forest) (hl : f.noLinks) :
    ∀ (ds : List Bytes) (un : Node) (p : Loc), f.lookup os ds = some un →
      ∃ wn, (p ++ ds.map win.same, wn) ∈ f.winSpots win p ∧ un.carries wn := by
  induction f with
  | nil => intro ds un p h; cases h
  | file n m c r ih =>
    intro ds un p h
    simp only [lookup] at h
    split at h
    · rename_i e; subst e; cases h
      exact ⟨_, List.mem_cons_self, rfl, ho.write m⟩
    · obtain ⟨wn, a, b⟩ := ih hl ds un p h
      exact ⟨wn, List.mem_cons_of_mem _ a, b⟩
  | link n m t r ih => exact absurd hl id
  | dir n m s r ihs ih =>
    intro ds un p h
    cases ds with
    | nil => cases h
    | cons x xs =>
      simp only [lookup] at h
      split at h
      · rename_i e; subst e
        split at h
        · rename_i e; subst e; cases h
          exact ⟨_, List.mem_cons_self, trivial⟩
        · obtain ⟨wn, a, b⟩ := ihs hl.1 xs un (p ++ [win.same x]) h
          exact ⟨wn, List.mem_cons_of_mem _ (List.mem_append_left _ (by simpa using a)), b⟩
      · obtain ⟨wn, a, b⟩ := ih hl.2 (x :: xs) un p h
        exact ⟨wn, List.mem_cons_of_mem _ (List.mem_append_right _ a), b⟩
  | other n r ih => exact ih hl
  | bad n r ih => exact ih hl

/-- What is found in a tree on Windows is found on Unix. -/
theorem Forest.spot_lookup {os : Os} (ho : OwnerKeeps os) (win : Win) (f : Forest) (hf : f.proper) :
    ∀ (p : Loc), ∀ s ∈ f.winSpots win p, ∃ x xs un, s.1 = p ++ (x :: xs).map win.same ∧ x ∈ f.names ∧
      f.lookup os (x :: xs) = some un ∧ un.carries s.2 := by
  induction f with
  | nil => intro p s hs; cases hs
  | file n m c r ih =>
    intro p s hs
    rcases List.mem_cons.mp hs with rfl | hs
    · exact ⟨n, [], .file (fileMode os m) c, rfl, List.mem_cons_self, by rw [lookup, if_pos rfl], rfl, ho.write m⟩
    · obtain ⟨x, xs, un, a, b, c, d⟩ := ih hf.2.2 p s hs
      refine ⟨x, xs, un, a, List.mem_cons_of_mem _ b, ?_, d⟩
      rw [lookup, if_neg (by
        intro e
        simp only [List.cons.injEq] at e
        exact hf.2.1 (e.1 ▸ b))]
      exact c
  | link n m t r ih =>
    intro p s hs
    obtain ⟨x, xs, un, a, b, c, d⟩ := ih hf.2.2.2.2 p s hs
    refine ⟨x, xs, un, a, List.mem_cons_of_mem _ b, ?_, d⟩
    rw [lookup, if_neg (by
      intro e
      simp only [List.cons.injEq] at e
      exact hf.2.1 (e.1 ▸ b))]
    exact c
  | dir n m sub r ihs ih =>
    intro p s hs
    rcases List.mem_cons.mp hs with rfl | hs
    · exact ⟨n, [], .dir (dirMode os m), rfl, List.mem_cons_self, by simp only [lookup, if_true], trivial⟩
    · rcases List.mem_append.mp hs with hs | hs
      · obtain ⟨x, xs, un, a, b, c, d⟩ := ihs hf.2.2.1 _ s hs
        refine ⟨n, x :: xs, un, by rw [a]; simp, List.mem_cons_self, ?_, d⟩
        simp only [lookup, if_true]
        rw [if_neg (by simp)]
        exact c
      · obtain ⟨x, xs, un, a, b, c, d⟩ := ih hf.2.2.2 p s hs
        refine ⟨x, xs, un, a, List.mem_cons_of_mem _ b, ?_, d⟩
        simp only [lookup]
        rw [if_neg (by intro e; exact hf.2.1 (e ▸ b))]
        exact c
  | other n r ih => exact ih hf
  | bad n r ih => exact ih hf

/-- C112: a directory of a Windows drive that has a file or a directory in it is archived with success, and
the archive, extracted to a new place on Unix, gives the same files and directories there: with the names
as Windows lists them, the same content, and writable for the owner exactly if not protected; nothing
else changes.
Missing: links, files of 2 GiB and more, paths of more than 240 bytes (C110), names that are no names on
Unix, an umask that takes permissions from the owner, directories that Windows reports without
permissions for the owner, empty directories (C43), archives whose last piece fills the buffer (C39). -/
theorem C112_to_unix_partial (CD : DeflateOK D plain) (C : InflateOK Z plain) (win : Win)
    -- compression
    (w : WWorld) (ht : w.fs.tree) (env : Env) (henv : env.ok) (H : WShows win w env) (p : Bytes) (l : Loc)
    (A : WArchivable win w env p l) (hne : ∃ q, q ≠ [] ∧ w.fs (l ++ q) ≠ none) (level : Int) (z : D.τ)
    (hz : D.init level = some z) (junk : Bytes) (hj : junk.length = 120)
    -- extraction
    (ok : AllocOracle) (hok : ∀ k n, ok k n = true) (hdr item : Bytes) (hh : hdr.length = 128)
    (hi : item.length = 40) (os : Os) (hq : os.quiet) (ho : OwnerKeeps os)
    (hdirs : ∀ p es, env.list p = some es → env.statMode p &&& 0o700 = 0o700) (w' : World) (ht' : w'.fs.tree) (pre : Bytes)
    (h0 : 0 ∉ pre) (d : Loc) (hd : InDir os w' pre d) (hod : OpenDir os w'.fs d) (n : Bytes)
    (ns : List Bytes) (hn : ∀ x ∈ n :: ns, PlainName x) (hnew : w'.fs (d ++ [n]) = none)
    (hlen : ns.length ≤ 61) :
    ∃ n1 log last, (∀ fuel, n1 ≤ fuel →
        winCompressDir D env acceptAll fuel .plain p () level junk = .ok (0, log)) ∧
      log.getLast? = some last ∧
      ∀ size data, allowed size 0 data = log.flatten → last.length < 524288 →
        ∃ n0 r, (∀ fuel, n0 ≤ fuel → extract Z os ok fuel hdr item (pre ++ joinNames (n :: ns)) size
            ⟨data, false⟩ w' = .ok r) ∧
          (C.Final → CD.Fits → ∀ c ∈ r.codes, c = Z_OK) ∧
          ((∀ c ∈ r.codes, c = Z_OK) → 0 < r.room ∨ C.Prompt log.flatten →
            r.ret = CT_DIRECTORY ∧ r.w.cwd = w'.cwd ∧
            (∀ q wn, q ≠ [] → w.fs (l ++ q) = some wn → ∃ ds un, ds.map win.same = q ∧
              Spelled env.list p ds ∧ r.w.fs (d ++ n :: ns ++ ds) = some un ∧ un.carries wn) ∧
            (∀ ds un, ds ≠ [] → r.w.fs (d ++ n :: ns ++ ds) = some un → Spelled env.list p ds ∧
              ∃ wn, w.fs (l ++ ds.map win.same) = some wn ∧ un.carries wn) ∧
            ∀ l', ¬ d ++ [n] <+: l' → r.w.fs l' = w'.fs l') := by
  have he : env.sameFiles env.anyLinks := ⟨rfl, rfl, rfl, rfl⟩
  have H' : WShows win w env.anyLinks := ⟨H.list, H.stat, H.open'⟩
  have A' : WArchivable win w env.anyLinks p l := ⟨A.leads, A.isDir, A.files, A.top, A.short⟩
  obtain ⟨es, f, h1, h2, h3, h4, h5, h6, h7⟩ := A'.mirror ht H' fun _ => ⟨rfl, rfl⟩
  have hfl : Filter.noLinks acceptAll = keepFilter noLink := noLinks_all
  obtain ⟨s1, s2⟩ := select_prune noLink f p (f.pure_readable noLink h4 p)
  obtain ⟨p1, _, p3, p4⟩ := f.prune_noLink win p
  have hnil : f.prune noLink p ≠ .nil := by
    intro h
    obtain ⟨q, hq, hx⟩ := hne
    cases hn : w.fs (l ++ q) with
    | none => exact hx hn
    | some node =>
      have := (h7 [] q node hq).mpr hn
      rw [p4 h] at this
      cases this
  have hbits : ∀ m, m &&& 0o700 = 0o700 → Enterable os (dirMode os m) := by
    intro m hm
    have hb : ∀ k, (0o700 : Nat).testBit k = true → m.testBit k = true := by
      intro k hk
      have := congrArg (fun x => Nat.testBit x k) hm
      simp only [Nat.testBit_and, hk, Bool.and_true] at this
      exact this
    exact .inr ⟨ho.dir (k := 6) (by decide) (by decide) (and_of_bit (hb 6 (by decide))),
      ho.dir (k := 7) (by decide) (by decide) (and_of_bit (hb 7 (by decide)))⟩
  have hpr : (f.prune noLink p).proper := by
    have := (select_proper (keepFilter noLink) f p ()).2 h3
    rw [s2] at this
    exact this
  obtain ⟨n1, log, last, c1, c2, c3⟩ := C39_round_trip_partial CD C env.anyLinks henv (keepFilter noLink)
    h1 h2 () level z hz junk hj (by rw [s1]; decide) (by rw [s2]; exact hnil) ok hok hdr item hh hi os hq w'
    ht' pre h0 d hd hod n ns hn hnew (hbits _ (by decide)) hlen h3
    (by rw [s2]; exact f.prune_enterable os (h2.enterable (env := env.anyLinks) fun q es hq => hbits _ (hdirs q es hq)) p)
    (by rw [s2]; exact f.prune_links p)
  refine ⟨n1, log, last, fun fuel hfu => ?_, c2, fun size data hal hb => ?_⟩
  · rw [C110_no_links D he acceptAll fuel (fn := .plain) (by intro xs h; cases h), hfl]
    exact c1 fuel hfu
  · obtain ⟨n0, r, x1, x3, x4⟩ := c3 size data hal hb
    refine ⟨n0, r, x1, x3, fun a b => ?_⟩
    obtain ⟨y1, y2, y3⟩ := x4 a b
    rw [s2] at y3
    refine ⟨y1, y2, fun q wn hq hw => ?_, fun ds un hds hu => ?_, fun l' hl' => ?_⟩
    · have := (h7 [] q wn hq).mpr hw
      rw [← p1] at this
      obtain ⟨x, xs, un, a, _, b, c⟩ := Forest.spot_lookup ho win _ hpr [] _ this
      simp only [List.nil_append] at a
      exact ⟨x :: xs, un, a.symm, ⟨es, h1, h2.spelled os _ (by rw [b]; simp)⟩, by rw [y3.2.1]; exact b, c⟩
    · cases ds with
      | nil => exact absurd rfl hds
      | cons x xs =>
        rw [y3.2.1] at hu
        obtain ⟨wn, a, b⟩ := Forest.lookup_spot ho win _ (f.prune_links p) _ _ [] hu
        rw [p1] at a
        exact ⟨⟨es, h1, h2.spelled os _ (by rw [hu]; simp)⟩, wn, (h7 [] _ wn (by simp)).mp a, b⟩
    · refine y3.2.2 l' (fun j _ e => hl' ?_) (fun x q e => hl' ?_)
      · rw [e]; exact ⟨ns.take j, by simp⟩
      · rw [e]; exact ⟨ns ++ x :: q, by simp⟩

open WinSample HLSample in
/-- The theorem for the sample directory, with the names `R` and `d`, extracted to `o/P`. -/
example := C112_to_unix_partial queueDOK copyIOK win source source_tree sourceEnv
  (fun _ => by simp [sourceEnv]) source_shows [115] [[99], [115]] source_archivable
  ⟨[[114]], by simp, by decide +kernel⟩ 6 [] rfl (List.replicate 120 0xEE) List.length_replicate
  (fun _ _ => true) (fun _ _ => rfl) hdrMem itemMem List.length_replicate List.length_replicate os os_quiet
  (by unfold OwnerKeeps; decide) (fun _ _ _ => by show 0o40777 &&& 0o700 = 0o700; decide) (world []) world_tree [] (by decide) _
  .rel ⟨0o755, by decide +kernel, .inr (by decide)⟩ [111] [[80]] (by decide) (by decide +kernel) (by decide)

end Zwt
