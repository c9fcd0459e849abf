import Verif.Proofs.Trip

/-! C116: from Windows to Unix and back. -/

namespace Zwt

section

variable {plain : Bytes → Bytes} {D : Deflater} {Z : Inflater}

theorem Node.carries_one {un : Node} {a b : WNode} (h : un.carries a) (h' : un.carries b) : a = b := by
  cases un <;> cases a <;> cases b <;> simp_all [carries]

theorem Node.carries_solid {un : Node} {a : WNode} (h : un.carries a) : un.solid := by
  cases un
  · trivial
  · trivial
  · cases a <;> exact absurd h id

/-- C116: a directory of a Windows drive that has a file or a directory in it, archived, extracted to a new
place on Unix, archived there and extracted to a new place of a Windows drive, is the same again: the same
files and directories, with the same content and the same protection against writing; nothing else is
there, and nothing else changes on either.  Compressor, decompressor and level can be other ones on the way
back, and so can the drive.
Missing: what C112 and C115 miss, output paths on Unix of more than 3850 bytes. -/
theorem C116_back_partial (CD : DeflateOK D plain) (C : InflateOK Z plain) (win : Win) (hqw : win.quiet)
    -- to Unix
    (w : WWorld) (ht : w.fs.tree) (env : Env) (henv : env.ok) (H : WShows win w env) (p : Bytes) (l : Loc)
    (A : WArchivable win w env p l) (hne : ∃ q, q ≠ [] ∧ w.fs (l ++ q) ≠ none) (level : Int) (z : D.τ)
    (hz : D.init level = some z) (junk : Bytes) (hj : junk.length = 120)
    (ok : AllocOracle) (hok : ∀ k n, ok k n = true) (hdr item : Bytes) (hh : hdr.length = 128)
    (hi : item.length = 40) (os : Os) (hq : os.quiet) (ho : OwnerKeeps os)
    (hdirs : ∀ p es, env.list p = some es → env.statMode p &&& 0o700 = 0o700)
    (hfiles : ∀ p o m k, env.fopen p = some o → o.fstat = some (m, k) → m &&& 0o400 ≠ 0)
    (w' : World) (ht' : w'.fs.tree) (pre : Bytes) (h0 : 0 ∉ pre) (d : Loc) (hd : InDir os w' pre d)
    (hod : OpenDir os w'.fs d) (n : Bytes) (ns : List Bytes) (hn : ∀ x ∈ n :: ns, PlainName x)
    (hnew : w'.fs (d ++ [n]) = none) (hlen : ns.length ≤ 61)
    (hlim : (pre ++ joinNames (n :: ns)).length ≤ 3850) :
    ∃ n1 log last, (∀ fuel, n1 ≤ fuel →
        winCompressDir D env acceptAll fuel .plain p () level junk = .ok (0, log)) ∧
      log.getLast? = some last ∧
      ∀ size data, allowed size 0 data = log.flatten → last.length < 524288 →
        ∃ n0 r, (∀ fuel, n0 ≤ fuel → extract Z os ok fuel hdr item (pre ++ joinNames (n :: ns)) size
            ⟨data, false⟩ w' = .ok r) ∧
          (C.Final → CD.Fits → ∀ c ∈ r.codes, c = Z_OK) ∧
          ((∀ c ∈ r.codes, c = Z_OK) → 0 < r.room ∨ C.Prompt log.flatten →
            r.ret = CT_DIRECTORY ∧
            -- and back
            ∀ {plain2 : Bytes → Bytes} {D2 : Deflater} {Z2 : Inflater} (CD2 : DeflateOK D2 plain2)
              (C2 : InflateOK Z2 plain2) (env2 : Env), env2.ok → Shows os r.w env2 →
            ∀ (level2 : Int) (z2 : D2.τ), D2.init level2 = some z2 →
            ∀ (w2 : WWorld) (out : Bytes) (top : Loc) (ns2 : List Bytes), WFresh win w2 out top ns2 →
            ∃ n2 log2 last2, (∀ fuel, n2 ≤ fuel →
                compressDir D2 env2 acceptAll fuel .plain (pre ++ joinNames (n :: ns)) () level2 junk =
                  .ok (0, log2)) ∧
              log2.getLast? = some last2 ∧
              ∀ size2 data2, allowed size2 0 data2 = log2.flatten → last2.length < 524288 →
                ∃ n3 r2, (∀ fuel, n3 ≤ fuel →
                    winExtract Z2 win ok fuel hdr item out size2 ⟨data2, false⟩ w2 = .ok r2) ∧
                  r2.hasError = false ∧
                  (C2.Final → CD2.Fits → ∀ c ∈ r2.codes, c = Z_OK) ∧
                  ((∀ c ∈ r2.codes, c = Z_OK) → 0 < r2.room ∨ C2.Prompt log2.flatten →
                    r2.ret = CT_DIRECTORY ∧ r2.w.cwd = w2.cwd ∧
                    WCopyOf w.fs l w2.fs r2.w.fs top (top ++ ns2.map win.same))) := by
  have he : env.sameFiles env.anyLinks := ⟨rfl, rfl, rfl, rfl⟩
  have H' : WShows win w env.anyLinks := ⟨H.list, H.stat, H.open'⟩
  have A' : WArchivable win w env.anyLinks p l := ⟨A.leads, A.isDir, A.files, A.top, A.short⟩
  obtain ⟨es, f, h1, h2, h3, h4, h5, h6, h7⟩ := A'.mirror ht H' fun _ => ⟨rfl, rfl⟩
  have hfl : Filter.noLinks acceptAll = keepFilter noLink := noLinks_all
  obtain ⟨s1, s2⟩ := select_prune noLink f p (f.pure_readable noLink h4 p)
  obtain ⟨p1, _, p3, p4⟩ := f.prune_noLink win p
  have hnil : f.prune noLink p ≠ .nil := by
    intro h
    obtain ⟨q, hq, hx⟩ := hne
    cases hn : w.fs (l ++ q) with
    | none => exact hx hn
    | some node =>
      have := (h7 [] q node hq).mpr hn
      rw [p4 h] at this
      cases this
  have hbits : ∀ m, m &&& 0o700 = 0o700 → Enterable os (dirMode os m) := fun m hm =>
    .inr ⟨ho.dir (k := 6) (by decide) (by decide) (bits700 (k := 6) hm (by decide)),
      ho.dir (k := 7) (by decide) (by decide) (bits700 (k := 7) hm (by decide))⟩
  have hpr : (f.prune noLink p).proper := by
    have := (select_proper (keepFilter noLink) f p ()).2 h3
    rw [s2] at this
    exact this
  have hnl := f.prune_links p
  have hwin := p3 h5
  have hsound : ∀ q nd, (f.prune noLink p).lookup os q = some nd → nd.sound os :=
    h2.sound (env := env.anyLinks) os hdirs hfiles
  have hshort : ∀ q nd, (f.prune noLink p).lookup os q = some nd → (slashed q).length ≤ 240 := by
    intro q nd hx
    rcases List.eq_nil_or_concat q with rfl | ⟨q', x, rfl⟩
    · simp [slashed]
    · rw [List.concat_eq_append] at hx ⊢
      have hw := (f.prune noLink p).lookup_names hwin hnl _ _ hx
      obtain ⟨es', a, e, b, rfl⟩ := SpelledIn.last x q' p es h1 (h2.spelled os _ (by rw [hx]; simp))
      have := A'.short q' es' e (fun y hy => hw y (by simp [hy])) a b (hw _ (by simp))
      rw [slashed_snoc]
      change (p ++ slashed q').length + 1 + e.name.length ≤ 240 at this
      simp only [List.length_append, List.length_cons] at this ⊢
      omega
  obtain ⟨n1, log, last, c1, c2, c3⟩ := C39_round_trip_partial CD C env.anyLinks henv (keepFilter noLink)
    h1 h2 () level z hz junk hj (by rw [s1]; decide) (by rw [s2]; exact hnil) ok hok hdr item hh hi os hq w'
    ht' pre h0 d hd hod n ns hn hnew (hbits _ (by decide)) hlen h3
    (by rw [s2]; exact f.prune_enterable os (h2.enterable (env := env.anyLinks) fun q es hq => hbits _ (hdirs q es hq)) p)
    (by rw [s2]; exact hnl)
  refine ⟨n1, log, last, fun fuel hfu => ?_, c2, fun size data hal hb => ?_⟩
  · rw [C110_no_links D he acceptAll fuel (fn := .plain) (by intro xs h; cases h), hfl]
    exact c1 fuel hfu
  obtain ⟨n0, r, x1, x3, x4⟩ := c3 size data hal hb
  refine ⟨n0, r, x1, x3, fun a b => ?_⟩
  obtain ⟨y1, y2, y3⟩ := x4 a b
  rw [s2] at y3
  refine ⟨y1, ?_⟩
  intro plain2 D2 Z2 CD2 C2 env2 henv2 HS level2 z2 hz2 w2 out top ns2 hw2
  have hc := Landed.copy hpr hsound y3
  have hdisk := Forest.disk_archivable ho hwin hnl hsound (fun q nd h => by have := hshort q nd h; omega)
  have hplace : ∀ q, q ≠ [] → r.w.fs (d ++ n :: ns ++ q) = (f.prune noLink p).lookup os q := by
    intro q hq
    cases q with
    | nil => exact absurd rfl hq
    | cons x q => exact y3.2.1 x q
  have hA2 : Archivable os r.w (pre ++ joinNames (n :: ns)) (d ++ n :: ns) :=
    hc.archivable rfl rfl rfl y2 ht' hdisk id ho h0 hd hod hn hnew (by
      intro q nd h
      rw [List.nil_append] at h
      by_cases hq : q = []
      · subst hq; simp; simp at hlim; omega
      · rw [Forest.disk_at hq] at h
        have := hshort q nd h
        simp only [slashed] at this
        omega)
  have htr : r.w.fs.tree := hc.tree (Forest.disk_tree hpr) ht' (by obtain ⟨m, hm, _⟩ := hod; exact ⟨m, hm⟩) hnew
  have hready : WinReady win r.w.fs (d ++ n :: ns) := by
    refine ⟨fun q x nd h _ => ?_, fun q x y nd nd' h _ h' _ e => ?_⟩
    · rw [List.append_assoc, hplace _ (by simp)] at h
      exact (f.prune noLink p).lookup_names hwin hnl _ _ h x (by simp)
    · rw [List.append_assoc, hplace _ (by simp)] at h h'
      exact (f.prune noLink p).lookup_apart hwin hnl q x y nd nd' h h' e
  have hne2 : ∃ q, q ≠ [] ∧ r.w.fs (d ++ n :: ns ++ q) ≠ none := by
    obtain ⟨q, hq, hx⟩ := hne
    cases hn : w.fs (l ++ q) with
    | none => exact absurd hn hx
    | some wn =>
      have := (h7 [] q wn hq).mpr hn
      rw [← p1] at this
      obtain ⟨x, xs, un, _, _, e, _⟩ := Forest.spot_lookup ho win _ hpr [] _ this
      exact ⟨x :: xs, by simp, by rw [hplace _ (by simp), e]; simp⟩
  obtain ⟨n2, log2, last2, g1, g2, g3⟩ := C115_to_windows_partial CD2 C2 htr henv2 HS hA2 hne2 level2 z2 hz2 junk hj
    ok hok hdr item hh hi win hqw hready w2 out top ns2 hw2
  refine ⟨n2, log2, last2, g1, g2, fun size2 data2 hal2 hb2 => ?_⟩
  obtain ⟨n3, r2, k1, k2, k3, k4⟩ := g3 size2 data2 hal2 hb2
  refine ⟨n3, r2, k1, k2, k3, fun a2 b2 => ?_⟩
  obtain ⟨e1, e2, e3⟩ := k4 a2 b2
  have hcopy : ∀ q, q ≠ [] → r2.w.fs (top ++ ns2.map win.same ++ q) = w.fs (l ++ q) := by
    intro q hq
    cases hx : w.fs (l ++ q) with
    | some wn =>
      have := (h7 [] q wn hq).mpr hx
      rw [← p1] at this
      obtain ⟨x, xs, un, t1, _, t2, t3⟩ := Forest.spot_lookup ho win _ hpr [] _ this
      simp only [List.nil_append] at t1
      obtain ⟨wn', u1, u2⟩ := e3.all (x :: xs) un (by simp) (by rw [hplace _ (by simp)]; exact t2) (Node.carries_solid t3)
      rw [← t1] at u1
      rw [u1, Node.carries_one u2 t3]
    | none =>
      cases hy : r2.w.fs (top ++ ns2.map win.same ++ q) with
      | none => rfl
      | some wn =>
        obtain ⟨ds, un, rfl, u2, u3⟩ := e3.only q wn hq hy
        have hds : ds ≠ [] := by rintro rfl; exact hq rfl
        rw [hplace ds hds] at u2
        obtain ⟨wn2, v1, _⟩ := Forest.lookup_spot ho win _ hnl _ _ [] u2
        rw [p1] at v1
        have := (h7 [] _ wn2 hq).mp v1
        rw [hx] at this
        cases this
  exact ⟨e1, e2, e3.way, hcopy, e3.rest⟩

end

open WinSample HLSample in
/-- The theorem for the sample directory, with the names `R` and `d`, extracted to `o/P` on Unix. -/
example := C116_back_partial queueDOK copyIOK win win_quiet source source_tree sourceEnv
  (fun _ => by simp [sourceEnv]) source_shows [115] [[99], [115]] source_archivable
  ⟨[[114]], by simp, by decide +kernel⟩ 6 [] rfl (List.replicate 120 0xEE) List.length_replicate
  (fun _ _ => true) (fun _ _ => rfl) hdrMem itemMem List.length_replicate List.length_replicate os os_quiet
  (by unfold OwnerKeeps; decide) (fun _ _ _ => by show 0o40777 &&& 0o700 = 0o700; decide)
  (fun p o m k h h' => by
    simp only [sourceEnv] at h
    split at h
    · cases h
    · split at h
      · rename_i ro c _
        cases h
        cases h'
        cases ro <;> decide
      · cases h)
  (world []) world_tree [] (by decide) _ .rel ⟨0o755, by decide +kernel, .inr (by decide)⟩ [111] [[80]] (by decide)
  (by decide +kernel) (by decide) (by decide)

namespace WinSample
open HLSample

/-- The places of the copy on Unix. -/
def stops : List Loc :=
  [[], [[104]], [[104], [119]], [[104], [119], [111]], [[104], [119], [111], [82]], [[104], [119], [111], [100]],
    [[104], [119], [111], [100], [102]]]

/-- `s` of the sample drive, through `o` on Unix, to `b` of another drive. -/
def thereAndBack : Run WExtracted :=
  match winCompressDir queueD sourceEnv acceptAll 20 .plain [115] () 6 (List.replicate 120 0xEE) with
  | .ok (_, log) =>
    match HLSample.run os log.flatten [111] (world []) with
    | .ok r =>
      match compressDir queueD (envOf os r.w stops) acceptAll 20 .plain [111] () 6 (List.replicate 120 0xEE) with
      | .ok (_, log) => winExtract copyI win (fun _ _ => true) 5 hdrMem itemMem [98] 0 ⟨log.flatten, false⟩ drive
      | .error e => .error e
    | .error e => .error e
  | .error e => .error e

end WinSample

open WinSample in
/-- The trip, executed: the protected file `R` and the directory `d` with the empty file `f` are back. -/
example : view [[[99], [98]], [[99], [98], [114]], [[99], [98], [100]], [[99], [98], [100], [102]],
      [[99], [98], [108]], [[99], [120]]] thereAndBack =
    .done CT_DIRECTORY false [some .dir, some (.file true [1, 2]), some .dir, some (.file false []), none,
      some (.file false [5, 5])] := by
  decide +kernel

end Zwt
