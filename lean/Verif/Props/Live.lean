import Verif.Proofs.Live
import Verif.Props.Walk

/-! C89: the archive may lie in the directory it is made of. -/

namespace Zwt

variable {σ : Type} {D : Deflater} {plain : Bytes → Bytes}

namespace LiveSample

/-- The archive is the file `b` of the directory `r`, written in blocks of 4096 bytes. -/
def own : Own := ⟨fun p => p == [114, 47, 98], 0o644, blockwise 4096⟩

theorem own_stream : own.Stream where
  mono := by intro n m h; simp only [own, blockwise]; omega
  le := by intro n; simp only [own, blockwise]; omega

theorem own_flushes : own.Flushes := by
  intro n m h; simp only [own, blockwise]; omega

theorem queueD_noShrink : NoShrink queueD := by
  intro fuel s s' data ret hb hd h
  unfold compress at h
  rw [take_uInt (by simp only [U32]; omega)] at h
  cases fuel with
  | zero => cases h
  | succ n =>
    simp only [compressLoop] at h
    split at h
    · rename_i h0; cases h; rw [h0]; simp
    · simp only [queueD, hb] at h
      rw [if_neg (show ¬ (524288 : Nat) = 0 by decide)] at h
      simp only at h
      rw [if_neg (show ¬ Z_OK = Z_STREAM_ERROR by decide)] at h
      cases n with
      | zero => cases h
      | succ n =>
        simp only [compressLoop, List.drop_length, if_true] at h
        cases h
        simp only [List.flatten_append, List.length_append, List.flatten_cons, List.flatten_nil,
          List.append_nil, List.length_take]
        omega

/-- The files `a` with the given content, `b` (the archive), and `c`. -/
def env (data : Bytes) : Env where
  list p := if p = [114] then some [⟨[97], .file⟩, ⟨[98], .file⟩, ⟨[99], .file⟩] else none
  statMode _ := 0
  fopen p := if p = [114, 47, 97] then some ⟨some (0o644, data.length), data, false⟩
    else some ⟨some (0o644, 1), [1], false⟩
  lstat _ := (0, 0)
  readlink _ := none
  itemMem _ := List.replicate 40 0
  linkMem _ := []

def forest (data : Bytes) : Forest := .file [97] 0o644 data (.file [98] 0o644 [] (.file [99] 0o644 [1] .nil))

theorem mirror (data : Bytes) (h : data.length + 8 < 2 ^ 64) :
    Mirror (own.freeze (env data) ⟨some (own.mode, 0), [], false⟩) [114]
      [⟨[97], .file⟩, ⟨[98], .file⟩, ⟨[99], .file⟩] (forest data) :=
  .file (sample_fits (by decide) (by decide) (by decide)) h rfl
    (.file (sample_fits (by decide) (by decide) (by decide)) (by decide) rfl
      (.file (sample_fits (by decide) (by decide) (by decide)) (by decide) rfl .nil))

end LiveSample

open LiveSample

/-- C89: if the output file is none of the files listed, nothing is different. -/
theorem C89_elsewhere (D : Deflater) (own : Own) (env : Env) (flt : Filter σ) (fuel : Nat) (fn : DirFn)
    (dir : Bytes) (fs : σ) (level : Int) (junk : Bytes)
    (hno : ∀ d es e, env.list d = some es → e ∈ es → e.ty = .file →
      own.path (joinPath d e.name) = false) :
    (compressDirLive D own env flt fuel fn dir fs level junk).map (fun r => (r.1, r.2.1)) =
      compressDir D env flt fuel fn dir fs level junk := by
  unfold compressDirLive compressDir
  cases CS.create D fuel CT_DIRECTORY level DEF_CHUNK_SIZE junk with
  | error e => rfl
  | ok o =>
    cases o with
    | none => rfl
    | some s =>
      have hw : dirWritesLive own (ownContent own fuel s) env flt fuel fn dir fs =
          dirWrites env flt fuel fn dir fs := by
        unfold dirWritesLive dirWrites walk
        cases dirExtras env fn (⟨fs, false, false, [], []⟩ : W σ) with
        | error e => rfl
        | ok r =>
          obtain ⟨b, w⟩ := r
          cases b with
          | false => rfl
          | true =>
            simp only
            rw [iterate_congr _ (fun e he w => visitLive_eq env flt hno fuel dir e he w)]
            cases iterate (visit env flt fuel dir) ((env.list dir).getD []) w <;> rfl
      simp only [hw]
      cases dirWrites env flt fuel fn dir fs with
      | error e => rfl
      | ok r =>
        obtain ⟨ret, w⟩ := r
        simp only
        cases compressRun fuel (w.out.map .compress) s with
        | error e => rfl
        | ok r => rfl

/-- Another output file. -/
example := C89_elsewhere queueD { own with path := fun _ => false } (env [7]) acceptAll 9 .plain [114] () 6
    (List.replicate 120 0) (fun _ _ _ _ _ _ => rfl)

/-- C89, what holds: a run that ends, having accepted the output file at most once, has made the
archive of the directory with, in place of the output file, a beginning of the archive itself.  The
size noted for it is that of a beginning as well, but not of the same one.
Missing: that runs end (`C89_endless`), and that the two sizes agree (`C89_corrupt_false`). -/
theorem C89_snapshot_partial (D : Deflater) (own : Own) (hst : own.Stream) (env : Env) (flt : Filter σ)
    (fuel : Nat) (fn : DirFn) (dir : Bytes) (fs : σ) (level : Int) (junk : Bytes) (ret : Int)
    (log : List Bytes) (shown : List (Bytes × Entry × Int))
    (h : compressDirLive D own env flt fuel fn dir fs level junk = .ok (ret, log, shown))
    (hone : shown.countP own.met ≤ 1) :
    ∃ a b, a ≤ b ∧ b ≤ log.flatten.length ∧
      compressDir D (own.freeze env ⟨some (own.mode, own.shown a), log.flatten.take (own.shown b), false⟩)
        flt fuel fn dir fs level junk = .ok (ret, log) := by
  unfold compressDirLive at h
  split at h
  · cases h
  · rename_i hc
    cases h
    exact ⟨0, 0, Nat.le_refl _, Nat.zero_le _, by simp only [compressDir, hc]⟩
  · rename_i s hc
    split at h
    · cases h
    · rename_i ret w hw
      split at h
      · cases h
      · rename_i s' hs'
        cases h
        obtain ⟨k0, k1⟩ := dirWritesLive_tracks (ownContent_grows hst fuel s) hw
        by_cases h0 : w.shown.countP own.met = 0
        · refine ⟨0, 0, Nat.le_refl _, Nat.zero_le _, ?_⟩
          have := k0 h0 _ (own.freeze_but env
            ⟨some (own.mode, own.shown 0), s'.log.flatten.take (own.shown 0), false⟩)
          simp only [compressDir, hc]
          rw [show own.freeze env _ = { env with fopen := (own.freeze env _).fopen } from rfl, this]
          simp only [hs']
        · obtain ⟨f, ⟨o1, o2, c1, c2, p1, p2, q1, q2, rfl⟩, hr⟩ := k1 (by omega)
          obtain ⟨r2, s2, e2, l2⟩ := compressRun_prefix p2 hs'
          obtain ⟨r1, s1, e1, l1⟩ := compressRun_prefix p1 e2
          simp only [ownContent, e1] at q1
          simp only [ownContent, e2] at q2
          cases q1
          cases q2
          refine ⟨s1.log.flatten.length, s2.log.flatten.length, l1.length_le, l2.length_le, ?_⟩
          have t2 : s'.log.flatten.take (own.shown s2.log.flatten.length) =
              s2.log.flatten.take (own.shown s2.log.flatten.length) := by
            obtain ⟨t, ht⟩ := l2
            rw [← ht, List.take_append_of_le_length (hst.le _)]
          have t1 : (s1.log.flatten.take (own.shown s1.log.flatten.length)).length =
              own.shown s1.log.flatten.length := by
            rw [List.length_take, Nat.min_eq_left (hst.le _)]
          rw [t1] at hr
          rw [t2]
          simp only [compressDir, hc, hr, hs']

/-- A run that meets the output file once. -/
example : ∃ log shown, own.Stream ∧ compressDirLive queueD own (env (List.replicate 3872 7)) acceptAll 5
    .plain [114] () 6 (List.replicate 120 0xEE) = .ok (0, log, shown) ∧ shown.countP own.met ≤ 1 := by
  have key : (match compressDirLive queueD own (env (List.replicate 3872 7)) acceptAll 5 .plain [114] () 6
        (List.replicate 120 0xEE) with
      | .ok (0, _, shown) => decide (shown.countP own.met ≤ 1)
      | _ => false) = true := by decide +kernel
  split at key
  · rename_i log shown hw
    exact ⟨log, shown, own_stream, hw, of_decide_eq_true key⟩
  · cases key

/-- C89, what holds: an archive that fits into the buffer of the output stream — nothing is written
to the file before it is complete — is the archive of the directory with the output file empty.
Missing: longer archives. -/
theorem C89_small_partial (C : DeflateOK D plain) (own : Own) (env : Env) (henv : env.ok)
    (flt : Filter σ) {dir : Bytes} {es : List Entry} {f : Forest} (hl : env.list dir = some es)
    (hm : Mirror (own.freeze env ⟨some (own.mode, 0), [], false⟩) dir es f) (fs : σ) (level : Int)
    (z : D.τ) (hz : D.init level = some z) (junk : Bytes) (hj : junk.length = 120)
    (hst : (select flt dir f fs).status ≠ .failed) :
    ∃ n0 log, IsArchive plain junk (select flt dir f fs).forest log ∧
      ((∀ n, n ≤ log.flatten.length → own.shown n = 0) → ∀ fuel, n0 ≤ fuel →
        ∃ shown, compressDirLive D own env flt fuel .plain dir fs level junk = .ok (0, log, shown)) := by
  obtain ⟨n0, log, h1, h2⟩ := C27_directory_archive C (own.freeze env ⟨some (own.mode, 0), [], false⟩)
    henv flt hl hm fs level z hz junk hj hst
  refine ⟨n0, log, h2, fun hsm fuel hf => ?_⟩
  have h := h1 fuel hf
  unfold compressDir at h
  split at h
  · cases h
  · cases h
  · rename_i s hc
    split at h
    · cases h
    · rename_i ret w hw
      split at h
      · cases h
      · rename_i s' hs'
        cases h
        refine ⟨w.shown, ?_⟩
        have hcalm : own.Quiet (ownContent own fuel s)
            (own.freeze env ⟨some (own.mode, 0), [], false⟩).fopen w := by
          refine .inr ⟨fun p hp => by simp [Own.freeze, hp], fun o ho => ?_⟩
          obtain ⟨r1, s1, e1, l1⟩ := compressRun_prefix ho hs'
          simp only [ownContent, e1, hsm _ l1.length_le, List.take_zero]
        have := dirWrites_follows (own.freeze_but env _) hw hcalm
        simp only [compressDirLive, hc, this, hs']

example := C89_small_partial queueDOK own (env [7]) (fun _ => List.length_replicate) acceptAll rfl
    (mirror [7] (by decide)) () 6 [] rfl (List.replicate 120 0) List.length_replicate (by decide)

/-- The archive of a small directory is below 4096 bytes. -/
example : (match compressDir queueD (own.freeze (env [7]) ⟨some (own.mode, 0), [], false⟩) acceptAll 9
      .plain [114] () 6 (List.replicate 120 0) with
    | .ok (0, log) => decide (log.flatten.length < 4096 ∧
        ∀ n ≤ log.flatten.length, own.shown n = 0)
    | _ => false) = true := by decide +kernel

/-- C89 is false: a directory that lists a file of at least 512 KiB before the output file cannot be
archived into it, if the data cannot be compressed: the archive grows as fast as it is read. -/
theorem C89_endless (C : DeflateOK D plain) (hD : NoShrink D) (own : Own) (hst : own.Stream)
    (hfl : own.Flushes) (env : Env) (henv : env.ok) {dir a b : Bytes} {rest : List Entry}
    {mode : Nat} {data : Bytes} (hl : env.list dir = some (⟨a, .file⟩ :: ⟨b, .file⟩ :: rest))
    (ha : FitsName dir a mode) (hb : FitsName dir b own.mode) (hao : own.path (pathOf dir a) = false)
    (hbo : own.path (pathOf dir b) = true)
    (hopen : env.fopen (pathOf dir a) = some ⟨some (mode, data.length), data, false⟩)
    (hbig : 524288 ≤ data.length) (hsmall : data.length + 8 < 2 ^ 64) (level : Int) (z : D.τ)
    (hz : D.init level = some z) (junk : Bytes) (hj : junk.length = 120) (fuel : Nat) :
    compressDirLive D own env acceptAll fuel .plain dir () level junk = .error .outOfFuel := by
  unfold compressDirLive
  obtain ⟨s0, m0, c1, _, c3, _⟩ := CS.create_good C CT_DIRECTORY level z hz DEF_CHUNK_SIZE
    (by unfold uInt; decide) junk hj
  cases hc : compress fuel { z := z, bufSize := uInt DEF_CHUNK_SIZE, log := [] }
      (headerBytes VERSION CT_DIRECTORY junk) with
  | error e => simp only [CS.create, hz, hc, compressLoop_fault _ hc]
  | ok r =>
    obtain ⟨ret, s⟩ := r
    have hret : ret = 0 ∧ s = s0 := by
      have e1 := c1 (max fuel m0) (Nat.le_max_right _ _)
      have e2 : compress (max fuel m0) { z := z, bufSize := uInt DEF_CHUNK_SIZE, log := [] }
          (headerBytes VERSION CT_DIRECTORY junk) = .ok (ret, s) :=
        compressLoop_mono (Nat.le_max_left _ _) _ _ hc
      simp only [CS.create, hz, e2] at e1
      split at e1
      · cases e1
      · rename_i h0
        cases e1
        exact ⟨Decidable.not_not.mp h0, rfl⟩
    obtain ⟨rfl, rfl⟩ := hret
    have hbuf : s.bufSize = 524288 := by rw [c3]; unfold uInt; decide
    simp only [CS.create, hz, hc]
    rw [if_neg (by decide)]
    simp only
    have key : dirWritesLive own (ownContent own fuel s) env acceptAll fuel .plain dir () =
        .error .outOfFuel := by
      simp only [dirWritesLive, dirExtras, hl, Option.getD_some]
      cases fuel with
      | zero => rfl
      | succ n =>
        have dot : ∀ {x : Bytes}, x ≠ [46] ∧ x ≠ [46, 46] → isDot x = false := by
          intro x hx; simp [isDot, hx.1, hx.2]
        generalize hseen : ownContent own (n+1) s = seen
        have hone : visitLive own seen env acceptAll (n+1) dir ⟨a, .file⟩ ⟨(), false, false, [], []⟩ =
            visitFile env (pathOf dir a) a ⟨(), false, false, [], [(dir, ⟨a, .file⟩, 0)]⟩ := by
          simp only [visitLive, dot ha.notDot, acceptAll, joinPath_eq ha.path, hao, visitEntry, W.ask]
          simp
        obtain ⟨r1, r2, _⟩ := readFile_ok data false
        obtain ⟨item, p, q, g1, g2, g3, g4, _⟩ := asFile_good
          (⟨(), false, false, [], [(dir, ⟨a, .file⟩, 0)]⟩ : W Unit) (henv 0) ha.name ha.mode hsmall (r2 rfl)
        have hvis : visitFile env (pathOf dir a) a ⟨(), false, false, [], [(dir, ⟨a, .file⟩, 0)]⟩ =
            .ok (0, ⟨(), false, false, [item, a, p] ++ (readFile data false).1 ++ [q],
              [(dir, ⟨a, .file⟩, 0)]⟩) := by
          simp only [visitFile, hopen, r1, List.length_nil]
          rw [g1]
          rfl
        rw [iterate_cons (hone.trans hvis), if_neg (by decide)]
        generalize hw1 : (⟨(), false, false, [item, a, p] ++ (readFile data false).1 ++ [q],
              [(dir, ⟨a, .file⟩, 0)]⟩ : W Unit) = w1
        have htwo : visitLive own seen env acceptAll (n+1) dir ⟨b, .file⟩ w1 =
            visitOwn own seen (n+1) env b (w1.ask acceptAll dir ⟨b, .file⟩) := by
          rw [← hw1]
          simp only [visitLive, dot hb.notDot, acceptAll, joinPath_eq hb.path, hbo]
          simp
        have hend : visitOwn own seen (n+1) env b (w1.ask acceptAll dir ⟨b, .file⟩) =
            .error .outOfFuel := by
          generalize hw : w1.ask acceptAll dir ⟨b, .file⟩ = w
          have hout : w.out = [item, a, p] ++ (readFile data false).1 ++ [q] := by rw [← hw, ← hw1]; rfl
          unfold visitOwn
          subst hseen
          cases hs : ownContent own (n+1) s w.out with
          | error e => simp only [ownContent_error hs]
          | ok c =>
            simp only
            obtain ⟨k, k1, k2, k3, k4⟩ := putItem_ok w
              (itemSized (env.itemMem w.out.length) b own.mode K_FILE c.length) hb.name
            rw [k4]
            simp only
            rw [readOwn_endless (fun o e => ownContent_error)
              (fun o c p c' => ownContent_step hD hfl hst hbuf o c p c')]
            intro c' hc'
            rw [Nat.zero_add]
            refine ownContent_ahead hD hfl hbuf ?_ ?_ hc' hst
            · have i1 := fun n => (itemSized_fields (m := env.itemMem n) (name := b) (mode := own.mode)
                (kind := K_FILE) (size := c.length) (henv _) hb.name (by decide)).1
              have la : a.length ≤ 4094 := by have := ha.path; simp [pathOf] at this; omega
              have lb : b.length ≤ 4094 := by have := hb.path; simp [pathOf] at this; omega
              intro x hx
              simp only [hout, List.mem_append, List.mem_cons, List.not_mem_nil, or_false] at hx
              rcases hx with (((rfl | rfl | rfl) | hx) | rfl) | rfl | rfl | rfl
              · omega
              · omega
              · omega
              · exact readFile_pieces _ _ x hx
              · omega
              · rw [i1]; omega
              · omega
              · rw [List.length_replicate]; omega
            · have := congrArg List.length (r2 rfl)
              simp only [hout, List.flatten_append, List.length_append]
              omega
        simp only [iterate, htwo, hend]
    rw [key]

/-- The directory `r` with 512 KiB that do not compress, listed before the archive. -/
example := C89_endless queueDOK queueD_noShrink own own_stream own_flushes
    (env (List.replicate 524288 7)) (fun _ => List.length_replicate) (dir := [114]) (a := [97]) (b := [98])
    (mode := 0o644) (data := List.replicate 524288 7) rfl
    (sample_fits (by decide) (by decide) (by decide)) (sample_fits (by decide) (by decide) (by decide))
    rfl rfl rfl (by rw [List.length_replicate]; decide) (by rw [List.length_replicate]; decide) 6 [] rfl
    (List.replicate 120 0) List.length_replicate

/-- C89 is false: there are directories that cannot be archived into a file in them; the call does not
return. -/
theorem C89_ends_false :
    ¬ ∀ (D : Deflater) (plain : Bytes → Bytes) (_ : DeflateOK D plain) (own : Own), own.Stream →
      ∀ (env : Env), env.ok → ∀ (dir : Bytes) (es : List Entry) (f : Forest), env.list dir = some es →
      Mirror (own.freeze env ⟨some (own.mode, 0), [], false⟩) dir es f →
      ∀ (level : Int) (z : D.τ), D.init level = some z → ∀ (junk : Bytes), junk.length = 120 →
      ∃ fuel r, compressDirLive D own env acceptAll fuel .plain dir () level junk = .ok r := by
  intro h
  obtain ⟨fuel, r, hr⟩ := h queueD id queueDOK own own_stream (env (List.replicate 524288 7))
    (fun _ => List.length_replicate) [114] _ (forest (List.replicate 524288 7)) rfl
    (mirror _ (by rw [List.length_replicate]; decide)) 6 [] rfl (List.replicate 120 0) List.length_replicate
  rw [C89_endless queueDOK queueD_noShrink own own_stream own_flushes
    (env (List.replicate 524288 7)) (fun _ => List.length_replicate) (dir := [114]) (a := [97]) (b := [98])
    (mode := 0o644) (data := List.replicate 524288 7) rfl
    (sample_fits (by decide) (by decide) (by decide)) (sample_fits (by decide) (by decide) (by decide))
    rfl rfl rfl (by rw [List.length_replicate]; decide) (by rw [List.length_replicate]; decide) 6 [] rfl
    (List.replicate 120 0) List.length_replicate fuel] at hr
  cases hr

/-- C89 is false: a call that returns 0 may have written an archive in which the files listed after the
output file are lost. -/
theorem C89_corrupt_false :
    ¬ ∀ (D : Deflater) (plain : Bytes → Bytes) (_ : DeflateOK D plain) (own : Own), own.Stream →
      ∀ (env : Env), env.ok → ∀ (dir name : Bytes) (es rest : List Entry) (f : Forest),
      env.list dir = some (es ++ ⟨name, .file⟩ :: rest) → own.path (pathOf dir name) = true →
      Mirror env dir rest f → ∀ (level : Int) (junk : Bytes), junk.length = 120 → ∀ fuel log shown,
      compressDirLive D own env acceptAll fuel .plain dir () level junk = .ok (0, log, shown) →
      shown.countP own.met = 1 →
      f.shapes <:+ (specParse (fun _ _ => true) 0 ((plain log.flatten).drop 128)).atoms.map Atom.shape := by
  intro h
  have key : (match compressDirLive queueD own (env (List.replicate 3872 7)) acceptAll 5 .plain [114] () 6
        (List.replicate 120 0xEE) with
      | .ok (0, log, shown) => decide (shown.countP own.met = 1 ∧
        ¬ (Forest.file [99] 0o644 [1] .nil).shapes <:+
          (specParse (fun _ _ => true) 0 (log.flatten.drop 128)).atoms.map Atom.shape)
      | _ => false) = true := by decide +kernel
  split at key
  · rename_i log shown hw
    have k := of_decide_eq_true key
    refine k.2 (h queueD id queueDOK own own_stream (env (List.replicate 3872 7))
      (fun _ => List.length_replicate) [114] [98] [⟨[97], .file⟩] [⟨[99], .file⟩] _ rfl rfl ?_ 6
      (List.replicate 120 0xEE) List.length_replicate 5 log shown hw k.1)
    exact .file (sample_fits (by decide) (by decide) (by decide)) (by decide) rfl .nil
  · cases key

end Zwt
