import Verif.Proofs.Accept
import Verif.Proofs.RoundRun
import Verif.Proofs.WalkRun
import Verif.Props.Accept
import Verif.Props.Walk
import Verif.Spec.WalkSample

/-! C66: from a directory, through a compress and a decompress session, to the callbacks; and C26
for the archives that the compression functions write. -/

namespace Zwt

variable {D : Deflater} {Z : Inflater} {plain : Bytes → Bytes} {σ : Type}

theorem LinkSfx.balance_pre {a b : List Atom} (h : LinkSfx a b) (d : Nat) :
    balance d a = balance d b := by
  induction h generalizing d with
  | nil => rfl
  | same x _ ih =>
    cases x with
    | start ft nm it => cases ft <;> cases d <;> simpa [balance] using ih _
    | dirEnd => cases d <;> simp [balance, ih]
    | _ => cases d <;> simpa [balance] using ih _
  | link _ _ ih => cases d <;> simpa [balance] using ih _

/-- What a directory archive of the tree `f` has to tell its reader: `lg` are the callbacks made,
`pieces` the buffers of content, `all` whether everything has arrived. -/
def Tells (ok : AllocOracle) (f : Forest) (pieces : List Bytes) (lg : List Ev) (all : Prop) : Prop :=
  ∃ evs rest whole, ((lg = [] ∧ evs = []) ∨ lg = .drStart :: evs) ∧
    -- all there is to tell
    whole.map Atom.shape = f.shapes ∧
    -- has been told up to `rest`, except that the beginnings of link targets may be lost
    LinkSfx (atoms evs ++ rest) whole ∧
    (f.noLinks ∨ NoLinkCut ok pieces → atoms evs ++ rest = whole) ∧
    (Proto.idle.run evs).isSome ∧
    -- nothing is closed that was not opened, and in the end nothing is open
    balance 0 (atoms evs) ≠ none ∧
    (all → rest = [] ∧ balance 0 (atoms evs) = some 0 ∧ (lg = [] → f = .nil))

/-- The callbacks of an archive of a tree. -/
theorem archive_tells {junk t : Bytes} {f : Forest} (hj : junk.length = 120) (he : Encodes f t)
    (ok : AllocOracle) (hok : ∀ k n, ok k n = true) {P : Bytes} {pieces : List Bytes}
    {log : List Ev} {B : Nat} (hP : P <+: headerBytes 0 1 junk ++ t) (h : ArchiveLog ok B P pieces log) :
    Tells ok f pieces log (P = headerBytes 0 1 junk ++ t) := by
  obtain ⟨e1, e2, e3⟩ := C02_header_roundtrip 0 1 junk hj (by decide) (by decide)
  have e1' : (headerBytes 0 1 junk).length = 128 := e1
  have hdr : 128 ≤ P.length → P.take 128 = headerBytes 0 1 junk := by
    intro h
    rw [(take_header hP h).1, List.take_left' e1']
  obtain ⟨k', as, p1, p2⟩ := he.atomsOf ok hok 0
  obtain ⟨k'', as', q1, q2, q3⟩ := he.parse ok hok 0
  have pt := p1 []
  have qt := q1 []
  rw [List.append_nil, specParse_short _ _ [] (by simp)] at pt qt
  simp only [Parsed.after, List.append_nil] at pt qt
  obtain rfl : as = as' := by rw [pt] at qt; exact (Parsed.mk.inj qt).1
  have hnil : P.length ≤ 128 → Tells ok f pieces [] (P = headerBytes 0 1 junk ++ t) := by
    intro hl
    refine ⟨[], as, as, .inl ⟨rfl, rfl⟩, q2, LinkSfx.refl _, fun _ => rfl, rfl, by simp [atoms, balance], ?_⟩
    intro hh
    have ht : t = [] := by
      rw [hh, List.length_append, e1'] at hl
      exact List.length_eq_zero_iff.mp (by omega)
    subst ht
    have hf : f = .nil := C27_encoding_determines_tree he .nil
    subst hf
    have has : as = [] := by simpa [Forest.shapes] using q2
    exact ⟨has, by simp [atoms, balance], fun _ => rfl⟩
  cases h with
  | short h => exact hnil (by omega)
  | version h1 h2 => rw [hdr h1] at h2; exact absurd e2 h2
  | empty h1 h2 => exact hnil (by omega)
  | unknown h1 h2 h3 => rw [hdr h1] at h3; exact absurd e3 h3
  | @file hd _ h1 h2 h3 =>
    have := hdr (by rw [List.length_append]; omega)
    rw [List.take_left' h1] at this
    rw [this, e3] at h3
    exact absurd h3 (by decide)
  | @dir hd _ evs owed h1 h2 h3 h4 h5 h6 h7 h8 h9 h10 h11 h12 =>
    have hhd : hd = headerBytes 0 1 junk := by
      have := hdr (by rw [List.length_append]; omega)
      rwa [List.take_left' h1] at this
    subst hhd
    have hc : pieces.flatten <+: t := (List.prefix_append_right_inj _).mp hP
    have hpre : (specParse ok 0 pieces.flatten).atoms <+: as := by
      obtain ⟨v, rfl⟩ := hc
      have := specParse_prefix ok 0 pieces.flatten v
      rwa [pt] at this
    obtain ⟨v, hv⟩ := hpre
    have hb : balance 0 as = some 0 := by simpa [balance] using q3 0 []
    have hsfx : LinkSfx (atoms evs ++ (owed ++ v)) as := by
      rw [← hv, ← List.append_assoc]; exact h8.append_right v
    have hall : headerBytes 0 1 junk ++ pieces.flatten = headerBytes 0 1 junk ++ t → owed ++ v = [] := by
      intro hfull
      have hct : pieces.flatten = t := List.append_cancel_left hfull
      have hv0 : v = [] := by
        rw [hct, pt] at hv
        simpa using hv
      have ho : owed = [] := by
        by_cases ho : owed = []
        · exact ho
        · exfalso
          obtain ⟨ft, nm, it, a1, a2⟩ := h12 ho (by rw [hct, pt])
          rw [hct, pt] at h8
          have hm : Atom.start ft nm it ∈ as := by
            clear hsfx hv
            generalize hx : atoms evs ++ owed = x at h8 a1
            revert a1
            clear hx p1 p2 q1 q2 q3 pt qt hb hnil h9 h12 
            generalize hy : (Parsed.mk as (.inItem [])).atoms = y at h8
            have hy' : y = as := hy.symm
            subst hy'
            clear hy
            induction h8 with
            | nil => intro h; exact h
            | same a _ ih =>
              intro h
              rcases List.mem_cons.mp h with h | h
              · exact h ▸ List.mem_cons_self
              · exact List.mem_cons_of_mem _ (ih h)
            | link _ _ ih =>
              intro h
              rcases List.mem_cons.mp h with h | h
              · cases h
              · exact List.mem_cons_of_mem _ (ih h)
          obtain ⟨b1, b2⟩ := p2.padded ft nm it hm
          rcases a2 with a2 | a2
          · exact b1 a2
          · exact b2 a2.1 a2.2
      rw [ho, hv0]; rfl
    refine ⟨evs, owed ++ v, as, .inr rfl, q2, hsfx, ?_, h10, ?_, ?_⟩
    · intro hl
      rw [← hv, ← List.append_assoc]
      congr 1
      rcases hl with hl | hl
      · exact h8.eq_of_noLink (fun t ht => p2.noLinks hl t (by rw [← hv]; exact List.mem_append_left _ ht))
      · exact h9 hl
    · apply balance_after (b := owed ++ v)
      rw [hsfx.balance_pre, hb]
      simp
    · intro hfull
      have h0 := hall hfull
      refine ⟨h0, ?_, by simp⟩
      rw [h0, List.append_nil] at hsfx
      rw [hsfx.balance_pre, hb]

/-- Any part of an archive of a tree from its beginning, read through a session. -/
theorem session_tells (CD : DeflateOK D plain) (C : InflateOK Z plain) (hF : C.Final) {level : Int}
    {z : D.τ} (hz : D.init level = some z) {junk : Bytes} (hj : junk.length = 120) {f : Forest}
    {log : List Bytes} (hO : Open plain log.flatten) (hA : IsArchive plain junk f log) (ok : AllocOracle)
    (hok : ∀ k n, ok k n = true) (hdr item : Bytes) (hh : hdr.length = 128) (hi : item.length = 40)
    (E dBuf : Nat) (hd1 : 0 < uInt dBuf) (hd2 : uInt dBuf ≤ E) (ops : List SOp)
    (hops : ∀ op ∈ ops, op.sane E) (left : Bytes)
    (hleft : (ops.map SOp.data).flatten ++ left = log.flatten) :
    ∃ n1 rets l t, (∀ fuel, n1 ≤ fuel → sessRun ok fuel ops (Sess.create Z hdr item dBuf).1
        (Sess.create Z hdr item dBuf).2 = .ok (rets, l, t)) ∧ (∀ r ∈ rets, r = 0) ∧
      Tells ok f t.pieces t.log (left = [] ∧ (∀ b, log.getLast? = some b → b.length < 524288) ∧
        (0 < l.availOut ∨ C.Prompt log.flatten)) := by
  obtain ⟨tt, he, hs, b, hlast, hall⟩ := hA
  obtain ⟨e1, e2, e3⟩ := C02_header_roundtrip 0 1 junk hj (by decide) (by decide)
  have e1' : (headerBytes 0 1 junk).length = 128 := e1
  have hO' : Open plain ([] ++ (ops.map SOp.data).flatten) := by
    rw [← hleft] at hO
    exact hO.left C
  rw [← hleft] at hs
  have htake : ∀ h : Bytes, h.length = 128 → h <+: plain (ops.map SOp.data).flatten →
      h = headerBytes 0 1 junk := by
    intro h hl hp
    obtain ⟨u, hu⟩ := (hp.trans (C.mono _ left)).trans hs
    have := congrArg (List.take 128) hu
    rwa [List.take_left' hl, List.take_left' e1'] at this
  obtain ⟨n4, rets, l, t, q1, q2, q3, q4⟩ := sessRun_accepts C hF ok item hi E ops hops _ _ []
    (SInv.create C ok hdr item hh E dBuf ⟨hd1, hd2⟩) hO'
    (by intro h hl hp; rw [htake h hl hp]; exact e2)
    (by intro r hr; simp [Sess.create, LL.create, LL.setBuffer, LL.setup] at hr)
  rw [List.nil_append] at q1
  obtain ⟨P, p1, p2, p3⟩ := q1.archive hi
  refine ⟨n4, rets, l, t, q4, q2, ?_⟩
  have hT := archive_tells hj he ok hok ((p1.trans (C.mono _ left)).trans hs) p2
  obtain ⟨evs, rest, whole, a1, a2, a3, a4, a5, a6, a7⟩ := hT
  refine ⟨evs, rest, whole, a1, a2, a3, a4, a5, a6, fun ⟨r1, r2, r3⟩ => a7 ?_⟩
  rw [r1, List.append_nil] at hleft
  have hpl := hall (r2 b hlast)
  rw [← hleft] at hpl r3
  have hne : (ops.map SOp.data).flatten ≠ [] := by
    intro h0
    rw [h0, CD.plain_nil hz] at hpl
    have := congrArg List.length hpl
    rw [List.length_append, e1', List.length_nil] at this
    omega
  rcases p3 q3 r3 (.inl hne) with h | ⟨h, h'⟩
  · rw [h, hpl]
  · exfalso
    apply h'
    rw [htake (P.take 128) (by rw [List.length_take]; omega) ((List.take_prefix _ _).trans p1)]
    exact e2

/-- C66, what holds: let a directory be compressed and let what the callback got be supplied, in any
splits and with any output buffers, to a decompress session.  Then every call returns 0 and the
callbacks tell the selected tree: always its first entries; all of it when everything has been
supplied, the last piece leaves room in the 512 KiB output buffer, and the last `inflate` left room
in the output buffer of the reader.
Missing: targets of symbolic links cut by the end of an output buffer, which lose their beginning
(`C66_directory_streaming_false`); and full buffers, see C08 and C11. -/
theorem C66_directory_streaming_partial (CD : DeflateOK D plain) (hT : CD.Fits)
    (C : InflateOK Z plain) (hF : C.Final) (env : Env) (henv : env.ok) (flt : Filter σ)
    {dir : Bytes} {es : List Entry} {f : Forest} (hl : env.list dir = some es)
    (hm : Mirror env dir es f) (fs : σ) (level : Int) (z : D.τ) (hz : D.init level = some z)
    (junk : Bytes) (hj : junk.length = 120) (hst : (select flt dir f fs).status ≠ .failed) :
    ∃ n0 log, (∀ fuel, n0 ≤ fuel →
        compressDir D env flt fuel .plain dir fs level junk = .ok (0, log)) ∧
      ∀ (ok : AllocOracle), (∀ k n, ok k n = true) → ∀ (hdr item : Bytes), hdr.length = 128 →
      item.length = 40 → ∀ (E dBuf : Nat), 0 < uInt dBuf → uInt dBuf ≤ E → ∀ ops : List SOp,
      (∀ op ∈ ops, op.sane E) → ∀ left, (ops.map SOp.data).flatten ++ left = log.flatten →
      ∃ n1 rets l t, (∀ fuel, n1 ≤ fuel → sessRun ok fuel ops (Sess.create Z hdr item dBuf).1
          (Sess.create Z hdr item dBuf).2 = .ok (rets, l, t)) ∧ (∀ r ∈ rets, r = 0) ∧
        Tells ok (select flt dir f fs).forest t.pieces t.log
          (left = [] ∧ (∀ b, log.getLast? = some b → b.length < 524288) ∧
            (0 < l.availOut ∨ C.Prompt log.flatten)) := by
  obtain ⟨n0, log, g, rfl, h1, h2, h3⟩ := compressDir_good CD env henv flt .plain trivial hl hm fs level
    z hz junk hj hst
  exact ⟨n0, log, h1, fun ok hok hdr item hh hi E dBuf hd1 hd2 ops hops left hleft =>
    session_tells CD C hF hz hj (h2 hT) h3 ok hok hdr item hh hi E dBuf hd1 hd2 ops hops left hleft⟩

example := C66_directory_streaming_partial queueDOK queueDOK_fits copyIOK copyIOK_final sampleEnv sampleEnv_ok
  (keepFilter fun _ e => e.name ≠ [117]) sampleList sampleMirror () 6 [] rfl (List.replicate 120 0)
  List.length_replicate (by decide)

/-- C26, what holds, for archives written by each of the three directory functions (with or without
extra buffers): however the archive is split and whatever buffers are used, in the callbacks made so
far no directory is closed that was not opened, and when everything has arrived every directory has
been closed.  Missing: archives written by somebody else; compression that failed. -/
theorem C26_written_archives_partial (CD : DeflateOK D plain) (hT : CD.Fits)
    (C : InflateOK Z plain) (hF : C.Final) (env : Env) (henv : env.ok) (flt : Filter σ)
    (fn : DirFn) (hfn : fn.fits)
    {dir : Bytes} {es : List Entry} {f : Forest} (hl : env.list dir = some es)
    (hm : Mirror env dir es f) (fs : σ) (level : Int) (z : D.τ) (hz : D.init level = some z)
    (junk : Bytes) (hj : junk.length = 120) (hst : (select flt dir f fs).status ≠ .failed) :
    ∃ n0 log, (∀ fuel, n0 ≤ fuel →
        compressDir D env flt fuel fn dir fs level junk = .ok (0, log)) ∧
      ∀ (ok : AllocOracle), (∀ k n, ok k n = true) → ∀ (hdr item : Bytes), hdr.length = 128 →
      item.length = 40 → ∀ (E dBuf : Nat), 0 < uInt dBuf → uInt dBuf ≤ E → ∀ ops : List SOp,
      (∀ op ∈ ops, op.sane E) → ∀ left, (ops.map SOp.data).flatten ++ left = log.flatten →
      ∃ n1 rets l t, (∀ fuel, n1 ≤ fuel → sessRun ok fuel ops (Sess.create Z hdr item dBuf).1
          (Sess.create Z hdr item dBuf).2 = .ok (rets, l, t)) ∧
        balance 0 (atoms t.log) ≠ none ∧
        (left = [] → (∀ b, log.getLast? = some b → b.length < 524288) →
          0 < l.availOut ∨ C.Prompt log.flatten → balance 0 (atoms t.log) = some 0) := by
  obtain ⟨n0, log, g, _, h1, h2, h3⟩ := compressDir_good CD env henv flt fn hfn hl hm fs level
    z hz junk hj hst
  refine ⟨n0, log, h1, fun ok hok hdr item hh hi E dBuf hd1 hd2 ops hops left hleft => ?_⟩
  obtain ⟨n1, rets, l, t, k1, _, evs, rest, whole, a1, a2, a3, a4, a5, a6, a7⟩ :=
    session_tells CD C hF hz hj (h2 hT) h3 ok hok hdr item hh hi E dBuf hd1 hd2 ops hops left hleft
  have hb : balance 0 (atoms t.log) = balance 0 (atoms evs) := by
    rcases a1 with ⟨h, h'⟩ | h
    · rw [h, h']
    · rw [h]; rfl
  refine ⟨n1, rets, l, t, k1, by rw [hb]; exact a6, fun r1 r2 r3 => ?_⟩
  rw [hb]
  exact (a7 ⟨r1, r2, r3⟩).2.1

/-- Example: the sample tree meets the hypotheses of C66 and C26. -/
example : queueDOK.Fits ∧ copyIOK.Final ∧ sampleEnv.ok ∧
    Mirror sampleEnv [114] ((sampleEnv.list [114]).getD []) sampleForest ∧
    (queueD.init 6).isSome ∧
    (select (keepFilter fun _ e => e.name ≠ [117]) [114] sampleForest ()).status ≠ .failed ∧
    (DirFn.root [⟨[97], [1], 0o600⟩]).fits :=
  ⟨queueDOK_fits, copyIOK_final, sampleEnv_ok, sampleMirror, by decide, by decide, fun x hx => by
    rw [List.mem_singleton.mp hx]; exact ⟨by decide, by decide, by decide⟩⟩

/-- A directory `r` with a symbolic link `l` to `xy`. -/
def linkEnv : Env where
  list p := if p = [114] then some [⟨[108], .symlink⟩] else none
  statMode _ := 0o755
  fopen _ := none
  lstat _ := (0o777, 2)
  readlink _ := some [120, 121]
  itemMem _ := List.replicate 40 0
  linkMem _ := []

/-- C66 is false: the link target of `linkEnv` lies across the end of an output buffer of 49 bytes,
and the reader is told that it is `y`. -/
theorem C66_directory_streaming_false :
    ¬ ∀ (D : Deflater) (Z : Inflater) (plain : Bytes → Bytes) (CD : DeflateOK D plain)
      (C : InflateOK Z plain), CD.Fits → C.Final → ∀ (env : Env) (dir : Bytes) (es : List Entry)
      (f : Forest), env.ok → env.list dir = some es → Mirror env dir es f →
      (select acceptAll dir f ()).status = .done →
      ∀ (fuel dBuf : Nat) (junk hdr item : Bytes) (log : List Bytes) (rets : List Int)
        (l : LL Z) (t : Sess), junk.length = 120 → hdr.length = 128 → item.length = 40 →
      0 < uInt dBuf → compressDir D env acceptAll fuel .plain dir () 6 junk = .ok (0, log) →
      (∀ b ∈ log, b.length < 524288) →
      sessRun (fun _ _ => true) fuel [.decompress 0 log.flatten] (Sess.create Z hdr item dBuf).1
        (Sess.create Z hdr item dBuf).2 = .ok (rets, l, t) → 0 < l.availOut →
      (atoms t.log).map Atom.shape = .drStart :: (select acceptAll dir f ()).forest.shapes := by
  intro h
  have key : (match compressDir queueD linkEnv acceptAll 20 .plain [114] () 6
        (List.replicate 120 0xEE) with
      | .ok (r, log) => decide (r = 0 ∧ ∀ b ∈ log, b.length < 1000) &&
          (match sessRun (fun _ _ => true) 20 [.decompress 0 log.flatten]
            (Sess.create copyI (List.replicate 128 0) (List.replicate 40 0) 49).1
            (Sess.create copyI (List.replicate 128 0) (List.replicate 40 0) 49).2 with
          | .ok (rets, l, t) => decide (rets = [0] ∧ 0 < l.availOut ∧
              (atoms t.log).map Atom.shape = [.drStart, .link [108] 0o777, .target [121]])
          | .error _ => false)
      | _ => false) = true := by decide +kernel
  split at key
  · rename_i r log e1
    simp only [Bool.and_eq_true, decide_eq_true_eq] at key
    obtain ⟨⟨rfl, k1⟩, key⟩ := key
    split at key
    · rename_i rets l t e2
      simp only [decide_eq_true_eq] at key
      obtain ⟨rfl, k2, k3⟩ := key
      have := h queueD copyI id queueDOK copyIOK queueDOK_fits copyIOK_final linkEnv [114] _
        (.link [108] 0o777 [120, 121] .nil) (fun _ => by simp [linkEnv]) rfl
        (.link (sample_fits (by decide) (by decide) (by decide)) (by decide) rfl rfl .nil) (by decide)
        20 49 _ _ _ log [0] l t List.length_replicate List.length_replicate List.length_replicate
        (by decide +kernel) e1 (fun b hb => Nat.lt_trans (k1 b hb) (by decide)) e2 k2
      rw [k3] at this
      exact absurd this (by decide)
    · simp at key
  · simp at key

end Zwt
