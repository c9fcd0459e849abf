import Verif.Proofs.Dest
import Verif.Props.Compress
import Verif.Props.LLDecompress

/-! C95: changing the callback of a session. -/

namespace Zwt

variable {D : Deflater} {Z : Inflater} {plain : Bytes → Bytes} {κ : Type}

/-- C95, compression.  Whatever calls are made on a session with positive output buffers and inputs below
4 GiB, and whatever callbacks are set between the calls or by the callbacks themselves: all calls return 0,
the pieces in the order they were handed over are exactly what `deflate` has made of the header and all
inputs, and every piece, also those of the header, went to the callback set last before it. -/
theorem C95_compress_destinations (C : DeflateOK D plain) (act : Redirect κ) (kind : Nat) (level : Int)
    (z : D.τ) (hz : D.init level = some z) (k : κ) (B bufSize : Nat) (hb : 0 < uInt bufSize)
    (hB : uInt bufSize ≤ B) (junk : Bytes) (hj : junk.length = 120) (ops : List (DOp κ))
    (hops : ∀ op ∈ DOp.plainOps ops, op.sane B) (hsmall : ∀ op ∈ DOp.plainOps ops, op.small) :
    ∃ n0, ∀ fuel, n0 ≤ fuel → ∃ s0 s rets,
      DCS.create D act fuel kind level k bufSize junk = .ok (some s0) ∧
      compressToRun act fuel ops s0 = .ok (rets, s) ∧
      (∀ r ∈ rets, r = 0) ∧
      C.Rep s.z (headerBytes VERSION kind junk ++ ((DOp.plainOps ops).map COp.data).flatten)
        (DEv.pieces s.log).flatten ∧
      DEv.Directed s.log := by
  obtain ⟨s0, s, rets, n0, h1, h2, h3, _⟩ := C04_compress_hands_over_everything C kind level z hz B bufSize
    hb hB junk hj _ hops hsmall
  refine ⟨n0, fun fuel hf => ?_⟩
  obtain ⟨g1, g2⟩ := h1 fuel hf
  have hc := DCS.create_base (D := D) act fuel kind level k bufSize junk
  rw [g1] at hc
  cases hd : DCS.create D act fuel kind level k bufSize junk with
  | error e => rw [hd] at hc; cases hc
  | ok o =>
    rw [hd] at hc
    cases o with
    | none => cases hc
    | some d0 =>
      simp only [Option.map_some, Except.ok.injEq, Option.some.injEq] at hc
      have hr := compressToRun_base act fuel ops d0
      rw [hc, g2] at hr
      cases he : compressToRun act fuel ops d0 with
      | error e => rw [he] at hr; cases hr
      | ok p =>
        obtain ⟨rets', d⟩ := p
        rw [he] at hr
        simp only [Except.ok.injEq, Prod.mk.injEq] at hr
        refine ⟨d0, d, rets', rfl, he, by rw [hr.1]; exact h2, ?_,
          (compressToRun_good act fuel ops _ _ _
            (DCS.create_good act fuel kind level k bufSize junk _ hd) he).2⟩
        rw [← hr.2] at h3
        exact h3

/-- A new part is begun by the callback after three pieces. -/
def DestSample.act : Redirect Nat := fun log => if (DEv.pieces log).length = 3 then some 1 else none
/-- The history of the other examples, with another destination before the second input. -/
def DestSample.ops : List (DOp Nat) :=
  [.op (.compress [1, 2, 3]), .setCallback 2, .op (.setBuffer 7), .op (.compress [4])]

theorem DestSample.ops_plain : DOp.plainOps DestSample.ops = demoOps.take 3 := rfl

example := C95_compress_destinations queueDOK DestSample.act CT_BLOB 6 [] rfl 0 100 100 (by decide +kernel)
  (by decide +kernel) (List.replicate 120 0) (by decide +kernel) DestSample.ops
  (fun op h => demoOps_sane op (List.mem_of_mem_take (i := 3) h))
  (fun op h => demoOps_small op (List.mem_of_mem_take (i := 3) h))

/-- C95, decompression.  Whatever the input bytes and their split into calls, and whatever callbacks are set
between the calls or by the callbacks themselves: the pieces in the order they were handed over, whoever got
them, are a prefix of the decoded data, and every piece went to the callback set last before it. -/
theorem C95_decompress_destinations (C : InflateOK Z plain) (act : Redirect κ) (k : κ) (B size : Nat)
    (hs : 0 < uInt size) (hB : uInt size ≤ B) (ops : List (DLOp κ))
    (hops : ∀ op ∈ DLOp.plainOps ops, op.sane B) :
    ∃ n0, ∀ fuel, n0 ≤ fuel → ∃ rets l u,
      llToRun act fuel ops (LL.create Z size) (k, [.set k]) = .ok (rets, l, u) ∧
      (DEv.pieces u.2).flatten <+: plain ((DLOp.plainOps ops).map LLOp.data).flatten ∧
      DEv.Directed u.2 := by
  obtain ⟨rets, l, log, n0, h1, h2, _⟩ := C09_faithful_prefix C B size hs hB _ hops
  refine ⟨n0, fun fuel hf => ?_⟩
  have hr := llToRun_base act fuel ops (LL.create Z size) (k, [.set k])
  have h1 := h1 fuel hf
  rw [show DEv.pieces ((k, [DEv.set k]) : DestSt κ).2 = [] from rfl, h1] at hr
  cases he : llToRun act fuel ops (LL.create Z size) (k, [.set k]) with
  | error e => rw [he] at hr; cases hr
  | ok p =>
    obtain ⟨rets', l', u⟩ := p
    rw [he] at hr
    simp only [Except.ok.injEq, Prod.mk.injEq] at hr
    refine ⟨rets', l', u, rfl, by rw [hr.2.2]; exact h2,
      (llToRun_dest act fuel ops _ _ _ _ _ (Dest.Good.init k) he).2⟩

/-- C95.  Setting callbacks changes nothing but who gets the pieces: a history gives the same return codes,
the same pieces and the same final session as the history without the changes of the callback. -/
theorem C95_decompress_same (act : Redirect κ) (fuel : Nat) (ops : List (DLOp κ)) (l : LL Z) (k : κ) :
    (match llToRun act fuel ops l (k, [.set k]) with
      | .error e => .error e
      | .ok (r, l', u) => .ok (r, l', DEv.pieces u.2)) = llRun fuel (DLOp.plainOps ops) l [] := by
  rw [← show DEv.pieces ((k, [DEv.set k]) : DestSt κ).2 = [] from rfl, ← llToRun_base act]
  cases llToRun act fuel ops l (k, [.set k]) <;> rfl

/-- The first three bytes go to destination 0; the callback then sends the rest to 1. -/
example : (llToRun DestSample.act 20 [.op (.decompress 0 [1, 2, 3, 4, 5]), .setCallback 2,
    .op (.decompress 0 [6])] (LL.create copyI 1) (0, [.set 0])).toOption.map (·.2.2.2) =
    some [.set 0, .piece 0 [1], .piece 0 [2], .piece 0 [3], .set 1, .piece 1 [4], .piece 1 [5], .set 2,
      .piece 2 [6]] := by decide +kernel

example := C95_decompress_destinations copyIOK DestSample.act 0 3 1 (by decide +kernel) (by decide +kernel)
  [.op (.decompress 0 [1, 2, 3, 4, 5]), .setCallback 2, .op (.decompress 0 [6])]
  (by simp only [DLOp.plainOps, List.mem_cons, List.not_mem_nil, or_false]
      rintro op (rfl | rfl) <;> exact ⟨rfl, by decide⟩)

end Zwt
