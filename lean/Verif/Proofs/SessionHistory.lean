import Verif.Proofs.SessionRun
import Verif.Proofs.DirSeen
import Verif.Spec.Session

/-! A whole history of calls on an archive session, in terms of `ArchiveLog`. -/

namespace Zwt

variable {Z : Inflater} {plain : Bytes → Bytes}

theorem dataLog_archive (ok : AllocOracle) (B : Nat) (junk h : Bytes) (hj : junk.length = 11)
    (ds : List Bytes) (hh : h.length = 128) (hv : hdrVersion h = 0) (hb : ∀ b ∈ ds, b.length ≤ B) :
    ArchiveLog ok B (h ++ ds.flatten) ds (dataLog ok junk h ds) := by
  cases ds with
  | nil => exact .empty (by simpa using hh) (by simpa using hv)
  | cons d ds =>
    have ht : (h ++ (d :: ds).flatten).take 128 = h := by
      rw [List.take_append_of_le_length (by omega), List.take_of_length_le (by omega)]
    simp only [dataLog]
    split
    · rename_i hk
      obtain ⟨s, evs, k1, k2, k3, k4, k5, k6, k7⟩ := feed_init_seen ok junk hj (d :: ds)
      have ho := owed ok s k2
      simp only [k1]
      exact .dir hh hv hk (by simp) hb ho.1 ho.2 k3.1 (fun hc => congrArg Parsed.atoms (k5 hc))
        (by rw [k4]; rfl) k6 k7
    · rename_i hk
      split
      · rename_i hk2
        exact .file hh hv hk2 (by simp) hb
      · rename_i hk2
        refine .unknown (by simp; omega) ?_ ?_ ?_ ?_ <;> rw [ht]
        · exact hv
        · exact hk
        · exact fun h => hk2 (.inl h)
        · exact fun h => hk2 (.inr h)

/-- The buffers handed to the data callbacks. -/
theorem DPh.shown {C : InflateOK Z plain} {ok : AllocOracle} {item0 : Bytes} {B : Nat} {l : LL Z}
    {s : Sess} {given h : Bytes} {ds : List Bytes} (D : DPh C ok item0 B l s given h ds)
    (hi : item0.length = 40) : s.pieces = ds := by
  obtain ⟨s0, b1, _, _, b4, b5⟩ := D.start
  rw [b5, foldl_pieces ok ds _ ⟨by simp [startSess], by simp [startSess],
    by intro _; simp [startSess, b1, hi]⟩]
  simp [startSess, b4.2]

/-- Everything about a history of calls on an archive session. -/
theorem session_history (C : InflateOK Z plain) (ok : AllocOracle) (hdr item : Bytes)
    (hh : hdr.length = 128) (hi : item.length = 40) (B bufSize : Nat)
    (hb : 0 < uInt bufSize ∧ uInt bufSize ≤ B) (ops : List SOp) (hops : ∀ op ∈ ops, op.sane B) :
    ∃ n0, (∃ rets l s P, (∀ fuel, n0 ≤ fuel →
        sessRun ok fuel ops (Sess.create Z hdr item bufSize).1 (Sess.create Z hdr item bufSize).2 =
          .ok (rets, l, s)) ∧
        P <+: plain (ops.map SOp.data).flatten ∧ ArchiveLog ok B P s.pieces s.log ∧
        ((∀ r ∈ l.rets, r = Z_OK) → 0 < l.availOut ∨ C.Prompt (ops.map SOp.data).flatten →
          (ops.map SOp.data).flatten ≠ [] →
          P = plain (ops.map SOp.data).flatten ∨ (128 ≤ P.length ∧ hdrVersion (P.take 128) ≠ 0))) ∨
      (128 ≤ (plain (ops.map SOp.data).flatten).length ∧
        hdrVersion ((plain (ops.map SOp.data).flatten).take 128) ≠ 0 ∧
        ∀ fuel, n0 ≤ fuel →
          sessRun ok fuel ops (Sess.create Z hdr item bufSize).1
            (Sess.create Z hdr item bufSize).2 = .error .assertFail) := by
  obtain ⟨n0, h⟩ := sessRun_good C ok item hi B ops hops _ _ []
    (SInv.create C ok hdr item hh B bufSize hb)
  rw [List.nil_append] at h
  refine ⟨n0, ?_⟩
  rcases h with ⟨rets, l, s, D, hrun⟩ | ⟨h, h1, h2, h3, h4⟩
  · left
    cases D with
    | header D =>
      obtain ⟨c, p, hr, hal⟩ := D.st
      by_cases hdead : C.Dead l.z
      · refine ⟨rets, l, s, [], hrun, List.nil_prefix, ?_, ?_⟩
        · rw [D.log.1, D.log.2]; exact .short (by simp)
        · intro hok
          obtain ⟨r, r1, r2⟩ := D.deadRet hdead
          exact absurd (hok r r1) r2
      · obtain ⟨a1, _, _, a4, _, a6⟩ := hal hdead
        refine ⟨rets, l, s, p, hrun, by rw [← a1]; exact C.sound hr, ?_, ?_⟩
        · rw [D.log.1, D.log.2]; exact .short a4
        · intro _ _ hne; exact .inl (a6 hne)
    | data h ds D =>
      obtain ⟨s0, b1, b2, b3, b4, b5⟩ := D.start
      refine ⟨rets, l, s, h ++ ds.flatten, hrun, D.pre, ?_, fun h1 h2 _ => .inl (D.full h1 h2)⟩
      rw [D.shown hi, b5, startSess_log ok s0 h (by rw [b1]; exact hi) b2 b3 b4.1 ds]
      exact dataLog_archive ok B _ h (by simp [b1, hi]) ds D.hLen D.version D.pieces
    | bad h D =>
      have ht : h.take 128 = h := List.take_of_length_le (by rw [D.hLen]; omega)
      refine ⟨rets, l, s, h, hrun, D.pre, ?_, fun _ _ _ => .inr ⟨by rw [D.hLen]; omega, ?_⟩⟩
      · rw [D.log]
        exact .version (by rw [D.hLen]; omega) (by rw [ht]; exact D.version)
      · rw [ht]; exact D.version
  · right
    have := h3.length_le
    refine ⟨by omega, ?_, h4⟩
    obtain ⟨t, ht⟩ := h3
    rw [← ht, List.take_append_of_le_length (by omega), List.take_of_length_le (by omega)]
    exact h2

end Zwt
