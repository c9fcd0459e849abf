import Verif.Props.Layout
import Verif.Props.Stream

/-! C74: reading a directory archive. -/

namespace Zwt

variable {Z : Inflater} {plain : Bytes → Bytes}

/-- C74, reading: what decodes to the bytes of a directory archive of the tree `f`, from whatever program
it comes, is told entry by entry, in any splits and with any buffers; at the end nothing is missing. -/
theorem C74_directory_read (C : InflateOK Z plain) (ok : AllocOracle) (hok : ∀ k n, ok k n = true)
    (hdr item : Bytes) (hh : hdr.length = 128) (hi : item.length = 40) (B bufSize : Nat)
    (hb : 0 < uInt bufSize ∧ uInt bufSize ≤ B) (ops : List SOp) (hops : ∀ op ∈ ops, op.sane B)
    (junk t : Bytes) (hj : junk.length = 120) (f : Forest) (hf : Layout f t)
    (hp : plain (ops.map SOp.data).flatten = [0, 0, 0, 0, 1, 0, 0, 0] ++ junk ++ t) :
    ∃ n0 rets l s, (∀ fuel, n0 ≤ fuel →
        sessRun ok fuel ops (Sess.create Z hdr item bufSize).1 (Sess.create Z hdr item bufSize).2 =
          .ok (rets, l, s)) ∧
      Tells ok f s.pieces s.log ((∀ r ∈ l.rets, r = Z_OK) ∧
        (0 < l.availOut ∨ C.Prompt (ops.map SOp.data).flatten) ∧ (ops.map SOp.data).flatten ≠ []) := by
  have hhd : [0, 0, 0, 0, 1, 0, 0, 0] ++ junk = headerBytes 0 1 junk := rfl
  rw [hhd] at hp
  obtain ⟨e1, e2, e3⟩ := C02_header_roundtrip 0 1 junk hj (by decide) (by decide)
  have e1' : (headerBytes 0 1 junk).length = 128 := e1
  have hv : hdrVersion ((plain (ops.map SOp.data).flatten).take 128) = 0 := by
    rw [hp, List.take_left' e1']; exact e2
  obtain ⟨n0, h⟩ := C13_header_any_split C ok hdr item hh hi B bufSize hb ops hops
  rcases h with ⟨rets, l, s, P, h1, h2, h3, h4⟩ | ⟨_, h, _⟩
  · refine ⟨n0, rets, l, s, h1, ?_⟩
    have hT := archive_tells hj ((C74_layout f t).mpr hf) ok hok (by rw [← hp]; exact h2) h3
    obtain ⟨evs, rest, whole, t1, t2, t3, t4, t5, t6, t7⟩ := hT
    refine ⟨evs, rest, whole, t1, t2, t3, t4, t5, t6, fun ⟨k1, k2, k3⟩ => t7 ?_⟩
    rcases h4 k1 k2 k3 with h | ⟨hl, h⟩
    · rw [h, hp]
    · rw [(take_header h2 hl).1] at h
      exact absurd hv h
  · exact absurd hv h

/-- Example: the file `a` with the two bytes 7, 8, written out byte by byte and not by this library, fed
in two pieces. -/
example := C74_directory_read copyIOK (fun _ _ => true) (fun _ _ => rfl) (List.replicate 128 0)
    (List.replicate 40 0) rfl rfl 100 100 (by decide +kernel)
    [.decompress 0 ([0, 0, 0, 0, 1, 0, 0, 0] ++ List.replicate 120 9 ++ [2, 0]),
      .decompress 0 ([0,0,0,0,0,0, 8,0,0,0,0,0,0,0, 1,0,0,0, 8,0,0,0, 0xA4,1,0,0, 0,
        9,9,9,9,9,9,9,9,9,9,9, 97, 0,0,0,0,0,0,0, 7, 8, 0,0,0,0,0,0])]
    (by
      intro op hm
      simp only [List.mem_cons, List.not_mem_nil, or_false] at hm
      rcases hm with rfl | rfl <;> exact ⟨.inl rfl, by decide +kernel⟩)
    (List.replicate 120 9)
    [2,0,0,0,0,0,0,0, 8,0,0,0,0,0,0,0, 1,0,0,0, 8,0,0,0, 0xA4,1,0,0, 0, 9,9,9,9,9,9,9,9,9,9,9,
      97, 0,0,0,0,0,0,0, 7, 8, 0,0,0,0,0,0] rfl (.file [97] 0o644 [7, 8] .nil)
    (by
      have := Layout.file (name := [97]) (content := [7, 8]) (r := List.replicate 11 9) (mode := 0o644)
        (p := 7) (q := 6) (by decide) (by decide) (by decide) (by decide) (by decide) (by decide) .nil
      have e : ([2,0,0,0,0,0,0,0, 8,0,0,0,0,0,0,0, 1,0,0,0, 8,0,0,0, 0xA4,1,0,0, 0,
        9,9,9,9,9,9,9,9,9,9,9, 97, 0,0,0,0,0,0,0, 7, 8, 0,0,0,0,0,0] : Bytes) =
          record 2 8 1 8 0o644 0 (List.replicate 11 9) ++
          [97] ++ List.replicate 7 0 ++ [7, 8] ++ List.replicate 6 0 ++ [] := by decide +kernel
      rw [e]
      exact this)
    (by decide +kernel)

end Zwt
