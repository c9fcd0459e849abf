import Verif.Proofs.Stack
import Verif.Proofs.Sample
import Verif.Spec.HLSample

/-! C85: the stack memory that extraction asks for. -/

namespace Zwt

open HLSample

/-- **C85** (false as stated).  The stack memory asked for is not bounded by the archive: a record
that announces a name of 2^32 − 1 bytes makes an archive of 176 bytes ask for more than 4 GiB, more
than any stack has.  (The name stored may be as short as one likes; nothing compares the two.) -/
theorem C85_stack_false :
    ∃ arc : Bytes, arc.length = 176 ∧
      ∀ limit, limit < 2 ^ 32 →
        ∃ a ∈ (extractS copyI os (fun _ _ => true) 5 hdrMem itemMem [111] 0 ⟨arc, false⟩
          (world [])).1, limit < a := by
  refine ⟨header CT_DIRECTORY ++ itemBytes ⟨0, 8, 4294967295, 8, 0o644, 0⟩ (List.replicate 11 0) ++
    List.replicate 8 97, by decide +kernel, fun limit hl => ?_⟩
  refine ⟨4294967300, ?_, by omega⟩
  have : (extractS copyI os (fun _ _ => true) 5 hdrMem itemMem [111] 0
      ⟨header CT_DIRECTORY ++ itemBytes ⟨0, 8, 4294967295, 8, 0o644, 0⟩ (List.replicate 11 0) ++
        List.replicate 8 97, false⟩ (world [])).1 = [4294967300] := by decide +kernel
  rw [this]
  exact List.mem_singleton.mpr rfl

variable {Z : Inflater} {plain : Bytes → Bytes}

/-- **C85** (partial: any archive).  Counting the stack memory changes nothing else.  In an
extraction that ends, no request exceeds the length of the output path plus that of the decompressed
archive; in one that does not (C42, C20), none exceeds this by 4 GiB.
Missing: the 4 GiB (`C85_stack_false`). -/
theorem C85_stack_partial (C : InflateOK Z plain) (ok : AllocOracle) (hdr item : Bytes)
    (hh : hdr.length = 128) (hi : item.length = 40) (os : Os) (out : Bytes) (w : World) (n : Nat)
    (inp : Input) :
    ∃ n0, ∀ fuel, n0 ≤ fuel →
      (extractS Z os ok fuel hdr item out n inp w).2 = extract Z os ok fuel hdr item out n inp w ∧
      ∀ a ∈ (extractS Z os ok fuel hdr item out n inp w).1,
        a < out.length + (plain (allowed n 0 inp.data)).length + 2 ^ 32 ∧
        ∀ r, extract Z os ok fuel hdr item out n inp w = .ok r →
          a ≤ out.length + (plain (allowed n 0 inp.data)).length := by
  obtain ⟨n0, P, pieces, log, p1, p2, p3⟩ := extractS_asks C ok hdr item hh hi os out w n inp
  refine ⟨n0, fun fuel hf => ⟨extractS_snd .., fun a ha => ?_⟩⟩
  obtain ⟨q1, q2⟩ := p3 fuel hf
  rw [q1] at ha
  obtain ⟨g1, g2⟩ := p2.asks os out w a ha
  have := p1.length_le
  refine ⟨by omega, fun r hr => ?_⟩
  obtain ⟨h', hh'⟩ := q2 r hr
  have := g2 h' hh'
  omega

/-- **C85** (partial: archives of trees).  Extracting a beginning of the archive of a directory tree
asks for no more stack memory than the longest path of a file needs, with the output path before it
and four bytes; whatever calls fail, and however much of the archive is there.
Missing: archives of anything but trees (`C85_stack_false`). -/
theorem C85_tree_partial (C : InflateOK Z plain) (ok : AllocOracle)
    (hdr item : Bytes) (hh : hdr.length = 128) (hi : item.length = 40) (os : Os) (out : Bytes)
    (h0 : 0 ∉ out) (w : World) (n : Nat) (inp : Input) (f : Forest) (hf : f.proper) (junk t : Bytes)
    (hj : junk.length = 120) (he : Encodes f t)
    (hp : plain (allowed n 0 inp.data) <+: headerBytes 0 CT_DIRECTORY junk ++ t) :
    ∃ n0, ∀ fuel, n0 ≤ fuel →
      ∀ a ∈ (extractS Z os ok fuel hdr item out n inp w).1, a ≤ out.length + 4 + f.longest := by
  obtain ⟨n0, P, pieces, log, p1, p2, p3⟩ := extractS_asks C ok hdr item hh hi os out w n inp
  refine ⟨n0, fun fuel hf' a ha => ?_⟩
  rw [(p3 fuel hf').1] at ha
  exact log_tree_asks hj he ok hf (p1.trans hp) p2 os out h0 w a ha

/-- A tree `a`, `d/bc`, `d/e/x`, extracted to `o/p`. -/
def stackTree : Forest :=
  .file [97] 0o644 [1] (.dir [100] 0o755 (.file [98, 99] 0o644 []
    (.dir [101] 0o755 (.file [120] 0o644 [2] .nil) .nil)) .nil)

/-- The requests of a run, with its end. -/
example : (extractS copyI os (fun _ _ => true) 5 hdrMem itemMem [111, 47, 112] 0
    ⟨dirArc stackTree, false⟩ (world [])).1 = [3 + 4 + 1, 5 + 4 + 2, 7 + 4 + 1] ∧
    stackTree.longest = 5 := by decide +kernel

example : stackTree.proper := by
  simp only [stackTree, Forest.proper, Forest.names]
  decide

example : Encodes stackTree (encode stackTree) := encodes _ (by decide)

example : ∃ n0, ∀ fuel, n0 ≤ fuel →
    ∀ a ∈ (extractS copyI os (fun _ _ => true) fuel hdrMem itemMem [111, 47, 112] 0
      ⟨dirArc stackTree, false⟩ (world [])).1, a ≤ 3 + 4 + 5 :=
  C85_tree_partial copyIOK _ _ _ List.length_replicate List.length_replicate os _ (by decide) _ 0
    ⟨dirArc stackTree, false⟩ stackTree
    (by simp only [stackTree, Forest.proper, Forest.names]; decide) (List.replicate 120 0xEE)
    (encode stackTree) List.length_replicate (encodes _ (by decide)) (List.prefix_refl _)

end Zwt
