import Verif.Proofs.Faults
import Verif.Spec.HLSample

/-! C108: in which ways the extraction of a hostile archive can go wrong. -/

namespace Zwt

variable {Z : Inflater} {plain : Bytes → Bytes}

/-- C108, the faults there are, and when.  Whatever the archive, the file system and the system do, an
extraction that does not return has met one of these:
* an archive of another version (an assertion);
* an archive of a single file, when the output cannot be opened (a null pointer);
* an end of a directory when the output directory has not been created (a null pointer), or when the
  path has no slash left (an assertion);
* a record with a length of the name beyond the stored name, or a link without terminators (a read
  beyond an allocation).
In particular nothing is freed twice or used after that, nothing is written out of bounds, and the
process is not ended.  Missing: that none of these occur, which is false (`C108_memory_false`). -/
theorem C108_faults_partial (C : InflateOK Z plain) (ok : AllocOracle) (hdr item : Bytes)
    (hh : hdr.length = 128) (hi : item.length = 40) (os : Os) (out : Bytes) (w : World) (n : Nat)
    (inp : Input) :
    ∃ n0 X, (∀ fuel, n0 ≤ fuel → extract Z os ok fuel hdr item out n inp w = X) ∧
      ∀ e, X = .error e →
        (e = .assertFail ∧ 128 ≤ (plain (allowed n 0 inp.data)).length ∧
          hdrVersion ((plain (allowed n 0 inp.data)).take 128) ≠ 0) ∨
        (e = .nullDeref ∧ (hdrKind ((plain (allowed n 0 inp.data)).take 128) = CT_FILE ∨
            hdrKind ((plain (allowed n 0 inp.data)).take 128) = CT_BLOB) ∧
          (sysOpen os w out FOPEN_MODE true).1 = none) ∨
        (hdrKind ((plain (allowed n 0 inp.data)).take 128) = CT_DIRECTORY ∧
          ((e = .nullDeref ∧
              Atom.dirEnd ∈ (specParse ok 0 ((plain (allowed n 0 inp.data)).drop 128)).atoms ∧
              ((mkdirRecurse os BASE_DIR_MODE out w).1 ≠ 0 ∨
                os.noMem (mkdirRecurse os BASE_DIR_MODE out w).2.calls = true)) ∨
            (e = .assertFail ∧
              Atom.dirEnd ∈ (specParse ok 0 ((plain (allowed n 0 inp.data)).drop 128)).atoms) ∨
            (e = .oobRead ∧
              ∃ a ∈ (specParse ok 0 ((plain (allowed n 0 inp.data)).drop 128)).atoms, a.sloppy))) := by
  obtain ⟨n0, X, h1, _, h3⟩ := extract_ends C ok hdr item hh hi os out w n inp
  refine ⟨n0, X, h1, ?_⟩
  intro e he
  cases h3 e he with
  | version a b c => exact .inl ⟨c, a, b⟩
  | callback a b c =>
    rcases b.split a with rfl | ⟨k, ds, rfl⟩ | ⟨k, evs, rfl, g1, g2, g3, _⟩
    · cases c
    · obtain ⟨f1, f2⟩ := hlEvents_file_fault os out w ds e c
      exact .inr (.inl ⟨f1, k, f2⟩)
    · refine .inr (.inr ⟨k, ?_⟩)
      rcases hlEvents_faults os out evs _ .idle trivial g1 e c with ⟨a1, a2, a3⟩ | ⟨a1, a2⟩ | ⟨a1, a2⟩
      · refine .inl ⟨a1, g3 _ a3 (fun t => by simp), ?_⟩
        rcases hlDirStart_made os out w with ⟨p, _⟩ | ⟨_, p⟩
        · rw [p] at a2; cases a2
        · exact p
      · exact .inr (.inl ⟨a1, g3 _ a2 (fun t => by simp)⟩)
      · refine .inr (.inr ⟨a1, ?_⟩)
        rcases a2 with ⟨a2, _⟩ | ⟨a, a2, a3⟩
        · cases a2
        · exact g2 a a2 a3

/-- C108, archives that are safe in this respect.  If lengths of names keep to the names, links have
their terminators, directories have no NUL in their names, and every end of a directory has its
start, the extraction returns, whatever else is in the archive (such as `..` in names), and whichever
calls the system refuses, as long as there is memory for paths. -/
theorem C108_defined_partial (C : InflateOK Z plain) (ok : AllocOracle) (hdr item : Bytes)
    (hh : hdr.length = 128) (hi : item.length = 40) (os : Os) (hmem : ∀ k, os.noMem k = false)
    (out : Bytes) (h0 : 0 ∉ out) (w : World) (n : Nat) (inp : Input)
    (hv : hdrVersion ((plain (allowed n 0 inp.data)).take 128) = 0)
    (hk : hdrKind ((plain (allowed n 0 inp.data)).take 128) = CT_DIRECTORY)
    (hs : ∀ a ∈ (specParse ok 0 ((plain (allowed n 0 inp.data)).drop 128)).atoms,
      ¬ a.sloppy ∧ ¬ a.nulDir)
    (hb : balance 0 (specParse ok 0 ((plain (allowed n 0 inp.data)).drop 128)).atoms ≠ none) :
    ∃ n0 r, ∀ fuel, n0 ≤ fuel → extract Z os ok fuel hdr item out n inp w = .ok r := by
  obtain ⟨n0, X, h1, _, h3⟩ := extract_ends C ok hdr item hh hi os out w n inp
  cases hX : X with
  | ok r => exact ⟨n0, r, fun f hf => by rw [h1 f hf, hX]⟩
  | error e =>
    exfalso
    cases h3 e hX with
    | version a b c => exact b hv
    | callback a b c =>
      rcases b.split a with rfl | ⟨k, ds, rfl⟩ | ⟨k, evs, rfl, g1, g2, g4, g5⟩
      · cases c
      · rw [hk] at k; exact absurd k (by decide)
      · have hp : pathDepth 0 (hlDirStart os out (HL.init w)).dirPath := by
          rcases hlDirStart_made os out w with ⟨p, _⟩ | ⟨p, _⟩ <;> rw [p]
          · exact ⟨h0, Nat.zero_le _⟩
          · rfl
        have hc : hlEvents os out (hlDirStart os out (HL.init w)) evs = .error e := c
        have := hlEvents_leave os hmem out evs _ .idle 0 trivial hp g1 (by
          intro a ha hn
          exact (hs a (g4 a ha (fun t h => by rw [h] at hn; exact hn))).2 hn) (g5 hb) e hc
        subst this
        rcases hlEvents_faults os out evs _ .idle trivial g1 _ hc with ⟨a1, _⟩ | ⟨a1, _⟩ | ⟨_, a2⟩
        · cases a1
        · cases a1
        · rcases a2 with ⟨a2, _⟩ | ⟨a, a2, a3⟩
          · cases a2
          · obtain ⟨a', x, y⟩ := g2 a a2 a3
            exact (hs a' x).1 y

namespace HLSample

/-- A directory archive with a file `../x` and, in a directory `a/b`, a link with terminators in its
name and target; the directory ends once. -/
def oddArc : Bytes :=
  header CT_DIRECTORY ++ encode (.file [46, 46, 47, 120] 0o640 [1] (.dir [97, 47, 98] 0o755
    (.link [108] 0o777 [116, 0] .nil) .nil))

/-- A file record that announces 100 bytes of name and stores 8. -/
def longNameArc : Bytes :=
  header CT_DIRECTORY ++ itemBytes ⟨0, 8, 100, 8, 0o640, 0⟩ (List.replicate 11 0xAA) ++
    List.replicate 16 97

/-- An end of a directory without a start. -/
def endArc : Bytes := header CT_DIRECTORY ++ (encode (.dir [97] 0o755 .nil .nil)).drop 48

end HLSample

open HLSample in
/-- The theorems for an archive with a file `../x` and, in a directory `a/b`, a link with its
terminators, while a call is refused. -/
example := C108_defined_partial copyIOK (fun _ _ => true) hdrMem itemMem (by decide +kernel)
  (by decide +kernel) { os with refuses := fun k => k == 3 } (fun _ => rfl) [111] (by decide) (world [])
  0 ⟨oddArc, false⟩ (by decide +kernel) (by decide +kernel) (by decide +kernel) (by decide +kernel)

open HLSample in
example := C108_faults_partial copyIOK (fun _ _ => true) hdrMem itemMem (by decide +kernel)
  (by decide +kernel) os [111] (world []) 0 ⟨longNameArc, false⟩

open HLSample in
/-- Faults of the list occur (for another version see `C16_version_rejected_false`). -/
example :
    view [] (run os longNameArc [111] (world [])) = .fault .oobRead ∧
    view [] (run os endArc [111] (world [])) = .fault .assertFail ∧
    view [] (run os endArc [111] (world [([[104], [119], [111]], .dir 0o755)])) = .fault .nullDeref ∧
    view [] (run os (fileArc [1]) [111] (world [([[104], [119], [111]], .dir 0o755)])) =
      .fault .nullDeref := by
  decide +kernel

open HLSample in
/-- C108 is false: a record of an archive that announces a longer name than it stores makes the
extraction read beyond an allocation.  (Nothing is refused, and the archive has no links.) -/
theorem C108_memory_false :
    ¬ ∀ (Z : Inflater) (plain : Bytes → Bytes) (_ : InflateOK Z plain) (ok : AllocOracle)
      (fuel : Nat) (hdr item : Bytes) (os : Os) (out : Bytes) (w : World) (size : Nat) (inp : Input),
      hdr.length = 128 → item.length = 40 → os.quiet →
      (∀ t, Atom.link t ∉ (specParse ok 0 ((plain (allowed size 0 inp.data)).drop 128)).atoms) →
      extract Z os ok fuel hdr item out size inp w ≠ .error .oobRead := by
  intro h
  have key : view [] (run os longNameArc [111] (world [])) = .fault .oobRead := by decide +kernel
  refine h copyI id copyIOK (fun _ _ => true) 5 hdrMem itemMem os [111] (world []) 0 ⟨longNameArc, false⟩
    (by decide +kernel) (by decide +kernel) os_quiet (fun t ht => ?_) (view_fault key)
  have : ∀ a ∈ (specParse (fun _ _ => true) 0 ((id (allowed 0 0 longNameArc)).drop 128)).atoms,
      (match a with | .link _ => false | _ => true) = true := by decide +kernel
  exact absurd (this _ ht) (by simp)

end Zwt
