import Verif.Proofs.LedgerRun
import Verif.Spec.HLSample

/-! C34 for the extractions of `Model/HL.lean`. -/

namespace Zwt

variable {Z : Inflater} {plain : Bytes → Bytes}

/-- C34: the account of resources is that of the extractions modelled elsewhere.  Whatever the
archive, the output path, the file system and the failing calls: if `ZlibWtDecompressFileOrDir`
returns, there are the callbacks it made (`log`) and what they were left with (`h`), and however the
callbacks are spread over the calls of `ZlibWtDecompressBufferToCallback`, with the name reallocated
at any points between them, the account ends with what was held before plus `h.left`:
- without an error this is nothing for an archive of a file, the copy of the path for one of a
  directory, and the descriptor of a file if the archive ends inside it;
- if `ZlibWtDecompressFileOrDir` says that it extracted a file, nothing is left;
- if it says that it extracted a directory, memory is left.
Missing: C34 is false for directories (`C34_extract_directory_false`); reallocations of the name
that fail are in `C34_extract_partial`. -/
theorem C34_runs_partial (C : InflateOK Z plain) (ok : AllocOracle) (hdr item : Bytes)
    (hh : hdr.length = 128) (hi : item.length = 40) (os : Os) (out : Bytes) (w : World) (n : Nat)
    (inp : Input) :
    ∃ n0 X, (∀ fuel, n0 ≤ fuel → extractFile Z os ok fuel hdr item out n (some inp) w = X) ∧
      ∀ r, X = .ok r → ∃ P log h s, P <+: plain inp.data ∧
        ArchiveLog ok DEF_CHUNK_SIZE P r.pieces log ∧
        hlEvents os out (HL.init w) log = .ok h ∧ r.w = h.w ∧
        LState.start.run (log.map Ev.led) = some s ∧
        (r.hasError = false → h.left = s.keeps) ∧
        (r.ret = CT_FILE → h.left = []) ∧ (r.ret = CT_DIRECTORY → .block ∈ h.left) ∧
        ∀ (rounds : List (List LEv)) (l : Led), rounds.flatten.filter (· ≠ .name) = log.map Ev.led →
          ∃ o l' extra, ledExtractFile o rounds l = .ok (rounds.length, l') ∧
            l'.live.Perm (extra ++ l.live) ∧ extra.map (·.2) = h.left := by
  obtain ⟨n0, X, hX, hok, _⟩ := extract_ends C ok hdr item hh hi os out w n inp
  refine ⟨n0, X, hX, fun r hr => ?_⟩
  obtain ⟨P, log, h, D⟩ := hok r hr
  obtain ⟨s, hs⟩ := D.arch.kind.state
  have hfit := (sim_events (st := log.map Ev.led) (k := ⟨none, none, none, none⟩) (l := ⟨0, []⟩)
    (base := []) (List.filter_eq_self.2 (fun x hx => by
      obtain ⟨e, _, rfl⟩ := List.mem_map.1 hx
      simpa using e.led_ne_name)) hs ⟨rfl, rfl, rfl⟩ D.run
    ⟨rfl, rfl, .inl ⟨rfl, rfl⟩, List.Perm.refl _⟩).1
  have hsaid := said_events hs (show LState.start.Said (HL.init w) from rfl) D.run
  obtain ⟨c1, c2, c3⟩ := left_of hfit hsaid
  have hret : r.ret ≠ CT_NONE → r.ret = h.ret := fun hne => by
    rcases D.ret with h | ⟨h, _⟩
    · exact h
    · exact absurd h hne
  refine ⟨P, log, h, s, ?_, D.arch, D.run, D.world, hs, fun he => c1 (D.error ▸ he),
    fun he => c2 (hret (by rw [he]; decide) ▸ he), fun he => c3 (hret (by rw [he]; decide) ▸ he), ?_⟩
  · refine D.pre.trans ?_
    have : allowed n 0 inp.data <+: inp.data := by
      unfold allowed
      split
      · exact List.take_prefix _ _
      · exact List.prefix_refl _
    obtain ⟨t, ht⟩ := this
    have := C.mono (allowed n 0 inp.data) t
    rwa [ht] at this
  · intro rounds l hst
    obtain ⟨o, a, l', hrun, ha, extra, hp, he⟩ := (sim_extractFile l hst hs D.run).runs
    exact ⟨o, l', extra, ha ▸ hrun, hp, he⟩

open HLSample

/-- A directory with a file in it: the run returns, and says so. -/
example : view [[[104], [119], [111], [97]]] (run os
      (dirArc (.file [97] 0o644 [5, 6] .nil)) [111] (world [])) =
    .done CT_DIRECTORY [[104], [119]] [some (.file 0o644 [5, 6])] := by decide +kernel

example := C34_runs_partial copyIOK (fun _ _ => true) hdrMem itemMem rfl rfl os [111] (world []) 0
  ⟨dirArc (.file [97] 0o644 [5, 6] .nil), false⟩

/-- The account of that run, in two calls. -/
example : [[LEv.drStart, .name, .fileItem, .fileRead], [.fileEnd]].flatten.filter (· ≠ .name) =
      [Ev.drStart, .itemStart .file [97] [], .fileRead [5, 6], .fileEnd].map Ev.led ∧
    (LState.idle).keeps = [.block] := by decide

end Zwt
