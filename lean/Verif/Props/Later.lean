import Verif.Proofs.Later
import Verif.Proofs.FileArchive
import Verif.Proofs.Sample
import Verif.Props.HLRound

/-! C122: earlier extractions do not stand in the way of later ones. -/

namespace Zwt

variable {Z : Inflater} {plain : Bytes → Bytes}

/-- C122, directories: whatever was extracted before — any number of archives, sound or not, to any paths,
with any failures and interruptions — if the directory `d` could be used at first, and there is nothing at
the name `n` in it now, then the archive of a tree without links, extracted there, arrives completely and
changes nothing else. -/
theorem C122_later_tree (C : InflateOK Z plain) (hnil : plain [] = [])
    (ok : AllocOracle) (hok : ∀ k n, ok k n = true)
    (hdr item : Bytes) (hh : hdr.length = 128) (hi : item.length = 40)
    (os : Os) (hq : os.quiet)
    -- at first
    (w : World) (ht : w.fs.tree) (pre : Bytes) (h0 : 0 ∉ pre) (d : Loc) (hd : InDir os w pre d)
    (ho : OpenDir os w.fs d)
    -- now
    (w2 : World) (hE : Earlier w.fs w2.fs) (hcwd : w2.cwd = w.cwd) (n : Bytes)
    (ns : List Bytes) (hn : ∀ x ∈ n :: ns, PlainName x) (hnew : w2.fs (d ++ [n]) = none)
    (hen : Enterable os (dirMode os 0o775)) (hlen : ns.length ≤ 61)
    {f : Forest} (hf : f.proper)
    (hfe : f.enterable os) (hfl : f.noLinks) (hfn : f ≠ .nil) {junk t : Bytes} (hj : junk.length = 120)
    (he : Encodes f t) (size : Nat) (inp : Input) (hin : inp.err = false)
    (harc : plain (allowed size 0 inp.data) = headerBytes 0 1 junk ++ t) :
    ∃ n1 r, (∀ fuel, n1 ≤ fuel →
        extract Z os ok fuel hdr item (pre ++ joinNames (n :: ns)) size inp w2 = .ok r) ∧
      r.hasError = false ∧
      (C.Final → Open plain (allowed size 0 inp.data) → ∀ c ∈ r.codes, c = Z_OK) ∧
      ((∀ c ∈ r.codes, c = Z_OK) → 0 < r.room ∨ C.Prompt (allowed size 0 inp.data) →
        r.ret = CT_DIRECTORY ∧ r.w.cwd = w.cwd ∧ Landed os w2.fs r.w.fs d n ns f) := by
  have hkeep := hE.keeps
  obtain ⟨n1, X, x1, x2, x3⟩ := extract_tree C hnil ok hok hdr item hh hi os hq w2 (hE.tree ht) pre h0 d
    (hd.mono ho hkeep hcwd) (ho.mono hkeep) n ns hn hnew hen hlen hf hfe hfn hj he size inp hin harc
  obtain ⟨r, rfl⟩ := x2 hfl
  obtain ⟨y1, y2, y3⟩ := x3 r rfl (.inl hfl)
  refine ⟨n1, r, x1, y1, y2, fun hcodes hroom => ?_⟩
  obtain ⟨z1, z2, z3⟩ := y3 hcodes hroom
  exact ⟨z1, z2.trans hcwd, z3⟩

/-- C122, directories with links: the same if the working directory could be returned to at first and the
target of every link arrives in one piece (C19); extraction may end in a fault otherwise. -/
theorem C122_later_links (C : InflateOK Z plain) (hnil : plain [] = [])
    (ok : AllocOracle) (hok : ∀ k n, ok k n = true)
    (hdr item : Bytes) (hh : hdr.length = 128) (hi : item.length = 40)
    (os : Os) (hq : os.quiet)
    -- at first
    (w : World) (ht : w.fs.tree) (pre : Bytes) (h0 : 0 ∉ pre) (d : Loc) (hd : InDir os w pre d)
    (ho : OpenDir os w.fs d) (hcw : CwdOk os w.fs w.cwd)
    -- now
    (w2 : World) (hE : Earlier w.fs w2.fs) (hcwd : w2.cwd = w.cwd) (n : Bytes)
    (ns : List Bytes) (hn : ∀ x ∈ n :: ns, PlainName x) (hnew : w2.fs (d ++ [n]) = none)
    (hen : Enterable os (dirMode os 0o775)) (hlen : ns.length ≤ 61)
    {f : Forest} (hf : f.proper)
    (hfe : f.enterable os) (hfn : f ≠ .nil) {junk t : Bytes} (hj : junk.length = 120)
    (he : Encodes f t) (size : Nat) (inp : Input) (hin : inp.err = false)
    (harc : plain (allowed size 0 inp.data) = headerBytes 0 1 junk ++ t) :
    ∃ n1 X, (∀ fuel, n1 ≤ fuel →
        extract Z os ok fuel hdr item (pre ++ joinNames (n :: ns)) size inp w2 = X) ∧
      ∀ r, X = .ok r → LinksWhole ok r.pieces →
        r.hasError = false ∧
        (C.Final → Open plain (allowed size 0 inp.data) → ∀ c ∈ r.codes, c = Z_OK) ∧
        ((∀ c ∈ r.codes, c = Z_OK) → 0 < r.room ∨ C.Prompt (allowed size 0 inp.data) →
          r.ret = CT_DIRECTORY ∧ r.w.cwd = w.cwd ∧ Landed os w2.fs r.w.fs d n ns f) := by
  have hkeep := hE.keeps
  obtain ⟨n1, X, x1, _, x3⟩ := extract_tree C hnil ok hok hdr item hh hi os hq w2 (hE.tree ht) pre h0 d
    (hd.mono ho hkeep hcwd) (ho.mono hkeep) n ns hn hnew hen hlen hf hfe hfn hj he size inp hin harc
  refine ⟨n1, X, x1, fun r hr hw => ?_⟩
  obtain ⟨y1, y2, y3⟩ := x3 r hr (.inr ⟨by rw [hcwd]; exact hcw.mono hkeep, hw⟩)
  refine ⟨y1, y2, fun hcodes hroom => ?_⟩
  obtain ⟨z1, z2, z3⟩ := y3 hcodes hroom
  exact ⟨z1, z2.trans hcwd, z3⟩

/-- C122, files: the same for the archive of a file that is not empty, extracted to a name at which there
is nothing now, or a file that may be written. -/
theorem C122_later_file (C : InflateOK Z plain) (hnil : plain [] = []) {content : Bytes}
    (hc : content ≠ []) {junk : Bytes} (hj : junk.length = 120) (ok : AllocOracle)
    (hdr item : Bytes) (hh : hdr.length = 128) (hi : item.length = 40)
    (os : Os) (hq : os.quiet)
    -- at first
    (w : World) (pre : Bytes) (h0 : 0 ∉ pre) (d : Loc) (hd : InDir os w pre d) (ho : OpenDir os w.fs d)
    -- now
    (w2 : World) (hE : Earlier w.fs w2.fs) (hcwd : w2.cwd = w.cwd) (n : Bytes) (hn : PlainName n)
    (hx : w2.fs (d ++ [n]) = none ∨ ∃ m c, w2.fs (d ++ [n]) = some (.file m c) ∧ fileWritable os m = true)
    (size : Nat) (data : Bytes)
    (harc : plain (allowed size 0 data) = headerBytes 0 2 junk ++ content) :
    ∃ n1 r, (∀ fuel, n1 ≤ fuel →
        extract Z os ok fuel hdr item (pre ++ n) size ⟨data, false⟩ w2 = .ok r) ∧
      (C.Final → Open plain (allowed size 0 data) → ∀ c ∈ r.codes, c = Z_OK) ∧
      ((∀ c ∈ r.codes, c = Z_OK) → 0 < r.room ∨ C.Prompt (allowed size 0 data) →
        r.ret = CT_FILE ∧ r.w.cwd = w.cwd ∧ ∃ m, r.w.fs = w2.fs.put (d ++ [n]) (.file m content) ∧
          ∀ x, w2.fs (d ++ [n]) = some x → ∃ c, x = .file m c) := by
  have hkeep := hE.keeps
  obtain ⟨n1, r, r1, r2, r3⟩ := extract_file_content C hnil hc hj ok hdr item hh hi os hq (pre ++ n) w2
    (d ++ [n]) (open_again hq h0 (hd.mono ho hkeep hcwd) (ho.mono hkeep) hn hx) size data harc
  refine ⟨n1, r, r1, r2, fun hcodes hroom => ?_⟩
  obtain ⟨a1, a2, _, m, a3, a4⟩ := r3 hcodes hroom
  exact ⟨a1, a2.trans hcwd, m, a3, a4⟩

namespace LaterSample
open HLSample

/-- `a`, `b`. -/
def tree : Forest := .file [97] 0o640 [1, 2] (.file [98] 0o600 [3] .nil)

/-- An archive with a file `../x` and a link `l` to `/h`. -/
def hostile : Bytes := dirArc (.file [46, 46, 47, 120] 0o644 [9] (.link [108] 0 [47, 104] .nil))

/-- The disk after an extraction of `hostile` to `o`, and after an interrupted extraction of `tree` to `p`. -/
def once : World := ((extractP copyI (fun _ _ => true) 5 hdrMem itemMem [111] 0 ⟨hostile, false⟩).after
  os 30 (world [])).2

def between : World := { world [] with fs := once.fs }

def twice : World := { world [] with fs := ((extractP copyI (fun _ _ => true) 5 hdrMem itemMem [112] 0
  ⟨dirArc tree, false⟩).after os 4 between).2.fs }

theorem once_earlier : Earlier (world []).fs once.fs := by
  unfold once
  generalize hostile = x
  exact Earlier.more _ _ _ _ _ _ _ _ _ _ _ .start rfl

theorem between_earlier : Earlier (world []).fs between.fs := by
  have := once_earlier
  unfold between
  generalize once = v at this ⊢
  exact this

theorem twice_earlier : Earlier (world []).fs twice.fs := by
  unfold twice
  have := between_earlier
  generalize between = v at this ⊢
  generalize dirArc tree = x
  exact Earlier.more _ _ _ _ _ _ _ _ _ _ _ this rfl

/-- What there is then, and an extraction of `tree` to `q`. -/
example :
    let seen := [[[104], [119], [120]], [[104], [119], [111]], [[104], [119], [111], [108]], [[104], [119], [112], [97]],
      [[104], [119], [113]], [[104], [119], [113], [97]], [[104], [119], [113], [98]]]
    (seen.map twice.fs, view seen (run os (dirArc tree) [113] twice)) =
      ([some (.file 0o644 [9]), some (.dir 0o755), some (.link [47, 104]), some (.file 0o640 []), none, none, none],
       .done CT_DIRECTORY [[104], [119]] [some (.file 0o644 [9]), some (.dir 0o755), some (.link [47, 104]),
         some (.file 0o640 []), some (.dir 0o755), some (.file 0o640 [1, 2]), some (.file 0o600 [3])]) := by
  decide +kernel

/-- The theorem for this. -/
example := C122_later_tree copyIOK rfl (fun _ _ => true) (fun _ _ => rfl) hdrMem itemMem List.length_replicate
  List.length_replicate os os_quiet (world []) world_tree [] (by simp) [[104], [119]] .rel
  ⟨0o755, by decide +kernel, .inr (by decide)⟩ twice twice_earlier rfl [113] [] (by decide +kernel) (by decide +kernel)
  (.inr (by decide)) (by decide) (f := tree) (by simp +decide [Forest.proper, PlainName, tree, Forest.names]) trivial
  trivial (by simp [tree]) (junk := List.replicate 120 0xEE) List.length_replicate
  (encodes _ (by decide +kernel)) 0 ⟨dirArc tree, false⟩ rfl rfl

/-- `a` and a link `k` to `a`. -/
def linked : Forest := .file [97] 0o640 [1, 2] (.link [107] 0o777 [97] .nil)

/-- The theorem for this tree, and its extraction to `q`. -/
example := C122_later_links copyIOK rfl (fun _ _ => true) (fun _ _ => rfl) hdrMem itemMem List.length_replicate
  List.length_replicate os os_quiet (world []) world_tree [] (by simp) [[104], [119]] .rel
  ⟨0o755, by decide +kernel, .inr (by decide)⟩
  ⟨by decide +kernel, by decide +kernel, by
    intro l hl
    have h3 := hl.length_le
    rcases l with _ | ⟨a, _ | ⟨b, _ | ⟨c, l⟩⟩⟩
    · decide +kernel
    · obtain ⟨t, ht⟩ := hl; simp [world] at ht; rw [ht.1]; decide +kernel
    · obtain ⟨t, ht⟩ := hl; simp [world] at ht; rw [ht.1, ht.2.1]; decide +kernel
    · simp [world] at h3⟩
  twice twice_earlier rfl [113] [] (by decide +kernel) (by decide +kernel)
  (.inr (by decide)) (by decide) (f := linked) (by simp +decide [Forest.proper, PlainName, linked, Forest.names]) trivial
  (by simp [linked]) (junk := List.replicate 120 0xEE) List.length_replicate
  (encodes _ (by decide +kernel)) 0 ⟨dirArc linked, false⟩ rfl rfl

example : view [[[104], [119], [113], [97]], [[104], [119], [113], [107]]] (run os (dirArc linked) [113] twice) =
    .done CT_DIRECTORY [[104], [119]] [some (.file 0o640 [1, 2]), some (.link [97])] := by
  decide +kernel

/-- The theorem for the file `x` that the first extraction left. -/
example := C122_later_file copyIOK rfl (content := [1, 2, 3]) (by decide) (junk := List.replicate 120 0xEE)
  List.length_replicate (fun _ _ => true) hdrMem itemMem List.length_replicate
  List.length_replicate os os_quiet (world []) [] (by simp) [[104], [119]] .rel
  ⟨0o755, by decide +kernel, .inr (by decide)⟩ twice twice_earlier rfl [120] (by decide +kernel)
  (.inr ⟨0o644, [9], by decide +kernel, by decide +kernel⟩) 0 (fileArc [1, 2, 3]) (by decide +kernel)

end LaterSample

end Zwt
