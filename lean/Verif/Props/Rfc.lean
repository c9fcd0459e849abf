import Verif.Proofs.Stored
import Verif.Props.HLRelink
import Verif.Props.LayoutRead
import Verif.Props.Session
import Verif.Props.Accept

/-! C105: archives in the zlib format of RFC 1950 and RFC 1951, from whatever program they come. -/

namespace Zwt

variable {Z : Inflater}

/-- A decompressor for this format, with all that is asked of `inflate`; and a compressor. -/
theorem C105_contracts :
    (∃ C : InflateOK Rfc.decoder.inflater Rfc.plain, C.Final ∧ C.Ends ∧
      ∀ e, Rfc.plain e.dropLast = Rfc.plain e → C.Prompt e) ∧
    ∃ CD : DeflateOK Rfc.storedD Rfc.plain, CD.Fits := by
  refine ⟨?_, Rfc.storedDOK, Rfc.storedDOK_fits⟩
  rw [← (funext Rfc.decoder_plain : Rfc.decoder.plain = Rfc.plain)]
  exact ⟨Rfc.decoder.inflateOK, Rfc.decoder.inflateOK_final, Rfc.decoder.inflateOK_ends,
    fun e he => Rfc.decoder.inflateOK_prompt he⟩

/-- Example: streams written by zlib; one block with fixed codes, and one with dynamic codes. -/
example : Rfc.plain [120, 218, 75, 76, 196, 4, 0, 79, 166, 7, 149] = List.replicate 20 97 := by
  decide +kernel
example : Rfc.plain [120, 218, 29, 133, 129, 13, 0, 48, 12, 130, 80, 255, 255, 121, 163, 130, 1, 154, 240,
      185, 4, 183, 130, 118, 177, 247, 137, 166, 60, 4, 181, 0, 53] =
    [0, 0, 2, 1, 1, 0, 1, 0, 1, 2, 1, 1, 0, 1, 1, 0, 0, 0, 0, 0, 3, 2, 0, 0, 2, 0, 0, 2, 2, 3, 1, 0, 2, 0,
      0, 0, 2, 0, 0, 0, 3, 0, 3, 0, 3, 3, 0, 3, 3, 1, 2, 0] := by decide +kernel

/-! ### Extraction -/

/-- The archive of the file `a` with mode 0644, as the library lays it out. -/
def rfcTree : Bytes :=
  record 9 16 1 8 0o644 0 (List.replicate 11 0) ++ [97] ++ List.replicate 7 0 ++
    [7, 8, 7, 8, 7, 8, 7, 8, 9] ++ List.replicate 7 0 ++ []

theorem rfcTree_layout : Layout (.file [97] 0o644 [7, 8, 7, 8, 7, 8, 7, 8, 9] .nil) rfcTree :=
  Layout.file (name := [97]) (content := [7, 8, 7, 8, 7, 8, 7, 8, 9]) (r := List.replicate 11 0)
    (mode := 0o644) (p := 7) (q := 7) (by decide) (by decide) (by decide) (by decide) (by decide)
    (by decide) .nil

/-- It, compressed by zlib with level 9 and flushed. -/
def rfcFlushed : Bytes :=
  [120, 218, 98, 96, 96, 96, 96, 100, 24, 56, 192, 9, 165, 5, 160, 52, 200, 45, 28, 64, 188, 4, 205, 81,
    137, 80, 154, 157, 3, 2, 97, 250, 0, 2]

/-- It, compressed by zlib with level 9 and finished. -/
def rfcFinished : Bytes :=
  [120, 218, 99, 96, 96, 96, 96, 100, 24, 56, 192, 9, 165, 5, 160, 52, 200, 45, 28, 64, 188, 4, 205, 81,
    137, 80, 154, 157, 3, 2, 97, 250, 0, 46, 223, 1, 111]

theorem rfc_plain : Rfc.plain rfcFlushed = [0, 0, 0, 0, 1, 0, 0, 0] ++ List.replicate 120 0 ++ rfcTree ∧
    Rfc.plain rfcFinished = Rfc.plain rfcFlushed ∧ Rfc.plain rfcFlushed.dropLast = Rfc.plain rfcFlushed ∧
    Rfc.plain (rfcFlushed ++ [168, 2, 32]) ≠ Rfc.plain rfcFlushed := by decide +kernel

/-- C105, extraction: any bytes, whatever blocks, codes and flushes they are made of, that decode
according to the RFCs to a directory archive of the tree `f`, extract to that tree, if the stream is not
finished.  Nothing else on the disk changes.  With links: `C105_links_partial`.
Missing: finished streams (false, `C105_finished_false`); output that ends together with the output
buffer and is then withheld (C11); trees that are empty, or with directories whose mode does not let
their owner add entries (C39). -/
theorem C105_tree_partial (C : InflateOK Z Rfc.plain) (hF : C.Final) (ok : AllocOracle)
    (hok : ∀ k n, ok k n = true) (hdr item : Bytes) (hh : hdr.length = 128) (hi : item.length = 40)
    (os : Os) (hq : os.quiet) (w : World) (ht : w.fs.tree) (pre : Bytes) (h0 : 0 ∉ pre) (d : Loc)
    (hd : InDir os w pre d) (ho : OpenDir os w.fs d) (n : Bytes) (ns : List Bytes)
    (hn : ∀ x ∈ n :: ns, PlainName x) (hnew : w.fs (d ++ [n]) = none)
    (hen : Enterable os (dirMode os 0o775)) (hlen : ns.length ≤ 61) {f : Forest} (hf : f.proper)
    (hfe : f.enterable os) (hfn : f ≠ .nil) (hfl : f.noLinks) {junk t : Bytes} (hj : junk.length = 120)
    (hl : Layout f t) (arc : Bytes) (hp : Rfc.plain arc = [0, 0, 0, 0, 1, 0, 0, 0] ++ junk ++ t)
    (hO : Open Rfc.plain arc) :
    ∃ n0 r, (∀ fuel, n0 ≤ fuel →
        extract Z os ok fuel hdr item (pre ++ joinNames (n :: ns)) 0 ⟨arc, false⟩ w = .ok r) ∧
      r.hasError = false ∧ (∀ c ∈ r.codes, c = Z_OK) ∧
      (0 < r.room ∨ C.Prompt arc →
        r.ret = CT_DIRECTORY ∧ r.w.cwd = w.cwd ∧ Landed os w.fs r.w.fs d n ns f) := by
  have hal : allowed 0 0 arc = arc := by simp [allowed]
  obtain ⟨n0, X, h1, h2, h3⟩ := extract_tree C rfl ok hok hdr item hh hi os hq w ht pre h0 d hd ho n ns hn
    hnew hen hlen hf hfe hfn hj ((C74_layout f t).mpr hl) 0 ⟨arc, false⟩ rfl
    (by show Rfc.plain (allowed 0 0 arc) = _; rw [hal, hp]; rfl)
  obtain ⟨r, rfl⟩ := h2 hfl
  obtain ⟨k1, k2, k3⟩ := h3 r rfl (.inl hfl)
  simp only [hal] at k2 k3
  exact ⟨n0, r, h1, k1, k2 hF hO, k3 (k2 hF hO)⟩

/-- C105, extraction of trees with links: as `C105_tree_partial`, or the target of a link is read beyond
the buffer that delivers it (C39); each link with its target or with a non-empty end of it. -/
theorem C105_links_partial (C : InflateOK Z Rfc.plain) (hF : C.Final) (ok : AllocOracle)
    (hok : ∀ k n, ok k n = true) (hdr item : Bytes) (hh : hdr.length = 128) (hi : item.length = 40)
    (os : Os) (hq : os.quiet) (w : World) (ht : w.fs.tree) (hcwd : CwdOk os w.fs w.cwd) (pre : Bytes)
    (h0 : 0 ∉ pre) (d : Loc) (hd : InDir os w pre d) (ho : OpenDir os w.fs d) (n : Bytes)
    (ns : List Bytes) (hn : ∀ x ∈ n :: ns, PlainName x) (hnew : w.fs (d ++ [n]) = none)
    (hen : Enterable os (dirMode os 0o775)) (hlen : ns.length ≤ 61) {f : Forest} (hf : f.proper)
    (hfe : f.enterable os) (hfn : f ≠ .nil) {junk t : Bytes} (hj : junk.length = 120) (hl : Layout f t)
    (arc : Bytes) (hp : Rfc.plain arc = [0, 0, 0, 0, 1, 0, 0, 0] ++ junk ++ t) (hO : Open Rfc.plain arc) :
    ∃ n0 X, (∀ fuel, n0 ≤ fuel →
        extract Z os ok fuel hdr item (pre ++ joinNames (n :: ns)) 0 ⟨arc, false⟩ w = X) ∧
      (X = .error .oobRead ∨ ∃ r, X = .ok r) ∧
      ∀ r, X = .ok r → r.hasError = false ∧ (∀ c ∈ r.codes, c = Z_OK) ∧
        (0 < r.room ∨ C.Prompt arc → r.ret = CT_DIRECTORY ∧ r.w.cwd = w.cwd ∧ ∃ g, Relinked f g ∧
          (NoLinkCut ok r.pieces → g = f) ∧ Landed os w.fs r.w.fs d n ns g) := by
  have hal : allowed 0 0 arc = arc := by simp [allowed]
  obtain ⟨n0, X, h1, h2, h3⟩ := extract_relinked C rfl ok hok hdr item hh hi os hq w ht pre h0 d hd ho n ns
    hn hnew hen hlen hf hfe hfn hj ((C74_layout f t).mpr hl) 0 ⟨arc, false⟩ rfl hcwd
    (by show Rfc.plain (allowed 0 0 arc) = _; rw [hal, hp]; rfl)
  refine ⟨n0, X, h1, h2, fun r hr => ?_⟩
  obtain ⟨k1, k2, k3⟩ := h3 r hr
  simp only [hal] at k2 k3
  exact ⟨k1, k2 hF hO, k3 (k2 hF hO)⟩

open HLSample in
/-- Example: the archive written by zlib, extracted with the decompressor of the RFCs; all of it arrives. -/
example : ∃ n0 r, (∀ fuel, n0 ≤ fuel → extract Rfc.decoder.inflater os (fun _ _ => true) fuel hdrMem
      itemMem [111] 0 ⟨rfcFlushed, false⟩ (world []) = .ok r) ∧
    r.ret = CT_DIRECTORY ∧ Landed os (world []).fs r.w.fs [[104], [119]] [111] []
      (.file [97] 0o644 [7, 8, 7, 8, 7, 8, 7, 8, 9] .nil) := by
  obtain ⟨⟨C, hF, _, hP⟩, _⟩ := C105_contracts
  obtain ⟨p1, _, p3, p4⟩ := rfc_plain
  obtain ⟨n0, r, h1, _, _, h2⟩ := C105_tree_partial C hF (fun _ _ => true) (fun _ _ => rfl) hdrMem itemMem
    List.length_replicate List.length_replicate os os_quiet (world []) world_tree [] (by simp)
    [[104], [119]] .rel ⟨0o755, by decide +kernel, .inr (by decide)⟩ [111] [] (by decide +kernel)
    (by decide +kernel) (.inr (by decide)) (by decide) (f := .file [97] 0o644 [7, 8, 7, 8, 7, 8, 7, 8, 9] .nil)
    ⟨by decide, by simp [Forest.names], trivial⟩ trivial (by simp) trivial
    (junk := List.replicate 120 0) List.length_replicate rfcTree_layout rfcFlushed p1 ⟨_, p4⟩
  obtain ⟨g1, _, g3⟩ := h2 (.inr (hP _ p3))
  exact ⟨n0, r, h1, g1, g3⟩

/-- The archive of a file with the bytes 7 8 7 8 7 8 7 8 9, compressed by zlib with level 9 and flushed. -/
def rfcFile : Bytes := 
  [120, 218, 98, 96, 96, 96, 96, 98, 24, 56, 192, 206, 1, 129, 156, 0, 1]

theorem rfcFile_plain :
    Rfc.plain rfcFile = [0, 0, 0, 0, 2, 0, 0, 0] ++ List.replicate 120 0 ++ [7, 8, 7, 8, 7, 8, 7, 8, 9] ∧
    Rfc.plain rfcFile.dropLast = Rfc.plain rfcFile ∧
    Rfc.plain (rfcFile ++ [4, 34, 0, 2]) ≠ Rfc.plain rfcFile := by decide +kernel

/-- C105, extraction of files: any bytes that decode according to the RFCs to the archive of a file that
is not empty, extract to that file, if the stream is not finished.  Nothing else on the disk changes.
Missing: finished streams; output that ends together with the output buffer and is then withheld (C11);
the empty file (C40). -/
theorem C105_file_partial (C : InflateOK Z Rfc.plain) (hF : C.Final) (ok : AllocOracle) (hdr item : Bytes)
    (hh : hdr.length = 128) (hi : item.length = 40) (os : Os) (hq : os.quiet) (w : World) (out : Bytes)
    (l : Loc) (ho : (sysOpen os w out 0o666 true).1 = some l) {junk content : Bytes}
    (hj : junk.length = 120) (hc : content ≠ []) (arc : Bytes)
    (hp : Rfc.plain arc = [0, 0, 0, 0, 2, 0, 0, 0] ++ junk ++ content) (hO : Open Rfc.plain arc) :
    ∃ n0 r, (∀ fuel, n0 ≤ fuel → extract Z os ok fuel hdr item out 0 ⟨arc, false⟩ w = .ok r) ∧
      (∀ c ∈ r.codes, c = Z_OK) ∧
      (0 < r.room ∨ C.Prompt arc → r.ret = CT_FILE ∧ r.w.cwd = w.cwd ∧ locate os w true out = some l ∧
        ∃ m, r.w.fs = w.fs.put l (.file m content) ∧ ∀ x, w.fs l = some x → ∃ c, x = .file m c) := by
  have hal : allowed 0 0 arc = arc := by simp [allowed]
  obtain ⟨n0, r, r1, r2, r3⟩ := extract_file_content C rfl hc hj ok hdr item hh hi os hq out w l ho 0 arc
    (by rw [hal, hp]; rfl)
  rw [hal] at r2 r3
  exact ⟨n0, r, r1, r2 hF hO, r3 (r2 hF hO)⟩

open HLSample in
/-- Example: the archive written by zlib replaces a file. -/
example : ∃ n0 r, (∀ fuel, n0 ≤ fuel → extract Rfc.decoder.inflater os (fun _ _ => true) fuel hdrMem
      itemMem [111] 0 ⟨rfcFile, false⟩ (world [([[104], [119], [111]], .file 0o600 [9])]) = .ok r) ∧
    r.ret = CT_FILE ∧ r.w.fs [[104], [119], [111]] = some (.file 0o600 [7, 8, 7, 8, 7, 8, 7, 8, 9]) := by
  obtain ⟨⟨C, hF, _, hP⟩, _⟩ := C105_contracts
  obtain ⟨p1, p3, p4⟩ := rfcFile_plain
  obtain ⟨n0, r, h1, _, h2⟩ := C105_file_partial C hF (fun _ _ => true) hdrMem itemMem
    List.length_replicate List.length_replicate os os_quiet (world [([[104], [119], [111]], .file 0o600 [9])])
    [111] [[104], [119], [111]] (by decide +kernel) (junk := List.replicate 120 0) List.length_replicate
    (by simp) rfcFile p1 ⟨_, p4⟩
  obtain ⟨g1, _, _, m, g3, g4⟩ := h2 (.inr (hP _ p3))
  obtain ⟨c, hc⟩ := g4 (.file 0o600 [9]) (by decide +kernel)
  cases hc
  exact ⟨n0, r, h1, g1, by rw [g3, FS.put_same]⟩

open HLSample in
/-- C105 is false of finished streams: the same archive, finished by zlib, as any other program writes
it, does not extract; nothing is written. -/
theorem C105_finished_false :
    ¬ ∀ (Z : Inflater) (C : InflateOK Z Rfc.plain), C.Final → C.Ends → ∀ (arc junk t : Bytes) (f : Forest),
      junk.length = 120 → Layout f t → f.proper → f.enterable os → f ≠ .nil → f.noLinks →
      Rfc.plain arc = [0, 0, 0, 0, 1, 0, 0, 0] ++ junk ++ t →
      ∀ fuel r, extract Z os (fun _ _ => true) fuel hdrMem itemMem [111] 0 ⟨arc, false⟩ (world []) = .ok r →
        r.w.fs [[104], [119], [111]] ≠ none := by
  intro h
  obtain ⟨⟨C, hF, hE, _⟩, _⟩ := C105_contracts
  obtain ⟨p1, p2, _, _⟩ := rfc_plain
  have k : view [[[104], [119], [111]]] (extract Rfc.decoder.inflater os (fun _ _ => true) 5 hdrMem itemMem
    [111] 0 ⟨rfcFinished, false⟩ (world [])) = .done 0 [[104], [119]] [none] := by decide +kernel
  obtain ⟨r, a1, _, _, a4⟩ := view_done k
  simp only [List.map_cons, List.map_nil, List.cons.injEq, and_true] at a4
  exact h _ C hF hE rfcFinished (List.replicate 120 0) rfcTree _ List.length_replicate
    rfcTree_layout ⟨by decide, by simp [Forest.names], trivial⟩ trivial (by simp) trivial (by rw [p2, p1])
    5 r a1 a4

/-! ### Sessions -/

/-- C105, sessions: two streams, of any making, that decode to the same file or blob archive, for
decompressors that may differ, in any splits and with any buffers: what is delivered are prefixes of the
same content, and the same if no `inflate` call failed and nothing is withheld at the end. -/
theorem C105_recoded_file {Z₁ Z₂ : Inflater} (C₁ : InflateOK Z₁ Rfc.plain) (C₂ : InflateOK Z₂ Rfc.plain)
    (ok₁ ok₂ : AllocOracle) (hdr₁ item₁ hdr₂ item₂ : Bytes) (hh₁ : hdr₁.length = 128)
    (hi₁ : item₁.length = 40) (hh₂ : hdr₂.length = 128) (hi₂ : item₂.length = 40)
    (B bufSize₁ bufSize₂ : Nat) (hb₁ : 0 < uInt bufSize₁ ∧ uInt bufSize₁ ≤ B)
    (hb₂ : 0 < uInt bufSize₂ ∧ uInt bufSize₂ ≤ B) (ops₁ ops₂ : List SOp) (hops₁ : ∀ op ∈ ops₁, op.sane B)
    (hops₂ : ∀ op ∈ ops₂, op.sane B) (arc₁ arc₂ : Bytes) (h₁ : arc₁ = (ops₁.map SOp.data).flatten)
    (h₂ : arc₂ = (ops₂.map SOp.data).flatten) (he : Rfc.plain arc₁ = Rfc.plain arc₂)
    (hlen : 128 ≤ (Rfc.plain arc₁).length) (hv : hdrVersion ((Rfc.plain arc₁).take 128) = 0)
    (hk : hdrKind ((Rfc.plain arc₁).take 128) = CT_FILE ∨ hdrKind ((Rfc.plain arc₁).take 128) = CT_BLOB) :
    ∃ n0 r₁ r₂ l₁ l₂ s₁ s₂ c₁ c₂,
      (∀ fuel, n0 ≤ fuel →
        sessRun ok₁ fuel ops₁ (Sess.create Z₁ hdr₁ item₁ bufSize₁).1
          (Sess.create Z₁ hdr₁ item₁ bufSize₁).2 = .ok (r₁, l₁, s₁) ∧
        sessRun ok₂ fuel ops₂ (Sess.create Z₂ hdr₂ item₂ bufSize₂).1
          (Sess.create Z₂ hdr₂ item₂ bufSize₂).2 = .ok (r₂, l₂, s₂)) ∧
      s₁.log = (if c₁ = [] then [] else .flStart :: c₁.map .flRead) ∧
      s₂.log = (if c₂ = [] then [] else .flStart :: c₂.map .flRead) ∧
      (c₁.flatten <+: c₂.flatten ∨ c₂.flatten <+: c₁.flatten) ∧
      ((∀ r ∈ l₁.rets, r = Z_OK) → 0 < l₁.availOut ∨ C₁.Prompt arc₁ → (∀ r ∈ l₂.rets, r = Z_OK) →
        0 < l₂.availOut ∨ C₂.Prompt arc₂ → c₁.flatten = c₂.flatten) := by
  have hne : ∀ {a : Bytes}, 128 ≤ (Rfc.plain a).length → a ≠ [] := by
    intro a h e
    subst e
    exact absurd h (by decide)
  obtain ⟨n₁, r₁, l₁, s₁, c₁, a1, a2, _, a4, a5⟩ :=
    C14_file_payload C₁ ok₁ hdr₁ item₁ hh₁ hi₁ B bufSize₁ hb₁ ops₁ hops₁ arc₁ h₁ hlen hv hk
  have hlen₂ := hlen
  rw [he] at hlen₂ hv hk
  obtain ⟨n₂, r₂, l₂, s₂, c₂, b1, b2, _, b4, b5⟩ :=
    C14_file_payload C₂ ok₂ hdr₂ item₂ hh₂ hi₂ B bufSize₂ hb₂ ops₂ hops₂ arc₂ h₂ hlen₂ hv hk
  rw [← he] at b4 b5
  refine ⟨max n₁ n₂, r₁, r₂, l₁, l₂, s₁, s₂, c₁, c₂,
    fun f hf => ⟨a1 f (by omega), b1 f (by omega)⟩, a2, b2, ?_, ?_⟩
  · rcases Nat.le_total c₁.flatten.length c₂.flatten.length with h | h
    · exact .inl (List.prefix_of_prefix_length_le a4 b4 h)
    · exact .inr (List.prefix_of_prefix_length_le b4 a4 h)
  · intro k1 k2 k3 k4
    rw [a5 k1 k2 (hne hlen), b5 k3 k4 (hne hlen₂)]

/-- C105, sessions, directory archives: the same content reaches the parser, and if no target of a link is
cut (C19) the callbacks are the same, up to at most two without data that are still to come. -/
theorem C105_recoded_directory {Z₁ Z₂ : Inflater} (C₁ : InflateOK Z₁ Rfc.plain)
    (C₂ : InflateOK Z₂ Rfc.plain) (ok : AllocOracle) (hdr₁ item₁ hdr₂ item₂ : Bytes)
    (hh₁ : hdr₁.length = 128) (hi₁ : item₁.length = 40) (hh₂ : hdr₂.length = 128) (hi₂ : item₂.length = 40)
    (B bufSize₁ bufSize₂ : Nat) (hb₁ : 0 < uInt bufSize₁ ∧ uInt bufSize₁ ≤ B)
    (hb₂ : 0 < uInt bufSize₂ ∧ uInt bufSize₂ ≤ B) (ops₁ ops₂ : List SOp) (hops₁ : ∀ op ∈ ops₁, op.sane B)
    (hops₂ : ∀ op ∈ ops₂, op.sane B) (arc₁ arc₂ : Bytes) (h₁ : arc₁ = (ops₁.map SOp.data).flatten)
    (h₂ : arc₂ = (ops₂.map SOp.data).flatten) (he : Rfc.plain arc₁ = Rfc.plain arc₂)
    (hlen : 128 ≤ (Rfc.plain arc₁).length) (hv : hdrVersion ((Rfc.plain arc₁).take 128) = 0)
    (hk : hdrKind ((Rfc.plain arc₁).take 128) = CT_DIRECTORY) :
    ∃ n0 r₁ r₂ l₁ l₂ s₁ s₂ e₁ e₂ owed₁ owed₂,
      (∀ fuel, n0 ≤ fuel →
        sessRun ok fuel ops₁ (Sess.create Z₁ hdr₁ item₁ bufSize₁).1
          (Sess.create Z₁ hdr₁ item₁ bufSize₁).2 = .ok (r₁, l₁, s₁) ∧
        sessRun ok fuel ops₂ (Sess.create Z₂ hdr₂ item₂ bufSize₂).1
          (Sess.create Z₂ hdr₂ item₂ bufSize₂).2 = .ok (r₂, l₂, s₂)) ∧
      s₁.log = (if s₁.pieces = [] then [] else .drStart :: e₁) ∧
      s₂.log = (if s₂.pieces = [] then [] else .drStart :: e₂) ∧
      (s₁.pieces.flatten <+: s₂.pieces.flatten ∨ s₂.pieces.flatten <+: s₁.pieces.flatten) ∧
      (∀ a ∈ owed₁ ++ owed₂, ∀ b, a ≠ .byte b) ∧ owed₁.length ≤ 2 ∧ owed₂.length ≤ 2 ∧
      ((∀ r ∈ l₁.rets, r = Z_OK) → 0 < l₁.availOut ∨ C₁.Prompt arc₁ → (∀ r ∈ l₂.rets, r = Z_OK) →
        0 < l₂.availOut ∨ C₂.Prompt arc₂ → s₁.pieces.flatten = s₂.pieces.flatten ∧
        (NoLinkCut ok s₁.pieces → NoLinkCut ok s₂.pieces →
          atoms e₁ ++ owed₁ = atoms e₂ ++ owed₂)) := by
  have hne : ∀ {a : Bytes}, 128 ≤ (Rfc.plain a).length → a ≠ [] := by
    intro a h e
    subst e
    exact absurd h (by decide)
  obtain ⟨n1, r₁, l₁, s₁, c₁, e₁, o₁, a1, a2, a3, a4, a5, _, a7, _, _, a10, a11⟩ :=
    C17_directory_archive C₁ ok hdr₁ item₁ hh₁ hi₁ B bufSize₁ hb₁ ops₁ hops₁ arc₁ h₁ hlen hv hk
  have hlen₂ := hlen
  rw [he] at hlen₂ hv hk
  obtain ⟨n2, r₂, l₂, s₂, c₂, e₂, o₂, b1, b2, b3, b4, b5, _, b7, _, _, b10, b11⟩ :=
    C17_directory_archive C₂ ok hdr₂ item₂ hh₂ hi₂ B bufSize₂ hb₂ ops₂ hops₂ arc₂ h₂ hlen₂ hv hk
  rw [← he] at b10 b11
  subst a2 b2
  refine ⟨n1 + n2, r₁, r₂, l₁, l₂, s₁, s₂, e₁, e₂, o₁, o₂,
    fun f hf => ⟨a1 f (by omega), b1 f (by omega)⟩, a3, b3, ?_, ?_, a4, b4, ?_⟩
  · rcases Nat.le_total s₁.pieces.flatten.length s₂.pieces.flatten.length with h | h
    · exact .inl (List.prefix_of_prefix_length_le a10 b10 h)
    · exact .inr (List.prefix_of_prefix_length_le b10 a10 h)
  · intro a ha b e
    subst e
    rcases List.mem_append.mp ha with h | h
    · exact a5 b h
    · exact b5 b h
  · intro k1 k2 k3 k4
    have e : s₁.pieces.flatten = s₂.pieces.flatten := by
      rw [a11 k1 k2 (hne hlen), b11 k3 k4 (hne hlen₂)]
    exact ⟨e, fun m1 m2 => by rw [a7 m1, b7 m2, e]⟩

/-- Example: the same archive, once as zlib writes it, fed at once, and once in stored blocks, in two
pieces. -/
example : let a := rfcFlushed
    let b := [0x78, 0x01] ++ Rfc.storedBlocks ([0, 0, 0, 0, 1, 0, 0, 0] ++ List.replicate 120 0 ++ rfcTree)
    Rfc.plain a = Rfc.plain b ∧ 128 ≤ (Rfc.plain a).length ∧ hdrVersion ((Rfc.plain a).take 128) = 0 ∧
    hdrKind ((Rfc.plain a).take 128) = CT_DIRECTORY := by
  have h := rfc_plain.1
  refine ⟨?_, by rw [h]; decide +kernel, by rw [h]; decide +kernel, by rw [h]; decide +kernel⟩
  rw [h, Rfc.plain, Rfc.run_append, Rfc.run_head, (Rfc.run_blocks _ []).1]
  rfl

/-! ### The end of a flush -/

/-- What zlib writes for 29 bytes and a flush. -/
def rfcCut : Bytes :=
  [120, 218, 12, 199, 49, 1, 0, 0, 12, 131, 48, 173, 80, 252, 107, 216, 142, 28, 153, 178, 24, 89, 126, 144,
    175, 246, 78]

/-- C11 is false also of this format and of what zlib writes: the last byte of the flush ends a code for
three bytes, of which a buffer of 27 bytes gets one; the call returns 0. -/
theorem C11_standard_false :
    ¬ ∀ (Z : Inflater) (C : InflateOK Z Rfc.plain), C.Final → C.Ends → ∀ (fuel size : Nat) (data : Bytes)
      (l : LL Z) (log : List Bytes), 0 < uInt size →
      llRun fuel [.decompress Z_NO_FLUSH data] (LL.create Z size) [] = .ok ([Z_OK], l, log) →
      log.flatten = Rfc.plain data := by
  intro h
  obtain ⟨⟨C, hF, hE, _⟩, _⟩ := C105_contracts
  have key : (match llRun 10 [.decompress Z_NO_FLUSH rfcCut] (LL.create Rfc.decoder.inflater 27) [] with
      | .ok (rets, _, log) => some (rets, log.flatten.length) | .error _ => none) = some ([Z_OK], 27) ∧
      (Rfc.plain rfcCut).length = 29 := by decide +kernel
  cases hr : llRun 10 [.decompress Z_NO_FLUSH rfcCut] (LL.create Rfc.decoder.inflater 27) [] with
  | error e => rw [hr] at key; exact absurd key.1 (by simp)
  | ok x =>
    obtain ⟨rets, l, log⟩ := x
    rw [hr] at key
    simp only [Option.some.injEq, Prod.mk.injEq] at key
    obtain ⟨⟨rfl, k2⟩, k3⟩ := key
    have := h _ C hF hE 10 27 rfcCut l log (by decide +kernel) hr
    rw [this, k3] at k2
    exact absurd k2 (by decide)

end Zwt

