import Verif.Proofs.SessionHistory
import Verif.Spec.Toy

/-! C12–C16, C56: the archive decompress session. -/

namespace Zwt

variable {Z : Inflater} {plain : Bytes → Bytes}

/-! Archives for the examples (with `queueI`, compressed and plain bytes are the same). -/
namespace SessSample
/-- File archive holding `hello`. -/
def fileArc : Bytes := headerBytes 0 CT_FILE (List.replicate 120 0xEE) ++ [104, 101, 108, 108, 111]
/-- Archive of unknown kind 7. -/
def oddArc : Bytes := headerBytes 0 7 (List.replicate 120 0xEE) ++ [104, 101, 108, 108, 111]
/-- Archive of version 1. -/
def newArc : Bytes := headerBytes 1 CT_FILE (List.replicate 120 0xEE) ++ [104, 101, 108, 108, 111]
/-- Directory archive with a file `a` of 3 bytes in a directory `d`. -/
def dirArc : Bytes := headerBytes 0 CT_DIRECTORY (List.replicate 120 0xEE) ++
  itemBytes ⟨0, 0, 1, 8, 0o755, K_DIR_START⟩ (List.replicate 11 0xEE) ++ ([100] ++ List.replicate 7 0) ++
  itemBytes ⟨3, 8, 1, 8, 0o644, K_FILE⟩ (List.replicate 11 0xEE) ++ ([97] ++ List.replicate 7 0) ++
  ([1, 2, 3] ++ List.replicate 5 0)
/-- Header cut in the middle, buffers changed before and after its end. -/
def ops (a : Bytes) : List SOp :=
  [.decompress 0 (a.take 50), .setBuffer 7, .decompress 0 ((a.drop 50).take 79), .setBuffer 8,
    .decompress 0 (a.drop 129)]
def mem : Bytes := List.replicate 128 0
def item : Bytes := List.replicate 40 0

theorem ops_sane (a : Bytes) (h : a.length < U32) : ∀ op ∈ ops a, op.sane 8 := by
  intro op hm
  simp only [ops, List.mem_cons, List.not_mem_nil, or_false] at hm
  have u3 : uInt 7 = 7 := by decide +kernel
  have u2 : uInt 8 = 8 := by decide +kernel
  rcases hm with rfl | rfl | rfl | rfl | rfl
  · exact ⟨.inl rfl, by rw [List.length_take]; omega⟩
  · exact ⟨by rw [u3]; omega, by rw [u3]; omega⟩
  · exact ⟨.inl rfl, by rw [List.length_take, List.length_drop]; omega⟩
  · exact ⟨by rw [u2]; omega, by rw [u2]; omega⟩
  · exact ⟨.inl rfl, by rw [List.length_drop]; omega⟩

/-- Return codes and callbacks of a run. -/
def view (r : Run (List Int × LL Z × Sess)) : Option (List Int × List Ev) :=
  match r with
  | .ok (rets, _, s) => some (rets, s.log)
  | .error _ => none

def run (a : Bytes) : Option (List Int × List Ev) :=
  view (sessRun (fun _ _ => true) 20 (ops a) (Sess.create queueI mem item 1).1
    (Sess.create queueI mem item 1).2)
theorem ops_data (a : Bytes) : a = ((ops a).map SOp.data).flatten := by
  have : a = a.take 50 ++ (a.drop 50).take 79 ++ a.drop 129 := by
    rw [show a.drop 129 = (a.drop 50).drop 79 by rw [List.drop_drop], List.append_assoc,
      List.take_append_drop, List.take_append_drop]
  simpa [ops, SOp.data] using this

/-- The memories and the first buffer of the sample runs. -/
theorem sizes : mem.length = 128 ∧ item.length = 40 ∧ (0 < uInt 1 ∧ uInt 1 ≤ 8) := by decide +kernel

theorem lengths : fileArc.length < U32 ∧ oddArc.length < U32 ∧ newArc.length < U32 ∧ dirArc.length < U32 := by
  decide +kernel
end SessSample

example : SessSample.run SessSample.fileArc =
    some ([0, 0, 0], [.flStart, .flRead [104, 101, 108, 108, 111]]) := by decide +kernel
example : SessSample.run SessSample.oddArc = some ([0, 0, 0], []) := by decide +kernel
example : SessSample.run SessSample.newArc = some ([0, 0, 0], []) := by decide +kernel

/-! ### C12 -/

/-- C12 is false for archive sessions: in the call that completes the header, an error of `inflate`
in the content is not reported. -/
theorem C12_reports_zlib_errors_false :
    ¬ ∀ (Z : Inflater) (plain : Bytes → Bytes) (_ : InflateOK Z plain) (ok : AllocOracle)
      (hdr item : Bytes) (bufSize fuel : Nat) (data : Bytes) (l : LL Z) (s : Sess),
      hdr.length = 128 → item.length = 40 → 0 < uInt bufSize →
      sessDecompress ok fuel Z_NO_FLUSH (Sess.create Z hdr item bufSize).1
        (Sess.create Z hdr item bufSize).2 data = .ok (Z_OK, l, s) → ∀ r ∈ l.rets, r = Z_OK := by
  intro h
  let data := headerBytes 0 CT_FILE (List.replicate 120 0xEE) ++ [7, 255]
  have hev : (match sessDecompress (fun _ _ => true) 9 Z_NO_FLUSH
      (Sess.create checkI SessSample.mem SessSample.item 1).1
      (Sess.create checkI SessSample.mem SessSample.item 1).2 data with
      | .ok (ret, l, _) => some (ret, l.rets) | .error _ => none) = some (0, [-3, 0]) := by
    decide +kernel
  cases hr : sessDecompress (fun _ _ => true) 9 Z_NO_FLUSH
      (Sess.create checkI SessSample.mem SessSample.item 1).1
      (Sess.create checkI SessSample.mem SessSample.item 1).2 data with
  | error e => rw [hr] at hev; cases hev
  | ok r =>
    obtain ⟨ret, l, s⟩ := r
    rw [hr] at hev
    have hev : ret = 0 ∧ l.rets = [-3, 0] := by simpa using hev
    obtain ⟨rfl, hl⟩ := hev
    have := h checkI _ checkIOK _ _ _ 1 9 data l s (by decide +kernel) (by decide +kernel) (by decide +kernel) hr
      (-3) (by rw [hl]; simp)
    exact absurd this (by decide)

/-- C12, what holds for archive sessions: after the first user callback, a call returns 0 only if
every `inflate` call it made returned `Z_OK`, else the code of the last one.  Missing: the call
that completes the header. -/
theorem C12_reports_zlib_errors_partial (C : InflateOK Z plain) (ok : AllocOracle)
    (hdr item : Bytes) (hh : hdr.length = 128) (hi : item.length = 40) (B bufSize : Nat)
    (hb : 0 < uInt bufSize ∧ uInt bufSize ≤ B) (ops : List SOp) (hops : ∀ op ∈ ops, op.sane B)
    (data : Bytes) :
    ∃ n0, ∀ fuel, n0 ≤ fuel → ∀ rets l s flush ret l' s',
      sessRun ok fuel ops (Sess.create Z hdr item bufSize).1 (Sess.create Z hdr item bufSize).2 =
        .ok (rets, l, s) → s.log ≠ [] →
      sessDecompress ok fuel flush l s data = .ok (ret, l', s') →
      ∃ codes, l'.rets = codes ++ l.rets ∧ (ret = Z_OK → ∀ r ∈ codes, r = Z_OK) ∧
        (ret ≠ Z_OK → ∃ before, codes = ret :: before ∧ ∀ r ∈ before, r = Z_OK) := by
  obtain ⟨n0, h⟩ := sessRun_good C ok item hi B ops hops _ _ []
    (SInv.create C ok hdr item hh B bufSize hb)
  refine ⟨n0, fun fuel hf rets l s flush ret l' s' hrun hne hcall => ?_⟩
  rcases h with ⟨rets', l1, s1, D, h⟩ | ⟨_, _, _, _, h⟩
  · rw [h fuel hf] at hrun
    cases hrun
    cases D with
    | header D => exact absurd D.log.1 hne
    | bad _ D => exact absurd D.log hne
    | data hd ds D =>
      have hin := (D.flags hi).1
      simp only [sessDecompress, hin, if_true, llDecompress] at hcall
      refine readOldIn_rets (sessCb ok fuel) DataK ?_ fuel 0 (l.feed data) l' s s' ret (D.K hi) hcall
      intro l u b l2 u2 hK hcb
      obtain ⟨g1, g2⟩ := sessCb_folds (Z := Z) ok fuel l u b hK
      rw [g1] at hcb
      cases hcb
      exact ⟨rfl, g2⟩
  · rw [h fuel hf] at hrun; cases hrun

example := C12_reports_zlib_errors_partial queueIOK (fun _ _ => true) SessSample.mem SessSample.item
    SessSample.sizes.1 SessSample.sizes.2.1 8 1 SessSample.sizes.2.2 (SessSample.ops SessSample.fileArc)
    (SessSample.ops_sane _ SessSample.lengths.1) [7]

/-! ### C13 -/

/-- C13.  However the compressed bytes are split into calls and whenever buffers are exchanged:
what the user sees is exactly determined by a prefix `P` of the plaintext as prescribed by
`ArchiveLog` (nothing before 128 bytes are decoded; kind and version from exactly those; content
from what follows).  If no `inflate` call failed and the last one left room in the output buffer,
`P` is all of it.  (The second alternative, a failing assertion for archives of another version,
is C16.) -/
theorem C13_header_any_split (C : InflateOK Z plain) (ok : AllocOracle) (hdr item : Bytes)
    (hh : hdr.length = 128) (hi : item.length = 40) (B bufSize : Nat)
    (hb : 0 < uInt bufSize ∧ uInt bufSize ≤ B) (ops : List SOp) (hops : ∀ op ∈ ops, op.sane B) :
    ∃ n0, (∃ rets l s P, (∀ fuel, n0 ≤ fuel →
        sessRun ok fuel ops (Sess.create Z hdr item bufSize).1 (Sess.create Z hdr item bufSize).2 =
          .ok (rets, l, s)) ∧
        P <+: plain (ops.map SOp.data).flatten ∧ ArchiveLog ok B P s.pieces s.log ∧
        ((∀ r ∈ l.rets, r = Z_OK) → 0 < l.availOut ∨ C.Prompt (ops.map SOp.data).flatten →
        (ops.map SOp.data).flatten ≠ [] →
          P = plain (ops.map SOp.data).flatten ∨ (128 ≤ P.length ∧ hdrVersion (P.take 128) ≠ 0))) ∨
      (128 ≤ (plain (ops.map SOp.data).flatten).length ∧
        hdrVersion ((plain (ops.map SOp.data).flatten).take 128) ≠ 0 ∧
        ∀ fuel, n0 ≤ fuel →
          sessRun ok fuel ops (Sess.create Z hdr item bufSize).1
            (Sess.create Z hdr item bufSize).2 = .error .assertFail) :=
  session_history C ok hdr item hh hi B bufSize hb ops hops

example := C13_header_any_split queueIOK (fun _ _ => true) SessSample.mem SessSample.item
    SessSample.sizes.1 SessSample.sizes.2.1 8 1 SessSample.sizes.2.2 (SessSample.ops SessSample.fileArc)
    (SessSample.ops_sane _ SessSample.lengths.1)

/-- C13, the part about silence: a callback has been made only if the plaintext has at least
128 bytes, with version 0 and a known kind. -/
theorem C13_no_callback_before_header (C : InflateOK Z plain) (ok : AllocOracle) (hdr item : Bytes)
    (hh : hdr.length = 128) (hi : item.length = 40) (B bufSize : Nat)
    (hb : 0 < uInt bufSize ∧ uInt bufSize ≤ B) (ops : List SOp) (hops : ∀ op ∈ ops, op.sane B) :
    ∃ n0, ∀ fuel, n0 ≤ fuel → ∀ rets l s,
      sessRun ok fuel ops (Sess.create Z hdr item bufSize).1 (Sess.create Z hdr item bufSize).2 =
        .ok (rets, l, s) → s.log ≠ [] →
      128 ≤ (plain (ops.map SOp.data).flatten).length ∧
      hdrVersion ((plain (ops.map SOp.data).flatten).take 128) = 0 ∧
      (hdrKind ((plain (ops.map SOp.data).flatten).take 128) = CT_DIRECTORY ∧
          s.log.head? = some .drStart ∨
        (hdrKind ((plain (ops.map SOp.data).flatten).take 128) = CT_FILE ∨
          hdrKind ((plain (ops.map SOp.data).flatten).take 128) = CT_BLOB) ∧
          s.log.head? = some .flStart) := by
  obtain ⟨n0, h⟩ := session_history C ok hdr item hh hi B bufSize hb ops hops
  refine ⟨n0, fun fuel hf rets l s hrun hne => ?_⟩
  rcases h with ⟨rets', l1, s1, P, h1, h2, h3, _⟩ | ⟨_, _, h⟩
  · rw [h1 fuel hf] at hrun
    cases hrun
    obtain ⟨t, ht⟩ := h2
    generalize s.log = log at h3 hne
    generalize s.pieces = pcs at h3
    have key : ∀ h x : Bytes, h.length = 128 → P = h ++ x →
        128 ≤ (plain (ops.map SOp.data).flatten).length ∧
          (plain (ops.map SOp.data).flatten).take 128 = h := by
      intro h x hl hP
      rw [← ht, hP, List.append_assoc, List.take_append_of_le_length (by omega),
        List.take_of_length_le (by omega)]
      exact ⟨by simp; omega, rfl⟩
    cases h3 with
    | short => exact absurd rfl hne
    | version => exact absurd rfl hne
    | empty => exact absurd rfl hne
    | unknown => exact absurd rfl hne
    | file a1 a2 a3 =>
      obtain ⟨k1, k2⟩ := key _ _ a1 rfl
      rw [k2]
      exact ⟨k1, a2, .inr ⟨a3, rfl⟩⟩
    | dir a1 a2 a3 =>
      obtain ⟨k1, k2⟩ := key _ _ a1 rfl
      rw [k2]
      exact ⟨k1, a2, .inl ⟨a3, rfl⟩⟩
  · rw [h fuel hf] at hrun; cases hrun

example := C13_no_callback_before_header queueIOK (fun _ _ => true) SessSample.mem SessSample.item
    SessSample.sizes.1 SessSample.sizes.2.1 8 1 SessSample.sizes.2.2 (SessSample.ops SessSample.fileArc)
    (SessSample.ops_sane _ SessSample.lengths.1)

/-! ### C14 -/

/-- C14.  For a file or blob archive: either nothing, or one start followed by reads whose buffers
(of at most `B` bytes) concatenate to a prefix of the plaintext after the header; all of it if no
`inflate` call failed and the last one left room in the output buffer. -/
theorem C14_file_payload (C : InflateOK Z plain) (ok : AllocOracle) (hdr item : Bytes)
    (hh : hdr.length = 128) (hi : item.length = 40) (B bufSize : Nat)
    (hb : 0 < uInt bufSize ∧ uInt bufSize ≤ B) (ops : List SOp) (hops : ∀ op ∈ ops, op.sane B)
    (arc : Bytes) (harc : arc = (ops.map SOp.data).flatten) (hlen : 128 ≤ (plain arc).length)
    (hv : hdrVersion ((plain arc).take 128) = 0)
    (hk : hdrKind ((plain arc).take 128) = CT_FILE ∨ hdrKind ((plain arc).take 128) = CT_BLOB) :
    ∃ n0 rets l s chunks, (∀ fuel, n0 ≤ fuel →
        sessRun ok fuel ops (Sess.create Z hdr item bufSize).1 (Sess.create Z hdr item bufSize).2 =
          .ok (rets, l, s)) ∧
      s.log = (if chunks = [] then [] else .flStart :: chunks.map .flRead) ∧
      (∀ b ∈ chunks, b.length ≤ B) ∧ chunks.flatten <+: (plain arc).drop 128 ∧
      ((∀ r ∈ l.rets, r = Z_OK) → 0 < l.availOut ∨ C.Prompt arc → arc ≠ [] →
        chunks.flatten = (plain arc).drop 128) := by
  subst harc
  obtain ⟨n0, h⟩ := session_history C ok hdr item hh hi B bufSize hb ops hops
  rcases h with ⟨rets, l, s, P, h1, h2, h3, h4⟩ | ⟨_, h, _⟩
  · generalize hlog : s.log = log at h3
    generalize _hpcs : s.pieces = pcs at h3
    have hnil : s.log = [] → (P.length ≤ 128) →
        ((∀ r ∈ l.rets, r = Z_OK) → 0 < l.availOut ∨ C.Prompt (ops.map SOp.data).flatten →
        (ops.map SOp.data).flatten ≠ [] →
          P = plain (ops.map SOp.data).flatten) → ∃ n0 rets l s chunks, (∀ fuel, n0 ≤ fuel →
        sessRun ok fuel ops (Sess.create Z hdr item bufSize).1 (Sess.create Z hdr item bufSize).2 =
          .ok (rets, l, s)) ∧
      s.log = (if chunks = [] then [] else .flStart :: chunks.map .flRead) ∧
      (∀ b ∈ chunks, b.length ≤ B) ∧
      chunks.flatten <+: (plain (ops.map SOp.data).flatten).drop 128 ∧
      ((∀ r ∈ l.rets, r = Z_OK) → 0 < l.availOut ∨ C.Prompt (ops.map SOp.data).flatten →
        (ops.map SOp.data).flatten ≠ [] →
        chunks.flatten = (plain (ops.map SOp.data).flatten).drop 128) := by
      intro g1 g2 g3
      refine ⟨n0, rets, l, s, [], h1, by simpa using g1, by simp, by simp, fun k1 k2 k3 => ?_⟩
      have := g3 k1 k2 k3
      rw [← this, List.drop_of_length_le g2]; rfl
    obtain ⟨t, ht⟩ := h2
    have hPv : 128 ≤ P.length → P.take 128 = (plain (ops.map SOp.data).flatten).take 128 := by
      intro h
      rw [← ht, List.take_append_of_le_length h]
    have h4' : hdrVersion (P.take 128) = 0 ∨ P.length < 128 := by
      by_cases h : P.length < 128
      · exact .inr h
      · exact .inl (by rw [hPv (by omega)]; exact hv)
    have h4'' : (∀ r ∈ l.rets, r = Z_OK) → 0 < l.availOut ∨ C.Prompt (ops.map SOp.data).flatten →
        (ops.map SOp.data).flatten ≠ [] →
          P = plain (ops.map SOp.data).flatten := by
      intro k1 k2 k3
      rcases h4 k1 k2 k3 with h | ⟨h, h'⟩
      · exact h
      · rcases h4' with h'' | h''
        · exact absurd h'' h'
        · omega
    have hne : CT_FILE ≠ CT_DIRECTORY ∧ CT_BLOB ≠ CT_DIRECTORY := by decide
    cases h3 with
    | short a => exact hnil hlog (by omega) h4''
    | version a b => rw [hPv a] at b; exact absurd hv b
    | empty a => exact hnil hlog (by omega) h4''
    | unknown a b c d e =>
      rw [hPv a] at d e
      rcases hk with hk | hk
      · exact absurd hk d
      · exact absurd hk e
    | @file h _ a b c d e =>
      refine ⟨n0, rets, l, s, pcs, h1, by rw [hlog, if_neg d], e, ?_, ?_⟩
      · rw [← ht, List.append_assoc, List.drop_append_of_le_length (by omega),
          List.drop_of_length_le (by omega), List.nil_append]
        exact List.prefix_append _ _
      · intro k1 k2 k3
        rw [← h4'' k1 k2 k3, List.drop_append_of_le_length (by omega),
          List.drop_of_length_le (by omega), List.nil_append]
    | @dir h chunks evs owed a b c d e f g =>
      exfalso
      have hP := hPv (by simp; omega)
      rw [List.take_append_of_le_length (by omega), List.take_of_length_le (by omega)] at hP
      rw [← hP, c] at hk
      rcases hk with hk | hk
      · exact hne.1 hk.symm
      · exact hne.2 hk.symm
  · exact absurd hv h

example := C14_file_payload queueIOK (fun _ _ => true) SessSample.mem SessSample.item
    SessSample.sizes.1 SessSample.sizes.2.1 8 1 SessSample.sizes.2.2 (SessSample.ops SessSample.fileArc)
    (SessSample.ops_sane _ SessSample.lengths.1)
    _ (SessSample.ops_data _) (by decide +kernel) (by decide +kernel) (by decide +kernel)

/-! ### C15 -/

/-- C15.  An archive whose kind is none of directory, file, blob causes no callback; the calls
return normally. -/
theorem C15_unknown_kind_inert (C : InflateOK Z plain) (ok : AllocOracle) (hdr item : Bytes)
    (hh : hdr.length = 128) (hi : item.length = 40) (B bufSize : Nat)
    (hb : 0 < uInt bufSize ∧ uInt bufSize ≤ B) (ops : List SOp) (hops : ∀ op ∈ ops, op.sane B)
    (arc : Bytes) (harc : arc = (ops.map SOp.data).flatten)
    (hv : hdrVersion ((plain arc).take 128) = 0)
    (hk : hdrKind ((plain arc).take 128) ≠ CT_DIRECTORY ∧
      hdrKind ((plain arc).take 128) ≠ CT_FILE ∧ hdrKind ((plain arc).take 128) ≠ CT_BLOB) :
    ∃ n0 rets l s, (∀ fuel, n0 ≤ fuel →
        sessRun ok fuel ops (Sess.create Z hdr item bufSize).1 (Sess.create Z hdr item bufSize).2 =
          .ok (rets, l, s)) ∧ s.log = [] := by
  subst harc
  obtain ⟨n0, h⟩ := C13_no_callback_before_header C ok hdr item hh hi B bufSize hb ops hops
  obtain ⟨n1, h'⟩ := session_history C ok hdr item hh hi B bufSize hb ops hops
  rcases h' with ⟨rets, l, s, P, h1, _⟩ | ⟨_, h2, _⟩
  · refine ⟨n1, rets, l, s, h1, ?_⟩
    refine Decidable.by_contra fun hne => ?_
    rcases (h (max n0 n1) (by omega) rets l s (h1 _ (by omega)) hne).2.2 with h | h
    · exact hk.1 h.1
    · rcases h.1 with h | h
      · exact hk.2.1 h
      · exact hk.2.2 h
  · exact absurd hv h2

example := C15_unknown_kind_inert queueIOK (fun _ _ => true) SessSample.mem SessSample.item
    SessSample.sizes.1 SessSample.sizes.2.1 8 1 SessSample.sizes.2.2 (SessSample.ops SessSample.oddArc)
    (SessSample.ops_sane _ SessSample.lengths.2.1)
    _ (SessSample.ops_data _) (by decide +kernel) (by decide +kernel)

/-! ### C16 -/

/-- C16 is false: an archive of version 1 whose content starts with four zero bytes, given in two
calls, fails an assertion (which, compiled out, leads to a call with a pointer of the wrong
type). -/
theorem C16_version_rejected_false :
    ¬ ∀ (Z : Inflater) (plain : Bytes → Bytes) (_ : InflateOK Z plain) (ok : AllocOracle)
      (hdr item : Bytes) (B bufSize fuel : Nat) (ops : List SOp),
      hdr.length = 128 → item.length = 40 → 0 < uInt bufSize → uInt bufSize ≤ B →
      (∀ op ∈ ops, op.sane B) →
      sessRun ok fuel ops (Sess.create Z hdr item bufSize).1 (Sess.create Z hdr item bufSize).2 ≠
        .error .assertFail := by
  intro h
  have hu : uInt 1 = 1 := by decide +kernel
  refine h queueI id queueIOK (fun _ _ => true) SessSample.mem SessSample.item 8 1 20
    [.decompress 0 (headerBytes 1 CT_FILE (List.replicate 120 0xEE)),
      .decompress 0 [0, 0, 0, 0, 9]]
    (by decide +kernel) (by decide +kernel) (by rw [hu]; decide) (by rw [hu]; decide) ?_ ?_
  · intro op hm
    simp only [List.mem_cons, List.not_mem_nil, or_false] at hm
    rcases hm with rfl | rfl
    · exact ⟨.inl rfl, by decide +kernel⟩
    · exact ⟨.inl rfl, by decide +kernel⟩
  · have : (match sessRun (fun _ _ => true) 20
        [.decompress 0 (headerBytes 1 CT_FILE (List.replicate 120 0xEE)),
          .decompress 0 [0, 0, 0, 0, 9]]
        (Sess.create queueI SessSample.mem SessSample.item 1).1
        (Sess.create queueI SessSample.mem SessSample.item 1).2 with
        | .ok _ => none | .error e => some e) = some .assertFail := by decide +kernel
    revert this
    cases sessRun (fun _ _ => true) 20
        [.decompress 0 (headerBytes 1 CT_FILE (List.replicate 120 0xEE)),
          .decompress 0 [0, 0, 0, 0, 9]]
        (Sess.create queueI SessSample.mem SessSample.item 1).1
        (Sess.create queueI SessSample.mem SessSample.item 1).2 with
    | ok r => simp
    | error e => simp

/-- C16, what holds: an archive of another version never causes a user callback, and the only
fault possible is the failing assertion; none if the whole archive is given in one call.  Missing:
absence of that fault. -/
theorem C16_version_rejected_partial (C : InflateOK Z plain) (ok : AllocOracle) (hdr item : Bytes)
    (hh : hdr.length = 128) (hi : item.length = 40) (B bufSize : Nat)
    (hb : 0 < uInt bufSize ∧ uInt bufSize ≤ B) (ops : List SOp) (hops : ∀ op ∈ ops, op.sane B)
    (hv : hdrVersion ((plain (ops.map SOp.data).flatten).take 128) ≠ 0) :
    ∃ n0, (∃ rets l s, (∀ fuel, n0 ≤ fuel →
        sessRun ok fuel ops (Sess.create Z hdr item bufSize).1 (Sess.create Z hdr item bufSize).2 =
          .ok (rets, l, s)) ∧ s.log = []) ∨
      ((∀ fuel, n0 ≤ fuel → sessRun ok fuel ops (Sess.create Z hdr item bufSize).1
        (Sess.create Z hdr item bufSize).2 = .error .assertFail) ∧
        ∀ flush data, ops ≠ [.decompress flush data]) := by
  obtain ⟨n0, h⟩ := C13_no_callback_before_header C ok hdr item hh hi B bufSize hb ops hops
  obtain ⟨n1, h'⟩ := session_history C ok hdr item hh hi B bufSize hb ops hops
  refine ⟨n1, ?_⟩
  rcases h' with ⟨rets, l, s, P, h1, _⟩ | ⟨_, h2, h3⟩
  · left
    refine ⟨rets, l, s, h1, ?_⟩
    refine Decidable.by_contra fun hne => ?_
    exact hv (h (max n0 n1) (by omega) rets l s (h1 _ (by omega)) hne).2.1
  · right
    refine ⟨h3, ?_⟩
    rintro flush data rfl
    have hc := SInv.create C ok hdr item hh B bufSize hb
    cases hc with
    | header D =>
      have hd : data.length < U32 := (hops _ List.mem_cons_self).2
      obtain ⟨ret, l', s', n2, _, _, g⟩ := header_call C ok item hi B _ _ [] D data hd flush
        (hops _ List.mem_cons_self).1
      have := h3 (max n1 n2) (by omega)
      simp only [sessRun, g (max n1 n2) (by omega)] at this
      cases this
    | data h ds D => have := (D.flags hi).1; simp [Sess.create] at this
    | bad h D => have := D.inited; simp [Sess.create] at this

example := C16_version_rejected_partial queueIOK (fun _ _ => true) SessSample.mem SessSample.item
    SessSample.sizes.1 SessSample.sizes.2.1 8 1 SessSample.sizes.2.2 (SessSample.ops SessSample.newArc)
    (SessSample.ops_sane _ SessSample.lengths.2.2.1)
    (by rw [← SessSample.ops_data]; decide +kernel)

example : hdrVersion (SessSample.newArc.take 128) ≠ 0 ∧
    hdrVersion (SessSample.oddArc.take 128) = 0 ∧ hdrKind (SessSample.oddArc.take 128) = 7 := by
  decide +kernel

/-! ### C17 through a session -/

/-- C17 for whole archives: for a directory archive, however split and whatever buffers are used,
there is a division into chunks of a prefix of the content such that the callbacks after the start
are its meaning; of the whole content if no `inflate` call failed and the last one left room. -/
theorem C17_directory_archive (C : InflateOK Z plain) (ok : AllocOracle) (hdr item : Bytes)
    (hh : hdr.length = 128) (hi : item.length = 40) (B bufSize : Nat)
    (hb : 0 < uInt bufSize ∧ uInt bufSize ≤ B) (ops : List SOp) (hops : ∀ op ∈ ops, op.sane B)
    (arc : Bytes) (harc : arc = (ops.map SOp.data).flatten) (hlen : 128 ≤ (plain arc).length)
    (hv : hdrVersion ((plain arc).take 128) = 0)
    (hk : hdrKind ((plain arc).take 128) = CT_DIRECTORY) :
    ∃ n0 rets l s chunks evs owed, (∀ fuel, n0 ≤ fuel →
        sessRun ok fuel ops (Sess.create Z hdr item bufSize).1 (Sess.create Z hdr item bufSize).2 =
          .ok (rets, l, s)) ∧
      s.pieces = chunks ∧ s.log = (if chunks = [] then [] else .drStart :: evs) ∧
      owed.length ≤ 2 ∧ (∀ b, Atom.byte b ∉ owed) ∧
      LinkSfx (atoms evs ++ owed) (specParse ok 0 chunks.flatten).atoms ∧
      (NoLinkCut ok chunks → atoms evs ++ owed = (specParse ok 0 chunks.flatten).atoms) ∧
      (Proto.idle.run evs).isSome ∧ (∀ b ∈ chunks, b.length ≤ B) ∧
      chunks.flatten <+: (plain arc).drop 128 ∧
      ((∀ r ∈ l.rets, r = Z_OK) → 0 < l.availOut ∨ C.Prompt arc → arc ≠ [] →
        chunks.flatten = (plain arc).drop 128) := by
  subst harc
  obtain ⟨n0, h⟩ := session_history C ok hdr item hh hi B bufSize hb ops hops
  rcases h with ⟨rets, l, s, P, h1, h2, h3, h4⟩ | ⟨_, h, _⟩
  · generalize hlog : s.log = log at h3
    generalize hpcs : s.pieces = pcs at h3
    obtain ⟨t, ht⟩ := h2
    have hPv : 128 ≤ P.length → P.take 128 = (plain (ops.map SOp.data).flatten).take 128 := by
      intro h
      rw [← ht, List.take_append_of_le_length h]
    have h4' : hdrVersion (P.take 128) = 0 ∨ P.length < 128 := by
      by_cases h : P.length < 128
      · exact .inr h
      · exact .inl (by rw [hPv (by omega)]; exact hv)
    have h4'' : (∀ r ∈ l.rets, r = Z_OK) → 0 < l.availOut ∨ C.Prompt (ops.map SOp.data).flatten →
        (ops.map SOp.data).flatten ≠ [] →
          P = plain (ops.map SOp.data).flatten := by
      intro k1 k2 k3
      rcases h4 k1 k2 k3 with h | ⟨h, h'⟩
      · exact h
      · rcases h4' with h'' | h''
        · exact absurd h'' h'
        · omega
    have hnil : s.log = [] → s.pieces = [] → (P.length ≤ 128) →
        ∃ n0 rets l s chunks evs owed, (∀ fuel, n0 ≤ fuel →
        sessRun ok fuel ops (Sess.create Z hdr item bufSize).1 (Sess.create Z hdr item bufSize).2 =
          .ok (rets, l, s)) ∧
      s.pieces = chunks ∧ s.log = (if chunks = [] then [] else .drStart :: evs) ∧
      owed.length ≤ 2 ∧ (∀ b, Atom.byte b ∉ owed) ∧
      LinkSfx (atoms evs ++ owed) (specParse ok 0 chunks.flatten).atoms ∧
      (NoLinkCut ok chunks → atoms evs ++ owed = (specParse ok 0 chunks.flatten).atoms) ∧
      (Proto.idle.run evs).isSome ∧ (∀ b ∈ chunks, b.length ≤ B) ∧
      chunks.flatten <+: (plain (ops.map SOp.data).flatten).drop 128 ∧
      ((∀ r ∈ l.rets, r = Z_OK) → 0 < l.availOut ∨ C.Prompt (ops.map SOp.data).flatten →
        (ops.map SOp.data).flatten ≠ [] →
        chunks.flatten = (plain (ops.map SOp.data).flatten).drop 128) := by
      intro g1 g0 g2
      have hp : (specParse ok 0 ([] : List Bytes).flatten).atoms = [] := by
        rw [specParse]; simp
      refine ⟨n0, rets, l, s, [], [], [], h1, g0, by simpa using g1, by simp, by simp, ?_, ?_, rfl,
        by simp, by simp, fun k1 k2 k3 => ?_⟩
      · rw [hp]; exact .nil
      · intro _; rw [hp]; rfl
      · have := h4'' k1 k2 k3
        rw [← this, List.drop_of_length_le g2]; rfl
    have hne : CT_FILE ≠ CT_DIRECTORY ∧ CT_BLOB ≠ CT_DIRECTORY := by decide
    cases h3 with
    | short a => exact hnil hlog hpcs (by omega)
    | version a b => rw [hPv a] at b; exact absurd hv b
    | empty a => exact hnil hlog hpcs (by omega)
    | unknown a b c d e => rw [hPv a] at c; exact absurd hk c
    | @file h chunks a b c d e =>
      exfalso
      have hP := hPv (by simp; omega)
      rw [List.take_append_of_le_length (by omega), List.take_of_length_le (by omega)] at hP
      rw [← hP] at hk
      rcases c with c | c
      · exact hne.1 (c.symm.trans hk)
      · exact hne.2 (c.symm.trans hk)
    | @dir h _ evs owed a b c d e f g i j k =>
      refine ⟨n0, rets, l, s, pcs, evs, owed, h1, hpcs, by rw [hlog, if_neg d], f, g, i, j, k, e,
        ?_, ?_⟩
      · rw [← ht, List.append_assoc, List.drop_append_of_le_length (by omega),
          List.drop_of_length_le (by omega), List.nil_append]
        exact List.prefix_append _ _
      · intro k1 k2 k3
        rw [← h4'' k1 k2 k3, List.drop_append_of_le_length (by omega),
          List.drop_of_length_le (by omega), List.nil_append]
  · exact absurd hv h

example := C17_directory_archive copyIOK (fun _ _ => true) SessSample.mem SessSample.item
    SessSample.sizes.1 SessSample.sizes.2.1 8 1 SessSample.sizes.2.2 (SessSample.ops SessSample.dirArc)
    (SessSample.ops_sane _ SessSample.lengths.2.2.2)
    _ (SessSample.ops_data _) (by decide +kernel) (by decide +kernel) (by decide +kernel)

example : (match sessRun (fun _ _ => true) 40 (SessSample.ops SessSample.dirArc)
      (Sess.create copyI SessSample.mem SessSample.item 1).1
      (Sess.create copyI SessSample.mem SessSample.item 1).2 with
    | .ok (_, _, s) => atoms (s.log.drop 3) | .error _ => []) = [.byte 1, .byte 2, .byte 3, .fileEnd] := by
  decide +kernel

/-! ### C56 -/

/-- C56.  Two histories that supply the same bytes, with any splits and any exchanges of output
buffers: what either delivers of a file or blob archive are prefixes of the same content, in order,
and both deliver all of it when no `inflate` call failed and the last one left room. -/
theorem C56_buffer_changes_harmless (C : InflateOK Z plain) (ok : AllocOracle)
    (hdr item : Bytes) (hh : hdr.length = 128) (hi : item.length = 40) (B bufSize₁ bufSize₂ : Nat)
    (hb₁ : 0 < uInt bufSize₁ ∧ uInt bufSize₁ ≤ B) (hb₂ : 0 < uInt bufSize₂ ∧ uInt bufSize₂ ≤ B)
    (ops₁ ops₂ : List SOp) (hops₁ : ∀ op ∈ ops₁, op.sane B) (hops₂ : ∀ op ∈ ops₂, op.sane B)
    (arc : Bytes) (h₁ : arc = (ops₁.map SOp.data).flatten) (h₂ : arc = (ops₂.map SOp.data).flatten)
    (hlen : 128 ≤ (plain arc).length) (hv : hdrVersion ((plain arc).take 128) = 0)
    (hk : hdrKind ((plain arc).take 128) = CT_FILE ∨ hdrKind ((plain arc).take 128) = CT_BLOB) :
    ∃ n0 r₁ r₂ l₁ l₂ s₁ s₂ c₁ c₂,
      (∀ fuel, n0 ≤ fuel →
        sessRun ok fuel ops₁ (Sess.create Z hdr item bufSize₁).1
          (Sess.create Z hdr item bufSize₁).2 = .ok (r₁, l₁, s₁) ∧
        sessRun ok fuel ops₂ (Sess.create Z hdr item bufSize₂).1
          (Sess.create Z hdr item bufSize₂).2 = .ok (r₂, l₂, s₂)) ∧
      s₁.log = (if c₁ = [] then [] else .flStart :: c₁.map .flRead) ∧
      s₂.log = (if c₂ = [] then [] else .flStart :: c₂.map .flRead) ∧
      (c₁.flatten <+: c₂.flatten ∨ c₂.flatten <+: c₁.flatten) ∧
      ((∀ r ∈ l₁.rets, r = Z_OK) → 0 < l₁.availOut ∨ C.Prompt arc → (∀ r ∈ l₂.rets, r = Z_OK) →
        0 < l₂.availOut ∨ C.Prompt arc → arc ≠ [] → c₁.flatten = c₂.flatten) := by
  obtain ⟨n₁, r₁, l₁, s₁, c₁, a1, a2, _, a4, a5⟩ :=
    C14_file_payload C ok hdr item hh hi B bufSize₁ hb₁ ops₁ hops₁ arc h₁ hlen hv hk
  obtain ⟨n₂, r₂, l₂, s₂, c₂, b1, b2, _, b4, b5⟩ :=
    C14_file_payload C ok hdr item hh hi B bufSize₂ hb₂ ops₂ hops₂ arc h₂ hlen hv hk
  refine ⟨max n₁ n₂, r₁, r₂, l₁, l₂, s₁, s₂, c₁, c₂,
    fun f hf => ⟨a1 f (by omega), b1 f (by omega)⟩, a2, b2, ?_, ?_⟩
  · rcases Nat.le_total c₁.flatten.length c₂.flatten.length with h | h
    · exact .inl (List.prefix_of_prefix_length_le a4 b4 h)
    · exact .inr (List.prefix_of_prefix_length_le b4 a4 h)
  · intro k1 k2 k3 k4 k5
    rw [a5 k1 k2 k5, b5 k3 k4 k5]

example := C56_buffer_changes_harmless queueIOK (fun _ _ => true) SessSample.mem SessSample.item
    SessSample.sizes.1 SessSample.sizes.2.1 8 1 7 SessSample.sizes.2.2 (by decide +kernel)
    (SessSample.ops SessSample.fileArc) [.decompress 0 SessSample.fileArc]
    (SessSample.ops_sane _ SessSample.lengths.1)
    (by
      intro op hm
      rw [List.mem_singleton] at hm
      subst hm
      exact ⟨.inl rfl, SessSample.lengths.1⟩)
    _ (SessSample.ops_data _) (by simp [SOp.data]) (by decide +kernel) (by decide +kernel)
    (by decide +kernel)

/-- C56, directory archives: the content reaching the parser is the same, and if no target of a link is
cut (C19) so are the callbacks, up to at most two without data that are still to come. -/
theorem C56_directory (C : InflateOK Z plain) (ok : AllocOracle)
    (hdr item : Bytes) (hh : hdr.length = 128) (hi : item.length = 40) (B bufSize₁ bufSize₂ : Nat)
    (hb₁ : 0 < uInt bufSize₁ ∧ uInt bufSize₁ ≤ B) (hb₂ : 0 < uInt bufSize₂ ∧ uInt bufSize₂ ≤ B)
    (ops₁ ops₂ : List SOp) (hops₁ : ∀ op ∈ ops₁, op.sane B) (hops₂ : ∀ op ∈ ops₂, op.sane B)
    (arc : Bytes) (h₁ : arc = (ops₁.map SOp.data).flatten) (h₂ : arc = (ops₂.map SOp.data).flatten)
    (hlen : 128 ≤ (plain arc).length) (hv : hdrVersion ((plain arc).take 128) = 0)
    (hk : hdrKind ((plain arc).take 128) = CT_DIRECTORY) :
    ∃ n0 r₁ r₂ l₁ l₂ s₁ s₂ e₁ e₂ owed₁ owed₂,
      (∀ fuel, n0 ≤ fuel →
        sessRun ok fuel ops₁ (Sess.create Z hdr item bufSize₁).1
          (Sess.create Z hdr item bufSize₁).2 = .ok (r₁, l₁, s₁) ∧
        sessRun ok fuel ops₂ (Sess.create Z hdr item bufSize₂).1
          (Sess.create Z hdr item bufSize₂).2 = .ok (r₂, l₂, s₂)) ∧
      s₁.log = (if s₁.pieces = [] then [] else .drStart :: e₁) ∧
      s₂.log = (if s₂.pieces = [] then [] else .drStart :: e₂) ∧
      (s₁.pieces.flatten <+: s₂.pieces.flatten ∨ s₂.pieces.flatten <+: s₁.pieces.flatten) ∧
      (∀ a ∈ owed₁ ++ owed₂, ∀ b, a ≠ .byte b) ∧ owed₁.length ≤ 2 ∧ owed₂.length ≤ 2 ∧
      ((∀ r ∈ l₁.rets, r = Z_OK) → 0 < l₁.availOut ∨ C.Prompt arc → (∀ r ∈ l₂.rets, r = Z_OK) →
        0 < l₂.availOut ∨ C.Prompt arc → arc ≠ [] → s₁.pieces.flatten = s₂.pieces.flatten ∧
        (NoLinkCut ok s₁.pieces → NoLinkCut ok s₂.pieces →
          atoms e₁ ++ owed₁ = atoms e₂ ++ owed₂)) := by
  obtain ⟨n1, r₁, l₁, s₁, c₁, e₁, o₁, a1, a2, a3, a4, a5, _, a7, _, _, a10, a11⟩ :=
    C17_directory_archive C ok hdr item hh hi B bufSize₁ hb₁ ops₁ hops₁ arc h₁ hlen hv hk
  obtain ⟨n2, r₂, l₂, s₂, c₂, e₂, o₂, b1, b2, b3, b4, b5, _, b7, _, _, b10, b11⟩ :=
    C17_directory_archive C ok hdr item hh hi B bufSize₂ hb₂ ops₂ hops₂ arc h₂ hlen hv hk
  subst a2 b2
  refine ⟨n1 + n2, r₁, r₂, l₁, l₂, s₁, s₂, e₁, e₂, o₁, o₂,
    fun f hf => ⟨a1 f (by omega), b1 f (by omega)⟩, a3, b3, ?_, ?_, a4, b4, ?_⟩
  · rcases Nat.le_total s₁.pieces.flatten.length s₂.pieces.flatten.length with h | h
    · exact .inl (List.prefix_of_prefix_length_le a10 b10 h)
    · exact .inr (List.prefix_of_prefix_length_le b10 a10 h)
  · intro a ha b e
    subst e
    rcases List.mem_append.mp ha with h | h
    · exact a5 b h
    · exact b5 b h
  · intro k1 k2 k3 k4 k5
    have e : s₁.pieces.flatten = s₂.pieces.flatten := by rw [a11 k1 k2 k5, b11 k3 k4 k5]
    exact ⟨e, fun m1 m2 => by rw [a7 m1, b7 m2, e]⟩

example := C56_directory queueIOK (fun _ _ => true) SessSample.mem SessSample.item
    SessSample.sizes.1 SessSample.sizes.2.1 8 1 7 SessSample.sizes.2.2 (by decide +kernel)
    (SessSample.ops SessSample.dirArc) [.decompress 0 SessSample.dirArc]
    (SessSample.ops_sane _ (by decide +kernel))
    (by
      intro op hm
      rw [List.mem_singleton] at hm
      subst hm
      exact ⟨.inl rfl, by decide +kernel⟩)
    _ (SessSample.ops_data _) (by simp [SOp.data]) (by decide +kernel) (by decide +kernel)
    (by decide +kernel)

/-- Hypotheses of C14, C56 on the sample. -/
example : 128 ≤ (id SessSample.fileArc).length ∧
    hdrVersion ((id SessSample.fileArc).take 128) = 0 ∧
    hdrKind ((id SessSample.fileArc).take 128) = CT_FILE ∧ SessSample.fileArc.length = 133 := by
  decide +kernel

end Zwt
