import Verif.Spec.DirStream

/-! What the user of an archive decompress session sees. -/

namespace Zwt

/-- `ArchiveLog ok B P pieces log`: `log` is a possible history of user callbacks when the plaintext
bytes decoded are `P` and output buffers of at most `B` bytes are used; `pieces` are the buffers that
the content came in.  (The start callback is made when the first piece of content arrives.) -/
inductive ArchiveLog (ok : AllocOracle) (B : Nat) : Bytes → List Bytes → List Ev → Prop
  /-- header incomplete -/
  | short {P : Bytes} : P.length < 128 → ArchiveLog ok B P [] []
  /-- other version: nothing -/
  | version {P : Bytes} {pieces : List Bytes} : 128 ≤ P.length → hdrVersion (P.take 128) ≠ 0 →
      ArchiveLog ok B P pieces []
  /-- header only -/
  | empty {P : Bytes} : P.length = 128 → hdrVersion P = 0 → ArchiveLog ok B P [] []
  /-- content of unknown kind -/
  | unknown {P : Bytes} {pieces : List Bytes} : 128 ≤ P.length → hdrVersion (P.take 128) = 0 →
      hdrKind (P.take 128) ≠ CT_DIRECTORY → hdrKind (P.take 128) ≠ CT_FILE →
      hdrKind (P.take 128) ≠ CT_BLOB → ArchiveLog ok B P pieces []
  /-- file or blob: one start, then the content in pieces -/
  | file {h : Bytes} {chunks : List Bytes} : h.length = 128 → hdrVersion h = 0 →
      (hdrKind h = CT_FILE ∨ hdrKind h = CT_BLOB) → chunks ≠ [] → (∀ b ∈ chunks, b.length ≤ B) →
      ArchiveLog ok B (h ++ chunks.flatten) chunks (.flStart :: chunks.map .flRead)
  /-- directory: one start, then the meaning of the content (see C17) -/
  | dir {h : Bytes} {chunks : List Bytes} {evs : List Ev} {owed : List Atom} : h.length = 128 →
      hdrVersion h = 0 → hdrKind h = CT_DIRECTORY → chunks ≠ [] → (∀ b ∈ chunks, b.length ≤ B) →
      owed.length ≤ 2 → (∀ b, Atom.byte b ∉ owed) →
      LinkSfx (atoms evs ++ owed) (specParse ok 0 chunks.flatten).atoms →
      (NoLinkCut ok chunks → atoms evs ++ owed = (specParse ok 0 chunks.flatten).atoms) →
      (Proto.idle.run evs).isSome →
      -- a link target lies in one buffer and is shown with what follows it there
      (∀ t a, .symLink t a ∈ evs → t ≠ [] → ∃ n u g, chunks[n]? = some (u ++ t ++ a) ∧
        (specParse ok 0 ((chunks.take n).flatten ++ u)).ending = .inLink g t.length) →
      -- callbacks are owed at a record boundary only after an empty name or an empty padding
      (owed ≠ [] → (specParse ok 0 chunks.flatten).ending = .inItem [] →
        ∃ ft nm it, Atom.start ft nm it ∈ atoms evs ++ owed ∧
          (nm = [] ∨ (itKind it ≠ 1 ∧ sub64 (itFileSizeNorm it) (itFileSize it) = 0))) →
      ArchiveLog ok B (h ++ chunks.flatten) chunks (.drStart :: evs)

end Zwt
