import Verif.Model.DirParser

/-!
Independent meaning of a directory plaintext: a recursive-descent reading of the record grammar

    stream  ::= record*
    record  ::= item(40 bytes) [ name(nameLenNorm bytes) [ payload(fileSize) gap ] ]

It says nothing about buffers, stages or offsets.
-/

namespace Zwt

/-- What the user callbacks of a directory archive convey, with file payloads flattened to
single bytes (so that cutting a payload into several `fileRead` calls is invisible). -/
inductive Atom
  | start (ft : FType) (name : Bytes) (item : Bytes)
  | byte (b : UInt8)
  | fileEnd
  | dirEnd
  | link (target : Bytes)
  | drStart
  | flStart
  deriving DecidableEq, Repr

/-- Flattening of one callback. -/
def Ev.atoms : Ev → List Atom
  | .flStart => [.flStart]
  | .flRead d => d.map .byte
  | .drStart => [.drStart]
  | .itemStart ft nm it => [.start ft nm it]
  | .fileRead d => d.map .byte
  | .fileEnd => [.fileEnd]
  | .dirEnd => [.dirEnd]
  | .symLink t _ => [.link t]

/-- Flattening of a callback history. -/
def atoms (evs : List Ev) : List Atom := evs.flatMap Ev.atoms

/-- Where the reading of a plaintext ends. -/
inductive Ending
  /-- between records, or inside a 40-byte item of which `part` has been read -/
  | inItem (part : Bytes)
  /-- inside a name; `part` has been read -/
  | inName (item part : Bytes)
  /-- inside a file payload, `missing > 0` bytes short -/
  | inFile (missing : Nat)
  /-- inside a link target: `got` bytes read, `missing > 0` bytes short -/
  | inLink (got missing : Nat)
  /-- inside padding, `missing > 0` bytes short -/
  | inGap (missing : Nat)
  /-- reading stopped at a failed allocation -/
  | dead
  deriving DecidableEq, Repr

/-- Result of reading a plaintext. -/
structure Parsed where
  atoms : List Atom
  ending : Ending
  deriving DecidableEq, Repr

/-- Put atoms in front of a result. -/
def Parsed.after (as : List Atom) (p : Parsed) : Parsed := ⟨as ++ p.atoms, p.ending⟩

/-- Meaning of a directory plaintext `bs`, for every byte string.  `ok k n` tells whether the
`k`-th allocation (of `n` bytes, for a name) succeeds; reading stops at a failed one. -/
def specParse (ok : AllocOracle) (k : Nat) (bs : Bytes) : Parsed :=
  if h : bs.length < 40 then ⟨[], .inItem bs⟩
  else
    let item := bs.take 40
    let rest := bs.drop 40
    if itKind item = 2 then (specParse ok k rest).after [.dirEnd]           -- directory end
    else if itKind item = 0 ∨ itKind item = 1 ∨ itKind item = 4 then        -- file, dir, symlink
      if ¬ ok k (itNameLenNorm item) then ⟨[], .dead⟩
      else if rest.length < itNameLenNorm item then ⟨[], .inName item rest⟩
      else
        let name := rest.take (itNameLenNorm item)
        let rest := rest.drop (itNameLenNorm item)
        let size := itFileSize item
        let gap := sub64 (itFileSizeNorm item) (itFileSize item)
        if itKind item = 1 then (specParse ok (k+1) rest).after [.start .dir name item]
        else if itKind item = 0 then
          if rest.length < size then
            ⟨.start .file name item :: rest.map .byte, .inFile (size - rest.length)⟩
          else if rest.length < size + gap then
            ⟨.start .file name item :: (rest.take size).map .byte ++ [.fileEnd],
              .inGap (size + gap - rest.length)⟩
          else (specParse ok (k+1) (rest.drop (size + gap))).after
            (.start .file name item :: (rest.take size).map .byte ++ [.fileEnd])
        else
          if rest.length < size then
            ⟨[.start .symlink name item], .inLink rest.length (size - rest.length)⟩
          else if rest.length < size + gap then
            ⟨[.start .symlink name item, .link (rest.take size)],
              .inGap (size + gap - rest.length)⟩
          else (specParse ok (k+1) (rest.drop (size + gap))).after
            [.start .symlink name item, .link (rest.take size)]
    else specParse ok k rest                                               -- unknown kind
termination_by bs.length
decreasing_by all_goals (simp only [List.length_drop]; omega)

/-- The plaintext prefix `w` ends strictly inside a link target. -/
def EndsInLink (ok : AllocOracle) (w : Bytes) : Prop :=
  ∃ got missing, (specParse ok 0 w).ending = .inLink got missing ∧ 0 < got

/-- No buffer boundary falls strictly inside a link target. -/
def NoLinkCut (ok : AllocOracle) (chunks : List Bytes) : Prop :=
  ∀ n, n < chunks.length → ¬ EndsInLink ok (chunks.take n).flatten

/-- No buffer ends inside a link target or with its last byte. -/
def LinksWhole (ok : AllocOracle) (chunks : List Bytes) : Prop :=
  NoLinkCut ok chunks ∧ ∀ n, n ≤ chunks.length → ∀ got,
    (specParse ok 0 (chunks.take n).flatten.dropLast).ending ≠ .inLink got 1

/-- Same length and same atoms, except that a link target on the left may be a suffix (not an empty
one, unless the target is empty) of the one on the right. -/
inductive LinkSfx : List Atom → List Atom → Prop
  | nil : LinkSfx [] []
  | same (a : Atom) {l l'} : LinkSfx l l' → LinkSfx (a :: l) (a :: l')
  | link {t t' : Bytes} {l l'} : t <:+ t' ∧ (t = [] → t' = []) → LinkSfx l l' → LinkSfx (.link t :: l) (.link t' :: l')

/-! ### Callback protocol of a directory archive -/

/-- What may come next. -/
inductive Proto
  /-- between entries -/
  | idle
  /-- inside a file whose announced size has `left` bytes to go -/
  | inFile (left : Nat)
  /-- a symbolic link has been announced, its target not yet given -/
  | inLink
  deriving DecidableEq, Repr

/-- One callback; `none` if it is not allowed at this point. -/
def Proto.step : Proto → Ev → Option Proto
  | .idle, .itemStart .file _ item => some (.inFile (itFileSize item))
  | .idle, .itemStart .dir _ _ => some .idle
  | .idle, .itemStart .symlink _ _ => some .inLink
  | .idle, .dirEnd => some .idle
  | .inFile left, .fileRead d => if d.length ≤ left then some (.inFile (left - d.length)) else none
  | .inFile 0, .fileEnd => some .idle
  | .inLink, .symLink _ _ => some .idle
  | _, _ => none

/-- A callback history. -/
def Proto.run : Proto → List Ev → Option Proto
  | p, [] => some p
  | p, e :: es => (p.step e).bind (fun p' => p'.run es)

end Zwt
