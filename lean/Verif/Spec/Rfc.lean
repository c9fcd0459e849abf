import Verif.Spec.Zlib

/-!
The zlib format of RFC 1950 and RFC 1951, as a machine that reads one bit after the other.  The sources of
zlib are not part of `/repo`; this is written after the RFCs, with the checks that zlib's `inflate` makes.
The contracts of `Spec/Zlib` are shown to hold for it in `Proofs/Rfc`, so the theorems that assume them
speak about archives in this format.
-/

namespace Zwt.Rfc

/-- The bits of a byte, in the order they are read (RFC 1951, 3.1.1). -/
def byteBits (b : UInt8) : List Bool := (List.range 8).map fun i => b.toNat.testBit i

/-- Fields other than Huffman codes: the first bit is the lowest. -/
def bitsVal : List Bool → Nat
  | [] => 0
  | b :: bs => b.toNat + 2 * bitsVal bs

/-- Huffman codes: the first bit is the highest. -/
def codeVal (bs : List Bool) : Nat := bs.foldl (fun v b => 2 * v + b.toNat) 0

/-- Number of symbols with codes of `l` bits. -/
def count (lens : List Nat) (l : Nat) : Nat := if l = 0 then 0 else (lens.filter (· == l)).length

/-- The smallest code of `l` bits (RFC 1951, 3.2.2). -/
def firstCode (lens : List Nat) : Nat → Nat
  | 0 => 0
  | l + 1 => 2 * (firstCode lens l + count lens l)

/-- The symbol with the code `bs`. -/
def symbolOf (lens : List Nat) (bs : List Bool) : Option Nat :=
  let l := bs.length
  if firstCode lens l ≤ codeVal bs ∧ codeVal bs < firstCode lens l + count lens l then
    ((List.range lens.length).filter fun s => lens[s]? == some l)[codeVal bs - firstCode lens l]?
  else none

/-- What part of all bit strings of 15 bits begins with a code, in units of `2 ^ -15`. -/
def used (lens : List Nat) : Nat :=
  (lens.map fun l => if l = 0 then 0 else 2 ^ (15 - l)).foldl (· + ·) 0

/-- Codes that `inflate` accepts: complete ones; for literals and distances also a single code of one
bit, and none. -/
def codeOk (single : Bool) (lens : List Nat) : Bool :=
  used lens == 2 ^ 15 || used lens == 0 || (single && used lens == 2 ^ 14 && lens.contains 1)

/-- The fixed codes (RFC 1951, 3.2.6). -/
def fixedLit : List Nat :=
  List.replicate 144 8 ++ List.replicate 112 9 ++ List.replicate 24 7 ++ List.replicate 8 8
def fixedDist : List Nat := List.replicate 32 5

/-- Order of the lengths of the code length codes (RFC 1951, 3.2.7). -/
def clOrder : List Nat := [16, 17, 18, 0, 8, 7, 9, 6, 10, 5, 11, 4, 12, 3, 13, 2, 14, 1, 15]

/-- Base and number of extra bits of the length symbols 257 to 285 (RFC 1951, 3.2.5). -/
def lenTable : List (Nat × Nat) :=
  [(3, 0), (4, 0), (5, 0), (6, 0), (7, 0), (8, 0), (9, 0), (10, 0), (11, 1), (13, 1), (15, 1), (17, 1),
    (19, 2), (23, 2), (27, 2), (31, 2), (35, 3), (43, 3), (51, 3), (59, 3), (67, 4), (83, 4), (99, 4),
    (115, 4), (131, 5), (163, 5), (195, 5), (227, 5), (258, 0)]

/-- The same for the distance symbols 0 to 29. -/
def distTable : List (Nat × Nat) :=
  [(1, 0), (2, 0), (3, 0), (4, 0), (5, 1), (7, 1), (9, 2), (13, 2), (17, 3), (25, 3), (33, 4), (49, 4),
    (65, 5), (97, 5), (129, 6), (193, 6), (257, 7), (385, 7), (513, 8), (769, 8), (1025, 9), (1537, 9),
    (2049, 10), (3073, 10), (4097, 11), (6145, 11), (8193, 12), (12289, 12), (16385, 13), (24577, 13)]

/-- `n` bytes from `d` bytes back, which may be bytes just copied. -/
def copyBack : Nat → Nat → Bytes → Bytes
  | 0, _, o => o
  | n + 1, d, o => copyBack n d (o ++ [o.getD (o.length - d) 0])

/-- Adler-32 (RFC 1950, 8.2). -/
def adler (c : Bytes) : Nat :=
  let r := c.foldl (fun (a, b) x => ((a + x.toNat) % 65521, (b + (a + x.toNat) % 65521) % 65521)) (1, 0)
  r.2 * 65536 + r.1

/-- What is being read. -/
inductive Mode
  /-- the two bytes of the zlib header -/
  | head
  /-- `BFINAL` and `BTYPE` -/
  | block
  /-- the rest of a byte, before `LEN` -/
  | skip
  | storedLen
  | stored (n : Nat)
  /-- `HLIT`, `HDIST`, `HCLEN` -/
  | dynHead
  | codeLens (nlen ndist ncode : Nat) (got : List Nat)
  | lens (nlen ndist : Nat) (cl got : List Nat)
  /-- `bits` extra bits for `base` or more times `v` -/
  | repeats (nlen ndist : Nat) (cl got : List Nat) (v base bits : Nat)
  | symbol
  | lenExtra (base bits : Nat)
  | dist (len : Nat)
  | distExtra (len base bits : Nat)
  /-- the rest of a byte, before the check value -/
  | align
  | check
  | done
  | bad
  deriving DecidableEq, Repr

/-- State of the reader: the bits of the current field so far, the position in the current byte, whether
this is the last block, the lengths of the codes, and all the output. -/
structure St where
  mode : Mode
  acc : List Bool
  pos : Nat
  last : Bool
  lit : List Nat
  dst : List Nat
  out : Bytes
  deriving DecidableEq, Repr

def St.init : St := ⟨.head, [], 0, false, [], [], []⟩

def St.go (s : St) (m : Mode) : St := { s with mode := m, acc := [] }

/-- After a block. -/
def St.endBlock (s : St) : St :=
  if s.last then s.go (if s.pos = 0 then .check else .align) else s.go .block

/-- After some code lengths have been read; `HLIT` first, then `HDIST` (RFC 1951, 3.2.7). -/
def St.gotLens (s : St) (nlen ndist : Nat) (cl got : List Nat) : St :=
  if got.length < nlen + ndist then s.go (.lens nlen ndist cl got)
  else if nlen + ndist < got.length then s.go .bad
  else if got[256]? = some 0 then s.go .bad
  else if codeOk true (got.take nlen) && codeOk true (got.drop nlen) then
    { s with lit := got.take nlen, dst := got.drop nlen }.go .symbol
  else s.go .bad

/-- A length and a distance. -/
def St.copy (s : St) (len d : Nat) : St :=
  if s.out.length < d then s.go .bad else { s with out := copyBack len d s.out }.go .symbol

/-- A field has been read. -/
def St.field (s : St) (bs : List Bool) : St :=
  match s.mode with
  | .head =>
    let cmf := bitsVal (bs.take 8)
    let flg := bitsVal (bs.drop 8)
    if (cmf * 256 + flg) % 31 = 0 ∧ cmf % 16 = 8 ∧ cmf / 16 ≤ 7 ∧ flg.testBit 5 = false then s.go .block
    else s.go .bad
  | .block =>
    let s := { s with last := bitsVal (bs.take 1) == 1 }
    match bitsVal (bs.drop 1) with
    | 0 => s.go (if s.pos = 0 then .storedLen else .skip)
    | 1 => { s with lit := fixedLit, dst := fixedDist }.go .symbol
    | 2 => s.go .dynHead
    | _ => s.go .bad
  | .storedLen =>
    let n := bitsVal (bs.take 16)
    if n + bitsVal (bs.drop 16) = 65535 then
      if n = 0 then s.endBlock else s.go (.stored n)
    else s.go .bad
  | .stored n =>
    let s := { s with out := s.out ++ [UInt8.ofNat (bitsVal bs)] }
    if n ≤ 1 then s.endBlock else s.go (.stored (n - 1))
  | .dynHead =>
    let nlen := bitsVal (bs.take 5) + 257
    let ndist := bitsVal ((bs.drop 5).take 5) + 1
    if 286 < nlen ∨ 30 < ndist then s.go .bad
    else s.go (.codeLens nlen ndist (bitsVal (bs.drop 10) + 4) [])
  | .codeLens nlen ndist ncode got =>
    let got := got ++ [bitsVal bs]
    if got.length < ncode then s.go (.codeLens nlen ndist ncode got)
    else
      let cl := (List.range 19).map fun v => got.getD (clOrder.idxOf v) 0
      if codeOk false cl then s.go (.lens nlen ndist cl []) else s.go .bad
  | .repeats nlen ndist cl got v base _ =>
    s.gotLens nlen ndist cl (got ++ List.replicate (base + bitsVal bs) v)
  | .lenExtra base _ => s.go (.dist (base + bitsVal bs))
  | .distExtra len base _ => s.copy len (base + bitsVal bs)
  | .check =>
    if bitsVal (bs.take 8) * 2 ^ 24 + bitsVal ((bs.drop 8).take 8) * 2 ^ 16 +
        bitsVal ((bs.drop 16).take 8) * 2 ^ 8 + bitsVal (bs.drop 24) = adler s.out then s.go .done
    else s.go .bad
  | _ => s

/-- A Huffman code has been read. -/
def St.code (s : St) (v : Nat) : St :=
  match s.mode with
  | .lens nlen ndist cl got =>
    if v < 16 then s.gotLens nlen ndist cl (got ++ [v])
    else if v = 16 then
      match got.getLast? with
      | none => s.go .bad
      | some p => s.go (.repeats nlen ndist cl got p 3 2)
    else if v = 17 then s.go (.repeats nlen ndist cl got 0 3 3)
    else s.go (.repeats nlen ndist cl got 0 11 7)
  | .symbol =>
    if v < 256 then { s with out := s.out ++ [UInt8.ofNat v] }.go .symbol
    else if v = 256 then s.endBlock
    else
      match lenTable[v - 257]? with
      | none => s.go .bad
      | some (base, 0) => s.go (.dist base)
      | some (base, n) => s.go (.lenExtra base n)
  | .dist len =>
    match distTable[v]? with
    | none => s.go .bad
    | some (base, 0) => s.copy len base
    | some (base, n) => s.go (.distExtra len base n)
  | _ => s

/-- Number of bits of a field of fixed size. -/
def Mode.size : Mode → Nat
  | .head => 16
  | .block => 3
  | .storedLen => 32
  | .stored _ => 8
  | .dynHead => 14
  | .codeLens .. => 3
  | .repeats _ _ _ _ _ _ n => n
  | .lenExtra _ n => n
  | .distExtra _ _ n => n
  | .check => 32
  | _ => 0

/-- The code lengths in force, if a Huffman code is read. -/
def St.lens (s : St) : Option (List Nat) :=
  match s.mode with
  | .lens _ _ cl _ => some cl
  | .symbol => some s.lit
  | .dist _ => some s.dst
  | _ => none

/-- The stream has ended or is defective. -/
def St.final (s : St) : Bool := s.mode == .done || s.mode == .bad

/-- One bit. -/
def St.bit (s : St) (b : Bool) : St :=
  if s.final then s
  else
    let bs := s.acc ++ [b]
    let s := { s with pos := (s.pos + 1) % 8, acc := bs }
    match s.lens with
    | some lens =>
      match symbolOf lens bs with
      | some v => s.code v
      | none => if bs.length < 15 then s else s.go .bad
    | none =>
      if s.mode = .skip then if s.pos = 0 then s.go .storedLen else s
      else if s.mode = .align then if s.pos = 0 then s.go .check else s
      else if bs.length < s.mode.size then s else s.field bs

/-- One byte. -/
def St.byte (s : St) (b : UInt8) : St := (byteBits b).foldl St.bit s

def St.run (s : St) (c : Bytes) : St := c.foldl St.byte s

/-- The plaintext of a zlib stream, of its beginning, or up to its first defect. -/
def plain (c : Bytes) : Bytes := (St.init.run c).out

end Zwt.Rfc
