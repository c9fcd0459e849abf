/-!
Shared vocabulary of the model: bytes, faults, little-endian integers, bounded copies.
-/

namespace Zwt

/-- Byte strings; stands for every `void*`/`char*` + length pair of the C code. -/
abbrev Bytes := List UInt8

/-- Ways in which an execution of the C code can leave its defined behaviour.
Nothing of this kind is silently totalised: a model function returns `Except.error` instead. -/
inductive Fault
  | oobWrite       -- write outside an object
  | oobRead        -- read outside an object
  | nullDeref      -- use of a null pointer
  | assertFail     -- a failing `assert`
  | typeConfusion  -- an object used through a pointer to an unrelated type
  | doubleFree     -- `free`/`delete` of a released object
  | useAfterFree   -- use of a released object
  | processExit    -- the library calls `exit`
  | outOfFuel      -- the loop/recursion did not finish within the given fuel
  deriving DecidableEq, Repr

/-- Outcome of a C function. -/
abbrev Run (α : Type u) := Except Fault α

deriving instance DecidableEq for Except

/-- `2^32`: number of values of `uint32_t`/`uInt`. -/
def U32 : Nat := 4294967296
/-- `2^64`: number of values of `size_t`/`uint64_t`. -/
def U64 : Nat := 18446744073709551616

/-- Unsigned 64-bit subtraction `a - b` of two `size_t`/`uint64_t` values (wraps around). -/
def sub64 (a b : Nat) : Nat := if b ≤ a then a - b else a + U64 - b

/-- Little-endian encoding of `n` in `k` bytes (`htole32`, `htole64` and storing the result). -/
def leEnc : Nat → Nat → Bytes
  | 0, _ => []
  | k+1, n => UInt8.ofNat (n % 256) :: leEnc k (n / 256)

/-- Little-endian decoding (`le32toh`, `le64toh` of a loaded integer). -/
def leDec : Bytes → Nat
  | [] => 0
  | b :: bs => b.toNat + 256 * leDec bs

/-- `memcpy(dst + off, src, |src|)` into an object whose content is `dst`. -/
def memcpyAt (dst : Bytes) (off : Nat) (src : Bytes) : Run Bytes :=
  if off + src.length ≤ dst.length then
    .ok (dst.take off ++ src ++ dst.drop (off + src.length))
  else .error .oobWrite

/-- The C string starting at the beginning of `b`: bytes up to the first NUL.
`none` when there is no NUL inside the object. -/
def cstr? (b : Bytes) : Option Bytes :=
  if (0 : UInt8) ∈ b then some (b.takeWhile (· != 0)) else none

end Zwt
