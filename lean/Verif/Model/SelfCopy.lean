import Verif.Model.Tools

/-!
The loop with which the self extractor copies its own program, `src/tools/main_self_extract.c:195-203`,
with reads and writes that may transfer less than asked for.

Simplifications: the program file does not change between two reads of the loop (it may have changed since
its size was determined); the output file is written from its beginning and nobody else writes it.
-/

namespace Zwt

/-- What the system does: the `k`-th `fread` delivers at most `got k` bytes (0: error or end of file), the
`k`-th `write`, of `n` bytes, stores `stored k n` of them at most (0: error). -/
structure CopyIO where
  got : Nat → Nat
  stored : Nat → Nat → Nat

/-- The loop, `:195-203`.  `src`: what is still to come of the file; `rem`: `unRemainingBytes`; `out`: what
has been stored.  The result of `write` is ignored, `:200`. -/
def copyLoop (io : CopyIO) : Nat → Nat → Bytes → Nat → Bytes → Run Bytes
  | 0, _, _, _, _ => .error .outOfFuel
  | fuel+1, k, src, rem, out =>
    if rem = 0 then .ok out
    else
      let piece := src.take (min (min rem VC_BUFFER_SIZE) (io.got k))
      if 0 < piece.length then
        copyLoop io fuel (k + 1) (src.drop piece.length) (rem - piece.length)
          (out ++ piece.take (io.stored k piece.length))
      else copyLoop io fuel (k + 1) src rem out

/-- The branch that packs, `:177-227`, with that loop (`selfPack` in `Model/Tools` has complete reads and
writes); `size` is the size found by `ftell`, `:131`. -/
def selfPackIO (io : CopyIO) (fuel : Nat) (limit : Nat) (exe : Bytes) (size : Nat) (open1 open2 : Bool)
    (icon : Bytes → Bytes) (compress : Run (Int × List Bytes)) : Run SelfRun :=
  if open1 = false then .ok ⟨1, none, none, [], false⟩
  else
    match copyLoop io fuel 0 exe size [] with
    | .error e => .error e
    | .ok copied =>
      let copy := icon copied
      if open2 = false then .ok ⟨1, some copy, none, [], false⟩
      else
        match compress with
        | .error e => .error e
        | .ok (ret, pieces) => .ok ⟨ret, some (pwrites copy limit pieces), none, [], false⟩

end Zwt
