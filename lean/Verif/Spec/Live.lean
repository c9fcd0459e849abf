import Verif.Model.Live

/-! What the output file is to the functions that archive the directory it lies in. -/

namespace Zwt

/-- The file system with the file `f` in place of the output file. -/
def Own.freeze (own : Own) (env : Env) (f : FileObs) : Env :=
  { env with fopen := fun p => if own.path p then some f else env.fopen p }

/-- The filter has accepted the output file. -/
def Own.met (own : Own) (x : Bytes × Entry × Int) : Bool :=
  x.2.2 == 0 && decide (x.2.1.ty = .file) && own.path (joinPath x.1 x.2.1.name)

/-- The stream keeps back less when it has been given more, and does not invent anything. -/
structure Own.Stream (own : Own) : Prop where
  mono : ∀ {n m}, n ≤ m → own.shown n ≤ own.shown m
  le : ∀ n, own.shown n ≤ n

/-- A stream that writes blocks of `b` bytes. -/
def blockwise (b n : Nat) : Nat := n - n % b

/-- Every call passes on at least as many bytes as it was given, as with data that cannot be compressed. -/
def NoShrink (D : Deflater) : Prop :=
  ∀ (fuel : Nat) (s s' : CS D) (data : Bytes) (ret : Int), s.bufSize = 524288 → data.length ≤ 524288 →
    compress fuel s data = .ok (ret, s') → s.log.flatten.length + data.length ≤ s'.log.flatten.length

/-- The stream writes whole blocks: with 512 KiB more given to it, 512 KiB more are in the file. -/
def Own.Flushes (own : Own) : Prop :=
  ∀ n m, n + 524288 ≤ m → own.shown n + 524288 ≤ own.shown m

end Zwt
