import Verif.Model.Conc

/-! Earlier extractions (C122). -/

namespace Zwt

/-- `now` is what any number of extractions have made of the disk `fs`: of any archives or other data, by any
processes, to any paths, with any calls refused, each complete or interrupted after any number of calls. -/
inductive Earlier (fs : FS) : FS → Prop
  | start : Earlier fs fs
  | more {now : FS} (Z : Inflater) (os : Os) (ok : AllocOracle) (fuel : Nat) (hdr item out : Bytes) (n : Nat)
      (inp : Input) (w : World) (k : Nat) : Earlier fs now → w.fs = now →
      Earlier fs ((extractP Z ok fuel hdr item out n inp).after os k w).2.fs

end Zwt
