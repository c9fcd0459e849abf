import Verif.Model.Win

/-! Earlier extractions on a Windows drive (C122). -/

namespace Zwt

/-- `now` is what any number of extractions have made of the drive `fs`: of any archives or other data, by any
processes, to any paths, with any calls refused (from some call on, if a run is cut off). -/
inductive WEarlier (fs : WFS) : WFS → Prop
  | start : WEarlier fs fs
  | more {now : WFS} (Z : Inflater) (win : Win) (ok : AllocOracle) (fuel : Nat) (hdr item out : Bytes) (n : Nat)
      (inp : Input) (w : WWorld) (r : WExtracted) : WEarlier fs now → w.fs = now →
      winExtract Z win ok fuel hdr item out n inp w = .ok r → WEarlier fs r.w.fs

end Zwt
