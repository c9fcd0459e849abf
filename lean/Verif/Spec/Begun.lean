import Verif.Spec.Forest

/-! Encodings of trees, cut between two records. -/

namespace Zwt

/-- `Begun f g t u`: `t ++ u` is the record encoding of the tree `f`, cut before or after a record, and `g`
holds the entries of `f` whose records are in `t`.  (The end records of the directories that the cut is in are
in `u`.) -/
inductive Begun : Forest → Forest → Bytes → Bytes → Prop
  /-- cut here -/
  | here {f : Forest} {bs : Bytes} : Encodes f bs → Begun f .nil [] bs
  /-- after a file -/
  | file {name content item p q t u : Bytes} {mode : Nat} {rest g : Forest} :
      item.length = 40 → itKind item = 0 → itMode item = mode → itNameLen item = name.length →
      itNameLenNorm item = name.length + p.length → itFileSize item = content.length →
      itFileSizeNorm item = content.length + q.length → Pad p → Pad q → Begun rest g t u →
      Begun (.file name mode content rest) (.file name mode content g) (item ++ name ++ p ++ content ++ q ++ t) u
  /-- after a directory -/
  | dir {name item p e bs t u : Bytes} {mode : Nat} {sub rest g : Forest} :
      item.length = 40 → itKind item = 1 → itMode item = mode → itNameLen item = name.length →
      itNameLenNorm item = name.length + p.length → Pad p → Encodes sub bs →
      e.length = 40 → itKind e = 2 → Begun rest g t u →
      Begun (.dir name mode sub rest) (.dir name mode sub g) (item ++ name ++ p ++ bs ++ e ++ t) u
  /-- in a directory -/
  | inside {name item p e t u cs : Bytes} {mode : Nat} {sub rest g : Forest} :
      item.length = 40 → itKind item = 1 → itMode item = mode → itNameLen item = name.length →
      itNameLenNorm item = name.length + p.length → Pad p → Begun sub g t u →
      e.length = 40 → itKind e = 2 → Encodes rest cs →
      Begun (.dir name mode sub rest) (.dir name mode g .nil) (item ++ name ++ p ++ t) (u ++ e ++ cs)

end Zwt
