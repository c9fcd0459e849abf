import Verif.Spec.Forest

/-! The archive format, byte by byte. -/

namespace Zwt

/-- A number in `k` bytes, the lowest first. -/
def le (k n : Nat) : Bytes := (List.range k).map (fun i => UInt8.ofNat (n / 256 ^ i % 256))

/-- A record: payload size (8 bytes), that with padding (8), length of the name (4), that with padding
(4), mode (4), kind (1), reserved (11). -/
def record (size sizeNorm name nameNorm mode kind : Nat) (reserved : Bytes) : Bytes :=
  le 8 size ++ le 8 sizeNorm ++ le 4 name ++ le 4 nameNorm ++ le 4 mode ++ le 1 kind ++ reserved

/-- `bs` is a tree in the archive format.  Kinds: 0 file, 1 directory, 2 end of directory, 4 link.
Names and payloads are followed by 1 to 8 zero bytes. -/
inductive Layout : Forest → Bytes → Prop
  | nil : Layout .nil []
  | file {name content r bs : Bytes} {mode p q : Nat} {rest : Forest} :
      r.length = 11 → 0 < p ∧ p ≤ 8 → 0 < q ∧ q ≤ 8 → name.length + p < 2 ^ 32 →
      content.length + q < 2 ^ 64 → mode < 2 ^ 32 → Layout rest bs →
      Layout (.file name mode content rest)
        (record content.length (content.length + q) name.length (name.length + p) mode 0 r ++ name ++
          List.replicate p 0 ++ content ++ List.replicate q 0 ++ bs)
  | link {name target r bs : Bytes} {mode p q : Nat} {rest : Forest} :
      r.length = 11 → 0 < p ∧ p ≤ 8 → 0 < q ∧ q ≤ 8 → name.length + p < 2 ^ 32 →
      target.length + q < 2 ^ 64 → mode < 2 ^ 32 → Layout rest bs →
      Layout (.link name mode target rest)
        (record target.length (target.length + q) name.length (name.length + p) mode 4 r ++ name ++
          List.replicate p 0 ++ target ++ List.replicate q 0 ++ bs)
  | dir {name r bs e cs : Bytes} {mode p a b : Nat} {a' b' c' d' m' : Nat} {sub rest : Forest} :
      r.length = 11 → 0 < p ∧ p ≤ 8 → name.length + p < 2 ^ 32 → mode < 2 ^ 32 → Layout sub bs →
      e.length = 11 → Layout rest cs →
      Layout (.dir name mode sub rest)
        (record a b name.length (name.length + p) mode 1 r ++ name ++ List.replicate p 0 ++ bs ++
          record a' b' c' d' m' 2 e ++ cs)

end Zwt
