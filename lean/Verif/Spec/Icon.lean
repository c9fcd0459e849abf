import Verif.Model.Icon

/-! Icon files, and what it takes that Windows shows an icon for a program. -/

namespace Zwt

/-- An icon file with one image. -/
structure Ico where
  width : UInt8
  height : UInt8
  colours : UInt8
  planes : Nat
  bits : Nat
  image : Bytes

/-- The file: header, one directory entry, the image behind it. -/
def Ico.file (i : Ico) : Bytes :=
  [0, 0, 1, 0, 1, 0, i.width, i.height, i.colours, 0] ++ leEnc 2 i.planes ++ leEnc 2 i.bits ++
    leEnc 4 i.image.length ++ leEnc 4 22 ++ i.image

/-- The program file has the icon: its group resource has one entry, which describes the image as the
icon file does and names resource number 1, and that is the image. -/
def AppRes.has (a : AppRes) (i : Ico) : Prop :=
  a.icon = some i.image ∧ ∃ more,
    a.group = some ([0, 0, 1, 0, 1, 0, i.width, i.height, i.colours, 0] ++ leEnc 2 i.planes ++
      leEnc 2 i.bits ++ leEnc 4 i.image.length ++ leEnc 2 1 ++ more)

/-- All that was acquired has been given back. -/
def IconBalanced (log : List IconEv) : Prop :=
  log.count .fopen = log.count .fclose ∧ log.count .malloc = log.count .free ∧
    log.count .beginUpdate = log.count .endUpdate

end Zwt
