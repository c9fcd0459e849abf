import Verif.Model.Installer

/-! What a step file of the installer says. -/

namespace Zwt

/-- A blank, or the end of a line. -/
def EndsValue (c : UInt8) : Prop := c = 32 ∨ c = 9 ∨ c = 10 ∨ c = 13

/-- The value behind the first occurrence of `key` in `text`: what follows spaces and tabs, up to the
next blank or the end of the line. -/
def FieldOf (key text v : Bytes) : Prop :=
  ∃ a ws rest, text = a ++ key ++ ws ++ v ++ rest ∧
    (∀ a', a' ++ key <+: text → a.length ≤ a'.length) ∧
    (∀ c ∈ ws, c = 32 ∨ c = 9) ∧ (∀ c ∈ v, ¬ EndsValue c) ∧
    (rest = [] ∨ ∃ c r, rest = c :: r ∧ EndsValue c) ∧
    (v = [] → ∀ c r, rest = c :: r → c = 10 ∨ c = 13)

/-- The package at its address. -/
def packageUrl (pkg : Bytes) : Bytes :=
  strB "https://desycloud.desy.de/index.php/s/XvNhzouZlV5s12W/download?path=%2FARM&files=" ++ pkg ++
    strB ".dsi"

end Zwt
