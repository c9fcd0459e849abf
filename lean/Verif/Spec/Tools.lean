import Verif.Model.Tools
import Verif.Spec.Args
import Verif.Spec.Forest

/-! What the programs should do. -/

namespace Zwt

/-- The options of compressdir: their names and what they take. -/
def optOut : OptSpec := ⟨strB "--output-file,-of:Prvide output file name", .rightArg, none, none⟩
def optConfig : OptSpec :=
  ⟨strB "--config-file,-cf:Provide config file for input file tree", .rightArg, none, none⟩
def optIn : OptSpec := ⟨strB "--input-folder,-if:The name of the input folder", .rightArg, none, none⟩
def optHelp : OptSpec := ⟨strB "--help,-h:To display this help", .noArg, some [], none⟩

def compressdirOpts : List OptSpec := [optOut, optConfig, optIn, optHelp]

/-- Help was asked for. -/
def helpAsked (args : List Bytes) : Prop := ∃ a ∈ args, a = strB "--help" ∨ a = strB "-h"

/-- Compressing `dir` succeeds. -/
def Compresses (compress : Bytes → Run (Int × List Bytes)) (dir : Bytes) : Prop :=
  ∃ pieces, compress dir = .ok (0, pieces)

/-- The non-directory entries with a name. -/
def isNamed (name : Bytes) (x : Bytes × Entry) : Bool := x.2.ty != .dir && x.2.name == name

end Zwt
