import Verif.Model.Args

/-! What parsing a command line should do. -/

namespace Zwt

/-- An option met, with the values taken for it. -/
structure Hit where
  obj : Nat
  left : Option Bytes
  right : Option Bytes
  deriving DecidableEq, Repr

/-- Does an option of this type take the argument behind it? -/
def ArgType.wantsRight : ArgType → Bool
  | .rightArg => true
  | .bothArg => true
  | _ => false

/-- The argument in front of an option that takes one: the last of those kept, unless it starts
with a dash. -/
def leftOf (t : ArgType) (kept : List Bytes) : List Bytes × Option Bytes :=
  match t, kept.getLast? with
  | .bothArg, some v => if dashed v then (kept, none) else (kept.dropLast, some v)
  | _, _ => (kept, none)

/-- Reading arguments from left to right; `kept` are those left in place so far, `hits` the options
met.  The first occurrence of a name of an option counts; an option that is not the last argument
takes values. -/
def readArgs (tbl : Bytes → Option (Nat × ArgType)) :
    List Bytes → List Hit → List Bytes → List Bytes × List Hit
  | kept, hits, [] => (kept, hits)
  | kept, hits, [a] =>
    match tbl a with
    | none => (kept ++ [a], hits)
    | some (k, _) =>
      if hits.any (·.obj == k) then (kept ++ [a], hits) else (kept, hits ++ [⟨k, none, none⟩])
  | kept, hits, a :: v :: rest =>
    match tbl a with
    | none => readArgs tbl (kept ++ [a]) hits (v :: rest)
    | some (k, t) =>
      if hits.any (·.obj == k) then readArgs tbl (kept ++ [a]) hits (v :: rest)
      else if t.wantsRight && !dashed v then
        readArgs tbl (leftOf t kept).1 (hits ++ [⟨k, (leftOf t kept).2, some v⟩]) rest
      else readArgs tbl (leftOf t kept).1 (hits ++ [⟨k, (leftOf t kept).2, none⟩]) (v :: rest)

/-- An object after the options `hits` have been met. -/
def OptObj.after (k : Nat) (hits : List Hit) (o : OptObj) : OptObj :=
  match hits.find? (·.obj == k) with
  | none => o
  | some h => { o with found := true, right := h.right.getD o.right, left := h.left.getD o.left }

/-- The options a parser knows. -/
def Parser.table (p : Parser) (name : Bytes) : Option (Nat × ArgType) :=
  (p.find name).bind (fun k => p.heap[k]?.map (fun o => (k, o.kind)))

/-- No option has been met yet. -/
def Parser.unused (p : Parser) : Prop := ∀ o ∈ p.heap, o.found = false

/-- The last argument that is not taken as the value of an option is the name of one. -/
def endsInName (tbl : Bytes → Option (Nat × ArgType)) : List Hit → List Bytes → Bool
  | _, [] => true
  | _, [a] => (tbl a).isSome
  | hits, a :: v :: rest =>
    match tbl a with
    | none => endsInName tbl hits (v :: rest)
    | some (k, t) =>
      if hits.any (·.obj == k) then endsInName tbl hits (v :: rest)
      else if t.wantsRight && !dashed v then endsInName tbl (hits ++ [⟨k, none, some v⟩]) rest
      else endsInName tbl (hits ++ [⟨k, none, none⟩]) (v :: rest)

/-- Every name leads to an object that has not been deleted. -/
def Parser.sane (p : Parser) : Prop :=
  ∀ n k, p.find n = some k → ∃ o, p.heap[k]? = some o ∧ o.alive = true

/-! ### Plain tables: names start with a dash, no option takes a value in front of it -/

/-- Every name starts with a dash. -/
def plainTable (tbl : Bytes → Option (Nat × ArgType)) : Prop :=
  ∀ n k t, tbl n = some (k, t) → dashed n = true ∧ t ≠ .bothArg

/-- Is the argument a name of option `k`? -/
def names (tbl : Bytes → Option (Nat × ArgType)) (k : Nat) (a : Bytes) : Bool :=
  (tbl a).any (·.1 == k)

/-- What follows the first argument that names option `k`. -/
def behind (tbl : Bytes → Option (Nat × ArgType)) (k : Nat) : List Bytes → Option (List Bytes)
  | [] => none
  | a :: rest => if names tbl k a then some rest else behind tbl k rest

/-- The value of an option with a default, given what follows its name. -/
def valueBehind (dflt : Bytes) : List Bytes → Bytes
  | [] => dflt
  | v :: _ => if dashed v then dflt else v

/-! ### Tables of options -/

/-- The arguments of one call of `AddOption`. -/
structure OptSpec where
  text : Bytes
  type : ArgType
  defRight : Option Bytes
  defLeft : Option Bytes
  deriving DecidableEq, Repr

/-- Names under which an option can be found. -/
def OptSpec.names (o : OptSpec) : List Bytes :=
  if o.type = .leftArg then [] else optionNames o.type o.text

/-- `m` stands between commas in the part of the text before the first colon. -/
def NamePart (s m : Bytes) : Prop :=
  ∃ a b, s.takeWhile (· != 58) = a ++ m ++ b ∧ 44 ∉ m ∧ (a = [] ∨ a.getLast? = some 44) ∧
    (b = [] ∨ b.head? = some 44)

/-- `n` is a name of the option, by what its text says: one of the parts, or a non-empty beginning of
one if the option takes values on both sides. -/
def OptSpec.HasName (o : OptSpec) (n : Bytes) : Prop :=
  o.type ≠ .leftArg ∧ ∃ m, NamePart o.text m ∧
    ((o.type ≠ .bothArg ∧ n = m) ∨ (o.type = .bothArg ∧ n ≠ [] ∧ n <+: m))

/-- What follows the first argument that is one of the names. -/
def afterName (ns : List Bytes) : List Bytes → Option (List Bytes)
  | [] => none
  | a :: rest => if a ∈ ns then some rest else afterName ns rest

/-- What is reported for an option: nothing if it does not occur; else its value. -/
def OptSpec.report (o : OptSpec) (args : List Bytes) : Option Bytes :=
  match afterName o.names args with
  | none => none
  | some b => some (if o.type = .noArg then [] else valueBehind (o.defRight.getD []) b)

/-- The object of an option before parsing. -/
def OptSpec.obj (o : OptSpec) : OptObj :=
  { kind := o.type, found := false, right := if o.type = .rightArg then o.defRight.getD [] else [],
    left := if o.type = .bothArg then o.defLeft.getD [] else [], alive := true }

/-- Names start with a dash, and no option takes a value in front of it. -/
def Plain (os : List OptSpec) : Prop :=
  ∀ o ∈ os, o.type ≠ .bothArg ∧ ∀ n ∈ o.names, dashed n = true

/-- Adding options one after the other. -/
def Parser.addAll : List OptSpec → Parser → Run Parser
  | [], p => .ok p
  | o :: os, p =>
    match p.addOption o.text o.type o.defRight o.defLeft with
    | .error e => .error e
    | .ok p => Parser.addAll os p

/-- No name belongs to two options. -/
def Separate (os : List OptSpec) : Prop :=
  os.Pairwise (fun a b => ∀ n ∈ a.names, n ∉ b.names)

/-- Something done with a parser. -/
inductive ParserOp
  | add (o : OptSpec)
  | clear
  | parse (args : List Bytes)

/-- Doing it. -/
def Parser.step (p : Parser) : ParserOp → Run Parser
  | .add o => p.addOption o.text o.type o.defRight o.defLeft
  | .clear => p.clear
  | .parse args =>
    match p.parse args with
    | .error e => .error e
    | .ok r => .ok r.1

/-- Doing several things. -/
def Parser.steps : List ParserOp → Parser → Run Parser
  | [], p => .ok p
  | o :: os, p =>
    match p.step o with
    | .error e => .error e
    | .ok p => Parser.steps os p

/-- The lines of a text. -/
inductive HelpText (width : Nat) : List (Bytes × Bytes) → Bytes → Prop
  | nil : HelpText width [] []
  | cons {option info pad : Bytes} {items : List (Bytes × Bytes)} {t : Bytes}
      (hpad : ∀ b ∈ pad, b = 32) (hw : (option ++ [58] ++ pad).length = width)
      (hp : pad.length ≥ 2)
      (h : HelpText width items t) :
      HelpText width ((option, info) :: items) (option ++ [58] ++ pad ++ info ++ [10] ++ t)

end Zwt
