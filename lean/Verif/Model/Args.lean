import Verif.Model.Basic

/-!
The command line parser: `src/utils/common_argument_parser.cpp`, class declaration in
`include/zlib_with_tools/common/util/common_argument_parser.hpp:33-55`.

Option strings and arguments are C strings (no NUL inside).  Allocation succeeds and never gives the
address of a deleted object again.
-/

namespace Zwt

/-- An ASCII string literal. -/
def strB (s : String) : Bytes := s.toList.map (fun c => UInt8.ofNat c.toNat)

/-- `argType::Type`, `common_argument_parser.hpp:33`. -/
inductive ArgType | noArg | rightArg | leftArg | bothArg
  deriving DecidableEq, Repr

/-- `CInputBase`, `CInputArgRight`, `CInputArgRightAndLeft`, `common_argument_parser.cpp:34-63`;
`alive` is cleared by `delete`. -/
structure OptObj where
  kind : ArgType
  found : Bool
  right : Bytes
  left : Bytes
  alive : Bool
  deriving DecidableEq, Repr

/-- `struct InfoAndCleanPair`, `:65-68`. -/
structure HelpItem where
  option : Bytes
  info : Bytes
  obj : Nat
  deriving DecidableEq, Repr

/-- `class argument_parser`, with the heap its pointers point into (an address is an index into
`heap`). -/
structure Parser where
  heap : List OptObj
  map : List (Bytes × Nat)
  help : List HelpItem
  maxHelp : Nat
  deriving DecidableEq, Repr

/-- `argument_parser()`, `:70-73`. -/
def Parser.new : Parser := ⟨[], [], [], 0⟩

/-- `m_htOptionsInAndOut.find`. -/
def Parser.find (p : Parser) (name : Bytes) : Option Nat :=
  (p.map.find? (·.1 == name)).map (·.2)

/-- `delete`. -/
def deleteObj (heap : List OptObj) (i : Nat) : Run (List OptObj) :=
  match heap[i]? with
  | none => .error .oobRead
  | some o => if o.alive then .ok (heap.set i { o with alive := false }) else .error .doubleFree

/-- `m_htOptionsInAndOut[name] = i` for a name that may be there. -/
def mapPut (m : List (Bytes × Nat)) (name : Bytes) (i : Nat) : List (Bytes × Nat) :=
  (name, i) :: m.filter (·.1 != name)

/-- Entering one name, `:133-139` and `:155-161`. -/
def Parser.enter (p : Parser) (i : Nat) (name : Bytes) : Run Parser :=
  match p.find name with
  | none => .ok { p with map := mapPut p.map name i }
  | some j =>
    if j ≠ i then
      match deleteObj p.heap j with
      | .error e => .error e
      | .ok heap => .ok { p with heap := heap, map := mapPut p.map name i }
    else .ok { p with map := mapPut p.map name i }

/-- Entering several names. -/
def Parser.enterAll (i : Nat) : List Bytes → Parser → Run Parser
  | [], p => .ok p
  | n :: ns, p =>
    match p.enter i n with
    | .error e => .error e
    | .ok p => Parser.enterAll i ns p

/-- The pieces between the delimiters `,` and `:`, up to the first `:`; then what follows it. -/
def splitOption : Bytes → (Bytes × List Bytes) × Option Bytes
  | [] => (([], []), none)
  | c :: cs =>
    if c = 58 then (([], []), some cs)
    else if c = 44 then ((([] : Bytes), (splitOption cs).1.1 :: (splitOption cs).1.2), (splitOption cs).2)
    else ((c :: (splitOption cs).1.1, (splitOption cs).1.2), (splitOption cs).2)

/-- Non-empty prefixes, shortest first (`:131-132`). -/
def prefixes (n : Bytes) : List Bytes := (List.range n.length).map (fun k => n.take (k + 1))

/-- Names under which an option is entered: the pieces; for `bougthArg` their prefixes. -/
def optionNames (t : ArgType) (s : Bytes) : List Bytes :=
  let ns := (splitOption s).1.1 :: (splitOption s).1.2
  if t = .bothArg then ns.flatMap prefixes else ns

/-- What is left in `pcBuffer` at the end: the string up to the first `:`. -/
def optionText (s : Bytes) : Bytes := s.takeWhile (· != 58)

/-- `unHelpStart` at the end: index behind the `:`, or the length. -/
def helpStart (s : Bytes) : Nat :=
  match (splitOption s).2 with
  | none => s.length
  | some _ => (optionText s).length + 1

/-- `AddOption`, `:88-176`, with the parameters as named there (the header has the last two the
other way round).  `leftArg` makes no object; the buffer leaks. -/
def Parser.addOption (p : Parser) (s : Bytes) (t : ArgType) (defRight defLeft : Option Bytes) :
    Run Parser :=
  match t with
  | .leftArg => .ok p
  | _ =>
    let i := p.heap.length
    let o : OptObj :=
      { kind := t, found := false, right := if t = .rightArg then defRight.getD [] else [],
        left := if t = .bothArg then defLeft.getD [] else [], alive := true }
    match Parser.enterAll i (optionNames t s) { p with heap := p.heap ++ [o] } with
    | .error e => .error e
    | .ok p =>
      .ok { p with help := p.help ++ [⟨optionText s, (splitOption s).2.getD [], i⟩],
                   maxHelp := max p.maxHelp (helpStart s) }

/-- Deleting the objects of the help list, `:217-221`. -/
def deleteAll : List HelpItem → List OptObj → Run (List OptObj)
  | [], heap => .ok heap
  | h :: hs, heap =>
    match deleteObj heap h.obj with
    | .error e => .error e
    | .ok heap => deleteAll hs heap

/-- `Clear`, `:215-226`; also the destructor, `:75-78`. -/
def Parser.clear (p : Parser) : Run Parser :=
  match deleteAll p.help p.heap with
  | .error e => .error e
  | .ok heap => .ok ⟨heap, [], [], 0⟩

/-- One line of the help text, `:206-208`.  A negative pad would be converted to a huge `size_t`
(the constructor throws): a fault. -/
def helpLine (maxHelp : Nat) (acc : Run Bytes) (h : HelpItem) : Run Bytes :=
  match acc with
  | .error e => .error e
  | .ok s =>
    if h.option.length ≤ maxHelp + 2 then
      .ok (s ++ h.option ++ [58] ++ List.replicate (maxHelp + 2 - h.option.length) 32 ++
        h.info ++ [10])
    else .error .assertFail

/-- `HelpString`, `:199-212`. -/
def Parser.helpString (p : Parser) : Run Bytes := p.help.foldl (helpLine p.maxHelp) (.ok [])

/-- Reading an object through a pointer. -/
def Parser.obj (p : Parser) (i : Nat) : Run OptObj :=
  match p.heap[i]? with
  | none => .error .oobRead
  | some o => if o.alive then .ok o else .error .useAfterFree

/-- `operator[]`, `:189-196`. -/
def Parser.get (p : Parser) (name : Bytes) : Run (Option Bytes) :=
  match p.find name with
  | none => .ok none
  | some i =>
    match p.obj i with
    | .error e => .error e
    | .ok o => .ok (if o.found then some (if o.kind = .noArg then [] else o.right) else none)

/-- `valueLeft`, `:179-186`. -/
def Parser.getLeft (p : Parser) (name : Bytes) : Run (Option Bytes) :=
  match p.find name with
  | none => .ok none
  | some i =>
    match p.obj i with
    | .error e => .error e
    | .ok o => .ok (if o.found then some (if o.kind = .bothArg then o.left else []) else none)

/-! ### `ParseCommandLine`, `:229-281` -/

/-- `argv`: pointers, the one at the end being null. -/
abbrev Argv := List (Option Bytes)

/-- The string at `a_argv[i]`. -/
def argAt (a : Argv) (i : Nat) : Run Bytes :=
  match a[i]? with
  | none => .error .oobRead
  | some none => .error .nullDeref
  | some (some s) => .ok s

/-- `memmove(a_argv + dst, a_argv + dst + 1, n * sizeof(char*))` inside the array. -/
def shiftDown (a : Argv) (dst n : Nat) : Argv :=
  a.take dst ++ (a.drop (dst + 1)).take n ++ a.drop (dst + n)

/-- The inner loop, `:239-241`: `continue` goes on with it, not with the outer loop. -/
def skipLoop (p : Parser) (a : Argv) : Nat → Nat → Run Nat
  | 0, i => .ok i
  | n+1, i =>
    match argAt a i with
    | .error e => .error e
    | .ok s => if p.find s = none then skipLoop p a n (i + 1) else skipLoop p a n i

/-- Does the string start with `-`? -/
def dashed (s : Bytes) : Bool := s.head? == some 45

/-- Case `rightArg`, `:268-274`; `o` is the object. -/
def takeRight (p : Parser) (k : Nat) (o : OptObj) (a : Argv) (argc i : Nat) :
    Run (Parser × Argv × Nat × Nat) :=
  match argAt a i with
  | .error e => .error e
  | .ok v =>
    if dashed v then .ok ({ p with heap := p.heap.set k o }, a, argc, i)
    else if i < argc then
      .ok ({ p with heap := p.heap.set k { o with right := v } },
        shiftDown a i (argc - 1 - i), argc - 1, i)
    else .ok ({ p with heap := p.heap.set k o }, a, argc - 1, i)

/-- Case `bougthArg`, `:256-267`, which falls through to `rightArg`. -/
def takeBoth (p : Parser) (k : Nat) (o : OptObj) (a : Argv) (argc i : Nat) :
    Run (Parser × Argv × Nat × Nat) :=
  if i = 0 then takeRight p k o a argc i
  else
    match argAt a (i - 1) with
    | .error e => .error e
    | .ok v =>
      if dashed v then takeRight p k o a argc i
      else takeRight p k { o with left := v } (shiftDown a (i - 1) (argc - i + 1)) (argc - 1) (i - 1)

/-- The rest of an iteration once `a_argv[i]` is known to be an option, `:244-279`. -/
def takeOption (p : Parser) (k : Nat) (a : Argv) (argc i : Nat) :
    Run (Parser × Argv × Nat × Nat) :=
  match p.obj k with
  | .error e => .error e
  | .ok o =>
    if o.found then .ok (p, a, argc, i + 1)
    else
      let o := { o with found := true }
      if i < argc - 1 then
        let a := shiftDown a i (argc - 1 - i)
        match o.kind with
        | .rightArg => takeRight p k o a (argc - 1) i
        | .bothArg => takeBoth p k o a (argc - 1) i
        | _ => .ok ({ p with heap := p.heap.set k o }, a, argc - 1, i)
      else .ok ({ p with heap := p.heap.set k o }, a, argc - 1, i)

/-- The outer loop, `:236-280`. -/
def parseLoop : Nat → Parser → Argv → Nat → Nat → Run (Parser × Argv × Nat)
  | 0, _, _, _, _ => .error .outOfFuel
  | fuel+1, p, a, argc, i =>
    if i < argc then
      match argAt a i with
      | .error e => .error e
      | .ok s =>
        match skipLoop p a s.length i with
        | .error e => .error e
        | .ok i =>
          match argAt a i with
          | .error e => .error e
          | .ok s =>
            match p.find s with
            | none => parseLoop fuel p a argc (i + 1)
            | some k =>
              match takeOption p k a argc i with
              | .error e => .error e
              | .ok (p, a, argc, i) => parseLoop fuel p a argc i
    else .ok (p, a, argc)

/-- `ParseCommandLine(argc, argv)` for the arguments `args`, `argv` ending with a null pointer.
Result: the parser and the arguments left, `argv[0 .. argc)`. -/
def Parser.parse (p : Parser) (args : List Bytes) : Run (Parser × List (Option Bytes)) :=
  match parseLoop (args.length + 1) p (args.map some ++ [none]) args.length 0 with
  | .error e => .error e
  | .ok (p, a, argc) => .ok (p, a.take argc)

end Zwt
