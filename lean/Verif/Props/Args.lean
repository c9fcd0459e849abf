import Verif.Proofs.ArgsLookup

/-! C47–C51: the command line parser. -/

namespace Zwt

/-- Options like those of the tools: `--out,-o` with a value (default `x`), `--help,-h` without. -/
def sampleOpts : List OptSpec :=
  [⟨strB "--out,-o:file to write", .rightArg, some (strB "x"), none⟩,
   ⟨strB "--help,-h:this text", .noArg, none, none⟩]

/-- The parser with these options. -/
def sampleParser : Parser :=
  { heap := [⟨.rightArg, false, strB "x", [], true⟩, ⟨.noArg, false, [], [], true⟩]
    map := [(strB "-h", 1), (strB "--help", 1), (strB "-o", 0), (strB "--out", 0)]
    help := [⟨strB "--out,-o", strB "file to write", 0⟩, ⟨strB "--help,-h", strB "this text", 1⟩]
    maxHelp := 10 }

theorem sample_added : Parser.addAll sampleOpts Parser.new = .ok sampleParser := by decide +kernel

theorem sample_separate : Separate sampleOpts := by
  unfold Separate; decide +kernel

theorem sample_plain : Plain sampleOpts := by
  unfold Plain; decide +kernel

/-! ### C47 -/

/-- C47, what holds: for every table of options that share no name, whose names start with `-`,
and none of which takes a value in front of it, and every argument vector on which parsing
returns: an option is reported found iff one of its names occurs, and its value is what follows the
first occurrence of a name unless nothing does or that starts with `-`; then it is the default.
Missing: the other tables, see `C47_options_false`; parsing does not return on all vectors, see
C49. -/
theorem C47_options_partial {os : List OptSpec} (hsep : Separate os) (hpl : Plain os) {p : Parser}
    (hp : Parser.addAll os Parser.new = .ok p) {args : List Bytes} {p' : Parser}
    {left : List (Option Bytes)} (h : p.parse args = .ok (p', left)) {o : OptSpec} (ho : o ∈ os)
    {n : Bytes} (hn : n ∈ o.names) :
    p'.get n = .ok (o.report args) ∧ ((o.report args).isSome = true ↔ ∃ a ∈ args, a ∈ o.names) := by
  have ht : o.type ≠ .leftArg := by
    intro ht
    unfold OptSpec.names at hn
    rw [if_pos ht] at hn
    cases hn
  obtain ⟨hw, hg, _, _⟩ := built hsep hp
  obtain ⟨k, hk1, hk2, hk3⟩ := built_table hsep hp ho ht
  have htbl : ∀ a ∈ o.names, p.table a = some (k, o.type) := by
    intro a ha
    unfold Parser.table
    rw [(hk2 a).2 ha]
    simp [hk1, OptSpec.obj]
  obtain ⟨_, hrel⟩ := parse_spec hg.unused h
  have hrd := (readArgs_plain (built_plain hsep hpl hp) [] [] args k).2 rfl
  rw [behind_eq hk3] at hrd
  constructor
  · obtain ⟨o1, o0, hob, ho0, ho1⟩ := hrel.obj (hg.sane hw) ((hk2 n).2 hn)
    rw [hk1] at ho0
    cases ho0
    unfold Parser.get
    rw [hrel.find, (hk2 n).2 hn]
    dsimp only
    rw [hob]
    dsimp only
    subst ho1
    unfold OptSpec.report OptObj.after
    cases haf : afterName o.names args with
    | none =>
      rw [haf] at hrd
      have : (readArgs p.table [] [] args).2.find? (·.obj == k) = none := by
        rw [hrd]
        cases List.find? (names p.table k) args <;> rfl
      rw [this]
      simp [OptSpec.obj]
    | some b =>
      rw [haf] at hrd
      cases hfi : List.find? (names p.table k) args with
      | none =>
        rw [List.find?_eq_none] at hfi
        have := (afterName_isSome o.names args).1 (by rw [haf]; rfl)
        obtain ⟨a, ha1, ha2⟩ := this
        have := hfi a ha1
        rw [hk3] at this
        simp [ha2] at this
      | some a =>
        have hao : a ∈ o.names := by
          have := List.find?_some hfi
          rw [hk3] at this
          simpa using this
        rw [hfi] at hrd
        dsimp only at hrd
        rw [hrd]
        simp only [htbl a hao, Option.any_some, OptSpec.obj]
        cases hty : o.type with
        | leftArg => exact absurd hty ht
        | noArg => simp
        | bothArg => exact absurd hty (hpl o ho).1
        | rightArg =>
          cases b with
          | nil => simp [valueBehind]
          | cons v b =>
            by_cases hv : dashed v = true
            · simp [valueBehind, hv, ArgType.wantsRight]
            · simp [valueBehind, hv, ArgType.wantsRight]
  · rw [← afterName_isSome]
    unfold OptSpec.report
    cases afterName o.names args <;> simp

example : sampleParser.parse [strB "a", strB "-o", strB "b", strB "--out", strB "-h"] =
    .ok ({ sampleParser with heap := [⟨.rightArg, true, strB "b", [], true⟩,
      ⟨.noArg, true, [], [], true⟩] }, [some (strB "a"), some (strB "--out")]) := by decide +kernel

/-- C47, for every table of options whose objects have not been found yet and every argument
vector on which parsing returns: the arguments left, the options found and their values are those
of reading the arguments from left to right. -/
theorem C47_reading {p p' : Parser} {args : List Bytes} {left : List (Option Bytes)}
    (hu : p.unused) (h : p.parse args = .ok (p', left)) :
    left = (readArgs p.table [] [] args).1.map some ∧
      (∀ n, p'.find n = p.find n) ∧
      ∀ k, p'.heap[k]? = p.heap[k]?.map (OptObj.after k (readArgs p.table [] [] args).2) := by
  obtain ⟨h1, h2⟩ := parse_spec hu h
  exact ⟨h1, fun n => h2.find n, h2.heap⟩

theorem namePart_iff (s : Bytes) : ∀ m, m ∈ (splitOption s).1.1 :: (splitOption s).1.2 ↔ NamePart s m := by
  have key : ∀ s : Bytes,
      (∃ b, s.takeWhile (· != 58) = (splitOption s).1.1 ++ b ∧ 44 ∉ (splitOption s).1.1 ∧
        (b = [] ∧ (splitOption s).1.2 = [] ∨ b.head? = some 44)) ∧
      ∀ m, m ∈ (splitOption s).1.2 ↔ ∃ a b, s.takeWhile (· != 58) = a ++ m ++ b ∧ 44 ∉ m ∧
        a.getLast? = some 44 ∧ (b = [] ∨ b.head? = some 44) := by
    intro s
    induction s with
    | nil => exact ⟨⟨[], by simp [splitOption]⟩, by
        intro m
        simp only [splitOption, List.not_mem_nil, List.takeWhile_nil, false_iff]
        rintro ⟨a, b, h, _, h3, _⟩
        cases a with
        | nil => simp at h3
        | cons => simp at h⟩
    | cons c s ih =>
      obtain ⟨⟨b, h1, h2, h3⟩, h4⟩ := ih
      unfold splitOption
      by_cases hc : c = 58
      · subst hc
        refine ⟨⟨[], by simp⟩, ?_⟩
        intro m
        simp only [if_pos, List.not_mem_nil, false_iff]
        rintro ⟨a, b, h, _, h3, _⟩
        cases a with
        | nil => simp at h3
        | cons => simp at h
      · have hb : (c != 58) = true := by simp [hc]
        rw [if_neg hc, List.takeWhile_cons, if_pos hb]
        by_cases h44 : c = 44
        · subst h44
          rw [if_pos rfl]
          refine ⟨⟨44 :: s.takeWhile (· != 58), by simp⟩, ?_⟩
          intro m
          simp only [List.mem_cons]
          constructor
          · rintro (rfl | hm)
            · refine ⟨[44], b, by rw [h1]; simp, h2, rfl, ?_⟩
              rcases h3 with h3 | h3
              · exact .inl h3.1
              · exact .inr h3
            · obtain ⟨a, b', g1, g2, g3, g4⟩ := (h4 m).mp hm
              refine ⟨44 :: a, b', by rw [g1]; simp, g2, ?_, g4⟩
              cases a with
              | nil => simp at g3
              | cons => simpa using g3
          · rintro ⟨a, b', g1, g2, g3, g4⟩
            cases a with
            | nil => simp at g3
            | cons x a =>
              simp only [List.cons_append, List.cons.injEq] at g1
              obtain ⟨rfl, g1⟩ := g1
              cases a with
              | nil =>
                left
                rw [h1, List.nil_append] at g1
                have e : ∀ {u v : Bytes} {p q : Bytes}, u ++ p = v ++ q → 44 ∉ u → 44 ∉ v →
                    (p = [] ∨ p.head? = some 44) → (q = [] ∨ q.head? = some 44) → v = u := by
                  intro u
                  induction u with
                  | nil =>
                    intro v p q he _ hv hp _
                    cases v with
                    | nil => rfl
                    | cons y v =>
                      rcases hp with rfl | hp
                      · simp at he
                      · rw [List.nil_append] at he
                        rw [he] at hp
                        simp at hp
                        simp [hp] at hv
                  | cons y u ih =>
                    intro v p q he hu hv hp hq
                    cases v with
                    | nil =>
                      rcases hq with rfl | hq
                      · simp at he
                      · rw [List.nil_append] at he
                        rw [← he] at hq
                        simp at hq
                        simp [hq] at hu
                    | cons z v =>
                      simp only [List.cons_append, List.cons.injEq] at he
                      simp only [List.mem_cons, not_or] at hu hv
                      rw [he.1, ih he.2 hu.2 hv.2 hp hq]
                exact e g1 h2 g2 (by rcases h3 with h3 | h3; exact .inl h3.1; exact .inr h3) g4
              | cons y a =>
                right
                exact (h4 m).mpr ⟨y :: a, b', g1, g2, by simpa using g3, g4⟩
        · rw [if_neg h44]
          refine ⟨⟨b, by rw [h1]; simp, by simpa [Ne.symm h44] using h2, h3⟩, ?_⟩
          intro m
          rw [h4 m]
          constructor
          · rintro ⟨a, b', g1, g2, g3, g4⟩
            refine ⟨c :: a, b', by rw [g1]; simp, g2, ?_, g4⟩
            cases a with
            | nil => simp at g3
            | cons => simpa using g3
          · rintro ⟨a, b', g1, g2, g3, g4⟩
            cases a with
            | nil => simp at g3
            | cons x a =>
              simp only [List.cons_append, List.cons.injEq] at g1
              obtain ⟨rfl, g1⟩ := g1
              refine ⟨a, b', g1, g2, ?_, g4⟩
              cases a with
              | nil => simp at g3; exact absurd g3 h44
              | cons => simpa using g3
  intro m
  obtain ⟨⟨b, h1, h2, h3⟩, h4⟩ := key s
  rw [List.mem_cons, h4 m]
  constructor
  · rintro (rfl | ⟨a, b', g1, g2, g3, g4⟩)
    · exact ⟨[], b, by simpa using h1, h2, .inl rfl, by
        rcases h3 with h3 | h3; exact .inl h3.1; exact .inr h3⟩
    · exact ⟨a, b', g1, g2, .inr g3, g4⟩
  · rintro ⟨a, b', g1, g2, rfl | g3, g4⟩
    · left
      have hx : ∀ {u p : Bytes}, 44 ∉ u → (p = [] ∨ p.head? = some 44) →
          (u ++ p).takeWhile (· != 44) = u := by
        intro u p hu hp
        rw [List.takeWhile_append_of_pos (fun x hx => by
          simp only [bne_iff_ne, ne_eq]; rintro rfl; exact hu hx)]
        cases p with
        | nil => simp
        | cons y p => simp at hp; simp [hp]
      rw [← hx g2 g4, ← hx h2 (p := b) (by rcases h3 with h3 | h3; exact .inl h3.1; exact .inr h3),
        ← h1, g1, List.nil_append]
    · exact .inr ⟨a, b', g1, g2, g3, g4⟩

/-- C47: which names an option has is what its text says. -/
theorem C47_names (o : OptSpec) (n : Bytes) : n ∈ o.names ↔ o.HasName n := by
  unfold OptSpec.names OptSpec.HasName optionNames
  by_cases hl : o.type = .leftArg
  · simp [hl]
  · rw [if_neg hl]
    dsimp only
    by_cases hb : o.type = .bothArg
    · rw [if_pos hb, List.mem_flatMap]
      refine ⟨?_, ?_⟩
      · rintro ⟨m, hm, hp⟩
        refine ⟨hl, m, (namePart_iff _ m).mp hm, .inr ⟨hb, ?_⟩⟩
        simp only [prefixes, List.mem_map, List.mem_range] at hp
        obtain ⟨k, hk, rfl⟩ := hp
        refine ⟨?_, List.take_prefix _ _⟩
        intro h0
        have := congrArg List.length h0
        simp only [List.length_take, List.length_nil] at this
        omega
      · rintro ⟨_, m, hm, h | ⟨_, h0, hp⟩⟩
        · exact absurd hb h.1
        · refine ⟨m, (namePart_iff _ m).mpr hm, ?_⟩
          simp only [prefixes, List.mem_map, List.mem_range]
          have hlen := hp.length_le
          have hpos := List.length_pos_iff.2 h0
          refine ⟨n.length - 1, by omega, ?_⟩
          rw [show n.length - 1 + 1 = n.length by omega]
          exact (List.prefix_iff_eq_take.mp hp).symm
    · rw [if_neg hb, namePart_iff]
      constructor
      · intro hm; exact ⟨hl, n, hm, .inl ⟨hb, rfl⟩⟩
      · rintro ⟨_, m, hm, h | h⟩
        · rw [h.2]; exact hm
        · exact absurd h.1 hb

/-- The names in `-o,--out:text` are `-o` and `--out`. -/
example : (⟨strB "-o,--out:a, b", .rightArg, none, none⟩ : OptSpec).HasName (strB "--out") ∧
    ¬ (⟨strB "-o,--out:a, b", .rightArg, none, none⟩ : OptSpec).HasName (strB " b") := by
  rw [← C47_names, ← C47_names]
  decide +kernel

theorem sampleParser_unused : sampleParser.unused := by unfold Parser.unused; decide +kernel

/-- An option taking values on both sides: every prefix of a name is a name. -/
example : ∃ p r, Parser.addAll [⟨strB "to", .bothArg, none, none⟩] Parser.new = .ok p ∧
    p.parse [strB "a", strB "t", strB "b"] = .ok (r, []) ∧
    r.get (strB "to") = .ok (some (strB "b")) ∧ r.getLeft (strB "to") = .ok (some (strB "a")) := by
  refine ⟨_, _, rfl, rfl, ?_⟩
  decide +kernel

/-- C47 is false: a name that does not start with `-` can be taken as the value of an option, and
is then not reported found. -/
theorem C47_options_false :
    ¬ ∀ (os : List OptSpec) (p p' : Parser) (args : List Bytes) (left : List (Option Bytes)),
      Separate os → Parser.addAll os Parser.new = .ok p → p.parse args = .ok (p', left) →
      ∀ o ∈ os, ∀ n ∈ o.names, (∃ a ∈ args, a ∈ o.names) → p'.get n ≠ .ok none := by
  intro h
  have key : ∃ p p' left, Parser.addAll [⟨strB "-o", .rightArg, none, none⟩,
      ⟨strB "go", .noArg, none, none⟩] Parser.new = .ok p ∧
      p.parse [strB "-o", strB "go"] = .ok (p', left) ∧ p'.get (strB "go") = .ok none := by
    refine ⟨_, _, _, rfl, rfl, ?_⟩
    decide +kernel
  obtain ⟨p, p', left, h1, h2, h3⟩ := key
  refine h _ p p' _ left ?_ h1 h2 ⟨strB "go", .noArg, none, none⟩ (by simp) (strB "go")
    (by decide +kernel) ⟨strB "go", by decide +kernel, by decide +kernel⟩ h3
  unfold Separate
  decide +kernel

/-! ### C48 -/

/-- C48: for every table of options and every argument vector: if parsing returns, the arguments
left are arguments given, in their order. -/
theorem C48_subsequence {p p' : Parser} {args : List Bytes} {left : List (Option Bytes)}
    (hu : p.unused) (h : p.parse args = .ok (p', left)) :
    ∃ l : List Bytes, left = l.map some ∧ l.Sublist args := by
  refine ⟨_, (parse_spec hu h).1, ?_⟩
  have := readArgs_sublist p.table [] [] args
  simpa using this

/-- Example: the arguments of the example at the beginning. -/
example : ∃ p' left, sampleParser.parse [strB "a", strB "-o", strB "b", strB "--out", strB "-h"] = .ok (p', left) ∧
    left = (readArgs sampleParser.table [] []
      [strB "a", strB "-o", strB "b", strB "--out", strB "-h"]).1.map some ∧
    left = [some (strB "a"), some (strB "--out")] ∧
    ∃ l : List Bytes, left = l.map some ∧ l.Sublist [strB "a", strB "-o", strB "b", strB "--out", strB "-h"] :=
  ⟨_, _, rfl, (C47_reading sampleParser_unused rfl).1, by decide +kernel,
    C48_subsequence sampleParser_unused rfl⟩

/-! ### C49 -/

/-- C49, what holds: if the last argument that is not the value of an option is the name of one,
parsing stays inside the argument vector and returns.  Missing: the other vectors, see
`C49_inside_false`. -/
theorem C49_inside_partial {os : List OptSpec} (hsep : Separate os) {p : Parser}
    (hp : Parser.addAll os Parser.new = .ok p) {args : List Bytes}
    (he : endsInName p.table [] args = true) : ∃ r, p.parse args = .ok r := by
  obtain ⟨hw, hg, _, _⟩ := built hsep hp
  exact parse_total hg.unused (hg.sane hw) he

example : endsInName sampleParser.table [] [strB "dir", strB "-o", strB "file"] = true := by
  decide +kernel

/-- C49 is false, for every table of options: options with their values, followed by arguments that
are no names, of which the first is at least as long as there are arguments, make parsing
dereference the null pointer behind the vector. -/
theorem C49_inside_false {os : List OptSpec} (hsep : Separate os) {p : Parser}
    (hp : Parser.addAll os Parser.new = .ok p) (pairs : List (Bytes × Bytes)) (a : Bytes)
    (rest : List Bytes) (hval : ∀ x ∈ pairs, dashed x.2 = false)
    (hname : ∀ x ∈ pairs, ∃ o ∈ os, o.type = .rightArg ∧ x.1 ∈ o.names)
    (hdist : (pairs.map (fun x => p.find x.1)).Nodup)
    (hno : ∀ s ∈ a :: rest, ∀ o ∈ os, s ∉ o.names)
    (hlen : 2 * pairs.length + (a :: rest).length ≤ a.length) :
    p.parse (pairs.flatMap (fun x => [x.1, x.2]) ++ a :: rest) = .error .nullDeref := by
  obtain ⟨hw, hg, hb, hb2⟩ := built hsep hp
  have hm : ∀ l : List Bytes, l.map some ++ [none] = mem [] l [] := by intro l; simp [mem]
  have hf : ∀ s ∈ a :: rest, p.find s = none := by
    intro s hs
    cases h : p.find s with
    | none => rfl
    | some k =>
      obtain ⟨o, ho, _, hn, _⟩ := hb s k h
      exact absurd hn (hno s hs o ho)
  have hl : ∀ l : List (Bytes × Bytes), (l.flatMap (fun x => [x.1, x.2])).length = 2 * l.length := by
    intro l
    induction l with
    | nil => rfl
    | cons x l ih => simp [List.flatMap_cons, ih]; omega
  unfold Parser.parse
  rw [hm, parseLoop_crash hg.unused (hg.sane hw) pairs a rest [] (by intro z hz; cases hz)
    (q := p) (hits := []) ⟨rfl, ⟨rfl, rfl⟩, fun k => by
      cases p.heap[k]? with
      | none => rfl
      | some o => rfl⟩ hval (by
        intro x hx
        obtain ⟨o, ho, ht, hn⟩ := hname x hx
        obtain ⟨k, hk1, hk2⟩ := hb2 o ho (by rw [ht]; simp)
        refine ⟨k, ?_, rfl⟩
        unfold Parser.table
        rw [(hk2 x.1).2 hn]
        simp [hk1, OptSpec.obj, ht]) hdist hf (by simp at hlen ⊢; omega) _
      (by rw [List.length_append, hl]; omega)]

example : sampleParser.parse [strB "-o", strB "f", strB "dir"] = .error .nullDeref :=
  C49_inside_false sample_separate sample_added [(strB "-o", strB "f")] (strB "dir") []
    (by decide +kernel) (by decide +kernel) (by decide +kernel) (by decide +kernel)
    (by decide +kernel)

/-! ### C50 -/

/-- C50, what holds: options no two of which have a name in common are added without a fault, and
clearing the parser then deletes every object, none of them twice.  Missing: options with a common
name, see `C50_redefinition_false`. -/
theorem C50_freed_once_partial {os : List OptSpec} (hsep : Separate os) :
    ∃ p q, Parser.addAll os Parser.new = .ok p ∧ p.clear = .ok q ∧ p.sane ∧
      p.heap.length = (os.filter (·.type ≠ .leftArg)).length ∧
      (∀ o ∈ p.heap, o.alive = true) ∧
      q.heap.length = p.heap.length ∧ (∀ o ∈ q.heap, o.alive = false) ∧
      q.map = [] ∧ q.help = [] := by
  obtain ⟨p, h1, h2, h3, h4⟩ := addAll_good os new_wf new_good hsep (fun _ _ _ _ => rfl)
  obtain ⟨heap', e1, e2, e3, _⟩ := deleteAll_once p.help p.heap
    (by rw [h3.order]; exact List.nodup_range) (by
      intro x hx
      have hlt := h2.help x hx
      exact ⟨_, List.getElem?_eq_getElem hlt, (h3.alive _ (List.getElem_mem hlt)).1⟩)
  refine ⟨p, ⟨heap', [], [], 0⟩, h1, by unfold Parser.clear; rw [e1], h3.sane h2,
    by rw [h4]; simp [Parser.new], fun o ho => (h3.alive o ho).1, e2, ?_, rfl, rfl⟩
  intro o ho
  obtain ⟨k, hk, hko⟩ := List.mem_iff_getElem.1 ho
  have hkm : k ∈ p.help.map (·.obj) := by
    rw [h3.order, List.mem_range]; dsimp only at hk; omega
  obtain ⟨x, hx, hxk⟩ := List.mem_map.1 hkm
  obtain ⟨o', ho', hd⟩ := e3 x hx
  rw [hxk, List.getElem?_eq_getElem hk] at ho'
  cases ho'
  rw [← hko]
  exact hd

example : ∃ q, sampleParser.clear = .ok q ∧ q.heap = [⟨.rightArg, false, strB "x", [], false⟩,
    ⟨.noArg, false, [], [], false⟩] := ⟨_, rfl, by decide +kernel⟩

/-- C50 is false whenever a name is given to a second option: adding that option, or clearing the
parser afterwards, deletes an object twice. -/
theorem C50_redefinition_false {os : List OptSpec} {p : Parser}
    (hp : Parser.addAll os Parser.new = .ok p) (o : OptSpec) {n : Bytes} (hn : n ∈ o.names)
    (hj : p.find n ≠ none) :
    p.addOption o.text o.type o.defRight o.defLeft = .error .doubleFree ∨
    ∃ q, p.addOption o.text o.type o.defRight o.defLeft = .ok q ∧
      q.clear = .error .doubleFree := by
  cases h : p.find n with
  | none => exact absurd h hj
  | some j =>
    rcases redefine (addAll_wf os new_wf hp) o hn h with h | ⟨q, h1, _, h3⟩
    · exact Or.inl h
    · exact Or.inr ⟨q, h1, h3⟩

/-- `-h` redefined: cleared, the old object is deleted a second time. -/
example : ∃ q, sampleParser.addOption (strB "-h") .noArg none none = .ok q ∧
    q.clear = .error .doubleFree ∧
    q.parse [strB "--help"] = .error .useAfterFree := by
  refine ⟨_, rfl, ?_, ?_⟩
  · decide +kernel
  · decide +kernel

/-- Both names redefined: the second deletion happens at once. -/
example : sampleParser.addOption (strB "-h,--help") .noArg none none = .error .doubleFree := by
  decide +kernel

/-! ### C51 -/

theorem step_fits {p p' : Parser} (hp : p.fits) {op : ParserOp} (h : p.step op = .ok p') :
    p'.fits := by
  cases op with
  | add o => exact addOption_fits hp h
  | clear =>
    change p.clear = .ok p' at h
    unfold Parser.clear at h
    split at h
    · cases h
    · cases h
      intro x hx; cases hx
  | parse args =>
    have keyR : ∀ (q : Parser) k o a argc i r, takeRight q k o a argc i = .ok r →
        r.1.help = q.help ∧ r.1.maxHelp = q.maxHelp := by
      intro q k o a argc i r h
      unfold takeRight at h
      split at h
      · cases h
      · split at h
        · cases h; exact ⟨rfl, rfl⟩
        · split at h <;> (cases h; exact ⟨rfl, rfl⟩)
    have keyB : ∀ (q : Parser) k o a argc i r, takeBoth q k o a argc i = .ok r →
        r.1.help = q.help ∧ r.1.maxHelp = q.maxHelp := by
      intro q k o a argc i r h
      unfold takeBoth at h
      split at h
      · exact keyR _ _ _ _ _ _ _ h
      · split at h
        · cases h
        · split at h <;> exact keyR _ _ _ _ _ _ _ h
    have keyO : ∀ (q : Parser) k a argc i r, takeOption q k a argc i = .ok r →
        r.1.help = q.help ∧ r.1.maxHelp = q.maxHelp := by
      intro q k a argc i r h
      unfold takeOption at h
      split at h
      · cases h
      · split at h
        · cases h; exact ⟨rfl, rfl⟩
        · dsimp only at h
          split at h
          · split at h
            · exact keyR _ _ _ _ _ _ _ h
            · exact keyB _ _ _ _ _ _ _ h
            · cases h; exact ⟨rfl, rfl⟩
          · cases h; exact ⟨rfl, rfl⟩
    have keyL : ∀ fuel (q : Parser) a argc i r, parseLoop fuel q a argc i = .ok r →
        r.1.help = q.help ∧ r.1.maxHelp = q.maxHelp := by
      intro fuel
      induction fuel with
      | zero => intro q a argc i r h; cases h
      | succ fuel ih =>
        intro q a argc i r h
        unfold parseLoop at h
        split at h
        · split at h
          · cases h
          · split at h
            · cases h
            · split at h
              · cases h
              · split at h
                · exact ih _ _ _ _ _ h
                · split at h
                  · cases h
                  · rename_i ho
                    have h1 := keyO _ _ _ _ _ _ ho
                    have h2 := ih _ _ _ _ _ h
                    exact ⟨h2.1.trans h1.1, h2.2.trans h1.2⟩
        · cases h; exact ⟨rfl, rfl⟩
    change (match p.parse args with
      | .error e => .error e
      | .ok r => .ok r.1 : Run Parser) = .ok p' at h
    split at h
    · cases h
    · rename_i r hr
      cases h
      unfold Parser.parse at hr
      split at hr
      · cases hr
      · rename_i hl
        cases hr
        have := keyL _ _ _ _ _ _ hl
        intro x hx
        dsimp only at this hx ⊢
        rw [this.1] at hx
        rw [this.2]
        exact hp x hx

theorem steps_fits (ops : List ParserOp) {p p' : Parser} (hp : p.fits)
    (h : Parser.steps ops p = .ok p') : p'.fits := by
  induction ops generalizing p with
  | nil => cases h; exact hp
  | cons o ops ih =>
    unfold Parser.steps at h
    cases hs : p.step o with
    | error e => rw [hs] at h; cases h
    | ok q =>
      rw [hs] at h
      exact ih (step_fits hp hs) h

/-- C51: after every sequence of adding options, clearing and parsing, the help text is built
without a negative pad; it has a line for every option, and what follows the option starts in the
same column of every line, at least two spaces behind the colon. -/
theorem C51_aligned (ops : List ParserOp) {p : Parser} (h : Parser.steps ops Parser.new = .ok p) :
    ∃ t width, p.helpString = .ok t ∧
      HelpText width (p.help.map (fun x => (x.option, x.info))) t := by
  have hp : p.fits := steps_fits ops (by intro x hx; cases hx) h
  have key : ∀ (l : List HelpItem) (acc : Bytes), (∀ x ∈ l, x.option.length ≤ p.maxHelp) →
      ∃ t, l.foldl (helpLine p.maxHelp) (.ok acc) = .ok (acc ++ t) ∧
        HelpText (p.maxHelp + 3) (l.map (fun x => (x.option, x.info))) t := by
    intro l
    induction l with
    | nil => intro acc _; exact ⟨[], by simp, .nil⟩
    | cons x l ih =>
      intro acc hl
      have hx := hl x (by simp)
      obtain ⟨t, h1, h2⟩ := ih (acc ++ x.option ++ [58] ++
        List.replicate (p.maxHelp + 2 - x.option.length) 32 ++ x.info ++ [10])
        (fun y hy => hl y (by simp [hy]))
      refine ⟨x.option ++ [58] ++ List.replicate (p.maxHelp + 2 - x.option.length) 32 ++ x.info ++
        [10] ++ t, ?_, ?_⟩
      · rw [List.foldl_cons]
        have e : helpLine p.maxHelp (.ok acc) x = .ok (acc ++ x.option ++ [58] ++
            List.replicate (p.maxHelp + 2 - x.option.length) 32 ++ x.info ++ [10]) := by
          unfold helpLine
          dsimp only
          rw [if_pos (by omega)]
        rw [e, h1]
        simp
      · refine .cons (fun b hb => List.eq_of_mem_replicate hb) ?_ ?_ h2
        · simp only [List.length_append, List.length_replicate, List.length_cons, List.length_nil]
          omega
        · rw [List.length_replicate]; omega
  obtain ⟨t, h1, h2⟩ := key p.help [] hp
  exact ⟨t, _, by unfold Parser.helpString; rw [h1]; rfl, h2⟩

example := C51_aligned (sampleOpts.map .add) (p := sampleParser) (by decide +kernel)

/-- What the texts of options say: the names, up to the first `:`, and what follows it. -/
def textParts (s : Bytes) : Bytes × Bytes := (s.takeWhile (· != 58), (s.dropWhile (· != 58)).drop 1)

theorem splitOption_info (s : Bytes) :
    (splitOption s).2.getD [] = (s.dropWhile (· != 58)).drop 1 := by
  induction s with
  | nil => rfl
  | cons c s ih =>
    unfold splitOption
    by_cases hc : c = 58
    · simp [hc]
    · have hb : (c != 58) = true := by simp [hc]
      rw [List.dropWhile_cons, if_pos hb, if_neg hc, ← ih]
      split <;> rfl

/-- C51: the lines are those of the options added, in their order: names, then help. -/
theorem C51_lines (os : List OptSpec) {p : Parser} (h : Parser.addAll os Parser.new = .ok p) :
    ∃ t width, p.helpString = .ok t ∧
      HelpText width ((os.filter (·.type ≠ .leftArg)).map (fun o => textParts o.text)) t := by
  have hsteps : ∀ (os : List OptSpec) (p0 : Parser),
      Parser.steps (os.map .add) p0 = Parser.addAll os p0 := by
    intro os
    induction os with
    | nil => intro p0; rfl
    | cons o os ih =>
      intro p0
      simp only [List.map_cons, Parser.steps, Parser.addAll, Parser.step]
      cases p0.addOption o.text o.type o.defRight o.defLeft with
      | error e => rfl
      | ok q => exact ih q
  have hhelp : ∀ (os : List OptSpec) (p0 : Parser), p0.Wf → Parser.addAll os p0 = .ok p →
      p.help.map (fun x => (x.option, x.info)) = p0.help.map (fun x => (x.option, x.info)) ++
        (os.filter (·.type ≠ .leftArg)).map (fun o => textParts o.text) := by
    intro os
    induction os with
    | nil => intro p0 _ h; cases h; simp
    | cons o os ih =>
      intro p0 hw h
      unfold Parser.addAll at h
      cases ha : p0.addOption o.text o.type o.defRight o.defLeft with
      | error e => rw [ha] at h; cases h
      | ok q =>
        rw [ha] at h
        rw [ih q (addOption_wf hw ha) h]
        by_cases ht : o.type = .leftArg
        · rw [ht] at ha
          unfold Parser.addOption at ha
          cases ha
          simp [ht]
        · rcases addOption_cases hw o.text o.type ht o.defRight o.defLeft with he |
            ⟨q', e1, _, e3, _⟩
          · rw [he] at ha; cases ha
          · rw [e1] at ha
            cases ha
            rw [e3]
            simp [ht, textParts, optionText, splitOption_info]
  obtain ⟨t, w, h1, h2⟩ := C51_aligned (os.map .add) (by rw [hsteps]; exact h)
  refine ⟨t, w, h1, ?_⟩
  rw [hhelp os Parser.new new_wf h] at h2
  simpa [Parser.new] using h2

example : Parser.steps (sampleOpts.map .add) Parser.new = .ok sampleParser ∧
    sampleParser.helpString =
      .ok (strB "--out,-o:    file to write\n--help,-h:   this text\n") := by decide +kernel

end Zwt
