import Verif.Props.HLRound
import Verif.Props.Walk

/-! C68: extra buffers, from the call that compresses them to the disk. -/

namespace Zwt

variable {Z : Inflater} {D : Deflater} {plain : Bytes → Bytes} {σ : Type}

/-! ### Trees with buffers in front -/

/-- Where a buffer of the root variant is found. -/
theorem lookup_root (os : Os) (xs : List Extra) (g : Forest) (hp : (rootForest xs ++ g).proper)
    (x : Extra) (hx : x ∈ xs) :
    (rootForest xs ++ g).lookup os [x.path] = some (.file (fileMode os x.mode) x.content) ∧
      x.path ∈ (rootForest xs ++ g).names := by
  induction xs with
  | nil => simp at hx
  | cons y ys ih =>
    have e : rootForest (y :: ys) ++ g = .file y.path y.mode y.content (rootForest ys ++ g) := rfl
    rw [e] at hp ⊢
    rcases List.mem_cons.mp hx with rfl | hx
    · simp [Forest.lookup, Forest.names]
    · obtain ⟨h1, h2⟩ := ih hp.2.2 hx
      have hne : x.path ≠ y.path := fun h => hp.2.1 (h ▸ h2)
      simp [Forest.lookup, Forest.names, hne, h1, h2]

theorem nest_append (mode : Nat) (content name : Bytes) (rest : List Bytes) (f : Forest) :
    nest mode content name rest ++ f = match rest with
      | [] => .file name mode content f
      | next :: rest => .dir name 0 (nest mode content next rest) f := by
  cases rest <;> rfl

theorem lookup_nest (os : Os) (mode : Nat) (content : Bytes) (rest : List Bytes) : ∀ (name : Bytes)
    (f : Forest), (nest mode content name rest ++ f).lookup os (name :: rest) =
      some (.file (fileMode os mode) content) := by
  induction rest with
  | nil => intro name f; simp [nest_append, Forest.lookup]
  | cons next rest ih =>
    intro name f
    have := ih next .nil
    have e : ∀ g : Forest, g ++ .nil = g := by
      intro g
      show g.append .nil = g
      induction g <;> simp_all [Forest.append]
    rw [e] at this
    simp [nest_append, Forest.lookup, this]

theorem forest_append_assoc (a b c : Forest) : a ++ b ++ c = a ++ (b ++ c) := by
  show (a.append b).append c = a.append (b.append c)
  induction a <;> simp_all [Forest.append]

/-- Where a buffer of the nested variant is found. -/
theorem lookup_nested (os : Os) {mode : Extra → Nat} {xs : List Extra} {f : Forest}
    (h : NestedTree mode xs f) (g : Forest) (hp : (f ++ g).proper) (x : Extra) (hx : x ∈ xs) :
    ∃ name rest, x.path = name ++ (rest.map (47 :: ·)).flatten ∧ (∀ p ∈ name :: rest, 47 ∉ p) ∧
      (f ++ g).lookup os (name :: rest) = some (.file (fileMode os (mode x)) x.content) ∧
      name ∈ (f ++ g).names := by
  induction h with
  | nil => simp at hx
  | @cons y ys f name rest h1 h2 _ ih =>
    rw [forest_append_assoc] at hp ⊢
    rcases List.mem_cons.mp hx with rfl | hx
    · refine ⟨name, rest, h1, h2, lookup_nest os _ _ _ _ _, ?_⟩
      cases rest <;> simp [nest_append, Forest.names]
    · have hp' : name ∉ (f ++ g).names ∧ (f ++ g).proper := by
        cases rest with
        | nil => rw [nest_append] at hp; exact ⟨hp.2.1, hp.2.2⟩
        | cons a rest => rw [nest_append] at hp; exact ⟨hp.2.1, hp.2.2.2⟩
      obtain ⟨n', r', a1, a2, a3, a4⟩ := ih hp'.2 hx
      have hne : n' ≠ name := fun h => hp'.1 (h ▸ a4)
      refine ⟨n', r', a1, a2, ?_, ?_⟩
      · cases rest <;> simp [nest_append, Forest.lookup, hne, a3]
      · cases rest <;> simp [nest_append, Forest.names, a4]

theorem parts_unique {name name' : Bytes} {rest rest' : List Bytes}
    (h : name ++ (rest.map (47 :: ·)).flatten = name' ++ (rest'.map (47 :: ·)).flatten)
    (h1 : ∀ p ∈ name :: rest, 47 ∉ p) (h2 : ∀ p ∈ name' :: rest', 47 ∉ p) :
    name = name' ∧ rest = rest' := by
  have step : ∀ (name name' : Bytes) (a b : Bytes), 47 ∉ name → 47 ∉ name' →
      (a = [] ∨ a.head? = some 47) → (b = [] ∨ b.head? = some 47) → name ++ a = name' ++ b →
      name = name' ∧ a = b := by
    intro name
    induction name with
    | nil =>
      intro name' a b _ g2 g3 g4 g5
      cases name' with
      | nil => exact ⟨rfl, g5⟩
      | cons c cs =>
        rcases g3 with rfl | g3
        · simp at g5
        · rw [List.nil_append] at g5
          rw [g5] at g3
          simp at g3
          exact absurd (by simp [g3]) g2
    | cons c cs ih =>
      intro name' a b g1 g2 g3 g4 g5
      cases name' with
      | nil =>
        rcases g4 with rfl | g4
        · simp at g5
        · rw [List.nil_append] at g5
          rw [← g5] at g4
          simp at g4
          exact absurd (by simp [g4]) g1
      | cons c' cs' =>
        simp only [List.cons_append, List.cons.injEq] at g5
        simp only [List.mem_cons, not_or] at g1 g2
        obtain ⟨e1, e2⟩ := ih cs' a b g1.2 g2.2 g3 g4 g5.2
        exact ⟨by rw [g5.1, e1], e2⟩
  have hd : ∀ l : List Bytes, ((l.map (47 :: ·)).flatten = [] ∨
      (l.map ((47 : UInt8) :: ·)).flatten.head? = some 47) := by
    intro l; cases l <;> simp
  induction rest generalizing name name' rest' with
  | nil =>
    obtain ⟨e1, e2⟩ := step _ _ _ _ (h1 _ (by simp)) (h2 _ (by simp)) (hd _) (hd _) h
    refine ⟨e1, ?_⟩
    cases rest' with
    | nil => rfl
    | cons a l => simp at e2
  | cons a l ih =>
    obtain ⟨e1, e2⟩ := step _ _ _ _ (h1 _ (by simp)) (h2 _ (by simp)) (hd _) (hd _) h
    refine ⟨e1, ?_⟩
    cases rest' with
    | nil => simp at e2
    | cons a' l' =>
      simp only [List.map_cons, List.flatten_cons, List.cons_append, List.cons.injEq, true_and] at e2
      obtain ⟨f1, f2⟩ := ih e2 (fun p hp => h1 p (List.mem_cons_of_mem _ hp))
        (fun p hp => h2 p (List.mem_cons_of_mem _ hp))
      rw [f1, f2]

theorem NestedTree.unique {mode : Extra → Nat} {xs : List Extra} {f g : Forest}
    (hf : NestedTree mode xs f) (hg : NestedTree mode xs g) : f = g := by
  induction hf generalizing g with
  | nil => cases hg; rfl
  | cons h1 h2 _ ih =>
    cases hg with
    | cons k1 k2 hg =>
      rw [h1] at k1
      obtain ⟨rfl, rfl⟩ := parts_unique k1 h2 k2
      rw [ih hg]

/-! ### C68 -/

/-- Compression by any of the three functions, extraction to a fresh place. -/
theorem round_any (CD : DeflateOK D plain) (C : InflateOK Z plain)
    (env : Env) (henv : env.ok) (flt : Filter σ) (fn : DirFn) (hfn : fn.fits) {dir : Bytes}
    {es : List Entry} {f : Forest}
    (hl : env.list dir = some es) (hm : Mirror env dir es f) (fs : σ) (level : Int) (z : D.τ)
    (hz : D.init level = some z) (junk : Bytes) (hj : junk.length = 120)
    (hst : (select flt dir f fs).status ≠ .failed) {T : Forest}
    (hT : ∀ g, fn.Tree g → g ++ (select flt dir f fs).forest = T) (hne : T ≠ .nil)
    (ok : AllocOracle) (hok : ∀ k n, ok k n = true) (hdr item : Bytes) (hh : hdr.length = 128)
    (hi : item.length = 40) (os : Os) (hq : os.quiet) (w : World) (ht : w.fs.tree) (pre : Bytes)
    (h0 : 0 ∉ pre) (d : Loc) (hd : InDir os w pre d) (ho : OpenDir os w.fs d) (n : Bytes)
    (ns : List Bytes) (hn : ∀ x ∈ n :: ns, PlainName x) (hnew : w.fs (d ++ [n]) = none)
    (hen : Enterable os (dirMode os 0o775)) (hlen : ns.length ≤ 61) (hf : T.proper)
    (hfe : T.enterable os) (hk : T.noLinks ∨ (CwdOk os w.fs w.cwd ∧ T.bulk < 524288)) :
    ∃ n1 log b, (∀ fuel, n1 ≤ fuel →
        compressDir D env flt fuel fn dir fs level junk = .ok (0, log)) ∧
      log.getLast? = some b ∧
      ((T.noLinks ∧ b.length < 524288) ∨ log.flatten.length < 524288 →
        ∀ size data, allowed size 0 data = log.flatten →
        ∃ n0 r, (∀ fuel, n0 ≤ fuel → extract Z os ok fuel hdr item (pre ++ joinNames (n :: ns)) size
            ⟨data, false⟩ w = .ok r) ∧
          (C.Final → CD.Fits → ∀ c ∈ r.codes, c = Z_OK) ∧
          ((∀ c ∈ r.codes, c = Z_OK) → 0 < r.room ∨ C.Prompt log.flatten →
            r.ret = CT_DIRECTORY ∧ r.w.cwd = w.cwd ∧ Landed os w.fs r.w.fs d n ns T)) := by
  obtain ⟨n1, log, g, hg, c1, copen, t, c2, _, b, c3, c4⟩ :=
    compressDir_good CD env henv flt fn hfn hl hm fs level z hz junk hj hst
  refine ⟨n1, log, b, c1, c3, ?_⟩
  intro hsmall size data hal
  rw [hT g hg] at c2
  have hb : b.length < 524288 := by
    rcases hsmall with h | h
    · exact h.2
    · have hmem : b ∈ log := List.mem_of_getLast? c3
      have := (List.sublist_flatten_of_mem hmem).length_le
      omega
  by_cases hnl : T.noLinks
  · obtain ⟨n0, X, x1, x2, x3⟩ := extract_tree C (CD.plain_nil hz) ok hok hdr item hh hi os hq w ht pre
      h0 d hd ho n ns hn hnew hen hlen hf hfe hne hj c2 size ⟨data, false⟩ rfl (by
        show plain (allowed size 0 data) = _
        rw [hal]; exact c4 hb)
    obtain ⟨r, hr⟩ := x2 hnl
    refine ⟨n0, r, fun fuel hfu => by rw [x1 fuel hfu, hr], ?_⟩
    obtain ⟨_, y1, y2⟩ := x3 r hr (.inl hnl)
    exact ⟨fun hF hT => y1 hF (by show Open plain (allowed size 0 data); rw [hal]; exact copen hT),
      fun a b => y2 a (by show _ ∨ C.Prompt (allowed size 0 data); rw [hal]; exact b)⟩
  · have hk' := hk.resolve_left hnl
    have hdl : log.flatten.length < 524288 := hsmall.resolve_left (fun h => hnl h.1)
    have := extract_small C (CD.plain_nil hz) ok hok hdr item hh hi os hq w ht pre h0 d hd ho n ns
      hn hnew hen hlen hf hfe hne hj c2 size data hk'.1 hk'.2 (by rw [hal]; exact hdl)
      (by rw [hal]; exact c4 hb)
    rw [hal] at this
    obtain ⟨n0, r, a1, a2, a3⟩ := this
    exact ⟨n0, r, a1, fun hF hT => a2 hF (copen hT), a3⟩

/-- C68, what holds of the root variant: let the names of the buffers be plain names, different from
each other and from those in the directory.  Then compressing them with the directory and extracting
to a fresh place puts every buffer, with its content and mode (less the umask), into a file of its
name beside the content of the directory, and changes nothing else.  (Trees with links: tree and
archive below 512 KiB.)
Missing: names with slashes or occurring twice (`C68_same_name_false`), read-only directories, full
buffers (as in C39). -/
theorem C68_root_buffers_partial (CD : DeflateOK D plain) (C : InflateOK Z plain)
    -- compression
    (env : Env) (henv : env.ok) (flt : Filter σ) (xs : List Extra) (hxs : ∀ x ∈ xs, x.fits)
    {dir : Bytes} {es : List Entry} {f : Forest}
    (hl : env.list dir = some es) (hm : Mirror env dir es f) (fs : σ) (level : Int) (z : D.τ)
    (hz : D.init level = some z) (junk : Bytes) (hj : junk.length = 120)
    (hst : (select flt dir f fs).status ≠ .failed) {T : Forest}
    (hT : T = rootForest xs ++ (select flt dir f fs).forest) (hne : T ≠ .nil)
    -- extraction
    (ok : AllocOracle) (hok : ∀ k n, ok k n = true) (hdr item : Bytes) (hh : hdr.length = 128)
    (hi : item.length = 40) (os : Os) (hq : os.quiet) (w : World) (ht : w.fs.tree) (pre : Bytes)
    (h0 : 0 ∉ pre) (d : Loc) (hd : InDir os w pre d) (ho : OpenDir os w.fs d) (n : Bytes)
    (ns : List Bytes) (hn : ∀ x ∈ n :: ns, PlainName x) (hnew : w.fs (d ++ [n]) = none)
    (hen : Enterable os (dirMode os 0o775)) (hlen : ns.length ≤ 61) (hf : T.proper)
    (hfe : T.enterable os) (hk : T.noLinks ∨ (CwdOk os w.fs w.cwd ∧ T.bulk < 524288)) :
    ∃ n1 log b, (∀ fuel, n1 ≤ fuel →
        compressDir D env flt fuel (.root xs) dir fs level junk = .ok (0, log)) ∧
      log.getLast? = some b ∧
      ((T.noLinks ∧ b.length < 524288) ∨ log.flatten.length < 524288 →
        ∀ size data, allowed size 0 data = log.flatten →
        ∃ n0 r, (∀ fuel, n0 ≤ fuel → extract Z os ok fuel hdr item (pre ++ joinNames (n :: ns)) size
            ⟨data, false⟩ w = .ok r) ∧
          (C.Final → CD.Fits → ∀ c ∈ r.codes, c = Z_OK) ∧
          ((∀ c ∈ r.codes, c = Z_OK) → 0 < r.room ∨ C.Prompt log.flatten →
            r.ret = CT_DIRECTORY ∧ r.w.cwd = w.cwd ∧ Landed os w.fs r.w.fs d n ns T ∧
            ∀ x ∈ xs, r.w.fs (d ++ n :: ns ++ [x.path]) =
              some (.file (fileMode os x.mode) x.content))) := by
  obtain ⟨n1, log, b, a1, a2, a3⟩ := round_any CD C env henv flt (.root xs) hxs hl hm fs level z hz junk
    hj hst (T := T) (fun g hg => by rw [hT]; exact congrArg (· ++ _) hg) hne ok hok hdr item hh hi os hq
    w ht pre h0 d hd ho n ns hn hnew hen hlen hf hfe hk
  refine ⟨n1, log, b, a1, a2, fun hs size data hal => ?_⟩
  obtain ⟨n0, r, b1, b2, b3⟩ := a3 hs size data hal
  refine ⟨n0, r, b1, b2, fun k1 k2 => ?_⟩
  obtain ⟨c1, c2, c3⟩ := b3 k1 k2
  refine ⟨c1, c2, c3, fun x hx => ?_⟩
  rw [c3.2.1]
  subst hT
  exact (lookup_root os xs _ hf x hx).1

/-- C68, what holds of the nested variant: every buffer becomes, for a user who may add entries to
directories of mode 0 (the superuser), a file with its content and mode 0644 below directories of
mode 0, one for every part of its path before a slash.
Missing: its mode; ordinary users (`C68_nested_buffers_false`); buffers that share a directory (C97);
what is missing from the root variant. -/
theorem C68_nested_buffers_partial (CD : DeflateOK D plain) (C : InflateOK Z plain)
    -- compression
    (env : Env) (henv : env.ok) (flt : Filter σ) (xs : List Extra) (hxs : ∀ x ∈ xs, x.fits)
    {dir : Bytes} {es : List Entry} {f : Forest}
    (hl : env.list dir = some es) (hm : Mirror env dir es f) (fs : σ) (level : Int) (z : D.τ)
    (hz : D.init level = some z) (junk : Bytes) (hj : junk.length = 120)
    (hst : (select flt dir f fs).status ≠ .failed) {g T : Forest}
    (hg : NestedTree (fun _ => 0o644) xs g)
    (hT : T = g ++ (select flt dir f fs).forest) (hne : T ≠ .nil)
    -- extraction
    (ok : AllocOracle) (hok : ∀ k n, ok k n = true) (hdr item : Bytes) (hh : hdr.length = 128)
    (hi : item.length = 40) (os : Os) (hq : os.quiet) (w : World) (ht : w.fs.tree) (pre : Bytes)
    (h0 : 0 ∉ pre) (d : Loc) (hd : InDir os w pre d) (ho : OpenDir os w.fs d) (n : Bytes)
    (ns : List Bytes) (hn : ∀ x ∈ n :: ns, PlainName x) (hnew : w.fs (d ++ [n]) = none)
    (hen : Enterable os (dirMode os 0o775)) (hlen : ns.length ≤ 61) (hf : T.proper)
    (hfe : T.enterable os) (hk : T.noLinks ∨ (CwdOk os w.fs w.cwd ∧ T.bulk < 524288)) :
    ∃ n1 log b, (∀ fuel, n1 ≤ fuel →
        compressDir D env flt fuel (.nested xs) dir fs level junk = .ok (0, log)) ∧
      log.getLast? = some b ∧
      ((T.noLinks ∧ b.length < 524288) ∨ log.flatten.length < 524288 →
        ∀ size data, allowed size 0 data = log.flatten →
        ∃ n0 r, (∀ fuel, n0 ≤ fuel → extract Z os ok fuel hdr item (pre ++ joinNames (n :: ns)) size
            ⟨data, false⟩ w = .ok r) ∧
          (C.Final → CD.Fits → ∀ c ∈ r.codes, c = Z_OK) ∧
          ((∀ c ∈ r.codes, c = Z_OK) → 0 < r.room ∨ C.Prompt log.flatten →
            r.ret = CT_DIRECTORY ∧ r.w.cwd = w.cwd ∧ Landed os w.fs r.w.fs d n ns T ∧
            ∀ x ∈ xs, ∃ name rest, x.path = name ++ (rest.map (47 :: ·)).flatten ∧
              (∀ p ∈ name :: rest, 47 ∉ p) ∧
              r.w.fs (d ++ n :: ns ++ name :: rest) =
                some (.file (fileMode os 0o644) x.content))) := by
  obtain ⟨n1, log, b, a1, a2, a3⟩ := round_any CD C env henv flt (.nested xs) hxs hl hm fs level z hz
    junk hj hst (T := T) (fun g' hg' => by rw [hT, NestedTree.unique hg' hg]) hne ok hok hdr item hh hi
    os hq w ht pre h0 d hd ho n ns hn hnew hen hlen hf hfe hk
  refine ⟨n1, log, b, a1, a2, fun hs size data hal => ?_⟩
  obtain ⟨n0, r, b1, b2, b3⟩ := a3 hs size data hal
  refine ⟨n0, r, b1, b2, fun k1 k2 => ?_⟩
  obtain ⟨c1, c2, c3⟩ := b3 k1 k2
  refine ⟨c1, c2, c3, fun x hx => ?_⟩
  subst hT
  obtain ⟨name, rest, e1, e2, e3, _⟩ := lookup_nested os hg _ hf x hx
  exact ⟨name, rest, e1, e2, by rw [c3.2.1]; exact e3⟩

/-! ### Examples and witnesses -/

open HLSample in
/-- The buffers `x` (mode 0600) and `y` in front of the sample tree without its unreadable file. -/
example : (∀ x ∈ [(⟨[120], [1, 2], 0o600⟩ : Extra), ⟨[121], [], 0o644⟩], x.fits) ∧
    rootForest [⟨[120], [1, 2], 0o600⟩, ⟨[121], [], 0o644⟩] ++
      (select (keepFilter fun _ e => e.name ≠ [117]) [114] sampleForest ()).forest =
      .file [120] 0o600 [1, 2] (.file [121] 0o644 [] (.file [97] 0o640 [1, 2]
        (.dir [100] 0o755 (.file [98] 0o600 [] .nil) (.link [108] 0o777 [116] .nil)))) ∧
    (Forest.file [120] 0o600 [1, 2] (.file [121] 0o644 [] (.file [97] 0o640 [1, 2]
        (.dir [100] 0o755 (.file [98] 0o600 [] .nil) (.link [108] 0o777 [116] .nil))))).proper ∧
    (Forest.file [120] 0o600 [1, 2] (.file [121] 0o644 [] (.file [97] 0o640 [1, 2]
        (.dir [100] 0o755 (.file [98] 0o600 [] .nil) (.link [108] 0o777 [116] .nil))))).enterable os ∧
    (Forest.file [120] 0o600 [1, 2] (.file [121] 0o644 [] (.file [97] 0o640 [1, 2]
        (.dir [100] 0o755 (.file [98] 0o600 [] .nil) (.link [108] 0o777 [116] .nil))))).bulk < 524288 := by
  refine ⟨?_, by decide, ?_, ⟨.inr (by decide), trivial, trivial⟩, by decide⟩
  · intro x hx
    rcases List.mem_cons.mp hx with rfl | hx
    · exact ⟨by decide, by decide, by decide⟩
    · rw [List.mem_singleton.mp hx]
      exact ⟨by decide, by decide, by decide⟩
  · simp only [Forest.proper]
    decide +kernel

open HLSample in
/-- The buffer `a/b`, for the superuser. -/
example : NestedTree (fun _ => 0o644) [⟨[97, 47, 98], [7], 0o600⟩]
      (.dir [97] 0 (.file [98] 0o644 [7] .nil) .nil) ∧
    (Forest.dir [97] 0 (.file [98] 0o644 [7] .nil) .nil).proper ∧
    (Forest.dir [97] 0 (.file [98] 0o644 [7] .nil) .nil).enterable { os with root := true } :=
  ⟨.cons (name := [97]) (rest := [[98]]) (by decide) (by decide) .nil, by
    simp only [Forest.proper]; decide +kernel, ⟨.inl rfl, trivial, trivial⟩⟩

open HLSample in
/-- Compress the extra buffers alone, extract to `o`. -/
def extraRun (os : Os) (fn : DirFn) : Run Extracted :=
  match compressDir queueD emptyEnv acceptAll 20 fn [114] () 6 (List.replicate 120 0xEE) with
  | .ok (_, log) => run os log.flatten [111] (world [])
  | .error e => .error e

open HLSample in
/-- C68 is false when two buffers have the same name: the file has the content of neither. -/
theorem C68_same_name_false :
    ¬ ∀ (xs : List Extra) (r : Extracted), (∀ x ∈ xs, x.fits ∧ PlainName x.path) →
      extraRun os (.root xs) = .ok r → r.ret = CT_DIRECTORY →
      ∀ x ∈ xs, ∃ y ∈ xs, y.path = x.path ∧
        r.w.fs [[104], [119], [111], x.path] = some (.file (fileMode os y.mode) y.content) := by
  intro h
  have key : view [[[104], [119], [111], [97]]] (extraRun os (.root [⟨[97], [1, 2, 3], 0o644⟩,
      ⟨[97], [9], 0o644⟩])) = .done CT_DIRECTORY [[104], [119]] [some (.file 0o644 [9, 2, 3])] := by
    decide +kernel
  obtain ⟨r, h1, h2, _, h4⟩ := view_done key
  obtain ⟨y, hy, _, h5⟩ := h _ r (by
    intro x hx
    rcases List.mem_cons.mp hx with rfl | hx
    · exact ⟨⟨by decide, by decide, by decide⟩, by decide⟩
    · rw [List.mem_singleton.mp hx]
      exact ⟨⟨by decide, by decide, by decide⟩, by decide⟩) h1 h2 ⟨[97], [1, 2, 3], 0o644⟩
    (List.mem_cons_self)
  simp only [List.map_cons, List.map_nil, List.cons.injEq, and_true] at h4
  rw [h4] at h5
  rcases List.mem_cons.mp hy with rfl | hy
  · exact absurd h5 (by decide)
  · rw [List.mem_singleton.mp hy] at h5
    exact absurd h5 (by decide)

open HLSample in
/-- C68 is false of the nested variant for an ordinary user: the directory of the buffer `a/b` has
mode 0, its file does not arrive, and success is reported. -/
theorem C68_nested_buffers_false :
    ¬ ∀ (xs : List Extra) (r : Extracted), (∀ x ∈ xs, x.fits) →
      extraRun os (.nested xs) = .ok r → r.ret = CT_DIRECTORY →
      ∀ x ∈ xs, ∀ name rest, x.path = name ++ (rest.map (47 :: ·)).flatten →
        (∀ p ∈ name :: rest, PlainName p) →
        ∃ m, r.w.fs ([104] :: [119] :: [111] :: name :: rest) = some (.file m x.content) := by
  intro h
  have key : view [[[104], [119], [111], [97]], [[104], [119], [111], [97], [98]]]
      (extraRun os (.nested [⟨[97, 47, 98], [7], 0o600⟩])) =
      .done CT_DIRECTORY [[104], [119]] [some (.dir 0), none] := by decide +kernel
  obtain ⟨r, h1, h2, _, h4⟩ := view_done key
  obtain ⟨m, h5⟩ := h _ r (by
    intro x hx
    rw [List.mem_singleton.mp hx]
    exact ⟨by decide, by decide, by decide⟩) h1 h2 _ List.mem_cons_self [97] [[98]] (by decide)
    (by decide)
  simp only [List.map_cons, List.map_nil, List.cons.injEq, and_true] at h4
  rw [h4.2] at h5
  cases h5

open HLSample in
/-- C68 is false of the root variant for a name with a slash: the directory `a` does not exist, the
file does not arrive, and success is reported. -/
theorem C68_slash_false :
    ¬ ∀ (xs : List Extra) (r : Extracted), (∀ x ∈ xs, x.fits) →
      extraRun os (.root xs) = .ok r → r.ret = CT_DIRECTORY →
      ∀ x ∈ xs, ∀ name rest, x.path = name ++ (rest.map (47 :: ·)).flatten →
        (∀ p ∈ name :: rest, PlainName p) →
        ∃ m, r.w.fs ([104] :: [119] :: [111] :: name :: rest) = some (.file m x.content) := by
  intro h
  have key : view [[[104], [119], [111], [97], [98]]]
      (extraRun os (.root [⟨[97, 47, 98], [7], 0o600⟩])) =
      .done CT_DIRECTORY [[104], [119]] [none] := by decide +kernel
  obtain ⟨r, h1, h2, _, h4⟩ := view_done key
  obtain ⟨m, h5⟩ := h _ r (by
    intro x hx
    rw [List.mem_singleton.mp hx]
    exact ⟨by decide, by decide, by decide⟩) h1 h2 _ List.mem_cons_self [97] [[98]] (by decide)
    (by decide)
  simp only [List.map_cons, List.map_nil, List.cons.injEq, and_true] at h4
  rw [h4] at h5
  cases h5

end Zwt
