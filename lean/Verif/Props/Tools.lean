import Verif.Proofs.Tools
import Verif.Proofs.WalkRun
import Verif.Props.Args
import Verif.Props.HLRound
import Verif.Props.Walk

/-! C52–C55, C58: the programs. -/

namespace Zwt

variable {D : Deflater} {Z : Inflater} {plain : Bytes → Bytes}

/-! ### C52 -/

theorem selfMain_pack (env : SelfEnv) (ndebug : Bool) (arg0 : Bytes)
    (ha : arg0.length < 4191) (exe : Bytes) (hexe : env.file arg0 = some exe)
    (hsize : exe.length ≤ maxExe ndebug) (h1 : env.open1 = true) (h2 : env.open2 = true)
    {ret : Int} {pieces : List Bytes}
    (hc : env.compress (exeParts arg0).1 (exeParts arg0).2 = .ok (ret, pieces)) :
    selfMain env ndebug arg0 =
      .ok ⟨ret, some (pwrites (env.icon exe) (maxExe ndebug) pieces), none, [], false⟩ := by
  unfold selfMain
  rw [if_neg (by show ¬ 4191 ≤ _; omega), hexe]
  dsimp only
  rw [if_neg (by omega)]
  unfold selfPack
  rw [h1, h2, hc, copy_eq]
  rfl

theorem selfMain_run (env : SelfEnv) (ndebug : Bool) (arg0 : Bytes) (ha : arg0.length < 4191)
    (packed : Bytes) (hf : env.file arg0 = some packed) (hlen : maxExe ndebug < packed.length) :
    selfMain env ndebug arg0 =
      .ok (selfRun env.extract env.start (packed.drop (maxExe ndebug))) := by
  unfold selfMain
  rw [if_neg (by show ¬ 4191 ≤ _; omega), hf]
  dsimp only
  rw [if_pos hlen]

theorem selfRun_given (e : Bytes → Nat) (s : Bytes → Option Int) (a : Bytes) :
    (selfRun e s a).given = some a ∧ (selfRun e s a).out = none := by
  unfold selfRun; split
  · exact ⟨rfl, rfl⟩
  · split <;> exact ⟨rfl, rfl⟩

/-- C52, packing and running, what holds: the executable is not larger than the limit; setting the
icon leaves a file not larger than it; the archive is not empty.  Then the packed file consists of
the executable with its icon, zeros up to the limit, and the archive; running it hands the
extraction function exactly the archive.
Missing: an icon that makes the file larger than the limit, see `C52_layout_false`. -/
theorem C52_layout_partial (env : SelfEnv) (ndebug : Bool) (arg0 : Bytes)
    (ha : arg0.length < 4191) (exe : Bytes) (hexe : env.file arg0 = some exe)
    (hsize : exe.length ≤ maxExe ndebug) (h1 : env.open1 = true) (h2 : env.open2 = true)
    (hicon : (env.icon exe).length ≤ maxExe ndebug) {ret : Int} {pieces : List Bytes}
    (hc : env.compress (exeParts arg0).1 (exeParts arg0).2 = .ok (ret, pieces))
    (hne : pieces.flatten ≠ []) :
    ∃ packed, selfMain env ndebug arg0 = .ok ⟨ret, some packed, none, [], false⟩ ∧
      packed = env.icon exe ++ List.replicate (maxExe ndebug - (env.icon exe).length) 0 ++
        pieces.flatten ∧
      packed.drop (maxExe ndebug) = pieces.flatten ∧
      ∀ (env' : SelfEnv) (arg0' : Bytes), arg0'.length < 4191 → env'.file arg0' = some packed →
        ∃ r, selfMain env' ndebug arg0' = .ok r ∧ r.given = some pieces.flatten ∧ r.out = none := by
  have hp : pwrites (env.icon exe) (maxExe ndebug) pieces =
      env.icon exe ++ List.replicate (maxExe ndebug - (env.icon exe).length) 0 ++
        pieces.flatten := by
    rw [pwrites_eq, pwrite_far _ _ _ hne hicon]
  have hdrop : (pwrites (env.icon exe) (maxExe ndebug) pieces).drop (maxExe ndebug) =
      pieces.flatten := by
    rw [hp]
    exact List.drop_left' (by simp; omega)
  refine ⟨pwrites (env.icon exe) (maxExe ndebug) pieces, ?_, hp, hdrop, ?_⟩
  · exact selfMain_pack env ndebug arg0 ha exe hexe hsize h1 h2 hc
  · intro env' arg0' ha' hf
    have hlen : maxExe ndebug < (pwrites (env.icon exe) (maxExe ndebug) pieces).length := by
      rw [hp]
      have := List.length_pos_iff.2 hne
      simp only [List.length_append, List.length_replicate]
      omega
    refine ⟨_, selfMain_run env' ndebug arg0' ha' _ hf hlen, ?_⟩
    rw [hdrop]
    exact selfRun_given _ _ _

/-- A small world: an executable of three bytes, an archive of four. -/
def sampleSelf : SelfEnv where
  file p := if p = strB "./self" then some [1, 2, 3] else none
  open1 := true
  open2 := true
  icon x := (setIconUnix x []).2
  compress d n := if d = strB "." ∧ n = strB "self" then .ok (0, [[7, 8], [], [9, 10]]) else .ok (1, [])
  extract a := if a = [7, 8, 9, 10] then 1 else 0
  start p := if p = strB ".out_dir/maind.exe" then some 0 else none

example : ∃ packed, selfMain sampleSelf true (strB "./self") = .ok ⟨0, some packed, none, [], false⟩ ∧
    packed.drop 524288 = [7, 8, 9, 10] := by
  obtain ⟨p, h1, _, h3, _⟩ := C52_layout_partial sampleSelf true (strB "./self") (by decide +kernel)
    [1, 2, 3] (by decide +kernel) (by decide) rfl rfl (by decide) (ret := 0)
    (pieces := [[7, 8], [], [9, 10]]) (by decide +kernel) (by decide)
  exact ⟨p, h1, h3⟩

/-- C52 on systems other than Windows: there setting the icon changes nothing, and nothing is
missing but a compression that writes nothing. -/
theorem C52_layout_unix (env : SelfEnv) (ndebug : Bool) (arg0 icon : Bytes)
    (hu : ∀ x, env.icon x = (setIconUnix x icon).2)
    (ha : arg0.length < 4191) (exe : Bytes) (hexe : env.file arg0 = some exe)
    (hsize : exe.length ≤ maxExe ndebug) (h1 : env.open1 = true) (h2 : env.open2 = true)
    {ret : Int} {pieces : List Bytes}
    (hc : env.compress (exeParts arg0).1 (exeParts arg0).2 = .ok (ret, pieces))
    (hne : pieces.flatten ≠ []) :
    ∃ packed, selfMain env ndebug arg0 = .ok ⟨ret, some packed, none, [], false⟩ ∧
      packed = exe ++ List.replicate (maxExe ndebug - exe.length) 0 ++ pieces.flatten ∧
      packed.drop (maxExe ndebug) = pieces.flatten ∧
      ∀ (env' : SelfEnv) (arg0' : Bytes), arg0'.length < 4191 → env'.file arg0' = some packed →
        ∃ r, selfMain env' ndebug arg0' = .ok r ∧ r.given = some pieces.flatten ∧ r.out = none := by
  have he : env.icon exe = exe := by rw [hu]; rfl
  have := C52_layout_partial env ndebug arg0 ha exe hexe hsize h1 h2 (by rw [he]; exact hsize) hc hne
  rwa [he] at this

example := C52_layout_unix sampleSelf true (strB "./self") [] (fun _ => rfl) (by decide +kernel)
  [1, 2, 3] (by decide +kernel) (by decide) rfl rfl (ret := 0) (pieces := [[7, 8], [], [9, 10]])
  (by decide +kernel) (by decide)

/-- C52 is false for an icon that makes the executable larger than the limit: with an archive shorter
than the excess, what is handed to the extraction function is not the archive. -/
theorem C52_layout_false :
    ¬ ∀ (env : SelfEnv) (arg0 exe packed : Bytes) (ret : Int) (pieces : List Bytes) (r : SelfRun),
      env.file arg0 = some exe → exe.length ≤ maxExe true →
      env.compress (exeParts arg0).1 (exeParts arg0).2 = .ok (ret, pieces) →
      pieces.flatten ≠ [] →
      selfMain env true arg0 = .ok ⟨ret, some packed, none, [], false⟩ →
      (∀ env' : SelfEnv, env'.file arg0 = some packed → selfMain env' true arg0 = .ok r →
        r.given = some pieces.flatten) := by
  intro h
  obtain ⟨big, hbig⟩ : ∃ b : Bytes, b.length = 524291 := ⟨List.replicate 524291 5, List.length_replicate⟩
  let env : SelfEnv := { sampleSelf with icon := fun _ => big, compress := fun _ _ => .ok (0, [[7]]) }
  have hf : sampleSelf.file (strB "./self") = some [1, 2, 3] := by decide +kernel
  have e1 := selfMain_pack env true (strB "./self") (by decide +kernel) [1, 2, 3] hf
    (by decide) rfl rfl (ret := 0) (pieces := [[7]]) rfl
  have hp : (pwrites (env.icon [1, 2, 3]) (maxExe true) [[7]]).length = 524291 := by
    rw [pwrites_eq, pwrite_length _ _ _ (by simp)]
    show max big.length _ = _
    rw [hbig]
    decide
  generalize pwrites (env.icon [1, 2, 3]) (maxExe true) [[7]] = packed at e1 hp
  let env' : SelfEnv := { sampleSelf with file := fun _ => some packed }
  have e2 := selfMain_run env' true (strB "./self") (by decide +kernel) packed rfl
    (by rw [hp]; decide)
  have := h env (strB "./self") [1, 2, 3] packed 0 [[7]] _ hf (by decide) rfl (by simp)
    e1 env' rfl e2
  rw [(selfRun_given _ _ _).1, Option.some.injEq] at this
  have := congrArg List.length this
  rw [List.length_drop, hp] at this
  revert this
  decide

/-- C52, the whole way: packing a directory with a conforming codec, then running the packed file,
where the extraction directory is new: if the decompressor accepts the archive, the extraction
directory holds the tree that the filter selects; links too if tree and archive are below 512 KiB.
Missing: links in larger trees, and what C39 misses. -/
theorem C52_round_trip_partial (CD : DeflateOK D plain) (C : InflateOK Z plain)
    (env : Env) (henv : env.ok) {arg0 : Bytes} (ha : arg0.length < 4191) {es : List Entry} {f : Forest}
    (hl : env.list (exeParts arg0).1 = some es) (hm : Mirror env (exeParts arg0).1 es f)
    (z : D.τ) (hz : D.init 9 = some z) (junk : Bytes) (hj : junk.length = 120)
    (hst : (select (selfFilter (exeParts arg0).2 OUT_FILE) (exeParts arg0).1 f ⟨true, true⟩).status ≠
      .failed)
    (hne : (select (selfFilter (exeParts arg0).2 OUT_FILE) (exeParts arg0).1 f ⟨true, true⟩).forest ≠
      .nil)
    (ok : AllocOracle) (hok : ∀ k n, ok k n = true) (hdr item : Bytes) (hh : hdr.length = 128)
    (hi : item.length = 40) (os : Os) (hq : os.quiet) (w : World) (ht : w.fs.tree)
    (ho : OpenDir os w.fs w.cwd) (hd : InDir os w [] w.cwd) (hnew : w.fs (w.cwd ++ [OUT_FOLDER]) = none)
    (hen : Enterable os (dirMode os 0o775)) (hf : f.proper)
    (hfe : (select (selfFilter (exeParts arg0).2 OUT_FILE) (exeParts arg0).1 f
      ⟨true, true⟩).forest.enterable os)
    (hnl : (select (selfFilter (exeParts arg0).2 OUT_FILE) (exeParts arg0).1 f
      ⟨true, true⟩).forest.noLinks ∨ CwdOk os w.fs w.cwd ∧
        (select (selfFilter (exeParts arg0).2 OUT_FILE) (exeParts arg0).1 f
          ⟨true, true⟩).forest.bulk < 524288) :
    ∃ n1, ∃ (log : List Bytes) (b : Bytes), log.getLast? = some b ∧ (b.length < 524288 →
      (select (selfFilter (exeParts arg0).2 OUT_FILE) (exeParts arg0).1 f
        ⟨true, true⟩).forest.noLinks ∨ log.flatten.length < 524288 →
      ∀ (senv : SelfEnv) (ndebug : Bool) (exe : Bytes), senv.file arg0 = some exe →
        exe.length ≤ maxExe ndebug → senv.open1 = true → senv.open2 = true →
        (senv.icon exe).length ≤ maxExe ndebug →
        (∃ fuel, n1 ≤ fuel ∧ senv.compress (exeParts arg0).1 (exeParts arg0).2 =
          compressDir D env (selfFilter (exeParts arg0).2 OUT_FILE) fuel .plain (exeParts arg0).1
            ⟨true, true⟩ 9 junk) →
        ∃ packed, selfMain senv ndebug arg0 = .ok ⟨0, some packed, none, [], false⟩ ∧
          ∃ archive, (∀ (env' : SelfEnv) (arg0' : Bytes), arg0'.length < 4191 →
              env'.file arg0' = some packed →
              ∃ r, selfMain env' ndebug arg0' = .ok r ∧ r.given = some archive) ∧
            ∃ n0 r, (∀ fuel, n0 ≤ fuel →
                extract Z os ok fuel hdr item OUT_FOLDER 0 ⟨archive, false⟩ w = .ok r) ∧
              (C.Final → CD.Fits → ∀ c ∈ r.codes, c = Z_OK) ∧
              ((∀ c ∈ r.codes, c = Z_OK) → 0 < r.room ∨ C.Prompt log.flatten →
                r.ret = CT_DIRECTORY ∧ r.w.cwd = w.cwd ∧
                Landed os w.fs r.w.fs w.cwd OUT_FOLDER []
                  (select (selfFilter (exeParts arg0).2 OUT_FILE) (exeParts arg0).1 f
                    ⟨true, true⟩).forest)) := by
  have hout : ∀ x ∈ OUT_FOLDER :: [], PlainName x := by
    intro x hx
    rw [List.mem_singleton] at hx
    subst hx
    decide +kernel
  obtain ⟨n2, log, d1, t, d2, d3, b, c2, d5⟩ := C27_directory_archive CD env henv
    (selfFilter (exeParts arg0).2 OUT_FILE) hl hm ⟨true, true⟩ 9 z hz junk hj hst
  have key : (select (selfFilter (exeParts arg0).2 OUT_FILE) (exeParts arg0).1 f
        ⟨true, true⟩).forest.noLinks ∨ log.flatten.length < 524288 → b.length < 524288 →
      ∃ n0 r, (∀ fuel, n0 ≤ fuel → extract Z os ok fuel hdr item ([] ++ joinNames [OUT_FOLDER]) 0
          ⟨log.flatten, false⟩ w = .ok r) ∧
        (C.Final → CD.Fits → ∀ c ∈ r.codes, c = Z_OK) ∧
        ((∀ c ∈ r.codes, c = Z_OK) → 0 < r.room ∨ C.Prompt log.flatten →
          r.ret = CT_DIRECTORY ∧ r.w.cwd = w.cwd ∧ Landed os w.fs r.w.fs w.cwd OUT_FOLDER []
            (select (selfFilter (exeParts arg0).2 OUT_FILE) (exeParts arg0).1 f
              ⟨true, true⟩).forest) := by
    intro hs hb
    have hal : allowed 0 0 log.flatten = log.flatten := by simp [allowed]
    by_cases hno : (select (selfFilter (exeParts arg0).2 OUT_FILE) (exeParts arg0).1 f
        ⟨true, true⟩).forest.noLinks
    · obtain ⟨n1, log', b', c1, c2', c3⟩ := C39_round_trip_partial CD C env henv
        (selfFilter (exeParts arg0).2 OUT_FILE) hl hm ⟨true, true⟩ 9 z hz junk hj hst hne ok hok hdr
        item hh hi os hq w ht [] (by simp) w.cwd hd ho OUT_FOLDER [] hout hnew hen (by simp) hf hfe hno
      have e1 := c1 (max n1 n2) (by omega)
      rw [d1 (max n1 n2) (by omega)] at e1
      cases e1
      rw [c2] at c2'
      cases c2'
      exact c3 0 log.flatten hal hb
    · obtain ⟨hcw, hbk⟩ := hnl.resolve_left hno
      obtain ⟨n1, log', c1, c3⟩ := C39_round_trip_small_partial CD C env henv
        (selfFilter (exeParts arg0).2 OUT_FILE) hl hm ⟨true, true⟩ 9 z hz junk hj hst hne ok hok hdr
        item hh hi os hq w ht [] (by simp) w.cwd hd ho OUT_FOLDER [] hout hnew hen (by simp) hf hfe hcw
        hbk
      have e1 := c1 (max n1 n2) (by omega)
      rw [d1 (max n1 n2) (by omega)] at e1
      cases e1
      exact c3 (hs.resolve_left hno) 0 log.flatten hal
  refine ⟨n2, log, b, c2, ?_⟩
  intro hb hs senv ndebug exe h1 h2 h3 h4 h5 ⟨fuel, hfu, h6⟩
  rw [d1 fuel hfu] at h6
  have hnf : log.flatten ≠ [] := by
    intro he
    have := d5 hb
    rw [he, CD.plain_nil hz] at this
    have := congrArg List.length this
    have hl128 : (headerBytes 0 1 junk).length = 128 :=
      (C02_header_roundtrip 0 1 junk hj (by decide) (by decide)).1
    rw [List.length_append, hl128, List.length_nil] at this
    omega
  obtain ⟨packed, p1, _, _, p4⟩ := C52_layout_partial senv ndebug arg0 ha exe h1 h2 h3 h4 h5 h6 hnf
  refine ⟨packed, p1, log.flatten, ?_, ?_⟩
  · intro env' arg0' ha' hf'
    obtain ⟨r, r1, r2, _⟩ := p4 env' arg0' ha' hf'
    exact ⟨r, r1, r2⟩
  · obtain ⟨n0, r, r1, r2⟩ := key hs hb
    exact ⟨n0, r, by simpa [joinNames] using r1, r2⟩

/-- The program `r/s` beside a file and a directory. -/
def selfDirEnv : Env where
  list p := if p = [114] then some [⟨[115], .file⟩, ⟨[97], .file⟩, ⟨[100], .dir⟩]
    else if p = [114, 47, 100] then some [⟨[98], .file⟩] else none
  statMode _ := 0o755
  fopen p := if p = [114, 47, 97] then some ⟨some (0o640, 2), [1, 2], false⟩
    else if p = [114, 47, 115] then some ⟨some (0o755, 1), [3], false⟩
    else if p = [114, 47, 100, 47, 98] then some ⟨some (0o600, 0), [], false⟩ else none
  lstat _ := (0o777, 1)
  readlink _ := none
  itemMem _ := List.replicate 40 170
  linkMem _ := []

def selfDirForest : Forest :=
  .file [115] 0o755 [3] <| .file [97] 0o640 [1, 2] <| .dir [100] 0o755 (.file [98] 0o600 [] .nil) .nil

theorem selfDirMirror : Mirror selfDirEnv [114] ((selfDirEnv.list [114]).getD []) selfDirForest := by
  refine .file (sample_fits ?_ ?_ ?_) ?_ ?_ (.file (sample_fits ?_ ?_ ?_) ?_ ?_
    (.dir (es' := [⟨[98], .file⟩]) (sample_fits ?_ ?_ ?_) ?_ ?_
      (.file (sample_fits ?_ ?_ ?_) ?_ ?_ .nil) .nil))
  all_goals first | decide | rfl

open HLSample in
example : ∃ (_ : DeflateOK queueD id) (_ : InflateOK copyI id), selfDirEnv.ok ∧
    exeParts (strB "r/s") = ([114], [115]) ∧
    Mirror selfDirEnv [114] ((selfDirEnv.list [114]).getD []) selfDirForest ∧
    (queueD.init 9).isSome ∧
    (select (selfFilter [115] OUT_FILE) [114] selfDirForest ⟨true, true⟩).status = .done ∧
    (select (selfFilter [115] OUT_FILE) [114] selfDirForest ⟨true, true⟩).forest =
      .file [97] 0o640 [1, 2] (.dir [100] 0o755 (.file [98] 0o600 [] .nil) .nil) ∧
    selfDirForest.proper ∧
    (Forest.file [97] 0o640 [1, 2] (.dir [100] 0o755 (.file [98] 0o600 [] .nil) .nil)).enterable os ∧
    (Forest.file [97] 0o640 [1, 2] (.dir [100] 0o755 (.file [98] 0o600 [] .nil) .nil)).noLinks ∧
    os.quiet ∧ (world []).fs.tree ∧ InDir os (world []) [] (world []).cwd ∧
    OpenDir os (world []).fs (world []).cwd ∧
    (world []).fs ((world []).cwd ++ [OUT_FOLDER]) = none ∧ Enterable os (dirMode os 0o775) := by
  refine ⟨queueDOK, copyIOK, fun _ => by simp [selfDirEnv], by decide +kernel, selfDirMirror, by decide,
    by decide +kernel, by decide +kernel, ?_, ⟨.inr (by decide), trivial, trivial⟩, ⟨trivial, trivial⟩,
    os_quiet, world_tree, .rel, ⟨0o755, by decide +kernel, .inr (by decide)⟩, by decide +kernel,
    .inr (by decide)⟩
  simp only [selfDirForest, Forest.proper]
  decide +kernel

/-! ### C53 -/

/-- C53, what the filter does, for every tree and iteration order: what is packed are the entries
of the tree except the first one (other than a directory) that has the name of the program, and the
first one that has the name of the output file. -/
theorem C53_packed_entries (CD : DeflateOK D plain) (env : Env) (henv : env.ok) (exe out : Bytes)
    {dir : Bytes} {es : List Entry} {f : Forest} (hl : env.list dir = some es)
    (hm : Mirror env dir es f) (level : Int) (z : D.τ) (hz : D.init level = some z)
    (junk : Bytes) (hj : junk.length = 120)
    (hst : (select (selfFilter exe out) dir f ⟨true, true⟩).status ≠ .failed) :
    ∃ n0 log f', (∀ fuel, n0 ≤ fuel → compressDir D env (selfFilter exe out) fuel .plain dir
        ⟨true, true⟩ level junk = .ok (0, log)) ∧ IsArchive plain junk f' log ∧
      f'.entries dir = (((f.entries dir).eraseP (isNamed exe)).eraseP (isNamed out)).filter
        (fun x => x.2.ty ≠ .other) := by
  obtain ⟨n0, log, h1, h2⟩ := C27_directory_archive CD env henv (selfFilter exe out) hl hm
    ⟨true, true⟩ level z hz junk hj hst
  refine ⟨n0, log, _, h1, h2, ?_⟩
  obtain ⟨_, a2, _⟩ := select_answers exe out f dir ⟨true, true⟩ hst
  rw [select_accepted (selfFilter exe out) f dir ⟨true, true⟩ hst, a2]
  have := answers_accepted exe out (f.entries dir) ⟨true, true⟩
  simp only [if_true] at this
  rw [← this]
  unfold accepted
  rw [List.filter_map, List.filter_filter]
  congr 1
  apply List.filter_congr
  intro x _
  simp [And.comm, Bool.and_comm]

example := C53_packed_entries queueDOK selfDirEnv (fun _ => by simp [selfDirEnv]) [115] OUT_FILE
  (dir := [114]) rfl selfDirMirror 9 [] rfl (List.replicate 120 0) List.length_replicate (by decide +kernel)

/-- C53, what holds: if no two entries (other than directories) of the tree have the name of the
program, nor two that of the output file, then neither is packed.
Missing: other trees, see `C53_not_packed_false`. -/
theorem C53_not_packed_partial (CD : DeflateOK D plain) (env : Env) (henv : env.ok) (exe out : Bytes)
    {dir : Bytes} {es : List Entry} {f : Forest} (hl : env.list dir = some es)
    (hm : Mirror env dir es f) (level : Int) (z : D.τ) (hz : D.init level = some z)
    (junk : Bytes) (hj : junk.length = 120)
    (hst : (select (selfFilter exe out) dir f ⟨true, true⟩).status ≠ .failed)
    (h1 : ((f.entries dir).filter (isNamed exe)).length ≤ 1)
    (h2 : ((f.entries dir).filter (isNamed out)).length ≤ 1) :
    ∃ n0 log f', (∀ fuel, n0 ≤ fuel → compressDir D env (selfFilter exe out) fuel .plain dir
        ⟨true, true⟩ level junk = .ok (0, log)) ∧ IsArchive plain junk f' log ∧
      ∀ x ∈ f'.entries dir, isNamed exe x = false ∧ isNamed out x = false := by
  obtain ⟨n0, log, f', a1, a2, a3⟩ := C53_packed_entries CD env henv exe out hl hm level z hz junk hj hst
  refine ⟨n0, log, f', a1, a2, ?_⟩
  have key : ∀ (p : Bytes × Entry → Bool) (l : List (Bytes × Entry)), (l.filter p).length ≤ 1 →
      ∀ x ∈ l.eraseP p, p x = false := by
    intro p l
    induction l with
    | nil => simp
    | cons y l ih =>
      intro hl x hx
      by_cases hy : p y = true
      · rw [List.eraseP_cons_of_pos hy] at hx
        rw [List.filter_cons_of_pos hy] at hl
        have : l.filter p = [] := List.eq_nil_of_length_eq_zero (by simp at hl; simpa using hl)
        rw [List.filter_eq_nil_iff] at this
        simpa using this x hx
      · rw [List.eraseP_cons_of_neg hy] at hx
        rw [List.filter_cons_of_neg hy] at hl
        rcases List.mem_cons.1 hx with rfl | hx
        · simpa using hy
        · exact ih hl x hx
  intro x hx
  rw [a3] at hx
  have hx2 := (List.mem_filter.1 hx).1
  constructor
  · exact key _ _ h1 x (List.mem_of_mem_eraseP hx2)
  · refine key _ _ ?_ x hx2
    exact Nat.le_trans ((List.eraseP_sublist).filter _).length_le h2

/-- A directory with the program `s`, the output file `o`, a file `a`, and a directory with another
`s`. -/
def selfForest : Forest :=
  .file [115] 0o755 [1] <| .file [97] 0o644 [2] <| .file [111] 0o755 [] .nil

example : (select (selfFilter [115] [111]) [114] selfForest ⟨true, true⟩).forest =
      .file [97] 0o644 [2] .nil ∧
    (select (selfFilter [115] [111]) [114] selfForest ⟨true, true⟩).status ≠ .failed ∧
    ((selfForest.entries [114]).filter (isNamed [115])).length ≤ 1 ∧
    ((selfForest.entries [114]).filter (isNamed [111])).length ≤ 1 := by decide +kernel

/-- C53 is false: if a directory listed before holds a file with the name of the program, that file
is left out and the program in the top directory is packed. -/
theorem C53_not_packed_false :
    ¬ ∀ (exe out dir : Bytes) (f : Forest),
      (select (selfFilter exe out) dir f ⟨true, true⟩).status ≠ .failed →
      (dir, (⟨exe, .file⟩ : Entry)) ∉ (select (selfFilter exe out) dir f ⟨true, true⟩).forest.entries dir := by
  intro h
  exact h [115] [111] [114] (.dir [100] 0o755 (.file [115] 0o644 [3] .nil) (.file [115] 0o755 [1] .nil))
    (by decide +kernel) (by decide +kernel)

/-! ### C54 -/

/-- The reports of the parser of compressdir. -/
theorem compressdir_reports {args : List Bytes} {p p' : Parser} {left : List (Option Bytes)}
    (hp : compressdirParser = .ok p) (h : p.parse args = .ok (p', left)) :
    p'.get (strB "-h") = .ok (optHelp.report args) ∧ p'.get (strB "-of") = .ok (optOut.report args) ∧
    p'.get (strB "-if") = .ok (optIn.report args) ∧
    p'.get (strB "-cf") = .ok (optConfig.report args) ∧
    ((optHelp.report args).isSome = true ↔ helpAsked args) := by
  rw [compressdir_parser] at hp
  have key := fun o (ho : o ∈ compressdirOpts) n (hn : n ∈ o.names) =>
    C47_options_partial compressdir_separate compressdir_plain hp h ho hn
  refine ⟨(key optHelp (by simp [compressdirOpts]) _ (by decide +kernel)).1,
    (key optOut (by simp [compressdirOpts]) _ (by decide +kernel)).1,
    (key optIn (by simp [compressdirOpts]) _ (by decide +kernel)).1,
    (key optConfig (by simp [compressdirOpts]) _ (by decide +kernel)).1, ?_⟩
  rw [(key optHelp (by simp [compressdirOpts]) (strB "-h") (by decide +kernel)).2]
  have hn : optHelp.names = [strB "--help", strB "-h"] := by decide +kernel
  rw [hn]
  unfold helpAsked
  simp

/-- C54, what holds: on every argument vector that is parsed without a fault, compressdir returns 0
iff help was asked for, or an output file was given and could be opened, and compressing the input
directory (the value of `-if`, else the first argument that is not an option) returned 0 — or only a
configuration file was given.  The output file is not opened unless help was not asked for and an
output file and an input were given.
Missing: vectors on which the parser faults (see `C54_crash`); with only a configuration file
nothing is compressed (see `C54_exit_status_false`). -/
theorem C54_exit_status_partial (canOpen : Bytes → Bool) (compress : Bytes → Run (Int × List Bytes))
    (args : List Bytes) {r : ToolRun} (h : compressdirMain canOpen compress args = .ok r) :
    ∃ left : List Bytes, left.Sublist args ∧
      (r.ret = 0 ↔ helpAsked args ∨ ∃ out, optOut.report args = some out ∧ canOpen out = true ∧
        match (optIn.report args).or left.head? with
        | some dir => Compresses compress dir
        | none => (optConfig.report args).isSome = true) ∧
      (∀ out, r.opened = some out → optOut.report args = some out ∧ ¬ helpAsked args ∧
        ((optIn.report args).isSome = true ∨ (optConfig.report args).isSome = true ∨ left ≠ [])) ∧
      r.source = if r.opened.isSome then (optIn.report args).or left.head? else none := by
  obtain ⟨p, hp⟩ := compressdir_built
  rw [← compressdir_parser] at hp
  unfold compressdirMain at h
  rw [hp] at h
  simp only [bind, Except.bind, pure, Except.pure] at h
  cases hpa : p.parse args with
  | error e => rw [hpa] at h; cases h
  | ok pr =>
    obtain ⟨p', left⟩ := pr
    rw [hpa] at h
    obtain ⟨g1, g2, g3, g4, g5⟩ := compressdir_reports hp hpa
    obtain ⟨l, hl1, hl2⟩ := C48_subsequence (p := p) (by
      rw [compressdir_parser] at hp
      exact (built compressdir_separate hp).2.1.unused) hpa
    subst hl1
    dsimp only at h
    rw [g1, g2, g3, g4] at h
    dsimp only at h
    refine ⟨l, hl2, ?_⟩
    by_cases hh : helpAsked args
    · rw [if_pos (g5.2 hh)] at h
      cases h
      exact ⟨by simp [hh], by simp, by simp⟩
    · rw [if_neg (by rw [g5]; exact hh)] at h
      cases ho : optOut.report args with
      | none =>
        rw [ho] at h
        cases h
        exact ⟨by simp [hh], by simp, by simp⟩
      | some out =>
        rw [ho] at h
        dsimp only at h
        by_cases hin : optIn.report args = none ∧ optConfig.report args = none ∧
            (l.map some).length = 0
        · rw [if_pos hin] at h
          cases h
          have hl0 : l = [] := List.eq_nil_of_length_eq_zero (by simpa using hin.2.2)
          subst hl0
          refine ⟨by simp [hh, hin.1, hin.2.1], by simp, by simp⟩
        · rw [if_neg hin] at h
          have hval : (optIn.report args).isSome = true ∨ (optConfig.report args).isSome = true ∨
              l ≠ [] := by
            cases hi : optIn.report args with
            | some x => exact .inl rfl
            | none =>
              cases hc : optConfig.report args with
              | some x => exact .inr (.inl rfl)
              | none =>
                refine .inr (.inr ?_)
                rintro rfl
                exact hin ⟨hi, hc, rfl⟩
          by_cases hop : canOpen out = false
          · rw [if_pos hop] at h
            cases h
            exact ⟨by simp [hh, hop], by simp, by simp⟩
          · rw [if_neg hop] at h
            have hop' : canOpen out = true := by simpa using hop
            have fin : ∀ dir, (optIn.report args).or l.head? = some dir →
                (compress dir >>= fun v => pure ⟨v.1, some out, some dir, v.2⟩ : Run ToolRun) =
                  .ok r →
                (r.ret = 0 ↔ helpAsked args ∨ ∃ out', some out = some out' ∧
                  canOpen out' = true ∧
                  match (optIn.report args).or l.head? with
                  | some dir => Compresses compress dir
                  | none => (optConfig.report args).isSome = true) ∧
                (∀ out', r.opened = some out' → some out = some out' ∧ ¬ helpAsked args ∧
                  ((optIn.report args).isSome = true ∨ (optConfig.report args).isSome = true ∨
                    l ≠ [])) ∧
                r.source = if r.opened.isSome then (optIn.report args).or l.head? else none := by
              intro dir hdir hr
              rw [hdir]
              cases hc : compress dir with
              | error e => rw [hc] at hr; cases hr
              | ok v =>
                rw [hc] at hr
                cases hr
                refine ⟨?_, ?_, rfl⟩
                · dsimp only
                  constructor
                  · intro h0
                    refine .inr ⟨out, rfl, hop', v.2, ?_⟩
                    rw [hc, ← h0]
                  · rintro (h0 | ⟨_, _, _, ps, h0⟩)
                    · exact absurd h0 hh
                    · rw [hc] at h0
                      cases h0; rfl
                · intro out' ho'
                  exact ⟨ho', hh, hval⟩
            cases hi : optIn.report args with
            | some dir =>
              rw [hi] at h fin hval
              exact fin dir rfl h
            | none =>
              rw [hi] at h fin hval
              dsimp only at h
              by_cases hl0 : (l.map some).length ≠ 0
              · rw [if_pos hl0] at h
                cases l with
                | nil => exact absurd rfl hl0
                | cons dir l' =>
                  refine fin dir rfl ?_
                  simpa [argAt, bind, Except.bind, pure, Except.pure] using h
              · rw [if_neg hl0] at h
                cases h
                have hl1 : l = [] := List.eq_nil_of_length_eq_zero (by simpa using hl0)
                subst hl1
                refine ⟨?_, ?_, rfl⟩
                · have hc : (optConfig.report args).isSome = true := by
                    rcases hval with hv | hv | hv
                    · simp at hv
                    · exact hv
                    · exact absurd rfl hv
                  exact ⟨fun _ => .inr ⟨out, rfl, hop', hc⟩, fun _ => rfl⟩
                · intro out' ho'
                  exact ⟨ho', hh, hval⟩

example : compressdirMain (fun _ => true) (fun d => if d = strB "d" then .ok (0, [[1]]) else .ok (2, []))
    [strB "-if", strB "d", strB "-of", strB "o"] =
      .ok ⟨0, some (strB "o"), some (strB "d"), [[1]]⟩ := by decide +kernel

example : compressdirMain (fun _ => true) (fun _ => .ok (2, [])) [strB "-of", strB "o", strB "-h"] =
      .ok ⟨0, none, none, []⟩ := by decide +kernel

/-- C54 is false: with a configuration file compressdir returns 0, empties the output file and
compresses nothing. -/
theorem C54_exit_status_false :
    ¬ ∀ (canOpen : Bytes → Bool) (compress : Bytes → Run (Int × List Bytes)) (args : List Bytes)
      (r : ToolRun), compressdirMain canOpen compress args = .ok r → r.ret = 0 →
      helpAsked args ∨ ∃ dir, Compresses compress dir := by
  intro h
  rcases h (fun _ => true) (fun _ => .ok (1, [])) [strB "-of", strB "o", strB "-cf", strB "c"]
    ⟨0, some (strB "o"), none, []⟩ (by decide +kernel) rfl with h | ⟨d, ps, h⟩
  · unfold helpAsked at h
    revert h
    decide +kernel
  · cases h

/-- C54 is false: with the input directory as an argument, `compressdir -of FILE DIR` crashes if the
name of the directory has three bytes or more, and `compressdir DIR` if it has at least one. -/
theorem C54_crash (canOpen : Bytes → Bool) (compress : Bytes → Run (Int × List Bytes))
    (file dir : Bytes) (hfile : dashed file = false) (hdir : ∀ o ∈ compressdirOpts, dir ∉ o.names) :
    (3 ≤ dir.length → compressdirMain canOpen compress [strB "-of", file, dir] = .error .nullDeref) ∧
    (1 ≤ dir.length → compressdirMain canOpen compress [dir] = .error .nullDeref) := by
  obtain ⟨p, hp⟩ := compressdir_built
  have main : ∀ args, p.parse args = .error .nullDeref →
      compressdirMain canOpen compress args = .error .nullDeref := by
    intro args ha
    unfold compressdirMain
    rw [compressdir_parser, hp]
    simp only [bind, Except.bind, ha]
  constructor
  · intro hl
    apply main
    refine C49_inside_false compressdir_separate hp [(strB "-of", file)] dir [] ?_ ?_ ?_ ?_ ?_
    · simpa using hfile
    · intro x hx
      rw [List.mem_singleton] at hx
      subst hx
      exact ⟨optOut, by simp [compressdirOpts], rfl, show strB "-of" ∈ optOut.names by decide +kernel⟩
    · simp
    · simpa using hdir
    · simpa using hl
  · intro hl
    apply main
    refine C49_inside_false compressdir_separate hp [] dir [] (by simp) (by simp) (by simp) ?_ ?_
    · simpa using hdir
    · simpa using hl

example : (∀ o ∈ compressdirOpts, strB "mydir" ∉ o.names) ∧ dashed (strB "out.bin") = false := by
  decide +kernel

/-! ### C55 -/

/-- C55, other systems than Windows: setting an icon fails and changes nothing, whatever the files
are. -/
theorem C55_unix (app icon : Bytes) : (setIconUnix app icon).1 ≠ 0 ∧ (setIconUnix app icon).2 = app :=
  ⟨show (1 : Int) ≠ 0 by decide, rfl⟩

example : setIconUnix [77, 90, 1] [2] = (1, [77, 90, 1]) := rfl

/-- C55, Windows, what holds: for icon files of at least 22 bytes there is no fault; every icon
resource written is the file without its first 22 bytes; the size in the group resource is its
length; and 0 is returned iff the icon could be read and both resources were written.
Missing: shorter files, see `C55_windows_false`. -/
theorem C55_windows_partial (icon : Option Bytes) (begin : Bool) (upd : Nat → Bool)
    (h : ∀ d, icon = some d → 22 ≤ d.length) :
    ∃ ret res, setIconWindows icon begin upd = .ok (ret, res) ∧
      (∀ x, .icon x ∈ res → ∃ head, head.length = 22 ∧ icon = some (head ++ x)) ∧
      (∀ n, .group n ∈ res → ∃ x, .icon x ∈ res ∧ x.length = n) ∧
      (ret = 0 ↔ icon.isSome = true ∧ begin = true ∧ upd 0 = true ∧ upd 1 = true) := by
  cases icon with
  | none => exact ⟨1, [], rfl, by simp, by simp, by simp⟩
  | some d =>
    have hd := h d rfl
    have hsp : ∃ head : Bytes, head.length = 22 ∧ d = head ++ d.drop 22 :=
      ⟨d.take 22, by rw [List.length_take]; omega, by rw [List.take_append_drop]⟩
    unfold setIconWindows
    dsimp only
    by_cases hb : begin = false
    · rw [if_pos hb]
      exact ⟨1, [], rfl, by simp, by simp, by simp [hb]⟩
    · rw [if_neg hb, if_neg (by omega)]
      have hb' : begin = true := by simpa using hb
      obtain ⟨head, h1, h2⟩ := hsp
      by_cases hu : upd 0 = false
      · rw [if_pos hu]
        refine ⟨1, _, rfl, ?_, ?_, by simp [hu]⟩
        · intro x hx
          simp at hx
          subst hx
          exact ⟨head, h1, by rw [← h2]⟩
        · intro n hn; simp at hn
      · rw [if_neg hu]
        refine ⟨_, _, rfl, ?_, ?_, ?_⟩
        · intro x hx
          simp at hx
          subst hx
          exact ⟨head, h1, by rw [← h2]⟩
        · intro n hn
          simp at hn
          subst hn
          exact ⟨d.drop 22, by simp, by rw [List.length_drop]⟩
        · cases h1 : upd 1 <;> simp [hb', hu]

example : setIconWindows (some (List.replicate 22 0 ++ [1, 2, 3])) true (fun _ => true) =
    .ok (0, [.icon [1, 2, 3], .group 3]) := by decide +kernel

/-- C55 is false for every icon file shorter than 22 bytes and every application whose resources can
be changed: memory behind the buffer is read. -/
theorem C55_windows_false (d : Bytes) (hd : d.length < 22) (upd : Nat → Bool) :
    setIconWindows (some d) true upd = .error .oobRead := by
  unfold setIconWindows
  dsimp only
  rw [if_neg (by simp), if_pos hd]

example : ([0, 0, 1, 0] : Bytes).length < 22 := by decide

/-! ### C58 -/

/-- C58, for every packed file: if extraction does not report a directory, 1 is returned and nothing
is started.  Otherwise `.out_dir/maind.exe` is started; `.out_dir/main.exe` is started iff the former
could not be started or did not return 0; the directory is removed iff the former returned 0. -/
theorem C58_programs (env : SelfEnv) (ndebug : Bool) (arg0 content : Bytes) (ha : arg0.length < 4191)
    (hf : env.file arg0 = some content) (hs : maxExe ndebug < content.length) :
    ∃ r, selfMain env ndebug arg0 = .ok r ∧
      (r.ret = 0 ↔ env.extract (content.drop (maxExe ndebug)) = CT_DIRECTORY) ∧
      (r.ret ≠ 0 → r.ret = 1 ∧ r.started = [] ∧ r.removed = false) ∧
      (r.ret = 0 → (r.removed = true ↔ env.start (strB ".out_dir/maind.exe") = some 0) ∧
        r.started = strB ".out_dir/maind.exe" ::
          (if r.removed then [] else [strB ".out_dir/main.exe"])) := by
  have h1 : FIRST_PROG = strB ".out_dir/maind.exe" := by decide +kernel
  have h2 : secondProg = strB ".out_dir/main.exe" := by decide +kernel
  refine ⟨selfRun env.extract env.start (content.drop (maxExe ndebug)), ?_, ?_⟩
  · unfold selfMain
    rw [if_neg (by show ¬ 4191 ≤ _; omega), hf]
    dsimp only
    rw [if_pos hs]
  · unfold selfRun
    rw [h1, h2]
    by_cases he : env.extract (content.drop (maxExe ndebug)) = CT_DIRECTORY
    · rw [if_neg (by simpa using he)]
      cases hst : env.start (strB ".out_dir/maind.exe") with
      | none => simp [he]
      | some c =>
        by_cases hc : c = 0
        · subst hc; simp [he]
        · simp [hc, he]
    · rw [if_pos he]
      simp [he]

example : (selfRun sampleSelf.extract sampleSelf.start [7, 8, 9, 10]).started =
      [strB ".out_dir/maind.exe"] ∧
    (selfRun sampleSelf.extract (fun _ => none) [7, 8, 9, 10]).started =
      [strB ".out_dir/maind.exe", strB ".out_dir/main.exe"] := by decide +kernel

/-- C58: the exit status does not tell what the programs returned: 0 even if neither could be
started. -/
theorem C58_exit_status_ignores_programs :
    ¬ ∀ (env : SelfEnv) (ndebug : Bool) (arg0 content : Bytes) (r : SelfRun),
      env.file arg0 = some content → maxExe ndebug < content.length →
      selfMain env ndebug arg0 = .ok r → r.ret = 0 → ∃ p, env.start p = some 0 := by
  intro h
  obtain ⟨big, hbig⟩ : ∃ b : Bytes, b.length = 524289 := ⟨List.replicate 524289 5, List.length_replicate⟩
  let env : SelfEnv := { sampleSelf with
    file := fun _ => some big, extract := fun _ => 1, start := fun _ => none }
  have hl : maxExe true < big.length := by rw [hbig]; decide
  obtain ⟨r, r1, r2, _⟩ := C58_programs env true (strB "s") big (by decide +kernel) rfl hl
  obtain ⟨p, hp⟩ := h env true (strB "s") big r rfl hl r1 (r2.2 rfl)
  cases hp

end Zwt
