import Verif.Props.ToolDisk

/-! C70 on one disk: compressdir, then extraction. -/

namespace Zwt

variable {Z : Inflater} {D : Deflater} {plain : Bytes → Bytes}

/-- compressdir with both names given works like `c DIR ARCHIVE` of the test program. -/
theorem compressdirDisk_eq (D : Deflater) (os : Os) (fuel : Nat) (junk : Bytes) (see : World → Env)
    {args : List Bytes} (w : World) {a p : Bytes} {x : Parser × List (Option Bytes)}
    (hx : (compressdirParser >>= fun q => q.parse args) = .ok x) (hh : ¬ helpAsked args)
    (ha : optOut.report args = some a) (hi : optIn.report args = some p) :
    compressdirDisk D os fuel junk see args w = hlTestDir D os fuel junk see .plain p a w := by
  obtain ⟨q, hp⟩ := compressdir_built
  rw [← compressdir_parser] at hp
  rw [hp] at hx
  have hpa : q.parse args = .ok x := hx
  obtain ⟨p', left⟩ := x
  obtain ⟨g1, g2, g3, g4, g5⟩ := compressdir_reports hp hpa
  unfold compressdirDisk
  rw [hp]
  simp only [bind, Except.bind, pure, Except.pure]
  rw [hpa]
  dsimp only
  rw [g1, g2, g3, g4]
  dsimp only
  rw [if_neg (by rw [g5]; exact hh), ha]
  dsimp only
  rw [if_neg (by rw [hi]; simp), hi]
  dsimp only
  rw [hlTestDir]
  have hf : compressdirFilter = hlTestFilter := rfl
  rcases sysOpen os w a FOPEN_MODE true with ⟨_ | lo, w1⟩
  · rfl
  · simp only [compressdirTo, bind, Except.bind, pure, Except.pure, hf]
    cases compressDir D (see w1) hlTestFilter fuel .plain p () 9 junk <;> rfl

/-- C70 on the disk: `compressdir` with `-if DIR` and `-of ARCHIVE` (in any form and order that the parser
accepts), then extraction of the file it wrote, copies the directory: both exit with 0, the first changes
only the archive, and the second makes in the new directory a copy of the source and changes nothing else.
Missing: what C82 misses; argument vectors on which the parser faults. -/
theorem C70_compressdir_copy_partial (CD : DeflateOK D plain) (C : InflateOK Z plain) (hfin : C.Final)
    (hfit : CD.Fits) {os : Os} (hq : os.quiet) {w : World} (ht : w.fs.tree) (env : HlTestEnv)
    (hj : env.junk.length = 120) (hh : env.hdr.length = 128) (hi : env.item.length = 40)
    (hok : ∀ k n, env.ok k n = true) (z : D.τ) (hz : D.init 9 = some z)
    -- the source, and the archive outside
    {p : Bytes} {l : Loc} (A : Archivable os w p l) (hne : ∃ x, w.fs (l ++ [x]) ≠ none) {a : Bytes}
    {la : Loc} (ha : OutFile os w a la) (hout : ¬ l <+: la)
    (hsee : Shows os (sysOpen os w a 0o666 true).2 (env.see (sysOpen os w a 0o666 true).2))
    (henv : (env.see (sysOpen os w a 0o666 true).2).ok)
    -- the command line
    {args : List Bytes} {x : Parser × List (Option Bytes)}
    (hx : (compressdirParser >>= fun q => q.parse args) = .ok x) (hhelp : ¬ helpAsked args)
    (hao : optOut.report args = some a) (hai : optIn.report args = some p)
    -- the target
    {pre : Bytes} (h0 : 0 ∉ pre) {d : Loc} (hd : InDir os w pre d) (ho : OpenDir os w.fs d) {n : Bytes}
    {ns : List Bytes} (hn : ∀ x ∈ n :: ns, PlainName x) (hnew : w.fs (d ++ [n]) = none)
    (hla : la ≠ d ++ [n]) (hen : Enterable os (dirMode os 0o775)) (hlen : ns.length ≤ 61)
    (hfe : ∀ q m, q ≠ [] → w.fs (l ++ q) = some (.dir m) → Enterable os (dirMode os m))
    (hnl : (∀ q t, w.fs (l ++ q) ≠ some (.link t)) ∨ CwdOk os w.fs w.cwd ∧ SmallDir w.fs l)
    (more : List Bytes) :
    ∃ (n1 : Nat) (log : List Bytes) (b : Bytes) (w2 : World), (∀ fuel, n1 ≤ fuel →
        compressdirDisk D os fuel env.junk env.see args w = .ok (0, w2)) ∧
      log.getLast? = some b ∧ w2.cwd = w.cwd ∧ Stored w.fs w2.fs la log.flatten ∧
      (b.length < 524288 → C.Prompt log.flatten →
        (∀ q t, w.fs (l ++ q) ≠ some (.link t)) ∨ log.flatten.length < 524288 →
        ∃ n0 w3, (∀ fuel, n0 ≤ fuel → hlTestMain D Z os fuel env
            ([98] :: a :: (pre ++ joinNames (n :: ns)) :: more) w2 = .ok (0, w3)) ∧
          w3.cwd = w.cwd ∧ CopyOf os w.fs p l (fun _ _ => true) w2.fs w3.fs d n ns) := by
  obtain ⟨n1, log, b, w2, c1, c2⟩ := C82_copy_directory_partial CD C hfin hfit hq ht env hj hh hi hok z hz
    A hne ha hout hsee henv h0 hd ho hn hnew hla hen hlen hfe hnl [] more
  refine ⟨n1, log, b, w2, fun fuel hf => ?_, c2⟩
  rw [compressdirDisk_eq D os fuel env.junk env.see w hx hhelp hao hai, ← hlTestMain_c D Z os fuel env p a []]
  exact c1 fuel hf

open HLSample CopySample HLTestSample in
/-- Example: `compressdir -of z -if r` in `/h/w`, for any parse of these arguments. -/
example {x : Parser × List (Option Bytes)}
    (hx : (compressdirParser >>= fun q => q.parse [strB "-of", [122], strB "-if", [114]]) = .ok x)
    (hhelp : ¬ helpAsked [strB "-of", [122], strB "-if", [114]]) :=
  C70_compressdir_copy_partial queueDOK copyIOK copyIOK_final queueDOK_fits os_quiet tree env
  List.length_replicate List.length_replicate List.length_replicate (fun _ _ => rfl) [] rfl archivable
  ⟨[97], by rw [at_a]; simp⟩ out_z (by decide) shows_z (fun _ => by simp [env, envOf]) hx hhelp
  (by decide +kernel) (by decide +kernel) (pre := []) (by decide)
  (d := [[104], [119]]) .rel ⟨0o755, by decide +kernel, .inr (by decide)⟩ (n := [111]) (ns := [[112]])
  (by decide +kernel) (by decide +kernel) (by decide) (.inr (by decide)) (by decide) enters
  (.inr ⟨cwd_ok, small⟩) []

/-- Example: there is such a parse, and help is not asked for. -/
example : (match compressdirParser >>= fun q => q.parse [strB "-of", [122], strB "-if", [114]] with
    | .ok _ => true
    | .error _ => false) = true ∧ ¬ helpAsked [strB "-of", [122], strB "-if", [114]] := by
  refine ⟨by decide +kernel, ?_⟩
  unfold helpAsked
  decide +kernel

end Zwt
