# Design of the formal model

Subject: `davitkalantaryan/zlib_with_tools` (sources in `/repo`, read as text).
Lean 4.33.0; the project is `/verif/lean`, modules under `lean/Verif/`.

## Layout

* `Verif/Model/*`  — transcription of the C/C++ code, function by function, each
  definition citing file and lines.
* `Verif/Spec/*`   — small independent specifications (record grammar, file trees,
  expected file-system contents, option semantics).
* `Verif/Proofs/*` — invariants and helper lemmas.
* `Verif/Props/*`  — the property theorems `Cnn_…`, each with a concrete `example`.

## How things are modelled

* Outcome of a C function: `Except Fault α`; `Fault` distinguishes out-of-bounds
  read/write, null dereference, failed assertion, type confusion, double free and
  (for loops) running out of fuel.  Nothing undefined is totalised silently.
* Bytes are `List UInt8`; integers are `Nat` with explicit wrap-around at the C
  widths where the code converts or subtracts.
* zlib is external.  `Deflater`/`Inflater` are arbitrary state machines; the contract
  they must meet (`DeflateOK`, `InflateOK`) relates them to an abstract decoder
  `plain : Bytes → Bytes` (bytes determined by a compressed prefix).  The contract is
  an explicit hypothesis, and toy codecs meeting it are constructed, so the
  hypotheses are satisfiable.
* Uninitialised bytes written into records are universally quantified ("junk").
* `malloc`/`realloc` failure: an oracle.  Source files, directory listings, `stat`:
  an environment record.  Destination file system: a map from component paths to nodes,
  with POSIX resolution (`.`/`..`/symlinks), `mkdir`, `open`, `write`, `symlink`, `chdir`
  and an arbitrary refusal function for environment errors.
* Extraction: `Os` says which calls the system refuses (`refuses`, by call number), how much a
  `write` accepts, the umask, whether the process is privileged, and when `malloc` fails (`noMem`).
* Two ghost fields only record history: `rets` (codes of `inflate`) and `pieces` (buffers handed
  to the content callback); nothing reads them in the model.
* Recursive functions and loops whose termination is itself a claim take fuel; the
  theorems show a bound on the fuel needed.

## Properties and proofs

| id | modelled | proof |
|----|----------|-------|
| C01 | `NORM_LEN` at 32/64 bits | arithmetic (omega / shifts) |
| C02, C03 | header and item layout | little-endian round trip |
| C04, C05 | compress loop | induction on input, rank of deflate's idle calls |
| C06 | same, buffer size 0 | false: divergence for every fuel; positive sizes proved |
| C07 | same, `uInt` cast | false: witness of 2^32 bytes; below 2^32 proved |
| C08 | session life cycle | false: witness codec; proved when the last piece is short |
| C09, C10, C11 | decompress loop | invariant on consumed/produced; C11 false with witness, proved when last piece is short |
| C12 | LL and session calls | LL: induction; session: false (header phase drops the code), proved after header |
| C13, C14, C15, C16 | session with header phase | invariant relating session to plaintext; C16 false with witness, single-call part proved |
| C17, C18, C20–C25 | directory parser | simulation of the machine by a recursive-descent spec, invariant |
| C19 | same | false with witness; exact when no cut, suffix in general |
| C26 | parser over serialised trees; all three directory functions composed with a decompress session (`Props/Stream`) | structural induction; crafted archive witness |
| C27–C32, C35, C36 | directory walk | induction over the walk; false ones with witnesses |
| C33, C34 | control-flow model with resource ledger | case analysis; false ones with witnesses; the ledger simulates every extraction of `Model/HL.lean` (`C34_runs_partial`) |
| C37 | read loop | induction |
| C38 | `MkdirRecurse` over the FS model | induction on missing ancestors |
| C39, C40 | compression, then extraction (`Proofs/Round`, `Proofs/RoundRun`) | every prefix of the callbacks can be completed to a history conveying the tree; structural induction on the tree; trees and archives below 512 KiB come in one buffer, so links are whole (`Proofs/HLSmall`); trees of any size with links: spec `Relinked` (same tree but for lost beginnings of link targets), induction on the tree; false for empty input, for a target across a buffer end and for a target ending with its buffer (witnesses, `Proofs/FirstBlock`, `Proofs/BigSample`) |
| C41, C43–C46 | HL callbacks over the FS model | invariants; false ones with witnesses |
| C42 | same | invariant "every path of the run stays below the new directory and links are only at places no later path leads through" (spec `LinkSafe`); false with crafted names, paths through links, unmatched ends |
| C57 | `MkdirRecurse` | proved when only the last component is missing; with 2 to 61 missing directories proved to fail always, though all of them are created (`C57_several`), by running both loops (`Proofs/MkdirSlash`) |
| C47–C51 | argument parser with heap and argv cells | induction; false ones with witnesses |
| C52–C55, C58 | the programs' `main` with opening, compressing, extracting and starting as parameters | copy loop and writes at offsets by induction; the stateful filter by induction over the tree; composed with C39, C47; false ones with witnesses; C58 also on the disk of `Model/SelfDisk`, from C65 |
| C56 | session invariant | same invariant as C13/C14 |
| C59, C60 | compress session, then decompress session | the output of `deflate` can always be continued, so no prefix of it kills the stream (`Fine` in `Proofs/SessionRun`); composed with C04, C08, C13; C60 false with a full last buffer (witness) |
| C61–C64 | extraction over the FS model, any `Os` | the file system changes only by steps "new node in an existing directory", "write", "truncate", counted and bounded (`FsRun`, `Proofs/HLGrow`); consequences by induction on the steps |
| C65 | same | the last step of a successful `MkdirRecurse` is `mkdir` of the whole path (`Proofs/HLNew`); witness for backslashes |
| C66 | directory function, then decompress session | C27 and the acceptance of own output (C59) composed with the meaning of prefixes of encoded trees (`Props/Stream`); witness with a cut link target |
| C67 | what the directory functions write, twice | relational induction over the walk: two runs that see the same file system and other uninitialised memory stay in step (`Proofs/Repro`); witness in the header |
| C68 | directory functions with extra buffers, then extraction | C31 composed with the round trip of C39 over the tree with the buffers in front; witnesses |
| C69 | `compressFile` with a read error | the read loop passes on whole chunks (induction); composed with C04/C08 |
| C70 | `compressdirWith` (tool over library) and `extract` | `C54_written` determines what the tool writes; composed with C27 and C39; on one disk (`compressdirDisk`) the tool equals the test program's `c`, so C82 applies |
| C71 | `aptMain` (download, step file and move as parameters) | case analysis; witnesses |
| C72 | `aptMain`: unterminated arrays as strings whose rest is a parameter, unknown or not | case analysis; witnesses for every step file with a root |
| C73 | `aptMain`; spec `FieldOf` | first-occurrence search and field splitting meet the spec (induction), values are unique |
| C74 | spec `Layout`: the byte format written out with literal offsets and numbers | `Encodes` (used by C27, C39, C66, …) is equivalent to it (induction); composed with C27 and C17 |
| C75 | `Model/Conc`: extraction as a program that makes one call at a time; `Prog.after k`: stopped after k calls | the program run alone equals `extract` (`extractP_run`); stopping after k calls equals a system that refuses everything from then on, so C42's invariant applies; files directly |
| C76 | spec `FS.partOf`; final disk given by `Landed` | every single call only adds to the disk (`tree_adds`, induction over the tree), so each intermediate disk lies between the first and the final one; with links for the tree as extracted (`Relinked`); between two disks of which the second has one file more, at most that file is incomplete (`nearly_between`, `tree_one`) |
| C77 | `Model/Conc.play`: the programs of several extractions, calls interleaved by an arbitrary schedule; they share file system and working directory only (`src/core` has no mutable static data) | every call of a safe extraction is local (`Call.Local`: same reply and effect in worlds that agree at and below its place, nothing else changed; `Prog.Uses` over the replies); induction over the schedule. One extraction may have links if the others have absolute paths (`Call.LocalAt`: locality in the world where the call is made, with the places of links as in C42; `play_mixed`). False with links otherwise (`chdir`) and with common missing parents: two witnesses |
| C78 | `amid`: other activities are arbitrary functions on the world between calls (`Elsewhere`) | same locality; with links `C78_links` |
| C79 | `Shows` relates the compressor's file system calls to a disk (`Archivable` source); `CopyOf` relates the disks before and after | path resolution gives a `Mirror` of the disk (induction on the path length left), filter = `prune`, then C39; sources of any size with links (`LooseCopy`): C39_round_trip_any_partial |
| C80 | `LeftOver`, `Forest.remains` (`Spec/Lossy`): what failing calls may leave of a tree; any `Os` (refusals, short writes), any number of calls | induction over the callback history of the tree with exact resolution along paths free of links made before (with links: absolute output paths, so that the working directory does not matter); prefixes and interruption by an `Os` that refuses everything from the point on; false with failing allocations (witness), directory modes false (witness) |
| C81 | `watch D` (`Spec/Watch`): any compressor, recording its return codes and the bytes it takes | induction over the compress loop; witness `faulty` for the file function |
| C82 | `Model/HLTest`: the program `main_zlibwt_hl_test.cpp` with the disk (opening, writing pieces, reading the archive back); `OutFile`, `InFile`, `Stored` (`Spec/HLTest`) | composition of C79 (both forms)/C40 with lemmas on storing one file in a tree; concrete witnesses for `d` and `e` |
| C83 | `CopyResult`: disks that can result from copying, the tools quantified away | C79 twice; `CopyOf` determines the disk |
| C84 | `Model/Destroy`: the two `inflate` calls made by destruction, with what they read and write | invariant `Settled` (no room, dead, or everything delivered) over all loops and callbacks; header-phase invariant for the input; `aheadI`, a decompressor that reads ahead, as witness |
| C85 | `Model/Stack`: the sizes passed to `alloca`, along the extraction loop | erasure to `extract`; the requests are those of the callbacks of the archive (`extractS_asks`); weight of the announcing records for any archive, invariant on the kept path (`PathIn`) for trees |
| C86 | `Model/LLTest`: the callbacks and main of `main_zlibwt_ll_test.cpp` | invariant over the callbacks of a tree (`ltTree_good`), read off the extraction loop (`ltExtract_tree`), composed with the compression theorems; witnesses by evaluation |
| C87 | `Model/SelfDisk`: main of `main_self_extract.c` on a disk (not Windows) | the filter with memory selects what a filter without memory selects when names occur once (`select_self`); composed with C39; the output file may lie in the packed directory (`keptAt_out`); witnesses by evaluation of the compression only |
| C88 | `MkdirRecurseInlineRaw` (as C38) | induction on the remaining rounds of the first loop (`mkCut_deep`) |
| C89 | the walk of `Model/Walk.lean` with one file, the output, whose content is what has been written so far (`Model/Live.lean`) | simulation by a walk over files at rest, both ways (`visitLive_tracks`, `visit_follows`); the reader never catches up (`readOwn_endless`) |
| C90 | `ResourceHandlerSecIconToApp` (Windows) with every failing call, the resources of the program file and a log of what is acquired (`Model/Icon.lean`); the icon file format is in `Spec/Icon.lean` | case analysis; witnesses |
| C91 | `main` of the icon test program with its two copies into the buffer (`Model/Icon.lean`) | position of the last backslash; bounds of both copies |
| C92 | `RemoveNonEmptyDirectory` and its callback with `unlink`, `rmdir` and the reading of directories on the disk model (`Model/Remove.lean`); `Reads` says that reading shows the disk | induction on the recursion; for completeness each directory is emptied before it is removed, for confinement every path stays below the directory; witnesses |
| C93 | the second run of `main_self_extract.c` (`Model/SelfDisk`) with the removal of `Model/Remove` | C87 and C92 composed: a disk with a copy on it is a tree, the copy is removed completely; witness |
| C94 | the parser of `Model/DirParser` repeated with the content of `fileData` at every callback (`Model/Current`; shown equal to the parser) | invariant between parser state and the entry announced last, induction over recursion depth and buffers; witnesses |
| C95 | the loops of both low-level sessions with the callback as part of the session (`Model/Dest`) | simulation with the sessions of C04 and C09, invariant between callback and history |
| C96 | recursion of the directory functions (`Model/Walk`), fuel = depth | induction on the depth with the invariant length of path + 2·depth ≥ 4096; witness for cut paths |
| C97 | directory functions with extra buffers, then extraction of a tree with repeated directories | list of entries with places; invariant of the callbacks: the file system is the old one with the entries added where there was nothing; sticky error flag for the large archive |
| C98 | low-level decompress sessions on streams that end, and extraction of such an archive | induction over the reading loop with `InflateOK.Ends`; witnesses with a copying codec that has an end byte |
| C99 | compress sessions, then low-level decompress sessions | output of a session is always the beginning of a longer stream (`Fits`), so `inflate` never gives up on it (`Final`) |
| C100 | `Model/Win.lean`: the Windows branches of extraction to disk, on a drive with lexical path resolution and an arbitrary rule for equal names | induction over the events of the tree (`tree_win`), links make no difference (`winEvents_closed`), composed with the archive of C39; witnesses by evaluation |
| C101 | `Model/Win.lean` | invariant over callbacks and over the loops that make directories, which stop at the output directory (`winCut_inv`); witness by evaluation |
| C102 | `winClear` (`Model/Win.lean`) | direct; witness by evaluation |
| C103 | `Model/SelfCopy.lean`: the copy loop with partial reads and writes | induction over the rounds; C103_copy_partial shows that it refines `selfPack` of C52 |
| C104 | `Model/Win.lean` | every callback keeps the nodes; a directory created successfully is the one the output path names, since the cut places of the recursive creation held separators |
| C105 | `Spec/Rfc` (stored, fixed and dynamic blocks, Adler-32), `Spec/Decoder`, `Spec/Stored` | any reader of bytes that only adds to its output yields an `inflate` that meets the contract (`Proofs/Decoder`); stored blocks decode to their content (`Proofs/Stored`); then C14, C17, C39, C40 for this format; witness: bytes written by zlib |
| C106 | `Model/Win`, `Model/Compress` | callbacks of a file archive on a drive that works, and on any (`Proofs/WinFile`); composed with C40's compression side |
| C107 | `Model/Win` | every change of the drive is a new node, a write below the archive length or (archives of single files) a truncation, by induction over the callbacks (`Proofs/WinGrow`); reading as C37 |
| C108 | `Model/HL`, `Model/Win` | faults of each callback given the state of the protocol (descriptor open inside a file, name present before a link), by induction over the callbacks; slashes of the current path against the depth of the archive (`Proofs/Faults`, `Proofs/WinFaults`) |
| C109 | `Model/Walk`, `Model/HL` | what a copy is (`CopyOf`) makes it archivable: its path leads to it, modes keep the bits of the owner, names and sizes come from the source (`Proofs/CopyAgain`); then C79 again |
| C110 | `Model/WinWalk`, `Model/Win` | compression on Windows simulates compression on Unix with a filter that refuses links (`Proofs/WinWalk`); the drive is a tree (`Spec/WinDisk`), which is mirrored by induction on the length of paths (`Proofs/WinDisk`); then C100 |
| C111 | `Model/WinWalk`, `Model/Win` | as C68, with the modes of Windows (`Proofs/WinExtra`); extraction by the induction of C100 |
| C112 | `Model/WinWalk`, `Model/HL` | the tree of C110 is looked up on Unix: names come from the listings (`Mirror.spelled`), places correspond (`lookup_spot`, `spot_lookup`); extraction by C39 |
| C113 | `Model/SelfWin`: main of `main_self_extract.c` on a drive | files in use cannot be opened (`WShowsBut`); hidden from the listing they make a drive as C110 wants it (`WShowsBut.hide`), and the filter with memory selects the same (`select_selfWin`, `unhide`); composed with C100 and C102; witnesses by evaluation |
| C114 | `winExtract` with any oracle for refused calls and short writes | induction on the tree with the world left arbitrary (`tree_any_win`): the path is always that of the place the walk is at, whether or not its directory exists; `winMkdir` only adds directories on its way (`winMkdir_added`); witnesses by evaluation |
| C115 | C79 and C100 from disk to drive | the directory is a tree (`Archivable.mirror`); its names are as Windows wants them because those on the disk are (`Forest.winOk_of`); places on the drive and on the disk correspond (`lookup_solid`, `spot_lookup`) |
| C116 | C112 and C115, composed | the tree that lands on Unix is a copy of a disk with only the tree on it (`Landed.copy`), which can be archived (`disk_archivable`), so C109 gives that the copy can be; its names are still those of Windows (`lookup_names`, `lookup_apart`); what a node of Unix carries is one node of Windows (`carries_one`) |
| C117 | as C114, with an oracle that carries out calls completely before the `K`-th and refuses them from then on (`Win.stopsAt`) | the tree lemma of C114 is parametrised by what writing may leave of a file (`WReads`), here a prefix; if the output directory is not made, the calls have run out within (`winMkdir_free`), and the callbacks that follow change nothing and do not fault (`tree_gone`); that at most one file is incomplete is carried through the tree: either everything so far is complete or the calls have run out, and then nothing more is created (`winReads_stop`, `AtMostOne`) |
| C118 | C110, with a drive on which there is a copy | the drive with the copy is a tree of directories (`WCopyOf.tree`), and the copy can be archived (`WCopyOf.archivable`); any number of copies by induction |
| C119 | C79, C110 with a prefix of the archive | what a prefix decodes to is a prefix of what the archive decodes to (`mono` of the contract), so C76 and C117 apply; the tree archived is translated to the source directory as in C79 and C110 |
| C120 | C39 with a prefix of the archive | `Spec/Begun`: an encoding cut between records, and the tree `g` of the entries before the cut. The callbacks made so far, completed by announcements and ends only, convey `g` (`log_begun`); announcements and ends write nothing, so files with content are there already; later callbacks only add (C76), and what is added agrees with the whole tree. Single files: the beginning is itself an archive of a beginning of the content (C40). On Windows what is left is a part of the tree (C114, with nothing failing), files only grow, and what was there with its full length is therefore whole |
| C121 | C76 followed by another run | The disk after the interruption (C76) has the old directories and links (`Keeps`), is a tree (`Prog.after_tree`), and lacks the other name; so C39/C40 apply to it. The output file can be opened again (`open_again`). Witness for directories at the same place. On Windows C117 takes the place of C76 (`WFresh.elsewhere`, `winOpen_again`) |
| C122 | spec `Earlier` (`WEarlier`): disks reached by any extractions, each stopped anywhere | every call of any extraction keeps directories and links and leaves a tree (`Call.exec_keeps`, `Call.exec_tree`; induction over calls and runs; on Windows `winLoop_keeps`); paths that led to a directory still do (`InDir.mono`), so C39, C40 and C100 apply |
| C123 | `hlTestMain` and `compressdirDisk` (compressdir with its disk) with any `Os`; `Os.fills`: after an incomplete write nothing more is written | induction over the pieces (`writePieces_any`); reporting refuted by a disk that takes nothing |

## Trusted base

* The Lean kernel; axioms `propext`, `Classical.choice`, `Quot.sound` only.
* The transcription of C into Lean (this file and comments say what is simplified).
* zlib's behaviour as recorded in the contracts (`InflateOK`, `DeflateOK`; where all of an archive must
  arrive also `InflateOK.Final`, no failure for lack of memory, and `DeflateOK.Fits`; `InflateOK.Ends` (C98), the meaning of `Z_STREAM_END`; `InflateOK.Prompt`, nothing withheld at the end
  of the archive, as an alternative to room left in the last output buffer). The format itself is defined in
  `Spec/Rfc` after RFC 1950 and RFC 1951, and the contracts are shown to be met for it (C105); `tools/check_rfc.py`
  compares that definition with zlib on random streams. POSIX behaviour as recorded in the FS model;
  the external `directory_iterator` (submodule absent from `/repo`) as recorded in `Model/Walk`.

Not modelled: the Windows-only branches except the icon handler, the installer, the self extractor, compression of directories, extraction to disk and the clearing of the extraction directory (C100 to C102, C104, C110 to C119; behaviour of Windows as recorded in `Model/Win`), GUI/Qt code,
test programs other than `main_zlibwt_hl_test.cpp` and `main_zlibwt_ll_test.cpp`. Threads: see C77 (interleaving at the granularity of system calls; zlib itself is taken to
have no shared state).
