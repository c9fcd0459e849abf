#!/usr/bin/env python3
"""Writes ../properties.jsonl. One tuple per property."""
import json, os
LLC="src/core/zlibwt_ll_compression_routines.c"
LLD="src/core/zlibwt_ll_decompress_routines.c"
CMP="src/core/zlibwt_compression_routines.c"
DEC="src/core/zlibwt_decompress_routines.c"
V0="src/core/zlibwt_decompress_routines_version_0000.c"
HL="src/core/zlibwt_hl_decompress_routines.c"
COM="src/include/private/zlib_with_tools/zlibwt_compress_decompress_common.h"
PUB="include/zlib_with_tools/zlibwt_compress_decompress_common.h"
ARG="src/utils/common_argument_parser.cpp"
SE="src/tools/main_self_extract.c"
AG="src/tools/main_apt-get.cpp"
CD="src/tools/main_compressdir.cpp"
P=[]
def p(title,statement,quant,why,*anchors):
    P.append(dict(id="C%02d"%(len(P)+1),title=title,statement=statement,quantifier=quant,why_tests_cant=why,anchors=list(anchors)))
p("Padded lengths","The padded length stored next to every name and payload length is a multiple of 8, strictly greater than the length and at most 8 greater, so that every name and payload is followed by 1..8 zero bytes and the padding writes stay inside the 9-byte zero buffer.",
  "every 32-bit name length and every 64-bit payload size below the wrap-around point","2^32 and 2^64 values; the wrap-around points are never sampled",COM+":ZLIBWT_NORM_LEN",CMP+":CompressArbitraryBufferAsFileInline")
p("Archive header round trip","Every archive starts with exactly 128 plaintext bytes whose first 8 encode version 0 and the content kind; the reader recovers both whatever the 120 reserved (uninitialised) bytes are.",
  "every content kind and every content of the uninitialised reserved bytes","the reserved bytes are stack garbage that differs per run",LLC+":ZlibWtCreateTypedCompressSession",DEC+":ZlibWtDecompressCallbackStatHeader",COM+":SCompressDecompressHeader")
p("Item record round trip","The 40-byte item record decodes to the sizes, name lengths, mode and kind it was built from, whatever its reserved bytes are.",
  "every field value in range and every reserved content","the field space is 2^200",PUB+":SFileItem",V0+":FileHeaderClosingStat")
p("Compress call hands over everything in order","A compress call that returns 0 has consumed its whole input (of less than 4 GiB), and the bytes passed to the callback over a session are exactly the bytes deflate emitted, in order, in pieces no larger than the output buffer.",
  "every session history, every input, every positive buffer size, every deflate implementation meeting the zlib contract","deflate may consume and emit in any pattern",LLC+":ZlibWtCompressBufferToCallback")
p("Compress call terminates","A compress call returns for every input when the output buffer size is positive.",
  "every session state, input, positive buffer size and contract-conforming deflate","non-termination cannot be observed by a finite test",LLC+":ZlibWtCompressBufferToCallback")
p("Compress call never hangs on a degenerate buffer","A compress call returns for every buffer size, including 0.",
  "every buffer size","a hang is not an observable test result",LLC+":ZlibWtCompressBufferToCallback",LLC+":ZlibWtSetBufferForCompressSession")
p("Large inputs are compressed entirely","A compress call that returns 0 has consumed its input whatever its size_t length.",
  "every input length up to 2^64","needs inputs of 4 GiB and more",LLC+":ZlibWtCompressBufferToCallback",CMP+":CompressSingleFileFromBuffer")
p("Closing a session loses nothing","Once a compress session is destroyed, decoding the bytes passed to the callback gives back every byte that was compressed.",
  "every sequence of compress calls, every buffer size","depends on where output-buffer boundaries fall relative to deflate's internal pending output",LLC+":ZlibWtDestroyCompressSession",LLC+":ZlibWtCompressBufferToCallback",CMP+":ZlibWtCompressFileEx")
p("Low-level decompress delivers a faithful prefix","The bytes a low-level decompress session passes to its callback are, concatenated, always a prefix of the plaintext of the bytes consumed, in pieces no larger than the output buffer, for valid and invalid input alike.",
  "every input split into calls in every way, every buffer size, every contract-conforming inflate","all splits and all corrupt streams",LLD+":ZlibWtLLDecompressBufferToCallback")
p("Low-level decompress terminates","A low-level decompress call returns for every input, valid or corrupt, and every buffer size.",
  "every byte string, buffer size and history","non-termination is not observable",LLD+":ZlibWtLLDecompressBufferToCallback",LLD+":ZlibWtLLDecompressBufferToCallbackReadOldIn")
p("Nothing decodable is withheld","When a low-level decompress call returns 0, every plaintext byte determined by the input given so far has been passed to the callback.",
  "every valid stream, every call split, every buffer size","needs output-buffer boundaries to coincide with the end of input",LLD+":ZlibWtLLDecompressBufferToCallback",LLD+":ZlibWtDestroyLLDecompressSession")
p("Decompress reports zlib errors","A decompress call returns 0 only if every inflate call it made returned Z_OK.",
  "every byte string and split, header phase included","the header-phase reentrancy depends on where calls are split",LLD+":ZlibWtLLDecompressBufferToCallback",DEC+":ZlibWtDecompressCallbackStatHeader",DEC+":ZlibWtDecompressBufferToCallback")
p("Header is assembled for every split","No user callback is invoked before 128 plaintext bytes are decoded; the kind is taken from exactly those bytes, and no header byte is ever delivered as content, however the compressed bytes are split into calls.",
  "every archive and every split of it into calls","exponentially many splits",DEC+":ZlibWtDecompressCallbackStatHeader",DEC+":ZlibWtDecompressBufferToCallback")
p("File archives deliver exactly the payload","For a file or blob archive with content the start callback runs exactly once, before any read, and the read buffers concatenate to the plaintext after the header; without content there is no callback, or one start and empty reads.",
  "every payload, every split, every buffer size","all splits and buffer sizes",V0+":ZlibWtDecompressCallbackStatData_blob_and_file",V0+":ZlibWtDecompressCallbackStatData_version_0000")
p("Unknown content kind is inert","An archive whose kind is none of directory, file, blob causes no user callback at all.",
  "every such archive, every split","all payloads and splits",V0+":ZlibWtDecompressCallbackStatData_version_0000")
p("Unsupported version is rejected","An archive whose version is not 0 causes no user callback and no undefined behaviour.",
  "every such archive, every split","only particular splits and payload bytes trigger reinterpretation",DEC+":ZlibWtDecompressCallbackStatHeader")
p("Directory stream meaning","For every plaintext byte string the directory callbacks invoked are exactly those prescribed by the record grammar (40-byte record, padded name, payload, padding), file payloads possibly being delivered in pieces, at most two trailing zero-length callbacks being deferred to the next buffer, and link targets being whole unless a buffer boundary falls inside one (C19).",
  "every byte string, well-formed or not, and every split into buffers","infinite input space, exponentially many splits",V0+":ZlibWtDecompressCallbackStatData_dir")
p("Split independence","Two ways of splitting the same plaintext into buffers (empty buffers included) lead to the same callbacks up to the cutting of file payloads.",
  "every byte string without cut symlink targets, every pair of splits","pairs of splits of unbounded inputs",V0+":ZlibWtDecompressCallbackStatData_dir")
p("Symlink targets arrive whole","The symlink callback receives the complete link target, however the plaintext is split.",
  "every archive with symlinks, every split","needs a buffer boundary inside the target",V0+":ZlibWtDecompressCallbackStatData_dir (ZLIBWT_DECOMPR_STAGE_SYM_LINK)")
p("Parser memory safety","No plaintext, however malformed and however split, makes the directory parser write outside the item record or the name allocation, use a null name, or fail an assertion.",
  "every byte string, every split, every allocation-failure pattern","adversarial inputs",V0+":ZlibWtDecompressCallbackStatData_dir",V0+":FileHeaderClosingStat")
p("Callback protocol","In every callback history each file start is followed by reads whose lengths sum to at most the announced size and by exactly one end when they reach it, with no other callback in between; read and end never occur outside a file.",
  "every byte string and split","all malformed inputs",V0+":ZlibWtDecompressCallbackStatData_dir")
p("Errors are final in the parser","After a name allocation failure no further user callback is invoked on that session.",
  "every continuation of the input","all continuations",V0+":FileHeaderClosingStat",V0+":ZlibWtDecompressCallbackStatData_dir")
p("Truncation gives a prefix","Decoding a prefix of a directory plaintext invokes a prefix of the callbacks of the whole.",
  "every byte string and every cut point","all crash/truncation points",V0+":ZlibWtDecompressCallbackStatData_dir")
p("Recursion depth is bounded by the buffer","One parser invocation on a buffer of n bytes nests at most 4*(n/40)+5 calls deep, whatever the bytes and the parser state reached before.",
  "every state and buffer","worst-case inputs must be found",V0+":ZlibWtDecompressCallbackStatData_dir")
p("Unknown record kinds are skipped","A record of unknown kind is skipped as exactly 40 bytes, changing nothing else.",
  "every such record at every position, every split","kinds and positions",V0+":ZlibWtDecompressCallbackStatData_dir")
p("Balanced directory callbacks","For every archive written by the compression functions, the directory end callbacks match directory starts like brackets; no archive can make end callbacks outnumber starts.",
  "every directory tree / every byte string","all archives",V0+":ZlibWtDecompressCallbackStatData_dir",HL+":DecompressDirDirEndCallback")
p("Directory compression writes the tree","The plaintext written for a directory is the record encoding of exactly the visited tree in iteration order: each entry once, nested directories bracketed, sizes equal to the payloads written.",
  "every finite directory tree, every iteration order, every filter","unbounded trees",CMP+":ZlibWtFolderCompressDirIterCallbackStatic",CMP+":ZlibWtCompressDirectoryEx")
p("Dot entries and filtered entries are skipped","Entries \".\" and \"..\" are never shown to the filter nor archived; an entry for which the filter returns non-zero contributes nothing, and if it is a directory neither does its content.",
  "every tree and every stateful filter","stateful filters over unbounded trees",CMP+":ZlibWtFolderCompressDirIterCallbackStatic")
p("Filter stop request","When the filter returns 387 no later entry is shown to the filter or archived, open directories are still closed, and the call returns 0.",
  "every tree and every stop position","all stop points in all trees",CMP+":ZlibWtFolderCompressDirIterCallbackStatic")
p("Input errors are reported","If a visited file cannot be opened, stat-ed or read, the call returns 2 and no later entry is visited.",
  "every tree and every failing file","all failure points",CMP+":ZlibWtFolderCompressDirIterCallbackStatic",CMP+":CompressSingleFileFromFile")
p("Extra buffers become files","Each extra buffer appears in the archive as a file with its path (root variant: path used verbatim as name; other variant: one directory level per '/'), content and mode, before the directory content.",
  "every list of extra buffers and every path string","all paths and buffer lists",CMP+":ZlibWtFolderCompressBufferAsFileInlineRaw",CMP+":ZlibWtFolderCompressBufferAsDirRootFileInline")
p("A file growing or shrinking is harmless","If a file changes size between fstat and reading, the other entries of the archive are still decoded correctly.",
  "every size change","race",CMP+":CompressArbitraryBufferAsFileInline",CMP+":CompressSingleFileFromFile")
p("Invalid level is an error code","Compression functions given a level deflate refuses return a non-zero code without undefined behaviour.",
  "every level, every input","crash depends on zlib refusing",CMP+":ZlibWtCompressFileEx",CMP+":ZlibWtCompressDirectoryEx",LLC+":ZlibWtCreateTypedCompressSession")
p("No allocation or descriptor leaks","Every buffer allocated and every file opened by a compression or extraction call is released when the call returns, on every path.",
  "every control path including allocation failures","failure injection at every point",CMP,HL+":ZlibWtDecompressFileOrDirEx",LLD+":ZlibWtCreateLLDecompressSession")
p("Source paths are exact","The file whose content is archived under an entry is the file at that entry's path.",
  "every directory depth and name length","needs paths over 4094 bytes",CMP+":ZlibWtFolderCompressDirIterCallbackStatic (snprintf_di)")
p("A missing input directory is reported","Compressing a directory that cannot be listed returns a non-zero code.",
  "every unreadable path","environment dependent",CMP+":ZlibWtCompressDirectoryEx")
p("Archive size limit","Extraction with a_archiveSize = n > 0 reads min(n, available) bytes of the input file and none beyond (fewer only after an error in a callback); with 0 it reads to the end of the file.  Bytes beyond the limit have no influence.",
  "every n and every input length","boundary values around multiples of the chunk size",HL+":NextSizeToReadInline",HL+":ZlibWtDecompressFileOrDirEx")
p("Recursive directory creation","Creating the output directory creates exactly its missing ancestors and itself and reports 0; reports 1 and changes nothing if it exists.",
  "every path of ordinary names without trailing slash and with at most 61 missing ancestors, and every file-system state in which nothing is refused","all paths and file-system states",HL+":MkdirRecurseInlineRaw",HL+":OsCreateStatic")
p("Directory round trip on disk","Compressing a directory and extracting the archive to a fresh directory recreates the same names, nesting, contents, link targets and permission bits (up to umask), changes nothing else, and returns 'directory'.",
  "every finite tree, every contract-conforming zlib, every call split that does not cut a link target","unbounded trees, all zlib behaviours",CMP+":ZlibWtCompressDirectoryEx",HL+":ZlibWtDecompressFileOrDirEx")
p("File round trip on disk","Compressing a file with ZlibWtCompressFileEx and extracting the archive recreates the content and returns 'file'.",
  "every content","needs incompressible files of particular sizes",CMP+":ZlibWtCompressFileEx",HL+":DecompressFileAndBlobCallback")
p("No effect when the output directory is unavailable","If the output directory already exists or cannot be created, extraction changes nothing in the file system and returns 'none'.",
  "every archive and file-system state","file-system states",HL+":DecompressDirStartCallback",HL+":DecompressDirFileOrDirStartCallback")
p("Extraction is confined to the output directory","Extraction changes nothing outside the output directory.",
  "every archive, including crafted ones","adversarial archives",HL+":DecompressDirFileOrDirStartCallback",HL+":DecompressDirDirEndCallback",HL+":SymLinkCreateCallback")
p("Failed extraction is reported","If any entry could not be created, or the archive is truncated or corrupt, extraction does not report success.",
  "every archive, failure pattern and truncation point","all failure points",HL+":ZlibWtDecompressFileOrDirEx")
p("Extracted files hold exactly the archived bytes","After extraction of an entry the file at its path holds exactly the archived content, even if a file with that path existed before.",
  "every pre-existing content","pre-existing longer files",HL+":DecompressDirFileOrDirStartCallback (no O_TRUNC)")
p("Working directory is preserved","Extraction leaves the process working directory as it was.",
  "every archive and file-system state","failure points",HL+":SymLinkCreateCallback")
p("Unwritable output file is an error, not a crash","If the output file of a file archive cannot be opened, extraction returns 'none' without undefined behaviour.",
  "every archive, every split","environment dependent",HL+":DecompressFileStartCallback",HL+":DecompressFileAndBlobCallback")
p("Option parsing","After parsing, an option is reported found iff one of its names occurred, and its value is the following argument when that exists and does not start with '-', else its default; found options and their values are removed from argv.",
  "every option table and argument vector","all tables and vectors",ARG+":ParseCommandLine",ARG+":operator[]")
p("Remaining arguments keep their order","The arguments left after parsing are a subsequence of the original ones, in order.",
  "every option table and argument vector","all vectors",ARG+":ParseCommandLine")
p("Parsing stays inside argv","Parsing never reads past the argument vector.",
  "every option table and argument vector","reads one past the end are silent in tests",ARG+":ParseCommandLine (inner loop)")
p("Option objects are freed exactly once","Adding options, redefining names and clearing the parser frees every option object exactly once and never uses a freed one.",
  "every sequence of AddOption calls followed by Clear","use-after-free is silent in tests",ARG+":AddOption",ARG+":Clear")
p("Help text is aligned","HelpString never computes a negative pad, and each help text starts in the same column.",
  "every sequence of AddOption calls","all option strings",ARG+":HelpString",ARG+":AddOption")
p("Self-extractor layout","Packing writes the executable, then the archive starting exactly at the fixed offset, and running the packed file hands extraction exactly the archive bytes.",
  "every executable no larger than the limit and every archive","all sizes",SE+":main")
p("Self-extractor does not pack itself","Neither the running executable nor the output file is packed.",
  "every directory tree and iteration order","iteration order is file-system dependent",SE+":DirCompressFilterFunction")
p("compressdir exit status","compressdir exits 0 iff help was asked for or compression succeeded, and never touches the output file before the arguments are validated.",
  "every argument vector","all vectors",CD+":main")
p("Icon embedding","On non-Windows builds setting an icon always fails without touching any file; on Windows the embedded resource is the icon file without its 22-byte header.",
  "every pair of paths / every icon file","icon files shorter than 22 bytes","src/core/resource_handler_unix.c:ResourceHandlerSecIconToApp","src/core/resource_handler_windows.c:ResourceHandlerSecIconToApp")
p("Changing the output buffer mid-stream","Replacing the output buffer of a decompress session between calls never loses, duplicates or misdirects plaintext: the content of a file, and the stream of directory records, arrive as with any other buffers, and the directory callbacks are the same unless a link target is cut (C19).",
  "every sequence of calls and buffer changes","all interleavings",DEC+":ZlibWtSetBufferForDecompressSession")
p("Trailing slash in the output directory","Creating the output directory works the same for a path that ends with a slash.",
  "every path and file-system state","only visible when an ancestor is missing",HL+":MkdirRecurseInlineRaw",HL+":GetFileDelimeterInline")
p("Programs started by a packed file","Running a packed file exits 0 iff extraction reported a directory, and starts nothing otherwise; it starts maind.exe of the extracted directory first, starts main.exe iff the former could not be started or did not return 0, and removes the directory iff the former returned 0.",
  "every packed file, every outcome of extraction and of the programs","combinations of outcomes of other programs",SE+":main",SE+":RemoveNonEmptyDirectory")
p("A library archive is accepted","Whatever has been handed over so far by a compress session, supplied from its beginning in any splits and with any buffer exchanges to a decompress session, is accepted: every call returns 0.",
  "every compress history, every prefix of its output, every decompress history that supplies it","all splits and buffer sizes; zlib is external",LLC+":ZlibWtCompressBufferToCallback",DEC+":ZlibWtDecompressBufferToCallback")
p("Streaming round trip","What a compress session of kind file or blob is given arrives, complete and in order, in the file callbacks of a decompress session that is given its output.",
  "every compress history and every decompress history that supplies its output","all splits and buffer sizes on both sides",LLC+":ZlibWtCompressBufferToCallback",DEC+":ZlibWtDecompressBufferToCallback")
p("Extraction removes nothing","Extraction neither removes nor replaces anything: directories and symbolic links that existed are as before, files that existed are files with the same permissions, and extraction of a directory archive shortens none of them.",
  "every archive (also damaged and malicious ones), file-system state and behaviour of the operating system, for runs without undefined behaviour","adversarial archives and failure patterns",HL+":ZlibWtDecompressFileOrDirEx",HL+":DecompressDirFileOrDirStartCallback",HL+":SymLinkCreateCallback")
p("Extraction grants no special permissions","Whatever modes an archive asks for, new files have only permissions among rwxrwxrwx that the umask leaves, new directories also the sticky bit; nothing new is set-user-ID or set-group-ID.",
  "every archive, file-system state and behaviour of the operating system","adversarial archives",HL+":DecompressDirFileOrDirStartCallback","include/zlib_with_tools/utils/io_zlibandtls.h:mode_fo_zlibandtls")
p("Extraction ends","Extraction of every input comes to an end.",
  "every input, file-system state and behaviour of the operating system","all inputs",HL+":ZlibWtDecompressFileOrDirEx",HL+":MkdirRecurseInlineRaw")
p("Extraction is bounded by the archive","No file becomes longer than the decompressed archive content (unless it was before), and the number of new files, directories and links is bounded by a multiple of its length.",
  "every archive, file-system state and behaviour of the operating system","adversarial archives",HL+":ZlibWtDecompressFileOrDirEx",HL+":MkdirRecurseInlineRaw")
p("Reported success means that the output is there","Extraction returns 'none', 'directory' or 'file'; after 'directory' the output path leads to a directory that this call has made, after 'file' there is a file where it led to.",
  "every archive, file-system state, behaviour of the operating system, and output path without backslashes and without a slash at its end","file-system states and failure patterns",HL+":ZlibWtDecompressFileOrDirEx",HL+":DecompressDirStartCallback",HL+":DecompressFileStartCallback")
p("Streaming round trip of directories","What a compression function archives of a directory is told, entry by entry in the same order, with names, modes, contents and link targets, by the callbacks of a decompress session that is given the archive.",
  "every directory tree, filter, and decompress history that supplies the archive or a first part of it","unbounded trees, all splits and buffer sizes",CMP+":ZlibWtCompressDirectoryEx",DEC+":ZlibWtDecompressBufferToCallback",V0+":ZlibWtDecompressCallbackStatData_dir")
p("Archives hold nothing but the tree","The archive of a directory is determined by the tree, the filter and the level: two calls on the same directory write the same bytes, and no memory of the process gets into the archive.",
  "every file system, filter, directory function and content of uninitialised memory","uninitialised memory is often zero in tests",LLC+":ZlibWtCreateTypedCompressSession",CMP+":ZlibWtFolderCompressDirIterCallbackStatic",CMP+":CompressArbitraryBufferAsFileInline")
p("Extra buffers arrive on disk","Compressing a directory together with extra buffers and extracting the archive to a fresh directory recreates the directory and, for each buffer, a file with its path, content and mode.",
  "every list of extra buffers, directory tree, filter and file-system state","unbounded trees; permissions depend on the user running the test",CMP+":ZlibWtCompressDirectoryWithBufferExRoot",CMP+":ZlibWtCompressDirectoryWithBufferEx",HL+":ZlibWtDecompressFileOrDirEx")
p("Read errors of a single file are reported","Compressing a single file returns 0 exactly if the whole file could be read; what the callback receives always decodes to a first part of file header and content, and, unless the last piece handed over fills the 512 KiB output buffer, to the header and all but less than one 512 KiB chunk of what could be read.",
  "every file content, place of a read error, accepted level and conforming deflate","read errors need failing devices",CMP+":ZlibWtCompressFileEx",CMP+":CompressSingleFileFromFile")
p("compressdir round trip","A directory archived by compressdir (named with -if or as the first argument) and extracted to a new directory is recreated: files with content and mode, directories with their modes, links.",
  "every argument vector, directory tree and file-system state","unbounded trees; all argument vectors",CD+":main",CD+":DirCompressFilterFunction",HL+":ZlibWtDecompressFileOrDirEx")
p("Installer exit status","The installer program exits 0 only if the package asked for was downloaded and put at its root.",
  "every argument vector, step file and outcome of download and move","combinations of outcomes of external functions",AG+":main")
p("Installer reads only its own memory","Running the installer reads nothing beyond the strings and arrays it has been given or has filled.",
  "every argument vector and step file","out-of-bounds reads are silent in tests",AG+":main (svcTermStr, svcTermStr2, _snprintf)")
p("Installer follows the step file","The downloaded package is moved to the root the step file names and nowhere else; a program is started exactly if the package is at its root and the step file names a program, and its command line is root, backslash, program and ' /Install'.",
  "every step file, package name and outcome of download and move","all step files; fixed buffers matter for long ones only",AG+":main")
p("The archive format is fixed byte by byte","A directory archive decodes to a 128-byte header followed by the entries, each a 40-byte record (sizes, name lengths, mode and kind as little-endian numbers at fixed offsets), name, payload and 1 to 8 zero bytes behind both; what compression writes is in this format, and whatever is in this format is read back entry by entry.",
  "every tree and every byte string","unbounded trees; a change made to writer and reader alike passes every round-trip test",PUB+":SFileItem",COM+":SCompressDecompressHeader",V0+":ZlibWtDecompressCallbackStatData_dir",CMP+":ZlibWtCompressDirectoryEx")
p("Interrupted extraction stays within bounds","An extraction that is cut off after any of its system calls has changed at most the output file (file archives), or only what lies at or below the topmost directory it has to create (directory archives with ordinary names, no symbolic links and matching directory ends, whose output directory can be created).",
  "every archive, number of calls made before the interruption, file-system state and set of refused calls","every interruption point of every run",HL+":ZlibWtDecompressFileOrDirEx",HL+":MkdirRecurseInlineRaw")
p("Interrupted extraction leaves part of the archive","An extraction to a new directory (or to a file that can be opened) that is cut off after any of its system calls has left a part of what it would have produced: every directory with its final mode, every file with its final mode and a beginning of its content, at most one file being incomplete; nothing that was there before is lost, and nothing else is there.",
  "every tree (with links: up to link targets that arrive without their beginning), every single file, every number of calls made before the interruption","every interruption point of every run",HL+":ZlibWtDecompressFileOrDirEx",HL+":DecompressDirFileReadCallback",HL+":DecompressFileAndBlobCallback")
p("Extractions at the same time do not affect each other","Extractions run at the same time in one process to different output paths end as each of them would alone: same return value, same files, nothing else changed.",
  "every number of extractions, every archive, every interleaving of their system calls, every file-system state","every interleaving; races are rarely hit in tests",HL+":ZlibWtDecompressFileOrDirEx",HL+":SymLinkCreateCallback",HL+":MkdirRecurseInlineRaw",HL+":OsCreateStatic")
p("Extraction is not affected by unrelated activity","An extraction (ordinary names, matching directory ends, output directory that can be created, no entry with a path through an earlier link) goes as it would alone, call by call, whatever else happens meanwhile on the system that leaves alone the place it extracts to, the directories and links that were there when it began, and, unless the archive has no symbolic links and the output path is absolute, the working directory.",
  "every such archive, every sequence of other activities between any two of its system calls","every interleaving",HL+":ZlibWtDecompressFileOrDirEx",HL+":MkdirRecurseInlineRaw")
p("Copying a directory through an archive","Archiving a directory of a disk through a filter and extracting the archive to a new directory on the same or another disk gives a copy of every entry that the filter accepted together with the directories above it (files with their content, links with their targets, directories; permissions as far as the umask allows), nothing else in the new directory, and no other change; without a filter and with permissions within the umask the copy is exact, and a copy of a copy is exactly the copy.",
  "every pair of disks, source directory, memoryless filter, umask and target path","unbounded directory trees, paths, filters and permissions; stated on the disks before and after, not on the archive",CMP+":ZlibWtCompressDirectory",CMP+":ZlibWtFolderCompressDirIterCallbackStatic",HL+":ZlibWtDecompressFileOrDirEx",HL+":DecompressDirFileOrDirStartCallback")
p("Failing calls lose data, nothing else","Whatever system calls fail or are carried out in part while an archive (or a beginning of one) is extracted to a new directory, and whenever the extraction is cut off: outside the output directory nothing changes, and inside it there is at each place what the archive has there, or nothing; a file has its mode and parts of its content in order.",
  "every tree, every set of refused calls, every amount of data a write stores, every number of calls made","every pattern of failures",HL+":ZlibWtDecompressFileOrDirEx",HL+":DecompressDirFileOrDirStartCallback",HL+":DecompressDirFileReadCallback",HL+":MkdirRecurseInlineRaw")

p("Errors of the compressor are reported","A compress call returns 0 only if the compressor has reported no stream error and has taken all the data; otherwise it returns the error.  A session is created only if the compressor could be set up and has taken the archive's header.  The functions that compress a file or a directory return 0 only if all compress calls they make do.",
  "every compressor, whatever it returns and when, every data, every state of a session","every point at which the compressor may fail",LLC+":ZlibWtCompressBufferToCallback",LLC+":ZlibWtCreateTypedCompressSession",CMP+":ZlibWtCompressFileEx")

p('Archive and extract with the program','With the supplied program: archiving a directory (or a non-empty file) into a file outside it and extracting that file copies the directory (the content); both runs exit with 0 and change nothing but the archive and the output.  Wrong usage and files that cannot be opened give 1 and change nothing.  The extra files the program adds are extracted with content and defined permissions.',
  "every disk, directory, file, pair of paths; every compressor and decompressor that meets zlib's contract",'every directory tree and every disk around it',"src/tests/main_zlibwt_hl_test.cpp:main","src/tests/main_zlibwt_hl_test.cpp:CompressFileAndBlobCallback",HL+":ZlibWtDecompressFileOrDir",CMP+":ZlibWtCompressDirectoryEx")

p('The copy does not depend on the tools','Archiving a directory and extracting the archive gives one and the same disk, node by node, whatever compressor, compression level, decompressor and listing order of the directories is used, and whatever uninitialised memory contains: two machines with different zlib versions or file systems produce identical copies.',
  "every two compressors and decompressors that meet zlib's contract, every two levels and listing orders, every directory below 512 KiB all of which can be read, every filter that accepts something, every target disk",'all zlib implementations, all listing orders',HL+":ZlibWtDecompressFileOrDir",CMP+":ZlibWtCompressDirectoryEx",LLC+":ZlibWtCompressBufferToCallback",DEC+":ZlibWtDecompressBufferToCallback")

p("The buffers are the caller's again",'Once a decompress call has returned 0 the library no longer uses the input that was given to it, and between calls it does not write to the output buffer: both may be released before the session is destroyed (destroying calls inflate twice more, on whatever the last call has left).',
  "every history of calls on a session, every decompressor that meets zlib's contract",'every archive, every splitting, every implementation of zlib',LLD+":ZlibWtDestroyLLDecompressSession",DEC+":ZlibWtDestroyDecompressSession",DEC+":ZlibWtDecompressCallbackStatHeader",LLD+":ZlibWtCreateLLDecompressSession")

p('Stack memory for extraction','The stack memory that extraction needs does not depend on the archive, except for the length of the paths in it: a request never exceeds the output path, the longest path of a file in the archive, and a constant.',
  "every archive, every decompressor that meets zlib's contract, every behaviour of the disk",'every archive, malformed ones included',HL+":DecompressDirFileOrDirStartCallback",HL+":ZlibWtDecompressFileOrDirEx")

p('The low-level test program copies','Compressing a directory or a file with the low-level test program and extracting the archive with it reproduces the original at the new place, changes nothing else on the disk, leaves no descriptor open, and the exit status tells whether that succeeded.',
  "every disk, directory, file, pair of paths; every compressor and decompressor that meets zlib's contract",'every directory tree and every disk around it',"src/tests/main_zlibwt_ll_test.cpp:main","src/tests/main_zlibwt_ll_test.cpp:DecompressDirFileOrDirStartCallback","src/tests/main_zlibwt_ll_test.cpp:DecompressCallbackForSymLinksStatic","src/tests/main_zlibwt_ll_test.cpp:DecompressDirStartCallback")

p('A self-extracting program reproduces its directory','Starting the self extractor packs the directory it is in: it exits with 0 and stores in the working directory an output file made of the program, padding and an archive, and changes nothing else. Starting that output file, on any disk, recreates in the extraction directory everything that was beside the program except the program and the output file, then starts the contained programs in order.',
  "every disk, program path, directory tree, second disk and second path; every compressor and decompressor that meets zlib's contract",'every directory tree, program content and pair of disks',"src/tools/main_self_extract.c:main","src/tools/main_self_extract.c:DirCompressFilterFunction","src/tools/main_self_extract.c:CompressFileAndBlobCallback")

p('Output directories of any depth','Creating the output directory works however many of its ancestors are missing; if it fails, nothing is left behind.',
  'every path of ordinary names, any number of missing directories, and every file-system state in which nothing is refused','every depth and file-system state',"src/core/zlibwt_hl_decompress_routines.c:MkdirRecurseInlineRaw")

p('The archive may lie in the directory it is made of','A directory can be compressed into a file in that directory: the call returns, and the archive holds all other files, whatever it holds for the archive itself.',
  'every directory tree, every conforming compressor, every filter, and every amount of data that the output stream keeps back','depends on the listing order, the sizes of all files, how far the data can be compressed and the buffering of the output stream',"src/core/zlibwt_compression_routines.c:CompressSingleFileFromFile","src/core/zlibwt_compression_routines.c:ZlibWtFolderCompressDirIterCallbackStatic","src/tools/main_compressdir.cpp:main")

p('Setting an icon is reported truthfully','On Windows, setting the icon of a program returns 0 exactly if the program file then has the icon of the icon file, and otherwise leaves the program file as it was; the icon file, the memory and the update handle are given back in either case.',
  'every icon file, every program file and every combination of failing system calls','failures of the resource calls and of reads cannot be provoked at will, and icons come in any size',"src/core/resource_handler_windows.c:ResourceHandlerSecIconToApp")

p('The icon program works on the program beside it','The icon program sets the icon given as argument for hello_world_test.exe in its own directory, and says what is missing if there is no argument.',
  'every path the program is called by and all arguments','depends on the name the program is called by',"src/tests/main_change_or_add_icon_test.cpp:main")

p('Clearing the extraction directory removes it and nothing else','Before extracting, the self extractor removes an earlier extraction directory: afterwards the directory and everything in it is gone, links in it are removed and not followed, and nothing outside it is changed; the removal always ends.',
  'every directory tree on the disk, every depth, all modes and links, every failing call (for what is not to be changed)','removal recurses over trees of any depth and shape, and a test for what must stay can only look at some paths',"src/tools/main_self_extract.c:RemoveNonEmptyDirectory","src/tools/main_self_extract.c:DirIterFuncForRemovinDirectory")

p('A self-extracting program leaves nothing behind','After a self-extracting program has run, the extraction directory is gone, and the disk is as it was before, but for what the started programs have changed.',
  'every packed directory, every disk the packed file is started on, all exit codes of the started programs','extraction directories have any shape, and a test can only look for leftovers in some places',"src/tools/main_self_extract.c:main","src/tools/main_self_extract.c:RemoveNonEmptyDirectory")

p('The current entry during the callbacks of a directory archive','The data returned by ZlibWtGetCurFileDataForSession inside a callback describe the entry the callback is about: its name, its type and its depth in the tree.',
  'every plaintext of a directory archive, also a damaged one; every split into buffers; every pattern of allocation failures; every callback of the session','the name is collected in a buffer that is reallocated and overwritten while the stream is parsed in pieces; a test sees only some streams and splits',"src/core/zlibwt_decompress_routines.c:ZlibWtGetCurFileDataForSession","src/core/zlibwt_decompress_routines_version_0000.c:ZlibWtDecompressCallbackStatData_dir")

p('Changing the callback of a session','If the callback of a compress session or of a low-level decompress session is changed, between calls or by a callback itself, no byte is lost, repeated or reordered: the pieces in the order of delivery are what a session with one callback delivers, and every piece goes to the callback that was set last before it.',
  'every history of calls, every sequence of callbacks set between the calls, every behaviour of callbacks that set other callbacks, every input and split, every positive buffer size, every codec that meets the zlib contract','the callback can be changed at any piece of any stream, and callbacks may react to everything delivered so far; a test tries some change points',"src/core/zlibwt_ll_compression_routines.c:ZlibWtSetCallbackForCompressSession","src/core/zlibwt_ll_compression_routines.c:ZlibWtCompressBufferToCallback","src/core/zlibwt_ll_decompress_routines.c:ZlibWtSetCallbackForLLDecompressSession","src/core/zlibwt_ll_decompress_routines.c:ZlibWtLLDecompressBufferToCallback")

p('Archiving a directory ends','Archiving a directory always comes to an end, with a bounded depth of recursion: whatever the directories contain, also if the directories listed form a loop, compression never nests more than 2048 calls and returns.',
  'every content of directories (every function from paths to listings), every filter with its state, every set of added buffers, every path, every codec that meets the zlib contract','termination for every tree cannot be tested; a test terminates on the trees it tries, and loops or very deep trees are not tried',"src/core/zlibwt_compression_routines.c:ZlibWtFolderCompressDirIterCallbackStatic","src/core/zlibwt_compression_routines.c:ZlibWtCompressDirectoryEx","src/core/zlibwt_compression_routines.c:ZlibWtCompressDirectoryWithBufferEx","src/core/zlibwt_compression_routines.c:ZlibWtCompressDirectoryWithBufferExRoot")

p('Added buffers join the directories of the tree','When buffers are added to a directory archive at paths whose directories occur in the paths of other buffers or in the tree itself, extraction to a fresh place yields one directory for each path that holds everything put there: every buffer is a file at its path, and every file and link of the tree is at its place with its content.',
  'every tree, filter and set of buffers in which no file or link has the place of anything else, every codec that meets the zlib contract, every file system with room for the output path','the combinations of shared directories, buffers and trees are unbounded, and the outcome depends on the size of the archive and on the user',"src/core/zlibwt_compression_routines.c:ZlibWtCompressDirectoryWithBufferEx","src/core/zlibwt_hl_decompress_routines.c:ZlibWtDecompressFileOrDirEx")

p('Finished zlib streams are decompressed to their end','When the input of a decompress call contains the end of a zlib stream, the callback gets all of the plaintext; bytes after the end make no difference.',
  'every zlib stream that ends, every split of the input into calls, all buffer sizes, every inflate implementation that meets the zlib contract','how much of the plaintext is left for the call that meets the end depends on the splits, the buffer size and the codec; the streams of the library itself never end, so its round trips do not reach the case',"src/core/zlibwt_ll_decompress_routines.c:ZlibWtLLDecompressBufferToCallback","src/core/zlibwt_decompress_routines.c:ZlibWtDecompressBufferToCallback")

p('Compressed output is a complete zlib stream','All that a compress session hands over, from its creation to its destruction, is a complete zlib stream: a decoder fed with it accepts it, yields the header and the data, and reports the end of the stream.',
  'every sequence of compress calls and buffer exchanges, all buffer sizes, every split of the output on the reading side, every pair of codecs that meets the zlib contract','quantifies over all data, calls, buffers and splits, and over codecs; the decompressor of the library does not look for the end',"src/core/zlibwt_ll_compression_routines.c:ZlibWtDestroyCompressSession","src/core/zlibwt_ll_compression_routines.c:ZlibWtCompressBufferToCallback")

p('Archives made on Unix extract completely on Windows','A directory archived on Unix and extracted on Windows to a new directory with reported success arrives complete: every entry is there under its name, files with their content, and nothing else on the drive changes.',
  'every directory tree of any size, every selection by a filter, all compression levels, every place of the output directory, every pair of codecs that meets the zlib contract, every way the system compares names','needs two operating systems, and quantifies over trees, names, codecs and the rules by which names are compared',"src/core/zlibwt_hl_decompress_routines.c:DecompressDirFileOrDirStartCallback","src/core/zlibwt_hl_decompress_routines.c:SymLinkCreateCallback","src/core/zlibwt_hl_decompress_routines.c:OsCreateStatic","include/zlib_with_tools/utils/io_zlibandtls.h:mode_fo_zlibandtls")

p('Extraction on Windows is confined to the output directory','Extraction of an archive on Windows changes nothing outside the given output directory (or output file).',
  'every archive, every output path, all splits of the input, every pattern of refused system calls and short writes','a statement about all archives, including crafted ones and ones made on systems with other rules for names',"src/core/zlibwt_hl_decompress_routines.c:DecompressDirFileOrDirStartCallback","src/core/zlibwt_hl_decompress_routines.c:MkdirRecurseInlineRaw","src/core/zlibwt_hl_decompress_routines.c:OsCreateStatic")

p('Clearing on Windows removes the extraction directory only','When the self extractor clears its extraction directory on Windows, that directory disappears with everything in it, and nothing else on the drive changes.',
  'every content of the drive, every content of the memory behind the name of the directory','what lies behind a string constant in memory depends on compiler and linker; a test sees one layout',"src/tools/main_self_extract.c:RemoveNonEmptyDirectory")

p('The self extractor copies itself or fails','When the self extractor packs a directory, it puts an exact copy of its own program in front of the archive, or it ends and reports failure; it ends in any case.',
  "every program, every amount that the reads deliver and the writes store, read errors and changes of the file's size included",'short reads and writes, read errors and a file that changes while it is copied cannot be brought about at will in a test, and that a program does not end is no observation a test can make',"src/tools/main_self_extract.c:main")

p('On Windows reported success means that the output is there, and nothing is removed','An extraction on Windows that returns has removed no file and no directory, has left every read-only file read-only and every other one writable, and has not changed the working directory. If it reports a directory, there was nothing at the output path before and there is a directory now; if it reports a file, there is a file at the output path; otherwise it reports nothing. A success is reported only for an archive with a complete header of version 0 and as the kind the header tells, and not when reading the archive failed, unless creating an entry failed before.',
  'every archive, intact or not, every state of the drive, every output path without a NUL, every pattern of refused calls, short writes and failed allocations','the statement covers every damaged archive and every combination of refused calls, and that something was not removed must hold for every file on the drive',"src/core/zlibwt_hl_decompress_routines.c:DecompressDirStartCallback", "src/core/zlibwt_hl_decompress_routines.c:MkdirRecurseInline", "src/core/zlibwt_hl_decompress_routines.c:DecompressDirFileOrDirStartCallback")

p('Archives in the standard zlib format, from any program','Bytes that decode according to RFC 1950 and RFC 1951 to an archive are read as that archive, whatever program wrote them and whatever blocks, codes and flushes they are made of: a directory archive extracts to its tree and changes nothing else, and sessions that are given two streams with the same content report the same.',
  'every byte string that decodes to an archive, every tree, every split and buffer size, every inflate implementation for this format that meets the zlib contract','there are infinitely many encodings of the same archive, and a test program only ever sees those that its own zlib writes',"src/core/zlibwt_ll_decompress_routines.c:ZlibWtLLDecompressBufferToCallback", "src/core/zlibwt_decompress_routines.c:ZlibWtDecompressBufferToCallback", "src/core/zlibwt_hl_decompress_routines.c:ZlibWtDecompressFileOrDirEx")

p('A file archived on Unix arrives on Windows',"A file compressed on Unix and extracted on Windows arrives with the same content, in a file that can be written to, with 'file' returned and nothing else on the drive changed; if it cannot be written, this is reported and nothing is changed.",
  'every file content, level, zlib implementation that meets the contract, drive content, spelling of names, output path, and pattern of refused calls','the code for Windows cannot be run where the other tests run, and drives with read-only files, full drives and every pattern of failing calls cannot be enumerated',"src/core/zlibwt_hl_decompress_routines.c:ZlibWtDecompressFileOrDirEx", "src/core/zlibwt_hl_decompress_routines.c:DecompressFileStartCallback", "src/core/zlibwt_hl_decompress_routines.c:DecompressFileAndBlobCallback", "include/zlib_with_tools/utils/stdio_zlibandtls.h:fopen_zlibandtls")

p('Extraction on Windows ends and keeps to the archive','Extraction on Windows ends for every input. It reads the given number of bytes and never more, bytes beyond have no influence, and what it adds is bounded by the length of the decompressed archive: no file gets longer than the archive or than it was, and the number of new files and directories is at most 62 per 40 bytes. No file or directory is removed or replaced.',
  'every archive, also damaged and malicious ones, every drive content, spelling of names, output path, archive size, read error and pattern of refused calls','the code for Windows cannot be run where the other tests run, and a bound on all hostile archives cannot be reached by trying some of them',"src/core/zlibwt_hl_decompress_routines.c:ZlibWtDecompressFileOrDirEx", "src/core/zlibwt_hl_decompress_routines.c:DecompressDirStartCallback", "src/core/zlibwt_hl_decompress_routines.c:DecompressFileStartCallback")

p('No archive makes extraction misuse memory','Extraction of an archive, whatever its content, does not dereference null pointers, read or write outside memory, or use files and memory after their release; archives that cannot be extracted are reported.',
  'every archive, also damaged and malicious ones, every file system, output path, input splitting, and pattern of refused calls, on Unix and on Windows','hostile archives cannot be enumerated, and a fault depends on the archive, the state of the file system and failing calls together',"src/core/zlibwt_hl_decompress_routines.c:DecompressDirFileOrDirStartCallback", "src/core/zlibwt_hl_decompress_routines.c:DecompressDirDirEndCallback", "src/core/zlibwt_hl_decompress_routines.c:DecompressFileAndBlobCallback", "src/core/zlibwt_hl_decompress_routines.c:SymLinkCreateCallback")

p('A copy can be copied again','A directory that was archived and extracted can be archived and extracted again, to any new place; the second copy then is exactly the first, with the same permissions, however both were made.',
  'every archivable source below 512 KiB, filter, target disks and paths, compressors, decompressors, compression levels and listing orders of both copies','whether what extraction creates is again readable, within the limits and unchanged by a further copy depends on umask, modes, names and paths of arbitrary trees',"src/core/zlibwt_compression_routines.c:ZlibWtCompressDirectoryEx", "src/core/zlibwt_hl_decompress_routines.c:ZlibWtDecompressFileOrDirEx")

p('A directory of Windows is copied through an archive','On Windows, archiving a directory and extracting the archive to a new place gives a copy of it: the same files and directories, with the same content and the same protection against writing, and nothing else changes. The archive itself is the one that Unix makes of the same files and directories without links.',
  'every Windows drive and directory on it, listing order, compressor, decompressor, compression level and new place to extract to; for the comparison with Unix every environment, filter and extra buffers at the top','the platform branches are compiled on one system only, and trees, names that differ in case, and the way the compressor cuts its output are unbounded',"src/core/zlibwt_compression_routines.c:ZlibWtFolderCompressDirIterCallbackStatic", "src/core/zlibwt_compression_routines.c:ZlibWtCompressDirectoryEx", "src/core/zlibwt_hl_decompress_routines.c:ZlibWtDecompressFileOrDirEx")

p('Added buffers are extracted as files on Windows','Buffers added to the archive of a directory on Windows are extracted there as files at their paths, with their content, and protected against writing exactly if the mode given for them has no write permission; the files of the directory are extracted as well.',
  'every directory, filter, list of buffers with distinct names for Windows, compressor, decompressor, compression level, drive and new place to extract to','the branches of Windows are compiled on one system only; paths, contents and the interplay with the tree are unbounded',"src/core/zlibwt_compression_routines.c:ZlibWtCompressDirectoryWithBufferExRoot", "src/core/zlibwt_compression_routines.c:ZlibWtCompressDirectoryWithBufferEx", "src/core/zlibwt_compression_routines.c:ZlibWtFolderCompressBufferAsFileInlineRaw", "src/core/zlibwt_hl_decompress_routines.c:ZlibWtDecompressFileOrDirEx")

p('A directory of Windows arrives on Unix','A directory archived on Windows and extracted to a new place on Unix arrives there: the same files and directories, with the names as Windows lists them, the same content, and writable for their owner exactly if they were not protected on Windows; nothing else changes.',
  'every Windows drive and directory on it, listing order, compressor, decompressor, compression level, disk on Unix and new place to extract to','the two halves run on different systems; trees, the spelling of names, modes and the cutting of the output are unbounded',"src/core/zlibwt_compression_routines.c:ZlibWtFolderCompressDirIterCallbackStatic", "src/core/zlibwt_compression_routines.c:ZlibWtCompressDirectoryEx", "src/core/zlibwt_hl_decompress_routines.c:ZlibWtDecompressFileOrDirEx")

p('The self-extracting program on Windows','On Windows, started without an archive behind it, the program writes a copy of itself, with the icon, padded to the fixed size, and behind it an archive of its own directory without the program and without the copy; nothing else on the drive changes and the result is 0. The copy, started on any drive, first removes what is in the way of its output folder, then puts there exactly what was packed, starts the first program in it, and either removes the folder completely (the program succeeded) or starts the second program.',
  'every drive, program, path the program is started by, directory, listing order, compressor, decompressor, drive the copy is started on, and behaviour of the started programs','two runs on two drives; trees, contents, what lies in the way, and what the started programs do are unbounded',"src/tools/main_self_extract.c:main", "src/tools/main_self_extract.c:DirCompressFilterFunction", "src/tools/main_self_extract.c:RemoveNonEmptyDirectory", "src/core/zlibwt_compression_routines.c:ZlibWtCompressDirectoryEx", "src/core/zlibwt_hl_decompress_routines.c:ZlibWtDecompressFileOrDirEx")

p('Failing calls on Windows lose data, nothing else','Whatever system calls fail during an extraction on Windows, and however little of the bytes given to them the writing calls store, nothing outside the output directory changes, and inside it every place holds what the archive has there or nothing: a directory, or a file, protected as the archive says, with parts of its content in order. If no error is reported and the archive arrived completely, every file and directory of the archive is there.',
  'every drive, output directory that could be created, archive, decompressor, and choice of the calls that fail or store less than asked','any of the calls of a run can fail, alone or together, and files and trees are unbounded',"src/core/zlibwt_hl_decompress_routines.c:ZlibWtDecompressFileOrDirEx", "src/core/zlibwt_hl_decompress_routines.c:MkdirRecurseInlineRaw", "src/core/zlibwt_hl_decompress_routines.c:DecompressDirFileOrDirStartCallback", "src/core/zlibwt_hl_decompress_routines.c:DecompressDirFileReadCallback")

p('A directory of a Unix disk arrives on a Windows drive','A directory of a Unix disk that has anything in it is archived with success, and the archive, extracted to a new place of a Windows drive, gives the same files and directories there: with the same content, and protected against writing exactly if the owner could not write; nothing else is there, and nothing else on the drive changes.',
  'every disk, directory with names Windows accepts and tells apart, listing order, compressor, decompressor, drive and new place on it','trees, contents, permissions and the two file systems are unbounded, and the two halves run on different systems',"src/core/zlibwt_compression_routines.c:ZlibWtCompressDirectoryEx", "src/core/zlibwt_hl_decompress_routines.c:ZlibWtDecompressFileOrDirEx", "src/core/zlibwt_hl_decompress_routines.c:DecompressDirFileOrDirStartCallback")

p('A directory of Windows can be kept on Unix','A directory of a Windows drive that is archived, extracted on Unix, archived there again and extracted on a Windows drive is the same as at first: the same files and directories, with the same content and the same protection against writing; nothing else is there, and nothing else changes. All four steps report success.',
  'every drive and directory with a file or directory in it, Unix disk, umask that leaves the owner their permissions, listing orders, compressors and decompressors (others on the way back), levels, and drive to return to','four runs on two systems; trees, contents and names are unbounded, and each system spells, compares and protects in its own way',"src/core/zlibwt_compression_routines.c:ZlibWtCompressDirectoryEx", "src/core/zlibwt_hl_decompress_routines.c:ZlibWtDecompressFileOrDirEx", "src/core/zlibwt_hl_decompress_routines.c:DecompressDirFileOrDirStartCallback", "include/zlib_with_tools/utils/io_zlibandtls.h:mode_fo_zlibandtls")

p('An extraction that is cut off leaves part of the tree (Windows)','An extraction of a directory on Windows that is cut off at any point, after which nothing on the drive can be changed any more, has changed nothing outside the output directory. Inside there is at every place what the archive has there, or nothing: a directory, or a file, protected against writing as the archive says, with a beginning of its content; every file that is there is complete, except at most one. The archive may have been cut off too. If no error was recorded and the archive arrived completely, every file and directory is there. Of an archive of a single file, cut off after the output file was opened, that file holds a beginning of the content, and nothing else has changed.',
  'every number of calls after which it is cut off, also within the creation of the output directory, tree, drive, output directory whose parts do not exist, decompressor and division into pieces','a process can be killed, or a drive removed, before any of its calls; a test can try a few of these points for a few archives',"src/core/zlibwt_hl_decompress_routines.c:ZlibWtDecompressFileOrDirEx", "src/core/zlibwt_hl_decompress_routines.c:MkdirRecurseInlineRaw", "src/core/zlibwt_hl_decompress_routines.c:DecompressDirFileOrDirStartCallback", "src/core/zlibwt_hl_decompress_routines.c:DecompressDirFileReadCallback")

p('Copies can be copied again (Windows)','A copy on a Windows drive of a directory, made by archiving it and extracting the archive (or in any other way), can be archived and extracted again. Compression and extraction succeed, and the second copy has the same files and directories as the original, with the same content and the same protection against writing; nothing else changes. After any number of copies the directory is still the first one.',
  'every drive and directory with a file or directory in it, place of the copies, listing order and spelling, compressors, decompressors and levels of both copies, and number of copies','the second archive is another one: listing orders, permissions reported and pieces differ; trees and contents are unbounded',"src/core/zlibwt_compression_routines.c:ZlibWtCompressDirectoryEx", "src/core/zlibwt_hl_decompress_routines.c:ZlibWtDecompressFileOrDirEx", "src/core/zlibwt_hl_decompress_routines.c:DecompressDirFileOrDirStartCallback")

p('A beginning of an archive yields part of the directory','However much there is of the archive of a directory (because its making or transfer was cut off), and wherever its extraction to a new directory is cut off in turn: what is there is part of a copy. Each file has its permissions and a beginning of its content, and at most one file is incomplete; each directory is one of the source; link targets may lack their beginnings (C19). Nothing else is there, and nothing that was there before is changed. The same on Windows, where links are left out.',
  'every source directory, filter without memory (on Unix), compressor, decompressor, level, every beginning of the archive and every number of calls before extraction is cut off','a test can try some cut points of some archives; here both the archive and the extraction are cut at any point, for every tree and division into pieces',"src/core/zlibwt_compression_routines.c:ZlibWtCompressDirectoryEx", "src/core/zlibwt_hl_decompress_routines.c:ZlibWtDecompressFileOrDirEx", "src/core/zlibwt_hl_decompress_routines.c:DecompressDirFileOrDirStartCallback", "src/core/zlibwt_hl_decompress_routines.c:DecompressDirFileReadCallback")

p('What is in the beginning of an archive can be recovered','When all that there is of the archive of a directory is a beginning (because its making or transfer was cut off), extracting it to a new directory yields every non-empty file whose record is whole in that beginning, with all its content and its permissions as far as the umask allows, however deep in directories the beginning ends and whatever part of a record follows; if the beginning ends with a record, empty files and directories arrive too. No error is raised. From a beginning of the archive of a single file, as much of the file is recovered as the beginning holds. The same holds of extraction on Windows, of archives made there or on Unix, with protection against writing in place of permissions.',
  'every source directory without links and filter, or file; every compressor, decompressor, level and beginning of the archive (for beginnings accepted by the decompressor, which has room left or withholds nothing)','a test can cut some archives at some points; here the archive may be cut at any byte, for every tree, every level of nesting and every division into pieces',"src/core/zlibwt_compression_routines.c:ZlibWtCompressDirectoryEx", "src/core/zlibwt_hl_decompress_routines.c:ZlibWtDecompressFileOrDirEx", "src/core/zlibwt_decompress_routines.c:ZlibWtDecompressBufferToCallback", "src/core/zlibwt_hl_decompress_routines.c:DecompressDirFileOrDirStartCallback")

p('An extraction that was interrupted can be repeated','When an extraction is interrupted at any point (the process is killed), running it again with the same arguments leaves the disk as if there had been no interruption.',
  'every archive, decompressor, output path, disk, umask and number of calls after which the first run is interrupted','a test can kill a run at some points; here the run may stop after any call, on any disk, and the outcome of the repetition is fixed by what that stop left behind',"src/core/zlibwt_hl_decompress_routines.c:ZlibWtDecompressFileOrDirEx", "src/core/zlibwt_hl_decompress_routines.c:DecompressFileStartCallback", "src/core/zlibwt_hl_decompress_routines.c:DecompressDirStartCallback", "src/core/zlibwt_hl_decompress_routines.c:DecompressDirFileOrDirStartCallback")

p('Earlier extractions do not stand in the way of later ones','Whatever was extracted before (any number of archives or other data, sound, damaged or hostile, to any paths, complete, failed or interrupted), if there is nothing at the output path now and its directory could be used at first, then extracting an archive of a directory or file there brings it completely and changes nothing else.',
  'every disk, every sequence of earlier runs with every archive, path, failure and point of interruption, every later archive and output path','a test can try some histories; here the history is any sequence of runs that end at any call, and the state of the disk after it is not enumerable',"src/core/zlibwt_hl_decompress_routines.c:ZlibWtDecompressFileOrDirEx", "src/core/zlibwt_hl_decompress_routines.c:DecompressDirStartCallback", "src/core/zlibwt_hl_decompress_routines.c:DecompressFileStartCallback", "src/core/zlibwt_hl_decompress_routines.c:SymLinkCreateCallback")

p('An archive that could not be written completely is reported','When compressdir or the archiving test program exits with 0, the archive file is complete: if the disk is full or writes to it fail, the program reports failure. In any case it changes no other file, and on a disk that fills up the archive file holds a beginning of the archive.',
  'every input file and directory, every archive path, every disk, every pattern of refused and short writes','tests run with room on the disk; the writes that fail, and how much they write, can be any',"src/tools/main_compressdir.cpp:CompressFileAndBlobCallback", "src/tools/main_compressdir.cpp:main", "src/tests/main_zlibwt_hl_test.cpp:CompressFileAndBlobCallback", "src/tests/main_zlibwt_hl_test.cpp:main")

if __name__=="__main__":
    out=os.path.join(os.path.dirname(os.path.abspath(__file__)),"..","properties.jsonl")
    with open(out,"w") as f:
        for x in P: f.write(json.dumps(x)+"\n")
    print(len(P))
