{"id": "C01", "title": "Padded lengths", "statement": "The padded length stored next to every name and payload length is a multiple of 8, strictly greater than the length and at most 8 greater, so that every name and payload is followed by 1..8 zero bytes and the padding writes stay inside the 9-byte zero buffer.", "quantifier": "every 32-bit name length and every 64-bit payload size below the wrap-around point", "why_tests_cant": "2^32 and 2^64 values; the wrap-around points are never sampled", "anchors": ["src/include/private/zlib_with_tools/zlibwt_compress_decompress_common.h:ZLIBWT_NORM_LEN", "src/core/zlibwt_compression_routines.c:CompressArbitraryBufferAsFileInline"]}
{"id": "C02", "title": "Archive header round trip", "statement": "Every archive starts with exactly 128 plaintext bytes whose first 8 encode version 0 and the content kind; the reader recovers both whatever the 120 reserved (uninitialised) bytes are.", "quantifier": "every content kind and every content of the uninitialised reserved bytes", "why_tests_cant": "the reserved bytes are stack garbage that differs per run", "anchors": ["src/core/zlibwt_ll_compression_routines.c:ZlibWtCreateTypedCompressSession", "src/core/zlibwt_decompress_routines.c:ZlibWtDecompressCallbackStatHeader", "src/include/private/zlib_with_tools/zlibwt_compress_decompress_common.h:SCompressDecompressHeader"]}
{"id": "C03", "title": "Item record round trip", "statement": "The 40-byte item record decodes to the sizes, name lengths, mode and kind it was built from, whatever its reserved bytes are.", "quantifier": "every field value in range and every reserved content", "why_tests_cant": "the field space is 2^200", "anchors": ["include/zlib_with_tools/zlibwt_compress_decompress_common.h:SFileItem", "src/core/zlibwt_decompress_routines_version_0000.c:FileHeaderClosingStat"]}
{"id": "C04", "title": "Compress call hands over everything in order", "statement": "A compress call that returns 0 has consumed its whole input (of less than 4 GiB), and the bytes passed to the callback over a session are exactly the bytes deflate emitted, in order, in pieces no larger than the output buffer.", "quantifier": "every session history, every input, every positive buffer size, every deflate implementation meeting the zlib contract", "why_tests_cant": "deflate may consume and emit in any pattern", "anchors": ["src/core/zlibwt_ll_compression_routines.c:ZlibWtCompressBufferToCallback"]}
{"id": "C05", "title": "Compress call terminates", "statement": "A compress call returns for every input when the output buffer size is positive.", "quantifier": "every session state, input, positive buffer size and contract-conforming deflate", "why_tests_cant": "non-termination cannot be observed by a finite test", "anchors": ["src/core/zlibwt_ll_compression_routines.c:ZlibWtCompressBufferToCallback"]}
{"id": "C06", "title": "Compress call never hangs on a degenerate buffer", "statement": "A compress call returns for every buffer size, including 0.", "quantifier": "every buffer size", "why_tests_cant": "a hang is not an observable test result", "anchors": ["src/core/zlibwt_ll_compression_routines.c:ZlibWtCompressBufferToCallback", "src/core/zlibwt_ll_compression_routines.c:ZlibWtSetBufferForCompressSession"]}
{"id": "C07", "title": "Large inputs are compressed entirely", "statement": "A compress call that returns 0 has consumed its input whatever its size_t length.", "quantifier": "every input length up to 2^64", "why_tests_cant": "needs inputs of 4 GiB and more", "anchors": ["src/core/zlibwt_ll_compression_routines.c:ZlibWtCompressBufferToCallback", "src/core/zlibwt_compression_routines.c:CompressSingleFileFromBuffer"]}
{"id": "C08", "title": "Closing a session loses nothing", "statement": "Once a compress session is destroyed, decoding the bytes passed to the callback gives back every byte that was compressed.", "quantifier": "every sequence of compress calls, every buffer size", "why_tests_cant": "depends on where output-buffer boundaries fall relative to deflate's internal pending output", "anchors": ["src/core/zlibwt_ll_compression_routines.c:ZlibWtDestroyCompressSession", "src/core/zlibwt_ll_compression_routines.c:ZlibWtCompressBufferToCallback", "src/core/zlibwt_compression_routines.c:ZlibWtCompressFileEx"]}
{"id": "C09", "title": "Low-level decompress delivers a faithful prefix", "statement": "The bytes a low-level decompress session passes to its callback are, concatenated, always a prefix of the plaintext of the bytes consumed, in pieces no larger than the output buffer, for valid and invalid input alike.", "quantifier": "every input split into calls in every way, every buffer size, every contract-conforming inflate", "why_tests_cant": "all splits and all corrupt streams", "anchors": ["src/core/zlibwt_ll_decompress_routines.c:ZlibWtLLDecompressBufferToCallback"]}
{"id": "C10", "title": "Low-level decompress terminates", "statement": "A low-level decompress call returns for every input, valid or corrupt, and every buffer size.", "quantifier": "every byte string, buffer size and history", "why_tests_cant": "non-termination is not observable", "anchors": ["src/core/zlibwt_ll_decompress_routines.c:ZlibWtLLDecompressBufferToCallback", "src/core/zlibwt_ll_decompress_routines.c:ZlibWtLLDecompressBufferToCallbackReadOldIn"]}
{"id": "C11", "title": "Nothing decodable is withheld", "statement": "When a low-level decompress call returns 0, every plaintext byte determined by the input given so far has been passed to the callback.", "quantifier": "every valid stream, every call split, every buffer size", "why_tests_cant": "needs output-buffer boundaries to coincide with the end of input", "anchors": ["src/core/zlibwt_ll_decompress_routines.c:ZlibWtLLDecompressBufferToCallback", "src/core/zlibwt_ll_decompress_routines.c:ZlibWtDestroyLLDecompressSession"]}
{"id": "C12", "title": "Decompress reports zlib errors", "statement": "A decompress call returns 0 only if every inflate call it made returned Z_OK.", "quantifier": "every byte string and split, header phase included", "why_tests_cant": "the header-phase reentrancy depends on where calls are split", "anchors": ["src/core/zlibwt_ll_decompress_routines.c:ZlibWtLLDecompressBufferToCallback", "src/core/zlibwt_decompress_routines.c:ZlibWtDecompressCallbackStatHeader", "src/core/zlibwt_decompress_routines.c:ZlibWtDecompressBufferToCallback"]}
{"id": "C13", "title": "Header is assembled for every split", "statement": "No user callback is invoked before 128 plaintext bytes are decoded; the kind is taken from exactly those bytes, and no header byte is ever delivered as content, however the compressed bytes are split into calls.", "quantifier": "every archive and every split of it into calls", "why_tests_cant": "exponentially many splits", "anchors": ["src/core/zlibwt_decompress_routines.c:ZlibWtDecompressCallbackStatHeader", "src/core/zlibwt_decompress_routines.c:ZlibWtDecompressBufferToCallback"]}
{"id": "C14", "title": "File archives deliver exactly the payload", "statement": "For a file or blob archive with content the start callback runs exactly once, before any read, and the read buffers concatenate to the plaintext after the header; without content there is no callback, or one start and empty reads.", "quantifier": "every payload, every split, every buffer size", "why_tests_cant": "all splits and buffer sizes", "anchors": ["src/core/zlibwt_decompress_routines_version_0000.c:ZlibWtDecompressCallbackStatData_blob_and_file", "src/core/zlibwt_decompress_routines_version_0000.c:ZlibWtDecompressCallbackStatData_version_0000"]}
{"id": "C15", "title": "Unknown content kind is inert", "statement": "An archive whose kind is none of directory, file, blob causes no user callback at all.", "quantifier": "every such archive, every split", "why_tests_cant": "all payloads and splits", "anchors": ["src/core/zlibwt_decompress_routines_version_0000.c:ZlibWtDecompressCallbackStatData_version_0000"]}
{"id": "C16", "title": "Unsupported version is rejected", "statement": "An archive whose version is not 0 causes no user callback and no undefined behaviour.", "quantifier": "every such archive, every split", "why_tests_cant": "only particular splits and payload bytes trigger reinterpretation", "anchors": ["src/core/zlibwt_decompress_routines.c:ZlibWtDecompressCallbackStatHeader"]}
{"id": "C17", "title": "Directory stream meaning", "statement": "For every plaintext byte string the directory callbacks invoked are exactly those prescribed by the record grammar (40-byte record, padded name, payload, padding), file payloads possibly being delivered in pieces, at most two trailing zero-length callbacks being deferred to the next buffer, and link targets being whole unless a buffer boundary falls inside one (C19).", "quantifier": "every byte string, well-formed or not, and every split into buffers", "why_tests_cant": "infinite input space, exponentially many splits", "anchors": ["src/core/zlibwt_decompress_routines_version_0000.c:ZlibWtDecompressCallbackStatData_dir"]}
{"id": "C18", "title": "Split independence", "statement": "Two ways of splitting the same plaintext into buffers (empty buffers included) lead to the same callbacks up to the cutting of file payloads.", "quantifier": "every byte string without cut symlink targets, every pair of splits", "why_tests_cant": "pairs of splits of unbounded inputs", "anchors": ["src/core/zlibwt_decompress_routines_version_0000.c:ZlibWtDecompressCallbackStatData_dir"]}
{"id": "C19", "title": "Symlink targets arrive whole", "statement": "The symlink callback receives the complete link target, however the plaintext is split.", "quantifier": "every archive with symlinks, every split", "why_tests_cant": "needs a buffer boundary inside the target", "anchors": ["src/core/zlibwt_decompress_routines_version_0000.c:ZlibWtDecompressCallbackStatData_dir (ZLIBWT_DECOMPR_STAGE_SYM_LINK)"]}
{"id": "C20", "title": "Parser memory safety", "statement": "No plaintext, however malformed and however split, makes the directory parser write outside the item record or the name allocation, use a null name, or fail an assertion.", "quantifier": "every byte string, every split, every allocation-failure pattern", "why_tests_cant": "adversarial inputs", "anchors": ["src/core/zlibwt_decompress_routines_version_0000.c:ZlibWtDecompressCallbackStatData_dir", "src/core/zlibwt_decompress_routines_version_0000.c:FileHeaderClosingStat"]}
{"id": "C21", "title": "Callback protocol", "statement": "In every callback history each file start is followed by reads whose lengths sum to at most the announced size and by exactly one end when they reach it, with no other callback in between; read and end never occur outside a file.", "quantifier": "every byte string and split", "why_tests_cant": "all malformed inputs", "anchors": ["src/core/zlibwt_decompress_routines_version_0000.c:ZlibWtDecompressCallbackStatData_dir"]}
{"id": "C22", "title": "Errors are final in the parser", "statement": "After a name allocation failure no further user callback is invoked on that session.", "quantifier": "every continuation of the input", "why_tests_cant": "all continuations", "anchors": ["src/core/zlibwt_decompress_routines_version_0000.c:FileHeaderClosingStat", "src/core/zlibwt_decompress_routines_version_0000.c:ZlibWtDecompressCallbackStatData_dir"]}
{"id": "C23", "title": "Truncation gives a prefix", "statement": "Decoding a prefix of a directory plaintext invokes a prefix of the callbacks of the whole.", "quantifier": "every byte string and every cut point", "why_tests_cant": "all crash/truncation points", "anchors": ["src/core/zlibwt_decompress_routines_version_0000.c:ZlibWtDecompressCallbackStatData_dir"]}
{"id": "C24", "title": "Recursion depth is bounded by the buffer", "statement": "One parser invocation on a buffer of n bytes nests at most 4*(n/40)+5 calls deep, whatever the bytes and the parser state reached before.", "quantifier": "every state and buffer", "why_tests_cant": "worst-case inputs must be found", "anchors": ["src/core/zlibwt_decompress_routines_version_0000.c:ZlibWtDecompressCallbackStatData_dir"]}
{"id": "C25", "title": "Unknown record kinds are skipped", "statement": "A record of unknown kind is skipped as exactly 40 bytes, changing nothing else.", "quantifier": "every such record at every position, every split", "why_tests_cant": "kinds and positions", "anchors": ["src/core/zlibwt_decompress_routines_version_0000.c:ZlibWtDecompressCallbackStatData_dir"]}
{"id": "C26", "title": "Balanced directory callbacks", "statement": "For every archive written by the compression functions, the directory end callbacks match directory starts like brackets; no archive can make end callbacks outnumber starts.", "quantifier": "every directory tree / every byte string", "why_tests_cant": "all archives", "anchors": ["src/core/zlibwt_decompress_routines_version_0000.c:ZlibWtDecompressCallbackStatData_dir", "src/core/zlibwt_hl_decompress_routines.c:DecompressDirDirEndCallback"]}
{"id": "C27", "title": "Directory compression writes the tree", "statement": "The plaintext written for a directory is the record encoding of exactly the visited tree in iteration order: each entry once, nested directories bracketed, sizes equal to the payloads written.", "quantifier": "every finite directory tree, every iteration order, every filter", "why_tests_cant": "unbounded trees", "anchors": ["src/core/zlibwt_compression_routines.c:ZlibWtFolderCompressDirIterCallbackStatic", "src/core/zlibwt_compression_routines.c:ZlibWtCompressDirectoryEx"]}
{"id": "C28", "title": "Dot entries and filtered entries are skipped", "statement": "Entries \".\" and \"..\" are never shown to the filter nor archived; an entry for which the filter returns non-zero contributes nothing, and if it is a directory neither does its content.", "quantifier": "every tree and every stateful filter", "why_tests_cant": "stateful filters over unbounded trees", "anchors": ["src/core/zlibwt_compression_routines.c:ZlibWtFolderCompressDirIterCallbackStatic"]}
{"id": "C29", "title": "Filter stop request", "statement": "When the filter returns 387 no later entry is shown to the filter or archived, open directories are still closed, and the call returns 0.", "quantifier": "every tree and every stop position", "why_tests_cant": "all stop points in all trees", "anchors": ["src/core/zlibwt_compression_routines.c:ZlibWtFolderCompressDirIterCallbackStatic"]}
{"id": "C30", "title": "Input errors are reported", "statement": "If a visited file cannot be opened, stat-ed or read, the call returns 2 and no later entry is visited.", "quantifier": "every tree and every failing file", "why_tests_cant": "all failure points", "anchors": ["src/core/zlibwt_compression_routines.c:ZlibWtFolderCompressDirIterCallbackStatic", "src/core/zlibwt_compression_routines.c:CompressSingleFileFromFile"]}
{"id": "C31", "title": "Extra buffers become files", "statement": "Each extra buffer appears in the archive as a file with its path (root variant: path used verbatim as name; other variant: one directory level per '/'), content and mode, before the directory content.", "quantifier": "every list of extra buffers and every path string", "why_tests_cant": "all paths and buffer lists", "anchors": ["src/core/zlibwt_compression_routines.c:ZlibWtFolderCompressBufferAsFileInlineRaw", "src/core/zlibwt_compression_routines.c:ZlibWtFolderCompressBufferAsDirRootFileInline"]}
{"id": "C32", "title": "A file growing or shrinking is harmless", "statement": "If a file changes size between fstat and reading, the other entries of the archive are still decoded correctly.", "quantifier": "every size change", "why_tests_cant": "race", "anchors": ["src/core/zlibwt_compression_routines.c:CompressArbitraryBufferAsFileInline", "src/core/zlibwt_compression_routines.c:CompressSingleFileFromFile"]}
{"id": "C33", "title": "Invalid level is an error code", "statement": "Compression functions given a level deflate refuses return a non-zero code without undefined behaviour.", "quantifier": "every level, every input", "why_tests_cant": "crash depends on zlib refusing", "anchors": ["src/core/zlibwt_compression_routines.c:ZlibWtCompressFileEx", "src/core/zlibwt_compression_routines.c:ZlibWtCompressDirectoryEx", "src/core/zlibwt_ll_compression_routines.c:ZlibWtCreateTypedCompressSession"]}
{"id": "C34", "title": "No allocation or descriptor leaks", "statement": "Every buffer allocated and every file opened by a compression or extraction call is released when the call returns, on every path.", "quantifier": "every control path including allocation failures", "why_tests_cant": "failure injection at every point", "anchors": ["src/core/zlibwt_compression_routines.c", "src/core/zlibwt_hl_decompress_routines.c:ZlibWtDecompressFileOrDirEx", "src/core/zlibwt_ll_decompress_routines.c:ZlibWtCreateLLDecompressSession"]}
{"id": "C35", "title": "Source paths are exact", "statement": "The file whose content is archived under an entry is the file at that entry's path.", "quantifier": "every directory depth and name length", "why_tests_cant": "needs paths over 4094 bytes", "anchors": ["src/core/zlibwt_compression_routines.c:ZlibWtFolderCompressDirIterCallbackStatic (snprintf_di)"]}
{"id": "C36", "title": "A missing input directory is reported", "statement": "Compressing a directory that cannot be listed returns a non-zero code.", "quantifier": "every unreadable path", "why_tests_cant": "environment dependent", "anchors": ["src/core/zlibwt_compression_routines.c:ZlibWtCompressDirectoryEx"]}
{"id": "C37", "title": "Archive size limit", "statement": "Extraction with a_archiveSize = n > 0 reads min(n, available) bytes of the input file and none beyond (fewer only after an error in a callback); with 0 it reads to the end of the file.  Bytes beyond the limit have no influence.", "quantifier": "every n and every input length", "why_tests_cant": "boundary values around multiples of the chunk size", "anchors": ["src/core/zlibwt_hl_decompress_routines.c:NextSizeToReadInline", "src/core/zlibwt_hl_decompress_routines.c:ZlibWtDecompressFileOrDirEx"]}
{"id": "C38", "title": "Recursive directory creation", "statement": "Creating the output directory creates exactly its missing ancestors and itself and reports 0; reports 1 and changes nothing if it exists.", "quantifier": "every path of ordinary names without trailing slash and with at most 61 missing ancestors, and every file-system state in which nothing is refused", "why_tests_cant": "all paths and file-system states", "anchors": ["src/core/zlibwt_hl_decompress_routines.c:MkdirRecurseInlineRaw", "src/core/zlibwt_hl_decompress_routines.c:OsCreateStatic"]}
{"id": "C39", "title": "Directory round trip on disk", "statement": "Compressing a directory and extracting the archive to a fresh directory recreates the same names, nesting, contents, link targets and permission bits (up to umask), changes nothing else, and returns 'directory'.", "quantifier": "every finite tree, every contract-conforming zlib, every call split that does not cut a link target", "why_tests_cant": "unbounded trees, all zlib behaviours", "anchors": ["src/core/zlibwt_compression_routines.c:ZlibWtCompressDirectoryEx", "src/core/zlibwt_hl_decompress_routines.c:ZlibWtDecompressFileOrDirEx"]}
{"id": "C40", "title": "File round trip on disk", "statement": "Compressing a file with ZlibWtCompressFileEx and extracting the archive recreates the content and returns 'file'.", "quantifier": "every content", "why_tests_cant": "needs incompressible files of particular sizes", "anchors": ["src/core/zlibwt_compression_routines.c:ZlibWtCompressFileEx", "src/core/zlibwt_hl_decompress_routines.c:DecompressFileAndBlobCallback"]}
{"id": "C41", "title": "No effect when the output directory is unavailable", "statement": "If the output directory already exists or cannot be created, extraction changes nothing in the file system and returns 'none'.", "quantifier": "every archive and file-system state", "why_tests_cant": "file-system states", "anchors": ["src/core/zlibwt_hl_decompress_routines.c:DecompressDirStartCallback", "src/core/zlibwt_hl_decompress_routines.c:DecompressDirFileOrDirStartCallback"]}
{"id": "C42", "title": "Extraction is confined to the output directory", "statement": "Extraction changes nothing outside the output directory.", "quantifier": "every archive, including crafted ones", "why_tests_cant": "adversarial archives", "anchors": ["src/core/zlibwt_hl_decompress_routines.c:DecompressDirFileOrDirStartCallback", "src/core/zlibwt_hl_decompress_routines.c:DecompressDirDirEndCallback", "src/core/zlibwt_hl_decompress_routines.c:SymLinkCreateCallback"]}
{"id": "C43", "title": "Failed extraction is reported", "statement": "If any entry could not be created, or the archive is truncated or corrupt, extraction does not report success.", "quantifier": "every archive, failure pattern and truncation point", "why_tests_cant": "all failure points", "anchors": ["src/core/zlibwt_hl_decompress_routines.c:ZlibWtDecompressFileOrDirEx"]}
{"id": "C44", "title": "Extracted files hold exactly the archived bytes", "statement": "After extraction of an entry the file at its path holds exactly the archived content, even if a file with that path existed before.", "quantifier": "every pre-existing content", "why_tests_cant": "pre-existing longer files", "anchors": ["src/core/zlibwt_hl_decompress_routines.c:DecompressDirFileOrDirStartCallback (no O_TRUNC)"]}
{"id": "C45", "title": "Working directory is preserved", "statement": "Extraction leaves the process working directory as it was.", "quantifier": "every archive and file-system state", "why_tests_cant": "failure points", "anchors": ["src/core/zlibwt_hl_decompress_routines.c:SymLinkCreateCallback"]}
{"id": "C46", "title": "Unwritable output file is an error, not a crash", "statement": "If the output file of a file archive cannot be opened, extraction returns 'none' without undefined behaviour.", "quantifier": "every archive, every split", "why_tests_cant": "environment dependent", "anchors": ["src/core/zlibwt_hl_decompress_routines.c:DecompressFileStartCallback", "src/core/zlibwt_hl_decompress_routines.c:DecompressFileAndBlobCallback"]}
{"id": "C47", "title": "Option parsing", "statement": "After parsing, an option is reported found iff one of its names occurred, and its value is the following argument when that exists and does not start with '-', else its default; found options and their values are removed from argv.", "quantifier": "every option table and argument vector", "why_tests_cant": "all tables and vectors", "anchors": ["src/utils/common_argument_parser.cpp:ParseCommandLine", "src/utils/common_argument_parser.cpp:operator[]"]}
{"id": "C48", "title": "Remaining arguments keep their order", "statement": "The arguments left after parsing are a subsequence of the original ones, in order.", "quantifier": "every option table and argument vector", "why_tests_cant": "all vectors", "anchors": ["src/utils/common_argument_parser.cpp:ParseCommandLine"]}
{"id": "C49", "title": "Parsing stays inside argv", "statement": "Parsing never reads past the argument vector.", "quantifier": "every option table and argument vector", "why_tests_cant": "reads one past the end are silent in tests", "anchors": ["src/utils/common_argument_parser.cpp:ParseCommandLine (inner loop)"]}
{"id": "C50", "title": "Option objects are freed exactly once", "statement": "Adding options, redefining names and clearing the parser frees every option object exactly once and never uses a freed one.", "quantifier": "every sequence of AddOption calls followed by Clear", "why_tests_cant": "use-after-free is silent in tests", "anchors": ["src/utils/common_argument_parser.cpp:AddOption", "src/utils/common_argument_parser.cpp:Clear"]}
{"id": "C51", "title": "Help text is aligned", "statement": "HelpString never computes a negative pad, and each help text starts in the same column.", "quantifier": "every sequence of AddOption calls", "why_tests_cant": "all option strings", "anchors": ["src/utils/common_argument_parser.cpp:HelpString", "src/utils/common_argument_parser.cpp:AddOption"]}
{"id": "C52", "title": "Self-extractor layout", "statement": "Packing writes the executable, then the archive starting exactly at the fixed offset, and running the packed file hands extraction exactly the archive bytes.", "quantifier": "every executable no larger than the limit and every archive", "why_tests_cant": "all sizes", "anchors": ["src/tools/main_self_extract.c:main"]}
{"id": "C53", "title": "Self-extractor does not pack itself", "statement": "Neither the running executable nor the output file is packed.", "quantifier": "every directory tree and iteration order", "why_tests_cant": "iteration order is file-system dependent", "anchors": ["src/tools/main_self_extract.c:DirCompressFilterFunction"]}
{"id": "C54", "title": "compressdir exit status", "statement": "compressdir exits 0 iff help was asked for or compression succeeded, and never touches the output file before the arguments are validated.", "quantifier": "every argument vector", "why_tests_cant": "all vectors", "anchors": ["src/tools/main_compressdir.cpp:main"]}
{"id": "C55", "title": "Icon embedding", "statement": "On non-Windows builds setting an icon always fails without touching any file; on Windows the embedded resource is the icon file without its 22-byte header.", "quantifier": "every pair of paths / every icon file", "why_tests_cant": "icon files shorter than 22 bytes", "anchors": ["src/core/resource_handler_unix.c:ResourceHandlerSecIconToApp", "src/core/resource_handler_windows.c:ResourceHandlerSecIconToApp"]}
{"id": "C56", "title": "Changing the output buffer mid-stream", "statement": "Replacing the output buffer of a decompress session between calls never loses, duplicates or misdirects plaintext: the content of a file, and the stream of directory records, arrive as with any other buffers, and the directory callbacks are the same unless a link target is cut (C19).", "quantifier": "every sequence of calls and buffer changes", "why_tests_cant": "all interleavings", "anchors": ["src/core/zlibwt_decompress_routines.c:ZlibWtSetBufferForDecompressSession"]}
{"id": "C57", "title": "Trailing slash in the output directory", "statement": "Creating the output directory works the same for a path that ends with a slash.", "quantifier": "every path and file-system state", "why_tests_cant": "only visible when an ancestor is missing", "anchors": ["src/core/zlibwt_hl_decompress_routines.c:MkdirRecurseInlineRaw", "src/core/zlibwt_hl_decompress_routines.c:GetFileDelimeterInline"]}
{"id": "C58", "title": "Programs started by a packed file", "statement": "Running a packed file exits 0 iff extraction reported a directory, and starts nothing otherwise; it starts maind.exe of the extracted directory first, starts main.exe iff the former could not be started or did not return 0, and removes the directory iff the former returned 0.", "quantifier": "every packed file, every outcome of extraction and of the programs", "why_tests_cant": "combinations of outcomes of other programs", "anchors": ["src/tools/main_self_extract.c:main", "src/tools/main_self_extract.c:RemoveNonEmptyDirectory"]}
{"id": "C59", "title": "A library archive is accepted", "statement": "Whatever has been handed over so far by a compress session, supplied from its beginning in any splits and with any buffer exchanges to a decompress session, is accepted: every call returns 0.", "quantifier": "every compress history, every prefix of its output, every decompress history that supplies it", "why_tests_cant": "all splits and buffer sizes; zlib is external", "anchors": ["src/core/zlibwt_ll_compression_routines.c:ZlibWtCompressBufferToCallback", "src/core/zlibwt_decompress_routines.c:ZlibWtDecompressBufferToCallback"]}
{"id": "C60", "title": "Streaming round trip", "statement": "What a compress session of kind file or blob is given arrives, complete and in order, in the file callbacks of a decompress session that is given its output.", "quantifier": "every compress history and every decompress history that supplies its output", "why_tests_cant": "all splits and buffer sizes on both sides", "anchors": ["src/core/zlibwt_ll_compression_routines.c:ZlibWtCompressBufferToCallback", "src/core/zlibwt_decompress_routines.c:ZlibWtDecompressBufferToCallback"]}
{"id": "C61", "title": "Extraction removes nothing", "statement": "Extraction neither removes nor replaces anything: directories and symbolic links that existed are as before, files that existed are files with the same permissions, and extraction of a directory archive shortens none of them.", "quantifier": "every archive (also damaged and malicious ones), file-system state and behaviour of the operating system, for runs without undefined behaviour", "why_tests_cant": "adversarial archives and failure patterns", "anchors": ["src/core/zlibwt_hl_decompress_routines.c:ZlibWtDecompressFileOrDirEx", "src/core/zlibwt_hl_decompress_routines.c:DecompressDirFileOrDirStartCallback", "src/core/zlibwt_hl_decompress_routines.c:SymLinkCreateCallback"]}
{"id": "C62", "title": "Extraction grants no special permissions", "statement": "Whatever modes an archive asks for, new files have only permissions among rwxrwxrwx that the umask leaves, new directories also the sticky bit; nothing new is set-user-ID or set-group-ID.", "quantifier": "every archive, file-system state and behaviour of the operating system", "why_tests_cant": "adversarial archives", "anchors": ["src/core/zlibwt_hl_decompress_routines.c:DecompressDirFileOrDirStartCallback", "include/zlib_with_tools/utils/io_zlibandtls.h:mode_fo_zlibandtls"]}
{"id": "C63", "title": "Extraction ends", "statement": "Extraction of every input comes to an end.", "quantifier": "every input, file-system state and behaviour of the operating system", "why_tests_cant": "all inputs", "anchors": ["src/core/zlibwt_hl_decompress_routines.c:ZlibWtDecompressFileOrDirEx", "src/core/zlibwt_hl_decompress_routines.c:MkdirRecurseInlineRaw"]}
{"id": "C64", "title": "Extraction is bounded by the archive", "statement": "No file becomes longer than the decompressed archive content (unless it was before), and the number of new files, directories and links is bounded by a multiple of its length.", "quantifier": "every archive, file-system state and behaviour of the operating system", "why_tests_cant": "adversarial archives", "anchors": ["src/core/zlibwt_hl_decompress_routines.c:ZlibWtDecompressFileOrDirEx", "src/core/zlibwt_hl_decompress_routines.c:MkdirRecurseInlineRaw"]}
{"id": "C65", "title": "Reported success means that the output is there", "statement": "Extraction returns 'none', 'directory' or 'file'; after 'directory' the output path leads to a directory that this call has made, after 'file' there is a file where it led to.", "quantifier": "every archive, file-system state, behaviour of the operating system, and output path without backslashes and without a slash at its end", "why_tests_cant": "file-system states and failure patterns", "anchors": ["src/core/zlibwt_hl_decompress_routines.c:ZlibWtDecompressFileOrDirEx", "src/core/zlibwt_hl_decompress_routines.c:DecompressDirStartCallback", "src/core/zlibwt_hl_decompress_routines.c:DecompressFileStartCallback"]}
{"id": "C66", "title": "Streaming round trip of directories", "statement": "What a compression function archives of a directory is told, entry by entry in the same order, with names, modes, contents and link targets, by the callbacks of a decompress session that is given the archive.", "quantifier": "every directory tree, filter, and decompress history that supplies the archive or a first part of it", "why_tests_cant": "unbounded trees, all splits and buffer sizes", "anchors": ["src/core/zlibwt_compression_routines.c:ZlibWtCompressDirectoryEx", "src/core/zlibwt_decompress_routines.c:ZlibWtDecompressBufferToCallback", "src/core/zlibwt_decompress_routines_version_0000.c:ZlibWtDecompressCallbackStatData_dir"]}
{"id": "C67", "title": "Archives hold nothing but the tree", "statement": "The archive of a directory is determined by the tree, the filter and the level: two calls on the same directory write the same bytes, and no memory of the process gets into the archive.", "quantifier": "every file system, filter, directory function and content of uninitialised memory", "why_tests_cant": "uninitialised memory is often zero in tests", "anchors": ["src/core/zlibwt_ll_compression_routines.c:ZlibWtCreateTypedCompressSession", "src/core/zlibwt_compression_routines.c:ZlibWtFolderCompressDirIterCallbackStatic", "src/core/zlibwt_compression_routines.c:CompressArbitraryBufferAsFileInline"]}
{"id": "C68", "title": "Extra buffers arrive on disk", "statement": "Compressing a directory together with extra buffers and extracting the archive to a fresh directory recreates the directory and, for each buffer, a file with its path, content and mode.", "quantifier": "every list of extra buffers, directory tree, filter and file-system state", "why_tests_cant": "unbounded trees; permissions depend on the user running the test", "anchors": ["src/core/zlibwt_compression_routines.c:ZlibWtCompressDirectoryWithBufferExRoot", "src/core/zlibwt_compression_routines.c:ZlibWtCompressDirectoryWithBufferEx", "src/core/zlibwt_hl_decompress_routines.c:ZlibWtDecompressFileOrDirEx"]}
{"id": "C69", "title": "Read errors of a single file are reported", "statement": "Compressing a single file returns 0 exactly if the whole file could be read; what the callback receives always decodes to a first part of file header and content, and, unless the last piece handed over fills the 512 KiB output buffer, to the header and all but less than one 512 KiB chunk of what could be read.", "quantifier": "every file content, place of a read error, accepted level and conforming deflate", "why_tests_cant": "read errors need failing devices", "anchors": ["src/core/zlibwt_compression_routines.c:ZlibWtCompressFileEx", "src/core/zlibwt_compression_routines.c:CompressSingleFileFromFile"]}
{"id": "C70", "title": "compressdir round trip", "statement": "A directory archived by compressdir (named with -if or as the first argument) and extracted to a new directory is recreated: files with content and mode, directories with their modes, links.", "quantifier": "every argument vector, directory tree and file-system state", "why_tests_cant": "unbounded trees; all argument vectors", "anchors": ["src/tools/main_compressdir.cpp:main", "src/tools/main_compressdir.cpp:DirCompressFilterFunction", "src/core/zlibwt_hl_decompress_routines.c:ZlibWtDecompressFileOrDirEx"]}
{"id": "C71", "title": "Installer exit status", "statement": "The installer program exits 0 only if the package asked for was downloaded and put at its root.", "quantifier": "every argument vector, step file and outcome of download and move", "why_tests_cant": "combinations of outcomes of external functions", "anchors": ["src/tools/main_apt-get.cpp:main"]}
{"id": "C72", "title": "Installer reads only its own memory", "statement": "Running the installer reads nothing beyond the strings and arrays it has been given or has filled.", "quantifier": "every argument vector and step file", "why_tests_cant": "out-of-bounds reads are silent in tests", "anchors": ["src/tools/main_apt-get.cpp:main (svcTermStr, svcTermStr2, _snprintf)"]}
{"id": "C73", "title": "Installer follows the step file", "statement": "The downloaded package is moved to the root the step file names and nowhere else; a program is started exactly if the package is at its root and the step file names a program, and its command line is root, backslash, program and ' /Install'.", "quantifier": "every step file, package name and outcome of download and move", "why_tests_cant": "all step files; fixed buffers matter for long ones only", "anchors": ["src/tools/main_apt-get.cpp:main"]}
{"id": "C74", "title": "The archive format is fixed byte by byte", "statement": "A directory archive decodes to a 128-byte header followed by the entries, each a 40-byte record (sizes, name lengths, mode and kind as little-endian numbers at fixed offsets), name, payload and 1 to 8 zero bytes behind both; what compression writes is in this format, and whatever is in this format is read back entry by entry.", "quantifier": "every tree and every byte string", "why_tests_cant": "unbounded trees; a change made to writer and reader alike passes every round-trip test", "anchors": ["include/zlib_with_tools/zlibwt_compress_decompress_common.h:SFileItem", "src/include/private/zlib_with_tools/zlibwt_compress_decompress_common.h:SCompressDecompressHeader", "src/core/zlibwt_decompress_routines_version_0000.c:ZlibWtDecompressCallbackStatData_dir", "src/core/zlibwt_compression_routines.c:ZlibWtCompressDirectoryEx"]}
{"id": "C75", "title": "Interrupted extraction stays within bounds", "statement": "An extraction that is cut off after any of its system calls has changed at most the output file (file archives), or only what lies at or below the topmost directory it has to create (directory archives with ordinary names, no symbolic links and matching directory ends, whose output directory can be created).", "quantifier": "every archive, number of calls made before the interruption, file-system state and set of refused calls", "why_tests_cant": "every interruption point of every run", "anchors": ["src/core/zlibwt_hl_decompress_routines.c:ZlibWtDecompressFileOrDirEx", "src/core/zlibwt_hl_decompress_routines.c:MkdirRecurseInlineRaw"]}
{"id": "C76", "title": "Interrupted extraction leaves part of the archive", "statement": "An extraction to a new directory (or to a file that can be opened) that is cut off after any of its system calls has left a part of what it would have produced: every directory with its final mode, every file with its final mode and a beginning of its content, at most one file being incomplete; nothing that was there before is lost, and nothing else is there.", "quantifier": "every tree (with links: up to link targets that arrive without their beginning), every single file, every number of calls made before the interruption", "why_tests_cant": "every interruption point of every run", "anchors": ["src/core/zlibwt_hl_decompress_routines.c:ZlibWtDecompressFileOrDirEx", "src/core/zlibwt_hl_decompress_routines.c:DecompressDirFileReadCallback", "src/core/zlibwt_hl_decompress_routines.c:DecompressFileAndBlobCallback"]}
{"id": "C77", "title": "Extractions at the same time do not affect each other", "statement": "Extractions run at the same time in one process to different output paths end as each of them would alone: same return value, same files, nothing else changed.", "quantifier": "every number of extractions, every archive, every interleaving of their system calls, every file-system state", "why_tests_cant": "every interleaving; races are rarely hit in tests", "anchors": ["src/core/zlibwt_hl_decompress_routines.c:ZlibWtDecompressFileOrDirEx", "src/core/zlibwt_hl_decompress_routines.c:SymLinkCreateCallback", "src/core/zlibwt_hl_decompress_routines.c:MkdirRecurseInlineRaw", "src/core/zlibwt_hl_decompress_routines.c:OsCreateStatic"]}
{"id": "C78", "title": "Extraction is not affected by unrelated activity", "statement": "An extraction (ordinary names, matching directory ends, output directory that can be created, no entry with a path through an earlier link) goes as it would alone, call by call, whatever else happens meanwhile on the system that leaves alone the place it extracts to, the directories and links that were there when it began, and, unless the archive has no symbolic links and the output path is absolute, the working directory.", "quantifier": "every such archive, every sequence of other activities between any two of its system calls", "why_tests_cant": "every interleaving", "anchors": ["src/core/zlibwt_hl_decompress_routines.c:ZlibWtDecompressFileOrDirEx", "src/core/zlibwt_hl_decompress_routines.c:MkdirRecurseInlineRaw"]}
{"id": "C79", "title": "Copying a directory through an archive", "statement": "Archiving a directory of a disk through a filter and extracting the archive to a new directory on the same or another disk gives a copy of every entry that the filter accepted together with the directories above it (files with their content, links with their targets, directories; permissions as far as the umask allows), nothing else in the new directory, and no other change; without a filter and with permissions within the umask the copy is exact, and a copy of a copy is exactly the copy.", "quantifier": "every pair of disks, source directory, memoryless filter, umask and target path", "why_tests_cant": "unbounded directory trees, paths, filters and permissions; stated on the disks before and after, not on the archive", "anchors": ["src/core/zlibwt_compression_routines.c:ZlibWtCompressDirectory", "src/core/zlibwt_compression_routines.c:ZlibWtFolderCompressDirIterCallbackStatic", "src/core/zlibwt_hl_decompress_routines.c:ZlibWtDecompressFileOrDirEx", "src/core/zlibwt_hl_decompress_routines.c:DecompressDirFileOrDirStartCallback"]}
{"id": "C80", "title": "Failing calls lose data, nothing else", "statement": "Whatever system calls fail or are carried out in part while an archive (or a beginning of one) is extracted to a new directory, and whenever the extraction is cut off: outside the output directory nothing changes, and inside it there is at each place what the archive has there, or nothing; a file has its mode and parts of its content in order.", "quantifier": "every tree, every set of refused calls, every amount of data a write stores, every number of calls made", "why_tests_cant": "every pattern of failures", "anchors": ["src/core/zlibwt_hl_decompress_routines.c:ZlibWtDecompressFileOrDirEx", "src/core/zlibwt_hl_decompress_routines.c:DecompressDirFileOrDirStartCallback", "src/core/zlibwt_hl_decompress_routines.c:DecompressDirFileReadCallback", "src/core/zlibwt_hl_decompress_routines.c:MkdirRecurseInlineRaw"]}
{"id": "C81", "title": "Errors of the compressor are reported", "statement": "A compress call returns 0 only if the compressor has reported no stream error and has taken all the data; otherwise it returns the error.  A session is created only if the compressor could be set up and has taken the archive's header.  The functions that compress a file or a directory return 0 only if all compress calls they make do.", "quantifier": "every compressor, whatever it returns and when, every data, every state of a session", "why_tests_cant": "every point at which the compressor may fail", "anchors": ["src/core/zlibwt_ll_compression_routines.c:ZlibWtCompressBufferToCallback", "src/core/zlibwt_ll_compression_routines.c:ZlibWtCreateTypedCompressSession", "src/core/zlibwt_compression_routines.c:ZlibWtCompressFileEx"]}
{"id": "C82", "title": "Archive and extract with the program", "statement": "With the supplied program: archiving a directory (or a non-empty file) into a file outside it and extracting that file copies the directory (the content); both runs exit with 0 and change nothing but the archive and the output.  Wrong usage and files that cannot be opened give 1 and change nothing.  The extra files the program adds are extracted with content and defined permissions.", "quantifier": "every disk, directory, file, pair of paths; every compressor and decompressor that meets zlib's contract", "why_tests_cant": "every directory tree and every disk around it", "anchors": ["src/tests/main_zlibwt_hl_test.cpp:main", "src/tests/main_zlibwt_hl_test.cpp:CompressFileAndBlobCallback", "src/core/zlibwt_hl_decompress_routines.c:ZlibWtDecompressFileOrDir", "src/core/zlibwt_compression_routines.c:ZlibWtCompressDirectoryEx"]}
{"id": "C83", "title": "The copy does not depend on the tools", "statement": "Archiving a directory and extracting the archive gives one and the same disk, node by node, whatever compressor, compression level, decompressor and listing order of the directories is used, and whatever uninitialised memory contains: two machines with different zlib versions or file systems produce identical copies.", "quantifier": "every two compressors and decompressors that meet zlib's contract, every two levels and listing orders, every directory below 512 KiB all of which can be read, every filter that accepts something, every target disk", "why_tests_cant": "all zlib implementations, all listing orders", "anchors": ["src/core/zlibwt_hl_decompress_routines.c:ZlibWtDecompressFileOrDir", "src/core/zlibwt_compression_routines.c:ZlibWtCompressDirectoryEx", "src/core/zlibwt_ll_compression_routines.c:ZlibWtCompressBufferToCallback", "src/core/zlibwt_decompress_routines.c:ZlibWtDecompressBufferToCallback"]}
{"id": "C84", "title": "The buffers are the caller's again", "statement": "Once a decompress call has returned 0 the library no longer uses the input that was given to it, and between calls it does not write to the output buffer: both may be released before the session is destroyed (destroying calls inflate twice more, on whatever the last call has left).", "quantifier": "every history of calls on a session, every decompressor that meets zlib's contract", "why_tests_cant": "every archive, every splitting, every implementation of zlib", "anchors": ["src/core/zlibwt_ll_decompress_routines.c:ZlibWtDestroyLLDecompressSession", "src/core/zlibwt_decompress_routines.c:ZlibWtDestroyDecompressSession", "src/core/zlibwt_decompress_routines.c:ZlibWtDecompressCallbackStatHeader", "src/core/zlibwt_ll_decompress_routines.c:ZlibWtCreateLLDecompressSession"]}
{"id": "C85", "title": "Stack memory for extraction", "statement": "The stack memory that extraction needs does not depend on the archive, except for the length of the paths in it: a request never exceeds the output path, the longest path of a file in the archive, and a constant.", "quantifier": "every archive, every decompressor that meets zlib's contract, every behaviour of the disk", "why_tests_cant": "every archive, malformed ones included", "anchors": ["src/core/zlibwt_hl_decompress_routines.c:DecompressDirFileOrDirStartCallback", "src/core/zlibwt_hl_decompress_routines.c:ZlibWtDecompressFileOrDirEx"]}
{"id": "C86", "title": "The low-level test program copies", "statement": "Compressing a directory or a file with the low-level test program and extracting the archive with it reproduces the original at the new place, changes nothing else on the disk, leaves no descriptor open, and the exit status tells whether that succeeded.", "quantifier": "every disk, directory, file, pair of paths; every compressor and decompressor that meets zlib's contract", "why_tests_cant": "every directory tree and every disk around it", "anchors": ["src/tests/main_zlibwt_ll_test.cpp:main", "src/tests/main_zlibwt_ll_test.cpp:DecompressDirFileOrDirStartCallback", "src/tests/main_zlibwt_ll_test.cpp:DecompressCallbackForSymLinksStatic", "src/tests/main_zlibwt_ll_test.cpp:DecompressDirStartCallback"]}
{"id": "C87", "title": "A self-extracting program reproduces its directory", "statement": "Starting the self extractor packs the directory it is in: it exits with 0 and stores in the working directory an output file made of the program, padding and an archive, and changes nothing else. Starting that output file, on any disk, recreates in the extraction directory everything that was beside the program except the program and the output file, then starts the contained programs in order.", "quantifier": "every disk, program path, directory tree, second disk and second path; every compressor and decompressor that meets zlib's contract", "why_tests_cant": "every directory tree, program content and pair of disks", "anchors": ["src/tools/main_self_extract.c:main", "src/tools/main_self_extract.c:DirCompressFilterFunction", "src/tools/main_self_extract.c:CompressFileAndBlobCallback"]}
{"id": "C88", "title": "Output directories of any depth", "statement": "Creating the output directory works however many of its ancestors are missing; if it fails, nothing is left behind.", "quantifier": "every path of ordinary names, any number of missing directories, and every file-system state in which nothing is refused", "why_tests_cant": "every depth and file-system state", "anchors": ["src/core/zlibwt_hl_decompress_routines.c:MkdirRecurseInlineRaw"]}
{"id": "C89", "title": "The archive may lie in the directory it is made of", "statement": "A directory can be compressed into a file in that directory: the call returns, and the archive holds all other files, whatever it holds for the archive itself.", "quantifier": "every directory tree, every conforming compressor, every filter, and every amount of data that the output stream keeps back", "why_tests_cant": "depends on the listing order, the sizes of all files, how far the data can be compressed and the buffering of the output stream", "anchors": ["src/core/zlibwt_compression_routines.c:CompressSingleFileFromFile", "src/core/zlibwt_compression_routines.c:ZlibWtFolderCompressDirIterCallbackStatic", "src/tools/main_compressdir.cpp:main"]}
{"id": "C90", "title": "Setting an icon is reported truthfully", "statement": "On Windows, setting the icon of a program returns 0 exactly if the program file then has the icon of the icon file, and otherwise leaves the program file as it was; the icon file, the memory and the update handle are given back in either case.", "quantifier": "every icon file, every program file and every combination of failing system calls", "why_tests_cant": "failures of the resource calls and of reads cannot be provoked at will, and icons come in any size", "anchors": ["src/core/resource_handler_windows.c:ResourceHandlerSecIconToApp"]}
{"id": "C91", "title": "The icon program works on the program beside it", "statement": "The icon program sets the icon given as argument for hello_world_test.exe in its own directory, and says what is missing if there is no argument.", "quantifier": "every path the program is called by and all arguments", "why_tests_cant": "depends on the name the program is called by", "anchors": ["src/tests/main_change_or_add_icon_test.cpp:main"]}
{"id": "C92", "title": "Clearing the extraction directory removes it and nothing else", "statement": "Before extracting, the self extractor removes an earlier extraction directory: afterwards the directory and everything in it is gone, links in it are removed and not followed, and nothing outside it is changed; the removal always ends.", "quantifier": "every directory tree on the disk, every depth, all modes and links, every failing call (for what is not to be changed)", "why_tests_cant": "removal recurses over trees of any depth and shape, and a test for what must stay can only look at some paths", "anchors": ["src/tools/main_self_extract.c:RemoveNonEmptyDirectory", "src/tools/main_self_extract.c:DirIterFuncForRemovinDirectory"]}
{"id": "C93", "title": "A self-extracting program leaves nothing behind", "statement": "After a self-extracting program has run, the extraction directory is gone, and the disk is as it was before, but for what the started programs have changed.", "quantifier": "every packed directory, every disk the packed file is started on, all exit codes of the started programs", "why_tests_cant": "extraction directories have any shape, and a test can only look for leftovers in some places", "anchors": ["src/tools/main_self_extract.c:main", "src/tools/main_self_extract.c:RemoveNonEmptyDirectory"]}
{"id": "C94", "title": "The current entry during the callbacks of a directory archive", "statement": "The data returned by ZlibWtGetCurFileDataForSession inside a callback describe the entry the callback is about: its name, its type and its depth in the tree.", "quantifier": "every plaintext of a directory archive, also a damaged one; every split into buffers; every pattern of allocation failures; every callback of the session", "why_tests_cant": "the name is collected in a buffer that is reallocated and overwritten while the stream is parsed in pieces; a test sees only some streams and splits", "anchors": ["src/core/zlibwt_decompress_routines.c:ZlibWtGetCurFileDataForSession", "src/core/zlibwt_decompress_routines_version_0000.c:ZlibWtDecompressCallbackStatData_dir"]}
{"id": "C95", "title": "Changing the callback of a session", "statement": "If the callback of a compress session or of a low-level decompress session is changed, between calls or by a callback itself, no byte is lost, repeated or reordered: the pieces in the order of delivery are what a session with one callback delivers, and every piece goes to the callback that was set last before it.", "quantifier": "every history of calls, every sequence of callbacks set between the calls, every behaviour of callbacks that set other callbacks, every input and split, every positive buffer size, every codec that meets the zlib contract", "why_tests_cant": "the callback can be changed at any piece of any stream, and callbacks may react to everything delivered so far; a test tries some change points", "anchors": ["src/core/zlibwt_ll_compression_routines.c:ZlibWtSetCallbackForCompressSession", "src/core/zlibwt_ll_compression_routines.c:ZlibWtCompressBufferToCallback", "src/core/zlibwt_ll_decompress_routines.c:ZlibWtSetCallbackForLLDecompressSession", "src/core/zlibwt_ll_decompress_routines.c:ZlibWtLLDecompressBufferToCallback"]}
{"id": "C96", "title": "Archiving a directory ends", "statement": "Archiving a directory always comes to an end, with a bounded depth of recursion: whatever the directories contain, also if the directories listed form a loop, compression never nests more than 2048 calls and returns.", "quantifier": "every content of directories (every function from paths to listings), every filter with its state, every set of added buffers, every path, every codec that meets the zlib contract", "why_tests_cant": "termination for every tree cannot be tested; a test terminates on the trees it tries, and loops or very deep trees are not tried", "anchors": ["src/core/zlibwt_compression_routines.c:ZlibWtFolderCompressDirIterCallbackStatic", "src/core/zlibwt_compression_routines.c:ZlibWtCompressDirectoryEx", "src/core/zlibwt_compression_routines.c:ZlibWtCompressDirectoryWithBufferEx", "src/core/zlibwt_compression_routines.c:ZlibWtCompressDirectoryWithBufferExRoot"]}
{"id": "C97", "title": "Added buffers join the directories of the tree", "statement": "When buffers are added to a directory archive at paths whose directories occur in the paths of other buffers or in the tree itself, extraction to a fresh place yields one directory for each path that holds everything put there: every buffer is a file at its path, and every file and link of the tree is at its place with its content.", "quantifier": "every tree, filter and set of buffers in which no file or link has the place of anything else, every codec that meets the zlib contract, every file system with room for the output path", "why_tests_cant": "the combinations of shared directories, buffers and trees are unbounded, and the outcome depends on the size of the archive and on the user", "anchors": ["src/core/zlibwt_compression_routines.c:ZlibWtCompressDirectoryWithBufferEx", "src/core/zlibwt_hl_decompress_routines.c:ZlibWtDecompressFileOrDirEx"]}
{"id": "C98", "title": "Finished zlib streams are decompressed to their end", "statement": "When the input of a decompress call contains the end of a zlib stream, the callback gets all of the plaintext; bytes after the end make no difference.", "quantifier": "every zlib stream that ends, every split of the input into calls, all buffer sizes, every inflate implementation that meets the zlib contract", "why_tests_cant": "how much of the plaintext is left for the call that meets the end depends on the splits, the buffer size and the codec; the streams of the library itself never end, so its round trips do not reach the case", "anchors": ["src/core/zlibwt_ll_decompress_routines.c:ZlibWtLLDecompressBufferToCallback", "src/core/zlibwt_decompress_routines.c:ZlibWtDecompressBufferToCallback"]}
{"id": "C99", "title": "Compressed output is a complete zlib stream", "statement": "All that a compress session hands over, from its creation to its destruction, is a complete zlib stream: a decoder fed with it accepts it, yields the header and the data, and reports the end of the stream.", "quantifier": "every sequence of compress calls and buffer exchanges, all buffer sizes, every split of the output on the reading side, every pair of codecs that meets the zlib contract", "why_tests_cant": "quantifies over all data, calls, buffers and splits, and over codecs; the decompressor of the library does not look for the end", "anchors": ["src/core/zlibwt_ll_compression_routines.c:ZlibWtDestroyCompressSession", "src/core/zlibwt_ll_compression_routines.c:ZlibWtCompressBufferToCallback"]}
{"id": "C100", "title": "Archives made on Unix extract completely on Windows", "statement": "A directory archived on Unix and extracted on Windows to a new directory with reported success arrives complete: every entry is there under its name, files with their content, and nothing else on the drive changes.", "quantifier": "every directory tree of any size, every selection by a filter, all compression levels, every place of the output directory, every pair of codecs that meets the zlib contract, every way the system compares names", "why_tests_cant": "needs two operating systems, and quantifies over trees, names, codecs and the rules by which names are compared", "anchors": ["src/core/zlibwt_hl_decompress_routines.c:DecompressDirFileOrDirStartCallback", "src/core/zlibwt_hl_decompress_routines.c:SymLinkCreateCallback", "src/core/zlibwt_hl_decompress_routines.c:OsCreateStatic", "include/zlib_with_tools/utils/io_zlibandtls.h:mode_fo_zlibandtls"]}
{"id": "C101", "title": "Extraction on Windows is confined to the output directory", "statement": "Extraction of an archive on Windows changes nothing outside the given output directory (or output file).", "quantifier": "every archive, every output path, all splits of the input, every pattern of refused system calls and short writes", "why_tests_cant": "a statement about all archives, including crafted ones and ones made on systems with other rules for names", "anchors": ["src/core/zlibwt_hl_decompress_routines.c:DecompressDirFileOrDirStartCallback", "src/core/zlibwt_hl_decompress_routines.c:MkdirRecurseInlineRaw", "src/core/zlibwt_hl_decompress_routines.c:OsCreateStatic"]}
{"id": "C102", "title": "Clearing on Windows removes the extraction directory only", "statement": "When the self extractor clears its extraction directory on Windows, that directory disappears with everything in it, and nothing else on the drive changes.", "quantifier": "every content of the drive, every content of the memory behind the name of the directory", "why_tests_cant": "what lies behind a string constant in memory depends on compiler and linker; a test sees one layout", "anchors": ["src/tools/main_self_extract.c:RemoveNonEmptyDirectory"]}
{"id": "C103", "title": "The self extractor copies itself or fails", "statement": "When the self extractor packs a directory, it puts an exact copy of its own program in front of the archive, or it ends and reports failure; it ends in any case.", "quantifier": "every program, every amount that the reads deliver and the writes store, read errors and changes of the file's size included", "why_tests_cant": "short reads and writes, read errors and a file that changes while it is copied cannot be brought about at will in a test, and that a program does not end is no observation a test can make", "anchors": ["src/tools/main_self_extract.c:main"]}
{"id": "C104", "title": "On Windows reported success means that the output is there, and nothing is removed", "statement": "An extraction on Windows that returns has removed no file and no directory, has left every read-only file read-only and every other one writable, and has not changed the working directory. If it reports a directory, there was nothing at the output path before and there is a directory now; if it reports a file, there is a file at the output path; otherwise it reports nothing. A success is reported only for an archive with a complete header of version 0 and as the kind the header tells, and not when reading the archive failed, unless creating an entry failed before.", "quantifier": "every archive, intact or not, every state of the drive, every output path without a NUL, every pattern of refused calls, short writes and failed allocations", "why_tests_cant": "the statement covers every damaged archive and every combination of refused calls, and that something was not removed must hold for every file on the drive", "anchors": ["src/core/zlibwt_hl_decompress_routines.c:DecompressDirStartCallback", "src/core/zlibwt_hl_decompress_routines.c:MkdirRecurseInline", "src/core/zlibwt_hl_decompress_routines.c:DecompressDirFileOrDirStartCallback"]}
{"id": "C105", "title": "Archives in the standard zlib format, from any program", "statement": "Bytes that decode according to RFC 1950 and RFC 1951 to an archive are read as that archive, whatever program wrote them and whatever blocks, codes and flushes they are made of: a directory archive extracts to its tree and changes nothing else, and sessions that are given two streams with the same content report the same.", "quantifier": "every byte string that decodes to an archive, every tree, every split and buffer size, every inflate implementation for this format that meets the zlib contract", "why_tests_cant": "there are infinitely many encodings of the same archive, and a test program only ever sees those that its own zlib writes", "anchors": ["src/core/zlibwt_ll_decompress_routines.c:ZlibWtLLDecompressBufferToCallback", "src/core/zlibwt_decompress_routines.c:ZlibWtDecompressBufferToCallback", "src/core/zlibwt_hl_decompress_routines.c:ZlibWtDecompressFileOrDirEx"]}
{"id": "C106", "title": "A file archived on Unix arrives on Windows", "statement": "A file compressed on Unix and extracted on Windows arrives with the same content, in a file that can be written to, with 'file' returned and nothing else on the drive changed; if it cannot be written, this is reported and nothing is changed.", "quantifier": "every file content, level, zlib implementation that meets the contract, drive content, spelling of names, output path, and pattern of refused calls", "why_tests_cant": "the code for Windows cannot be run where the other tests run, and drives with read-only files, full drives and every pattern of failing calls cannot be enumerated", "anchors": ["src/core/zlibwt_hl_decompress_routines.c:ZlibWtDecompressFileOrDirEx", "src/core/zlibwt_hl_decompress_routines.c:DecompressFileStartCallback", "src/core/zlibwt_hl_decompress_routines.c:DecompressFileAndBlobCallback", "include/zlib_with_tools/utils/stdio_zlibandtls.h:fopen_zlibandtls"]}
{"id": "C107", "title": "Extraction on Windows ends and keeps to the archive", "statement": "Extraction on Windows ends for every input. It reads the given number of bytes and never more, bytes beyond have no influence, and what it adds is bounded by the length of the decompressed archive: no file gets longer than the archive or than it was, and the number of new files and directories is at most 62 per 40 bytes. No file or directory is removed or replaced.", "quantifier": "every archive, also damaged and malicious ones, every drive content, spelling of names, output path, archive size, read error and pattern of refused calls", "why_tests_cant": "the code for Windows cannot be run where the other tests run, and a bound on all hostile archives cannot be reached by trying some of them", "anchors": ["src/core/zlibwt_hl_decompress_routines.c:ZlibWtDecompressFileOrDirEx", "src/core/zlibwt_hl_decompress_routines.c:DecompressDirStartCallback", "src/core/zlibwt_hl_decompress_routines.c:DecompressFileStartCallback"]}
{"id": "C108", "title": "No archive makes extraction misuse memory", "statement": "Extraction of an archive, whatever its content, does not dereference null pointers, read or write outside memory, or use files and memory after their release; archives that cannot be extracted are reported.", "quantifier": "every archive, also damaged and malicious ones, every file system, output path, input splitting, and pattern of refused calls, on Unix and on Windows", "why_tests_cant": "hostile archives cannot be enumerated, and a fault depends on the archive, the state of the file system and failing calls together", "anchors": ["src/core/zlibwt_hl_decompress_routines.c:DecompressDirFileOrDirStartCallback", "src/core/zlibwt_hl_decompress_routines.c:DecompressDirDirEndCallback", "src/core/zlibwt_hl_decompress_routines.c:DecompressFileAndBlobCallback", "src/core/zlibwt_hl_decompress_routines.c:SymLinkCreateCallback"]}
{"id": "C109", "title": "A copy can be copied again", "statement": "A directory that was archived and extracted can be archived and extracted again, to any new place; the second copy then is exactly the first, with the same permissions, however both were made.", "quantifier": "every archivable source below 512 KiB, filter, target disks and paths, compressors, decompressors, compression levels and listing orders of both copies", "why_tests_cant": "whether what extraction creates is again readable, within the limits and unchanged by a further copy depends on umask, modes, names and paths of arbitrary trees", "anchors": ["src/core/zlibwt_compression_routines.c:ZlibWtCompressDirectoryEx", "src/core/zlibwt_hl_decompress_routines.c:ZlibWtDecompressFileOrDirEx"]}
{"id": "C110", "title": "A directory of Windows is copied through an archive", "statement": "On Windows, archiving a directory and extracting the archive to a new place gives a copy of it: the same files and directories, with the same content and the same protection against writing, and nothing else changes. The archive itself is the one that Unix makes of the same files and directories without links.", "quantifier": "every Windows drive and directory on it, listing order, compressor, decompressor, compression level and new place to extract to; for the comparison with Unix every environment, filter and extra buffers at the top", "why_tests_cant": "the platform branches are compiled on one system only, and trees, names that differ in case, and the way the compressor cuts its output are unbounded", "anchors": ["src/core/zlibwt_compression_routines.c:ZlibWtFolderCompressDirIterCallbackStatic", "src/core/zlibwt_compression_routines.c:ZlibWtCompressDirectoryEx", "src/core/zlibwt_hl_decompress_routines.c:ZlibWtDecompressFileOrDirEx"]}
{"id": "C111", "title": "Added buffers are extracted as files on Windows", "statement": "Buffers added to the archive of a directory on Windows are extracted there as files at their paths, with their content, and protected against writing exactly if the mode given for them has no write permission; the files of the directory are extracted as well.", "quantifier": "every directory, filter, list of buffers with distinct names for Windows, compressor, decompressor, compression level, drive and new place to extract to", "why_tests_cant": "the branches of Windows are compiled on one system only; paths, contents and the interplay with the tree are unbounded", "anchors": ["src/core/zlibwt_compression_routines.c:ZlibWtCompressDirectoryWithBufferExRoot", "src/core/zlibwt_compression_routines.c:ZlibWtCompressDirectoryWithBufferEx", "src/core/zlibwt_compression_routines.c:ZlibWtFolderCompressBufferAsFileInlineRaw", "src/core/zlibwt_hl_decompress_routines.c:ZlibWtDecompressFileOrDirEx"]}
{"id": "C112", "title": "A directory of Windows arrives on Unix", "statement": "A directory archived on Windows and extracted to a new place on Unix arrives there: the same files and directories, with the names as Windows lists them, the same content, and writable for their owner exactly if they were not protected on Windows; nothing else changes.", "quantifier": "every Windows drive and directory on it, listing order, compressor, decompressor, compression level, disk on Unix and new place to extract to", "why_tests_cant": "the two halves run on different systems; trees, the spelling of names, modes and the cutting of the output are unbounded", "anchors": ["src/core/zlibwt_compression_routines.c:ZlibWtFolderCompressDirIterCallbackStatic", "src/core/zlibwt_compression_routines.c:ZlibWtCompressDirectoryEx", "src/core/zlibwt_hl_decompress_routines.c:ZlibWtDecompressFileOrDirEx"]}
{"id": "C113", "title": "The self-extracting program on Windows", "statement": "On Windows, started without an archive behind it, the program writes a copy of itself, with the icon, padded to the fixed size, and behind it an archive of its own directory without the program and without the copy; nothing else on the drive changes and the result is 0. The copy, started on any drive, first removes what is in the way of its output folder, then puts there exactly what was packed, starts the first program in it, and either removes the folder completely (the program succeeded) or starts the second program.", "quantifier": "every drive, program, path the program is started by, directory, listing order, compressor, decompressor, drive the copy is started on, and behaviour of the started programs", "why_tests_cant": "two runs on two drives; trees, contents, what lies in the way, and what the started programs do are unbounded", "anchors": ["src/tools/main_self_extract.c:main", "src/tools/main_self_extract.c:DirCompressFilterFunction", "src/tools/main_self_extract.c:RemoveNonEmptyDirectory", "src/core/zlibwt_compression_routines.c:ZlibWtCompressDirectoryEx", "src/core/zlibwt_hl_decompress_routines.c:ZlibWtDecompressFileOrDirEx"]}
{"id": "C114", "title": "Failing calls on Windows lose data, nothing else", "statement": "Whatever system calls fail during an extraction on Windows, and however little of the bytes given to them the writing calls store, nothing outside the output directory changes, and inside it every place holds what the archive has there or nothing: a directory, or a file, protected as the archive says, with parts of its content in order. If no error is reported and the archive arrived completely, every file and directory of the archive is there.", "quantifier": "every drive, output directory that could be created, archive, decompressor, and choice of the calls that fail or store less than asked", "why_tests_cant": "any of the calls of a run can fail, alone or together, and files and trees are unbounded", "anchors": ["src/core/zlibwt_hl_decompress_routines.c:ZlibWtDecompressFileOrDirEx", "src/core/zlibwt_hl_decompress_routines.c:MkdirRecurseInlineRaw", "src/core/zlibwt_hl_decompress_routines.c:DecompressDirFileOrDirStartCallback", "src/core/zlibwt_hl_decompress_routines.c:DecompressDirFileReadCallback"]}
{"id": "C115", "title": "A directory of a Unix disk arrives on a Windows drive", "statement": "A directory of a Unix disk that has anything in it is archived with success, and the archive, extracted to a new place of a Windows drive, gives the same files and directories there: with the same content, and protected against writing exactly if the owner could not write; nothing else is there, and nothing else on the drive changes.", "quantifier": "every disk, directory with names Windows accepts and tells apart, listing order, compressor, decompressor, drive and new place on it", "why_tests_cant": "trees, contents, permissions and the two file systems are unbounded, and the two halves run on different systems", "anchors": ["src/core/zlibwt_compression_routines.c:ZlibWtCompressDirectoryEx", "src/core/zlibwt_hl_decompress_routines.c:ZlibWtDecompressFileOrDirEx", "src/core/zlibwt_hl_decompress_routines.c:DecompressDirFileOrDirStartCallback"]}
{"id": "C116", "title": "A directory of Windows can be kept on Unix", "statement": "A directory of a Windows drive that is archived, extracted on Unix, archived there again and extracted on a Windows drive is the same as at first: the same files and directories, with the same content and the same protection against writing; nothing else is there, and nothing else changes. All four steps report success.", "quantifier": "every drive and directory with a file or directory in it, Unix disk, umask that leaves the owner their permissions, listing orders, compressors and decompressors (others on the way back), levels, and drive to return to", "why_tests_cant": "four runs on two systems; trees, contents and names are unbounded, and each system spells, compares and protects in its own way", "anchors": ["src/core/zlibwt_compression_routines.c:ZlibWtCompressDirectoryEx", "src/core/zlibwt_hl_decompress_routines.c:ZlibWtDecompressFileOrDirEx", "src/core/zlibwt_hl_decompress_routines.c:DecompressDirFileOrDirStartCallback", "include/zlib_with_tools/utils/io_zlibandtls.h:mode_fo_zlibandtls"]}
{"id": "C117", "title": "An extraction that is cut off leaves part of the tree (Windows)", "statement": "An extraction of a directory on Windows that is cut off at any point, after which nothing on the drive can be changed any more, has changed nothing outside the output directory. Inside there is at every place what the archive has there, or nothing: a directory, or a file, protected against writing as the archive says, with a beginning of its content; every file that is there is complete, except at most one. The archive may have been cut off too. If no error was recorded and the archive arrived completely, every file and directory is there. Of an archive of a single file, cut off after the output file was opened, that file holds a beginning of the content, and nothing else has changed.", "quantifier": "every number of calls after which it is cut off, also within the creation of the output directory, tree, drive, output directory whose parts do not exist, decompressor and division into pieces", "why_tests_cant": "a process can be killed, or a drive removed, before any of its calls; a test can try a few of these points for a few archives", "anchors": ["src/core/zlibwt_hl_decompress_routines.c:ZlibWtDecompressFileOrDirEx", "src/core/zlibwt_hl_decompress_routines.c:MkdirRecurseInlineRaw", "src/core/zlibwt_hl_decompress_routines.c:DecompressDirFileOrDirStartCallback", "src/core/zlibwt_hl_decompress_routines.c:DecompressDirFileReadCallback"]}
{"id": "C118", "title": "Copies can be copied again (Windows)", "statement": "A copy on a Windows drive of a directory, made by archiving it and extracting the archive (or in any other way), can be archived and extracted again. Compression and extraction succeed, and the second copy has the same files and directories as the original, with the same content and the same protection against writing; nothing else changes. After any number of copies the directory is still the first one.", "quantifier": "every drive and directory with a file or directory in it, place of the copies, listing order and spelling, compressors, decompressors and levels of both copies, and number of copies", "why_tests_cant": "the second archive is another one: listing orders, permissions reported and pieces differ; trees and contents are unbounded", "anchors": ["src/core/zlibwt_compression_routines.c:ZlibWtCompressDirectoryEx", "src/core/zlibwt_hl_decompress_routines.c:ZlibWtDecompressFileOrDirEx", "src/core/zlibwt_hl_decompress_routines.c:DecompressDirFileOrDirStartCallback"]}
{"id": "C119", "title": "A beginning of an archive yields part of the directory", "statement": "However much there is of the archive of a directory (because its making or transfer was cut off), and wherever its extraction to a new directory is cut off in turn: what is there is part of a copy. Each file has its permissions and a beginning of its content, and at most one file is incomplete; each directory is one of the source; link targets may lack their beginnings (C19). Nothing else is there, and nothing that was there before is changed. The same on Windows, where links are left out.", "quantifier": "every source directory, filter without memory (on Unix), compressor, decompressor, level, every beginning of the archive and every number of calls before extraction is cut off", "why_tests_cant": "a test can try some cut points of some archives; here both the archive and the extraction are cut at any point, for every tree and division into pieces", "anchors": ["src/core/zlibwt_compression_routines.c:ZlibWtCompressDirectoryEx", "src/core/zlibwt_hl_decompress_routines.c:ZlibWtDecompressFileOrDirEx", "src/core/zlibwt_hl_decompress_routines.c:DecompressDirFileOrDirStartCallback", "src/core/zlibwt_hl_decompress_routines.c:DecompressDirFileReadCallback"]}
{"id": "C120", "title": "What is in the beginning of an archive can be recovered", "statement": "When all that there is of the archive of a directory is a beginning (because its making or transfer was cut off), extracting it to a new directory yields every non-empty file whose record is whole in that beginning, with all its content and its permissions as far as the umask allows, however deep in directories the beginning ends and whatever part of a record follows; if the beginning ends with a record, empty files and directories arrive too. No error is raised. From a beginning of the archive of a single file, as much of the file is recovered as the beginning holds. The same holds of extraction on Windows, of archives made there or on Unix, with protection against writing in place of permissions.", "quantifier": "every source directory without links and filter, or file; every compressor, decompressor, level and beginning of the archive (for beginnings accepted by the decompressor, which has room left or withholds nothing)", "why_tests_cant": "a test can cut some archives at some points; here the archive may be cut at any byte, for every tree, every level of nesting and every division into pieces", "anchors": ["src/core/zlibwt_compression_routines.c:ZlibWtCompressDirectoryEx", "src/core/zlibwt_hl_decompress_routines.c:ZlibWtDecompressFileOrDirEx", "src/core/zlibwt_decompress_routines.c:ZlibWtDecompressBufferToCallback", "src/core/zlibwt_hl_decompress_routines.c:DecompressDirFileOrDirStartCallback"]}
{"id": "C121", "title": "An extraction that was interrupted can be repeated", "statement": "When an extraction is interrupted at any point (the process is killed), running it again with the same arguments leaves the disk as if there had been no interruption.", "quantifier": "every archive, decompressor, output path, disk, umask and number of calls after which the first run is interrupted", "why_tests_cant": "a test can kill a run at some points; here the run may stop after any call, on any disk, and the outcome of the repetition is fixed by what that stop left behind", "anchors": ["src/core/zlibwt_hl_decompress_routines.c:ZlibWtDecompressFileOrDirEx", "src/core/zlibwt_hl_decompress_routines.c:DecompressFileStartCallback", "src/core/zlibwt_hl_decompress_routines.c:DecompressDirStartCallback", "src/core/zlibwt_hl_decompress_routines.c:DecompressDirFileOrDirStartCallback"]}
{"id": "C122", "title": "Earlier extractions do not stand in the way of later ones", "statement": "Whatever was extracted before (any number of archives or other data, sound, damaged or hostile, to any paths, complete, failed or interrupted), if there is nothing at the output path now and its directory could be used at first, then extracting an archive of a directory or file there brings it completely and changes nothing else.", "quantifier": "every disk, every sequence of earlier runs with every archive, path, failure and point of interruption, every later archive and output path", "why_tests_cant": "a test can try some histories; here the history is any sequence of runs that end at any call, and the state of the disk after it is not enumerable", "anchors": ["src/core/zlibwt_hl_decompress_routines.c:ZlibWtDecompressFileOrDirEx", "src/core/zlibwt_hl_decompress_routines.c:DecompressDirStartCallback", "src/core/zlibwt_hl_decompress_routines.c:DecompressFileStartCallback", "src/core/zlibwt_hl_decompress_routines.c:SymLinkCreateCallback"]}
{"id": "C123", "title": "An archive that could not be written completely is reported", "statement": "When compressdir or the archiving test program exits with 0, the archive file is complete: if the disk is full or writes to it fail, the program reports failure. In any case it changes no other file, and on a disk that fills up the archive file holds a beginning of the archive.", "quantifier": "every input file and directory, every archive path, every disk, every pattern of refused and short writes", "why_tests_cant": "tests run with room on the disk; the writes that fail, and how much they write, can be any", "anchors": ["src/tools/main_compressdir.cpp:CompressFileAndBlobCallback", "src/tools/main_compressdir.cpp:main", "src/tests/main_zlibwt_hl_test.cpp:CompressFileAndBlobCallback", "src/tests/main_zlibwt_hl_test.cpp:main"]}
