{
 "claims": [
  {
   "property": "C01",
   "status": "proved",
   "theorems": [
    "Zwt.C01_padding",
    "Zwt.C01_wraps"
   ],
   "note": "C01_wraps shows the excluded lengths do wrap"
  },
  {
   "property": "C02",
   "status": "proved",
   "theorems": [
    "Zwt.C02_header_roundtrip",
    "Zwt.C02_header_surjective",
    "Zwt.C02_every_archive"
   ],
   "note": ""
  },
  {
   "property": "C03",
   "status": "proved",
   "theorems": [
    "Zwt.C03_item_roundtrip"
   ],
   "note": ""
  },
  {
   "property": "C04",
   "status": "proved",
   "theorems": [
    "Zwt.C04_compress_hands_over_everything"
   ],
   "note": ""
  },
  {
   "property": "C05",
   "status": "proved",
   "theorems": [
    "Zwt.C05_compress_terminates"
   ],
   "note": ""
  },
  {
   "property": "C06",
   "status": "partial",
   "theorems": [
    "Zwt.C06_degenerate_buffer_false",
    "Zwt.C06_degenerate_buffer_false_later",
    "Zwt.C06_degenerate_buffer_partial"
   ],
   "note": "false of the code: a size that is 0 modulo 2^32 makes the loop endless"
  },
  {
   "property": "C07",
   "status": "partial",
   "theorems": [
    "Zwt.C07_large_inputs_false",
    "Zwt.C07_large_inputs_partial"
   ],
   "note": "false of the code: only the length modulo 2^32 is handed over"
  },
  {
   "property": "C08",
   "status": "partial",
   "theorems": [
    "Zwt.C08_closing_loses_nothing_false",
    "Zwt.C08_closing_loses_nothing_partial"
   ],
   "note": "false of the code when the last output chunk fills the buffer exactly; partial: otherwise nothing is lost"
  },
  {
   "property": "C09",
   "status": "proved",
   "theorems": [
    "Zwt.C09_faithful_prefix"
   ],
   "note": ""
  },
  {
   "property": "C10",
   "status": "proved",
   "theorems": [
    "Zwt.C10_decompress_terminates"
   ],
   "note": ""
  },
  {
   "property": "C100",
   "status": "partial",
   "theorems": [
    "Zwt.C100_windows_partial",
    "Zwt.C100_links_false",
    "Zwt.C100_case_false"
   ],
   "note": "False: links are left out and success is reported (C100_links_false); two files whose names differ in case end up as one file with the content of neither (C100_case_false). Proved: with names that Windows accepts and tells apart, all files and directories arrive, for trees of any size, with links among the entries, in an output directory of which up to 61 parents are made too."
  },
  {
   "property": "C101",
   "status": "partial",
   "theorems": [
    "Zwt.C101_confined_partial",
    "Zwt.C101_file_archive_partial",
    "Zwt.C101_confined_false"
   ],
   "note": "False even for archives the library makes: the Unix file name ..\\x leads out of the output directory on Windows (C101_confined_false). Proved: confinement for names of one component, links included, whatever else is refused; and for archives of other kinds."
  },
  {
   "property": "C102",
   "status": "partial",
   "theorems": [
    "Zwt.C102_clear_partial",
    "Zwt.C102_clear_false"
   ],
   "note": "False: the system function expects a list of paths that ends with an empty one, and gets a single string, so the memory behind it is taken for further paths to delete, or read until a fault (C102_clear_false). Proved: as stated if the byte behind the name is 0."
  },
  {
   "property": "C103",
   "status": "partial",
   "theorems": [
    "Zwt.C103_copy_partial",
    "Zwt.C103_parts",
    "Zwt.C103_endless_false",
    "Zwt.C103_incomplete_false"
   ],
   "note": "False: if a read fails or the program file has become shorter, the loop runs forever (C103_endless_false, for every program and every behaviour of the writes); a write that stores less goes unnoticed and success is reported for a broken program (C103_incomplete_false). True: with reads that deliver at least one byte and complete writes the copy is exact; and a copy that ends consists of parts of the program in order."
  },
  {
   "property": "C104",
   "status": "proved",
   "theorems": [
    "Zwt.C104_windows_success",
    "Zwt.C104_existing",
    "Zwt.C104_header"
   ],
   "note": "For every behaviour of the system; 'returns' as in C100: a file archive whose output cannot be opened ends in a null pointer access instead."
  },
  {
   "property": "C105",
   "status": "partial",
   "theorems": [
    "Zwt.C105_contracts",
    "Zwt.C105_tree_partial",
    "Zwt.C105_links_partial",
    "Zwt.C105_file_partial",
    "Zwt.C105_recoded_file",
    "Zwt.C105_recoded_directory",
    "Zwt.C105_finished_false"
   ],
   "note": "The format is defined bit by bit after the RFCs (Spec/Rfc), and a decompressor and a compressor for it are shown to meet the contracts that the other claims assume. False of finished streams, as other programs write them: nothing is extracted (C105_finished_false, for bytes written by zlib). Proved for streams that are flushed and not finished."
  },
  {
   "property": "C106",
   "status": "partial",
   "theorems": [
    "Zwt.C106_file_partial",
    "Zwt.C106_unreliable_partial",
    "Zwt.C106_unopened_partial",
    "Zwt.C106_unopened_false",
    "Zwt.C106_full_false",
    "Zwt.C106_empty_false"
   ],
   "note": "False for the empty file (nothing is created), for an output path that cannot be opened, such as a read-only file (a null FILE pointer is written through), and on a full drive (success is reported). Proved for every other file on a drive that works; on every drive the file holds only bytes of the payload in their order, and nothing else changes."
  },
  {
   "property": "C107",
   "status": "proved",
   "theorems": [
    "Zwt.C107_ends",
    "Zwt.C107_archive_size",
    "Zwt.C107_beyond_ignored",
    "Zwt.C107_bounded_by_archive"
   ],
   "note": "Ends, reads and adds as stated (Windows counterparts of C37, C61, C63 and C64)."
  },
  {
   "property": "C108",
   "status": "partial",
   "theorems": [
    "Zwt.C108_faults_partial",
    "Zwt.C108_defined_partial",
    "Zwt.C108_memory_false",
    "Zwt.C108_windows_faults_partial",
    "Zwt.C108_windows_defined_partial",
    "Zwt.C108_windows_false"
   ],
   "note": "False: a record announcing a longer name than it stores is read beyond its allocation; an unmatched end of a directory fails an assertion or dereferences a null pointer; so does a file archive whose output cannot be opened. Proved: these, links without terminators and other versions are the only faults (nothing is freed twice, used after release or written out of bounds, and the process is not ended), each with what the archive and the system must do for it; and archives without such records are extracted without any fault whatever else they contain and whichever calls fail, as long as there is memory for paths."
  },
  {
   "property": "C109",
   "status": "partial",
   "theorems": [
    "Zwt.C109_succeeds_partial",
    "Zwt.C109_again_partial",
    "Zwt.C109_umask_false"
   ],
   "note": "False for an umask that takes the right to read from the owner: the copy is made, but archiving it succeeds with an archive of nothing. Proved for every umask that leaves the permissions of the owner: the copy can be archived and extracted, and this gives the same tree; what C79 misses is missing here too."
  },
  {
   "property": "C11",
   "status": "partial",
   "theorems": [
    "Zwt.C11_nothing_withheld_false",
    "Zwt.C11_standard_false",
    "Zwt.C11_nothing_withheld_partial"
   ],
   "note": "false of the code: loop stops when the input is used up even if the buffer was filled (C11_standard_false: for the real format and bytes that zlib writes)"
  },
  {
   "property": "C110",
   "status": "partial",
   "theorems": [
    "Zwt.C110_no_links",
    "Zwt.C110_copy_partial",
    "Zwt.C110_links_false"
   ],
   "note": "False for links: they are left out of the archive and success is reported. Proved: the archive is byte for byte that of Unix with a filter that refuses links (so all theorems about archives of Unix apply), and a directory with files smaller than 2 GiB and paths up to 240 bytes that is not empty is copied exactly. Missing: larger files, longer paths, empty directories (C43), archives whose last piece fills the buffer (C39), nested extra buffers."
  },
  {
   "property": "C111",
   "status": "partial",
   "theorems": [
    "Zwt.C111_root_partial",
    "Zwt.C111_nested_partial",
    "Zwt.C111_mode_false"
   ],
   "note": "False of the mode of buffers at nested paths: it is not used, their files are never protected. Proved for buffers at the top with their modes, and for nested buffers without. Missing: buffers that share a directory with each other or the tree (extraction notes an error), names Windows does not accept, links (C110), archives whose last piece fills the buffer (C39)."
  },
  {
   "property": "C112",
   "status": "partial",
   "theorems": [
    "Zwt.C112_to_unix_partial",
    "Zwt.C110_links_false"
   ],
   "note": "False for links, which Windows leaves out (C110_links_false extracts on Unix). Proved for directories that are not empty with files smaller than 2 GiB and paths up to 240 bytes, and an umask that leaves the permissions of the owner: everything arrives, under the listed names, and nothing more. Missing: archives whose last piece fills the buffer (C39)."
  },
  {
   "property": "C113",
   "status": "partial",
   "theorems": [
    "Zwt.C113_copy_partial",
    "Zwt.C113_spelling_false",
    "Zwt.C113_mixed_false"
   ],
   "note": "False when the program is started with another spelling of its name than the listed one, which Windows accepts: it neither skips nor can read itself (C113_spelling_false); false for paths with both kinds of slashes (C113_mixed_false). Proved for the listed spelling, when no other file below has the name of the program or of the copy, for directories that are not empty with files smaller than 2 GiB and paths up to 240 bytes. Missing: archives whose last piece fills the buffer unless the decompressor withholds nothing (Prompt)."
  },
  {
   "property": "C114",
   "status": "partial",
   "theorems": [
    "Zwt.C114_failing_calls_partial",
    "Zwt.C114_outdir_false",
    "Zwt.C114_memory_false",
    "Zwt.C114_silent_false"
   ],
   "note": "False when the output directory cannot be created: files of the archive are put at the top of the drive (C114_outdir_false); false when memory for the path of a directory cannot be allocated: its files are put beside it (C114_memory_false). Success is reported when a write fails, so the content of the files is not assured (C114_silent_false). Proved for output directories that could be created and allocations that succeed."
  },
  {
   "property": "C115",
   "status": "partial",
   "theorems": [
    "Zwt.C115_to_windows_partial",
    "Zwt.C100_links_false",
    "Zwt.C100_case_false"
   ],
   "note": "False for symbolic links, which are left out though success is reported (C100_links_false), and for names that differ in case only (C100_case_false). Missing besides: sources with unreadable or special files or paths beyond 4094 bytes, empty directories (C43), archives whose last piece fills the buffer unless the decompressor withholds nothing (C39)."
  },
  {
   "property": "C116",
   "status": "partial",
   "theorems": [
    "Zwt.C116_back_partial",
    "Zwt.C110_links_false"
   ],
   "note": "False for links, which are left out though success is reported (C110_links_false). Missing besides: files of 2 GiB and more, paths of more than 240 bytes on Windows and output paths of more than 3850 bytes on Unix, names that are no names on Unix, an umask that takes permissions from the owner, directories that Windows reports without permissions for the owner, empty directories (C43), archives whose last piece fills the buffer unless the decompressor withholds nothing (C39)."
  },
  {
   "property": "C117",
   "status": "proved",
   "theorems": [
    "Zwt.C117_cut_off",
    "Zwt.C117_cut_off_file"
   ],
   "note": "Cut off means that from some call on every call is refused, so the drive at the end is the drive at that point. Memory for paths is available."
  },
  {
   "property": "C118",
   "status": "partial",
   "theorems": [
    "Zwt.C118_again_partial",
    "Zwt.C118_generations",
    "Zwt.C110_links_false"
   ],
   "note": "False for links, which are left out though success is reported (C110_links_false). Missing besides: what C110 misses; the paths of the copy must have at most 240 bytes again, which depends on the place it is at."
  },
  {
   "property": "C119",
   "status": "proved",
   "theorems": [
    "Zwt.C119_beginning",
    "Zwt.C119_beginning_links",
    "Zwt.C119_windows"
   ],
   "note": "Sources as for C79 (Unix) and C110 (Windows), new output directory below directories that can be used, memory for paths available with links and on Windows. What the beginning contains does arrive: C120."
  },
  {
   "property": "C12",
   "status": "partial",
   "theorems": [
    "Zwt.C12_reports_zlib_errors_lowlevel_partial",
    "Zwt.C12_reports_zlib_errors_false",
    "Zwt.C12_reports_zlib_errors_partial"
   ],
   "note": "false of the code in the call that completes the archive header; proved for low-level sessions and for archive sessions after the first callback"
  },
  {
   "property": "C120",
   "status": "proved",
   "theorems": [
    "Zwt.C120_recovered",
    "Zwt.C120_recovered_file",
    "Zwt.C120_windows",
    "Zwt.C120_windows_file",
    "Zwt.C120_to_windows"
   ],
   "note": "Without links (their targets may arrive damaged, C19), new output directory below directories that can be used, directories in the archive that their owner may enter and write, memory available. Where the beginning ends within a record, an empty file or a directory right before may be announced late and is not promised. On Windows: sources as for C110, or Unix sources whose names Windows accepts and tells apart (C100)."
  },
  {
   "property": "C121",
   "status": "partial",
   "theorems": [
    "Zwt.C121_repeat_file_partial",
    "Zwt.C121_repeat_elsewhere_partial",
    "Zwt.C121_repeat_reports_partial",
    "Zwt.C121_windows_file_partial",
    "Zwt.C121_windows_elsewhere_partial",
    "Zwt.C121_windows_false",
    "Zwt.C121_repeat_false"
   ],
   "note": "False for directories: the output directory exists after the interruption, and the repetition reports that nothing was extracted (`C121_repeat_false`, `C121_repeat_reports_partial`). True for archives of files, new or overwritten; for directories (without links) the repetition under another name works whatever the first run left. The same on Windows, where directories with links are included (links are skipped)."
  },
  {
   "property": "C122",
   "status": "proved",
   "theorems": [
    "Zwt.C122_later_tree",
    "Zwt.C122_later_links",
    "Zwt.C122_later_file",
    "Zwt.C122_windows_later",
    "Zwt.C122_windows_later_file"
   ],
   "note": "Directories with links on Unix under the conditions of C39; working directory as at first; files that are not empty (C40); on Windows earlier runs that end in a fault of the program (C108) are not included."
  },
  {
   "property": "C123",
   "status": "partial",
   "theorems": [
    "Zwt.C123_full_disk_directory_partial",
    "Zwt.C123_full_disk_extras_partial",
    "Zwt.C123_full_disk_file_partial",
    "Zwt.C123_full_disk_false",
    "Zwt.C123_compressdir_partial",
    "Zwt.C123_compressdir_false"
   ],
   "note": "Reporting is false: the callback ignores the result of fwrite and the program exits with the status of the library (C123_full_disk_false, C123_compressdir_false). Proved: nothing else changes and the file has the library's output with omissions, a beginning of it if the disk fills up (so C119 and C120 tell what can be recovered). fclose is not modelled as a separate write."
  },
  {
   "property": "C13",
   "status": "proved",
   "theorems": [
    "Zwt.C13_header_any_split",
    "Zwt.C13_no_callback_before_header"
   ],
   "note": ""
  },
  {
   "property": "C14",
   "status": "proved",
   "theorems": [
    "Zwt.C14_file_payload"
   ],
   "note": "'all of the payload' is conditional on the last inflate call leaving room in the buffer, or inflate withholding nothing at the end of the input (see C11)"
  },
  {
   "property": "C15",
   "status": "proved",
   "theorems": [
    "Zwt.C15_unknown_kind_inert"
   ],
   "note": ""
  },
  {
   "property": "C16",
   "status": "partial",
   "theorems": [
    "Zwt.C16_version_rejected_false",
    "Zwt.C16_version_rejected_partial"
   ],
   "note": "no callback ever; but feeding on after a header of another version can fail an assertion"
  },
  {
   "property": "C17",
   "status": "proved",
   "theorems": [
    "Zwt.C17_directory_stream_meaning",
    "Zwt.C17_directory_stream_meaning_flushed",
    "Zwt.C17_directory_archive"
   ],
   "note": ""
  },
  {
   "property": "C18",
   "status": "proved",
   "theorems": [
    "Zwt.C18_split_independence"
   ],
   "note": ""
  },
  {
   "property": "C19",
   "status": "partial",
   "theorems": [
    "Zwt.C19_symlink_targets_whole_false",
    "Zwt.C19_symlink_targets_whole_partial"
   ],
   "note": "false of the code: a target cut by a buffer boundary loses its beginning; partial: suffix always, exact without a cut"
  },
  {
   "property": "C20",
   "status": "proved",
   "theorems": [
    "Zwt.C20_parser_memory_safety"
   ],
   "note": ""
  },
  {
   "property": "C21",
   "status": "proved",
   "theorems": [
    "Zwt.C21_callback_protocol"
   ],
   "note": ""
  },
  {
   "property": "C22",
   "status": "proved",
   "theorems": [
    "Zwt.C22_errors_final"
   ],
   "note": ""
  },
  {
   "property": "C23",
   "status": "proved",
   "theorems": [
    "Zwt.C23_truncation_prefix"
   ],
   "note": ""
  },
  {
   "property": "C24",
   "status": "proved",
   "theorems": [
    "Zwt.C24_recursion_depth"
   ],
   "note": ""
  },
  {
   "property": "C25",
   "status": "proved",
   "theorems": [
    "Zwt.C25_unknown_record_skipped"
   ],
   "note": ""
  },
  {
   "property": "C26",
   "status": "partial",
   "theorems": [
    "Zwt.C26_balanced_directories_partial",
    "Zwt.C26_written_archives_partial",
    "Zwt.C26_balanced_directories_false"
   ],
   "note": "proved for everything the compression functions write when they return 0; false for crafted archives"
  },
  {
   "property": "C27",
   "status": "proved",
   "theorems": [
    "Zwt.C27_directory_archive",
    "Zwt.C27_encoding_determines_tree",
    "Zwt.C27_reads_back"
   ],
   "note": ""
  },
  {
   "property": "C28",
   "status": "proved",
   "theorems": [
    "Zwt.C28_dots_never_shown",
    "Zwt.C28_archived_iff_accepted",
    "Zwt.C28_refused_pruned"
   ],
   "note": ""
  },
  {
   "property": "C29",
   "status": "proved",
   "theorems": [
    "Zwt.C29_stop_is_final",
    "Zwt.C29_stop_archive"
   ],
   "note": ""
  },
  {
   "property": "C30",
   "status": "proved",
   "theorems": [
    "Zwt.C30_input_error_reported",
    "Zwt.C30_two_means_input_error"
   ],
   "note": ""
  },
  {
   "property": "C31",
   "status": "partial",
   "theorems": [
    "Zwt.C31_root_buffers",
    "Zwt.C31_nested_buffers_partial",
    "Zwt.C31_nested_mode_false"
   ],
   "note": "root variant proved; nested variant ignores the mode of the buffer"
  },
  {
   "property": "C32",
   "status": "partial",
   "theorems": [
    "Zwt.C32_size_change_harmless_false",
    "Zwt.C32_size_change_harmless_partial"
   ],
   "note": "false of the code: later entries are lost; partial: entries before the changed file are unaffected"
  },
  {
   "property": "C33",
   "status": "partial",
   "theorems": [
    "Zwt.C33_invalid_level_partial",
    "Zwt.C33_valid_level",
    "Zwt.C33_invalid_level_false"
   ],
   "note": "False of ZlibWtCompressFileEx (null session used for every refused level); proved of session creation and the directory functions."
  },
  {
   "property": "C34",
   "status": "partial",
   "theorems": [
    "Zwt.C34_compress_file_partial",
    "Zwt.C34_compress_directory_partial",
    "Zwt.C34_compress_directory_false",
    "Zwt.C34_steps_in_order",
    "Zwt.C34_extract_partial",
    "Zwt.C34_extract_file_partial",
    "Zwt.C34_extract_directory_false",
    "Zwt.C34_extract_cut_false",
    "Zwt.C34_extract_session_false",
    "Zwt.C34_runs_partial"
   ],
   "note": "False: both buffers leak when the session cannot be created, the output path leaks in every directory extraction, the descriptor of a cut file, the session when inflateInit fails. Proved: nothing else leaks and nothing is released twice; every extraction of the file-system model has such an account, which ends with exactly the path copy (directories) and the descriptor of a cut file."
  },
  {
   "property": "C35",
   "status": "partial",
   "theorems": [
    "Zwt.C35_source_paths_false",
    "Zwt.C35_source_paths_partial"
   ],
   "note": "false of the code for paths over 4094 bytes; proved below"
  },
  {
   "property": "C36",
   "status": "partial",
   "theorems": [
    "Zwt.C36_missing_directory_reported_false",
    "Zwt.C36_unlistable_returns_zero"
   ],
   "note": "false of the code: always 0 with an empty archive"
  },
  {
   "property": "C37",
   "status": "proved",
   "theorems": [
    "Zwt.C37_archive_size",
    "Zwt.C37_beyond_ignored"
   ],
   "note": ""
  },
  {
   "property": "C38",
   "status": "proved",
   "theorems": [
    "Zwt.C38_mkdir_recurse_creates",
    "Zwt.C38_mkdir_recurse_exists"
   ],
   "note": ""
  },
  {
   "property": "C39",
   "status": "partial",
   "theorems": [
    "Zwt.C39_round_trip_partial",
    "Zwt.C39_round_trip_links_partial",
    "Zwt.C39_round_trip_small_partial",
    "Zwt.C39_round_trip_any_partial",
    "Zwt.C39_large_links_false",
    "Zwt.C39_link_end_false",
    "Zwt.C39_empty_directory_false",
    "Zwt.C39_read_only_directory_false"
   ],
   "note": "false of the code for an empty directory, for read-only subdirectories and for link targets cut by or ending with a 512 KiB buffer; proved otherwise, end to end, for runs in which the last inflate call leaves room or, alternatively, if inflate withholds nothing at the end of the archive (every inflate call returns Z_OK if inflate gives up only on ended or defective streams); trees with links additionally for runs without undefined behaviour whose buffers do not cut a link target, without such conditions if tree and archive are below 512 KiB, and for trees of any size with only the beginnings of link targets lost"
  },
  {
   "property": "C40",
   "status": "partial",
   "theorems": [
    "Zwt.C40_round_trip_partial",
    "Zwt.C40_empty_file_false"
   ],
   "note": "false of the code for the empty file; proved for every other content, for runs in which the last inflate call leaves room or, alternatively, if inflate withholds nothing at the end of the archive (every inflate call returns Z_OK if inflate gives up only on ended or defective streams)"
  },
  {
   "property": "C41",
   "status": "partial",
   "theorems": [
    "Zwt.C41_unavailable_outdir_false",
    "Zwt.C41_unavailable_outdir_partial",
    "Zwt.C41_existing_output_partial"
   ],
   "note": "false of the code: entries are created at the root of the file system; partial: 'none' is reported"
  },
  {
   "property": "C42",
   "status": "partial",
   "theorems": [
    "Zwt.C42_confined_false",
    "Zwt.C42_confined_extra_end_false",
    "Zwt.C42_confined_link_false",
    "Zwt.C42_link_chdir_false",
    "Zwt.C42_confined_partial",
    "Zwt.C42_links_partial",
    "Zwt.C42_directory_tree_partial",
    "Zwt.C42_file_archive_partial"
   ],
   "note": "false of the code for crafted archives (names with '../', unmatched directory ends, paths through links of the archive) and with links if the working directory cannot be returned to; proved for entries with plain names and links no entry leads through, in particular for archives of all directory trees, and for file archives"
  },
  {
   "property": "C43",
   "status": "partial",
   "theorems": [
    "Zwt.C43_failure_reported_false",
    "Zwt.C43_refused_entry_reported_false",
    "Zwt.C43_failure_reported_partial",
    "Zwt.C43_read_error_partial"
   ],
   "note": "false of the code for truncated archives and refused entries; partial: bad headers, unavailable output and read errors are reported"
  },
  {
   "property": "C44",
   "status": "partial",
   "theorems": [
    "Zwt.C44_exact_content_false",
    "Zwt.C44_full_disk_false",
    "Zwt.C44_exact_content_partial",
    "Zwt.C44_unreliable_disk_partial"
   ],
   "note": "false of the code for directory archives that name a file twice (no truncation) and on a full disk (lost bytes are not reported); proved for file archives; on any disk the file holds only bytes of the payload in their order"
  },
  {
   "property": "C45",
   "status": "partial",
   "theorems": [
    "Zwt.C45_cwd_preserved_false",
    "Zwt.C45_cwd_preserved_partial"
   ],
   "note": "false of the code if a directory above the working directory cannot be entered; proved otherwise"
  },
  {
   "property": "C46",
   "status": "partial",
   "theorems": [
    "Zwt.C46_unwritable_output_false",
    "Zwt.C46_unwritable_output_partial"
   ],
   "note": "false of the code: writes through a null FILE pointer"
  },
  {
   "property": "C47",
   "status": "partial",
   "theorems": [
    "Zwt.C47_options_partial",
    "Zwt.C47_names",
    "Zwt.C47_reading",
    "Zwt.C47_options_false"
   ],
   "note": "false of the code for names that do not start with a dash, which can be taken as the value of another option; proved for tables whose names start with a dash and that take no value in front, on every argument vector that parses; for all tables, the result is that of reading the arguments from left to right"
  },
  {
   "property": "C48",
   "status": "proved",
   "theorems": [
    "Zwt.C48_subsequence"
   ],
   "note": ""
  },
  {
   "property": "C49",
   "status": "partial",
   "theorems": [
    "Zwt.C49_inside_partial",
    "Zwt.C49_inside_false"
   ],
   "note": "false of the code: arguments that are no option at the end of the vector make the parser dereference the null pointer behind it; proved for vectors that end in an option or its value"
  },
  {
   "property": "C50",
   "status": "partial",
   "theorems": [
    "Zwt.C50_freed_once_partial",
    "Zwt.C50_redefinition_false"
   ],
   "note": "false of the code when an option is defined again; proved if the names of all options are distinct"
  },
  {
   "property": "C51",
   "status": "proved",
   "theorems": [
    "Zwt.C51_aligned",
    "Zwt.C51_lines"
   ],
   "note": ""
  },
  {
   "property": "C52",
   "status": "partial",
   "theorems": [
    "Zwt.C52_layout_partial",
    "Zwt.C52_layout_unix",
    "Zwt.C52_round_trip_partial",
    "Zwt.C52_layout_false"
   ],
   "note": "false of the code if setting the icon makes the executable larger than the limit; proved otherwise, and for all executables where setting an icon changes nothing; packing and running composed with C39 under its hypotheses"
  },
  {
   "property": "C53",
   "status": "partial",
   "theorems": [
    "Zwt.C53_packed_entries",
    "Zwt.C53_not_packed_partial",
    "Zwt.C53_not_packed_false"
   ],
   "note": "false of the code if a file with the same name is listed earlier in a subdirectory; the entries packed are determined exactly for every tree; neither is packed if no other entry has the name"
  },
  {
   "property": "C54",
   "status": "partial",
   "theorems": [
    "Zwt.C54_exit_status_partial",
    "Zwt.C54_written",
    "Zwt.C54_exit_status_false",
    "Zwt.C54_crash"
   ],
   "note": "false of the code: exits 0 without compressing anything if only a configuration file is given, and crashes on a directory given as a positional argument; proved otherwise for every argument vector that parses"
  },
  {
   "property": "C55",
   "status": "partial",
   "theorems": [
    "Zwt.C55_unix",
    "Zwt.C55_windows_partial",
    "Zwt.C55_windows_false"
   ],
   "note": "false of the code for icon files shorter than 22 bytes; proved otherwise"
  },
  {
   "property": "C56",
   "status": "proved",
   "theorems": [
    "Zwt.C56_buffer_changes_harmless",
    "Zwt.C56_directory"
   ],
   "note": ""
  },
  {
   "property": "C57",
   "status": "partial",
   "theorems": [
    "Zwt.C57_mkdir_recurse_trailing_slash_false",
    "Zwt.C57_mkdir_trailing_slash_partial",
    "Zwt.C57_several",
    "Zwt.C57_extraction"
   ],
   "note": "false of the code if an ancestor is missing: C57_several shows the failure for every such path (2 to 61 missing directories), C57_extraction that no directory archive can be extracted there; holds if only the last component is missing"
  },
  {
   "property": "C58",
   "status": "proved",
   "theorems": [
    "Zwt.C58_programs",
    "Zwt.C58_exit_status_ignores_programs",
    "Zwt.C58_disk",
    "Zwt.C58_unreadable"
   ],
   "note": "the last two on a disk, for every behaviour of the system; removing a directory must leave a tree"
  },
  {
   "property": "C59",
   "status": "proved",
   "theorems": [
    "Zwt.C59_accepts_own_output"
   ],
   "note": "assumes that inflate gives up only on ended or defective streams"
  },
  {
   "property": "C60",
   "status": "partial",
   "theorems": [
    "Zwt.C60_streaming_round_trip_partial",
    "Zwt.C60_streaming_round_trip_false"
   ],
   "note": "false of the code when the last compress callback got a full buffer; proved otherwise, if the last inflate call leaves room or inflate withholds nothing at the end of the archive"
  },
  {
   "property": "C61",
   "status": "proved",
   "theorems": [
    "Zwt.C61_nothing_removed"
   ],
   "note": ""
  },
  {
   "property": "C62",
   "status": "proved",
   "theorems": [
    "Zwt.C62_no_special_permissions"
   ],
   "note": ""
  },
  {
   "property": "C63",
   "status": "proved",
   "theorems": [
    "Zwt.C63_extraction_ends"
   ],
   "note": "assumes that every call of the operating system and of zlib returns"
  },
  {
   "property": "C64",
   "status": "proved",
   "theorems": [
    "Zwt.C64_bounded_by_archive"
   ],
   "note": ""
  },
  {
   "property": "C65",
   "status": "proved",
   "theorems": [
    "Zwt.C65_success_means_output",
    "Zwt.C65_backslash_false"
   ],
   "note": "the second theorem shows why paths with backslashes are excluded"
  },
  {
   "property": "C66",
   "status": "partial",
   "theorems": [
    "Zwt.C66_directory_streaming_partial",
    "Zwt.C66_directory_streaming_false"
   ],
   "note": "false of the code for link targets across the end of an output buffer, and for full buffers (C08, C11); proved otherwise"
  },
  {
   "property": "C67",
   "status": "partial",
   "theorems": [
    "Zwt.C67_written_alike_partial",
    "Zwt.C67_same_tree_partial",
    "Zwt.C67_nothing_but_the_tree_false"
   ],
   "note": "false of the code: header and records hold uninitialised memory; proved: on every file system nothing else depends on it, and the trees are the same"
  },
  {
   "property": "C68",
   "status": "partial",
   "theorems": [
    "Zwt.C68_root_buffers_partial",
    "Zwt.C68_nested_buffers_partial",
    "Zwt.C68_same_name_false",
    "Zwt.C68_slash_false",
    "Zwt.C68_nested_buffers_false"
   ],
   "note": "false of the code for names that occur twice or contain a slash (root variant) and for ordinary users (nested variant); proved for distinct plain names, resp. for users who may use directories of mode 0"
  },
  {
   "property": "C69",
   "status": "proved",
   "theorems": [
    "Zwt.C69_read_errors_reported"
   ],
   "note": "that the output is complete is claimed, as in C08, for a last piece of output that does not fill the buffer"
  },
  {
   "property": "C70",
   "status": "partial",
   "theorems": [
    "Zwt.C70_compressdir_round_trip_partial",
    "Zwt.C70_any_partial",
    "Zwt.C70_compressdir_copy_partial",
    "Zwt.C70_empty_directory_false"
   ],
   "note": "false of the code for empty directories; proved otherwise under the hypotheses of C39, and on one disk (archive outside its source) under those of C82"
  },
  {
   "property": "C71",
   "status": "partial",
   "theorems": [
    "Zwt.C71_exit_status_partial",
    "Zwt.C71_exit_status_false"
   ],
   "note": "false of the code: everything that fails after the download exits 0; proved: what the exit status does tell"
  },
  {
   "property": "C72",
   "status": "partial",
   "theorems": [
    "Zwt.C72_memory_partial",
    "Zwt.C72_root_false",
    "Zwt.C72_long_name_false"
   ],
   "note": "false of the code for every step file that names a root (unterminated arrays) and for long package names; proved otherwise"
  },
  {
   "property": "C73",
   "status": "partial",
   "theorems": [
    "Zwt.C73_effects_partial",
    "Zwt.C73_cut_root_false",
    "Zwt.C73_cut_command_false"
   ],
   "note": "false of the code for step files and command lines that exceed the buffers; proved otherwise, if the unterminated arrays happen to be followed by a NUL"
  },
  {
   "property": "C74",
   "status": "proved",
   "theorems": [
    "Zwt.C74_layout",
    "Zwt.C74_directory_written",
    "Zwt.C74_file_written",
    "Zwt.C74_read",
    "Zwt.C74_directory_read"
   ],
   "note": ""
  },
  {
   "property": "C75",
   "status": "proved",
   "theorems": [
    "Zwt.C75_interrupted_directory",
    "Zwt.C75_interrupted_file"
   ],
   "note": ""
  },
  {
   "property": "C76",
   "status": "proved",
   "theorems": [
    "Zwt.C76_interrupted_tree",
    "Zwt.C76_interrupted_file",
    "Zwt.C76_interrupted_links"
   ],
   "note": "With links (C76_interrupted_links) what is left is a part of the tree as it is extracted: link targets that do not lie in one output buffer lack their beginning (C39_large_links_false)."
  },
  {
   "property": "C77",
   "status": "partial",
   "theorems": [
    "Zwt.C77_concurrent_partial",
    "Zwt.C77_concurrent_end_partial",
    "Zwt.C77_one_link_partial",
    "Zwt.C77_concurrent_link_false",
    "Zwt.C77_concurrent_parent_false"
   ],
   "note": "False: the working directory is changed while a link is made, and missing common parents are created in a race. Proved for any number of extractions without links to places none of which is inside another, and if one of them has links and the others have absolute output paths (C77_one_link_partial)."
  },
  {
   "property": "C78",
   "status": "proved",
   "theorems": [
    "Zwt.C78_undisturbed",
    "Zwt.C78_absolute",
    "Zwt.C78_links"
   ],
   "note": ""
  },
  {
   "property": "C79",
   "status": "partial",
   "theorems": [
    "Zwt.C79_copy_partial",
    "Zwt.C79_copy_any_partial",
    "Zwt.C79_exact",
    "Zwt.C79_copy_of_copy",
    "Zwt.C79_empty_directory_false"
   ],
   "note": "proved for sources that can be read entirely, with something accepted, directories the target user may add to, an archive whose last output piece does not fill the 512 KiB buffer, and (with links) below 512 KiB; false for an empty directory (witness), the other exceptions as for C39"
  },
  {
   "property": "C80",
   "status": "partial",
   "theorems": [
    "Zwt.C80_failing_calls_partial",
    "Zwt.C80_links_partial",
    "Zwt.C80_failing_calls_false",
    "Zwt.C80_links_false",
    "Zwt.C80_directory_mode_false"
   ],
   "note": "False of the code if memory runs out (an allocation failing at a directory entry shifts the current directory: its files land in the parent, later entries outside the output directory; C80_failing_calls_false), and with links if the return to the old working directory is refused (C80_links_false, for a relative output path). Proved for trees without links whose output directory can be created, with memory for the paths: every other failure pattern, and at every point in time; the same for every tree if the output path is absolute (C80_links_partial). A directory may get the mode of a directory inside it (C80_directory_mode_false)."
  },
  {
   "property": "C81",
   "status": "partial",
   "theorems": [
    "Zwt.C81_session_errors_partial",
    "Zwt.C81_creation_errors_partial",
    "Zwt.C81_file_errors_false"
   ],
   "note": "Proved for sessions and their creation, for every compressor. False for the functions that compress files and directories: they ignore the return codes of the compress calls (witness: a compressor that fails after the header; the function returns 0)."
  },
  {
   "property": "C82",
   "status": "partial",
   "theorems": [
    "Zwt.C82_copy_directory_partial",
    "Zwt.C82_copy_any_partial",
    "Zwt.C82_copy_file_partial",
    "Zwt.C82_unusable",
    "Zwt.C82_extra_mode_false",
    "Zwt.C82_extra_files_false"
   ],
   "note": "Copying proved with the limits of C79 and C40 (empty directories and files, directories the user cannot enter, last output piece of 512 KiB), archive outside the source. False for the extra files: with d their mode is uninitialised memory; with e an ordinary user gets none of them (directories without permissions), though both runs exit with 0."
  },
  {
   "property": "C83",
   "status": "proved",
   "theorems": [
    "Zwt.C83_same_copy"
   ],
   "note": "Stated for sources and archives below 512 KiB and a directory of which something is accepted; what happens outside these limits is C79/C39."
  },
  {
   "property": "C84",
   "status": "partial",
   "theorems": [
    "Zwt.C84_lowlevel_partial",
    "Zwt.C84_archive_partial",
    "Zwt.C84_input_false",
    "Zwt.C84_unused_false"
   ],
   "note": "The output buffer is never written to. The input is not read after 0 has been returned, for low-level sessions, and for archive sessions if inflate has reported no error and the version is 0. False for archives of another version: the call returns 0 with input left over, which destroying the session reads. A low-level session destroyed unused passes uninitialised next_out and avail_out to inflate."
  },
  {
   "property": "C85",
   "status": "partial",
   "theorems": [
    "Zwt.C85_stack_partial",
    "Zwt.C85_tree_partial",
    "Zwt.C85_stack_false"
   ],
   "note": "True of archives of trees (and of any beginning of one), whatever fails; for other archives every request of a run that ends is bounded by the output path plus the decompressed archive. False: a record may announce a name of 2^32-1 bytes without storing it; the size goes to alloca unchecked, so that 176 bytes of archive ask for 4 GiB of stack."
  },
  {
   "property": "C86",
   "status": "partial",
   "theorems": [
    "Zwt.C86_copy_directory_partial",
    "Zwt.C86_copy_file_partial",
    "Zwt.C86_descriptors",
    "Zwt.C86_status",
    "Zwt.C86_unusable",
    "Zwt.C86_links_false",
    "Zwt.C86_status_false",
    "Zwt.C86_root_false",
    "Zwt.C86_long_path_false",
    "Zwt.C86_output_false"
   ],
   "note": "True: files and directories are recreated at a new name, and nothing else changes. False: links become empty files, each leaving a descriptor open; extraction always exits with 1; when the output directory exists already, the directories of the archive are created in the root of the file system, a path of 4095 bytes loses its last byte, and when the output cannot be created, the program has undefined behaviour."
  },
  {
   "property": "C87",
   "status": "partial",
   "theorems": [
    "Zwt.C87_copy_partial",
    "Zwt.C87_copy_any_partial",
    "Zwt.C87_backslash_false",
    "Zwt.C87_no_slash_false",
    "Zwt.C87_root_false",
    "Zwt.C87_long_false"
   ],
   "note": "True for programs started by a path with a slash below the root and without backslashes, whose name and the name of the output file occur in one directory only. False otherwise: a program started by its name alone, from the root directory, or through a directory whose name has a backslash exits with 0 and packs nothing; one with 4191 bytes or more in its name is undefined. Removal of the extraction directory is a parameter (the POSIX version does not compile)."
  },
  {
   "property": "C88",
   "status": "partial",
   "theorems": [
    "Zwt.C88_all_or_nothing_partial",
    "Zwt.C88_too_deep",
    "Zwt.C88_any_depth_false",
    "Zwt.C88_left_behind_false"
   ],
   "note": "True for at most 62 missing directories. False beyond: with more than 62 nothing is created and -1 is reported; with exactly 63 the topmost one is created and stays."
  },
  {
   "property": "C89",
   "status": "partial",
   "theorems": [
    "Zwt.C89_elsewhere",
    "Zwt.C89_snapshot_partial",
    "Zwt.C89_small_partial",
    "Zwt.C89_endless",
    "Zwt.C89_ends_false",
    "Zwt.C89_corrupt_false"
   ],
   "note": "False: with 512 KiB of incompressible data listed before the output file the call never returns, the archive growing as fast as it is read; and if the stream is flushed between the size query and the read, the files listed after the output file are lost although 0 is returned. True for archives that fit into the stream's buffer; otherwise a run that ends has archived a beginning of the archive, with the size of a possibly shorter beginning."
  },
  {
   "property": "C90",
   "status": "partial",
   "theorems": [
    "Zwt.C90_released",
    "Zwt.C90_success_partial",
    "Zwt.C90_failure_partial",
    "Zwt.C90_other_size_false",
    "Zwt.C90_unread_false",
    "Zwt.C90_unstored_false",
    "Zwt.C90_short_false",
    "Zwt.C90_failure_false"
   ],
   "note": "False: neither the result of the read nor that of storing the resources is looked at (0 with the old or a random image), the size is always announced as 32 by 32, if the second resource is refused the first one is stored nevertheless, and of a file of less than 22 bytes memory outside the buffer is stored. True: everything is given back; the image is right after 0 if the read was complete and the resources could be stored; after a failure the description is as before."
  },
  {
   "property": "C91",
   "status": "partial",
   "theorems": [
    "Zwt.C91_neighbour_partial",
    "Zwt.C91_other_calls_false"
   ],
   "note": "False of every call by a name without a backslash (such as every call on other systems): the assertion fails before the arguments are looked at, or a null pointer is used. True of all other calls, including that the path fits into its buffer."
  },
  {
   "property": "C92",
   "status": "partial",
   "theorems": [
    "Zwt.C92_removed_partial",
    "Zwt.C92_confined_partial",
    "Zwt.C92_file",
    "Zwt.C92_self_extract",
    "Zwt.C92_link_false",
    "Zwt.C92_locked_false",
    "Zwt.C92_endless_false"
   ],
   "note": "False: if the directory is a symbolic link, the content of its target is deleted; directories their owner cannot read stay; below a path of 4094 bytes the cut path is the directory itself, and the recursion never ends. (As it stands the code for Unix does not compile: a missing brace and an undeclared name; modelled with both corrected.) True: a directory with paths within 4094 bytes that its owner can read and change is removed completely and nothing else; whatever fails, nothing outside a directory that is not a link is changed, and nothing inside but by removal. C92_self_extract gives the assumption of C87 on the removal."
  },
  {
   "property": "C93",
   "status": "partial",
   "theorems": [
    "Zwt.C93_nothing_left_partial",
    "Zwt.C93_copy_removed",
    "Zwt.C93_other_code_false"
   ],
   "note": "False if the first program cannot be started or exits with another code than 0: the directory stays, though the self extractor exits with 0. True, for what C87 and C92 cover, if the first program exits with 0 and itself changes nothing: the whole second run leaves the disk as it was, without an earlier extraction directory."
  },
  {
   "property": "C94",
   "status": "partial",
   "theorems": [
    "Zwt.C94_current_partial",
    "Zwt.C94_same_parser",
    "Zwt.C94_dir_end_false",
    "Zwt.C94_deepness_false"
   ],
   "note": "True for name and type in the announcement of an entry, in the pieces of a file, at its end and in a link. False at the end of a directory: the name is that of the entry announced last, not of the directory that ends. False for the depth: it is 0 always."
  },
  {
   "property": "C95",
   "status": "proved",
   "theorems": [
    "Zwt.C95_compress_destinations",
    "Zwt.C95_decompress_destinations",
    "Zwt.C95_decompress_same"
   ],
   "note": "Callback and user data are one value of an arbitrary type; callbacks may set another callback depending on the whole history. Callbacks that change the buffer are not covered (C56, C84 for changes between calls)."
  },
  {
   "property": "C96",
   "status": "partial",
   "theorems": [
    "Zwt.C96_depth_partial",
    "Zwt.C96_depth_path_partial",
    "Zwt.C96_ends_partial",
    "Zwt.C96_endless_false"
   ],
   "note": "False for directories below a path of 4094 bytes: the path is cut and names the same directory again, without end (C96_endless_false). Holds, with the bound, for every other content. The limit of the process on open directories is not modelled."
  },
  {
   "property": "C97",
   "status": "partial",
   "theorems": [
    "Zwt.C97_shared_directories_partial",
    "Zwt.C97_user_false",
    "Zwt.C97_large_false"
   ],
   "note": "False for ordinary users: a directory in the path of a buffer is made with mode 0, and what the tree has in it is lost with success reported (C97_user_false). False for archives of 512 KiB and more: a directory that exists is an error that ends extraction after the first 512 KiB, with success reported (C97_large_false). Holds for smaller archives and the superuser."
  },
  {
   "property": "C98",
   "status": "partial",
   "theorems": [
    "Zwt.C98_finished_partial",
    "Zwt.C98_finished_false",
    "Zwt.C98_archive_false"
   ],
   "note": "False: the call that meets the end returns Z_STREAM_END without passing on the last output (C98_finished_false); extraction of an archive whose stream is finished can yield nothing and report success (C98_archive_false). Proved: what the callback got, followed by what is in the output buffer, is the plaintext, whatever follows the end."
  },
  {
   "property": "C99",
   "status": "partial",
   "theorems": [
    "Zwt.C99_accepted_partial",
    "Zwt.C99_complete_false"
   ],
   "note": "False for every session: sessions never finish their stream, and no decoder ever reports its end (C99_complete_false). Proved: the output is accepted by any decoder with every call returning 0, and yields the header and the data (all of it under the conditions on last pieces known from C11 and C60)."
  }
 ]
}