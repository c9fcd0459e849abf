#!/usr/bin/env python3
"""Writes MANIFEST.json: (property, status, theorems, note)."""
import json, os
C = []
def c(prop, status, theorems, note=""):
    C.append({"property": prop, "status": status, "theorems": ["Zwt." + t for t in theorems], "note": note})
P, Q = "proved", "partial"
c("C01", P, ["C01_padding", "C01_wraps"], "C01_wraps shows the excluded lengths do wrap")
c("C02", P, ["C02_header_roundtrip", "C02_header_surjective", "C02_every_archive"])
c("C03", P, ["C03_item_roundtrip"])
c("C04", P, ["C04_compress_hands_over_everything"])
c("C05", P, ["C05_compress_terminates"])
c("C06", Q, ["C06_degenerate_buffer_false", "C06_degenerate_buffer_false_later", "C06_degenerate_buffer_partial"],
  "false of the code: a size that is 0 modulo 2^32 makes the loop endless")
c("C07", Q, ["C07_large_inputs_false", "C07_large_inputs_partial"], "false of the code: only the length modulo 2^32 is handed over")
c("C08", Q, ["C08_closing_loses_nothing_false", "C08_closing_loses_nothing_partial"],
  "false of the code when the last output chunk fills the buffer exactly; partial: otherwise nothing is lost")
c("C09", P, ["C09_faithful_prefix"])
c("C10", P, ["C10_decompress_terminates"])
c("C11", Q, ["C11_nothing_withheld_false", "C11_standard_false", "C11_nothing_withheld_partial"], "false of the code: loop stops when the input is used up even if the buffer was filled (C11_standard_false: for the real format and bytes that zlib writes)")
c("C12", Q, ["C12_reports_zlib_errors_lowlevel_partial", "C12_reports_zlib_errors_false", "C12_reports_zlib_errors_partial"],
  "false of the code in the call that completes the archive header; proved for low-level sessions and for archive sessions after the first callback")
c("C13", P, ["C13_header_any_split", "C13_no_callback_before_header"])
c("C14", P, ["C14_file_payload"], "'all of the payload' is conditional on the last inflate call leaving room in the buffer, or inflate withholding nothing at the end of the input (see C11)")
c("C15", P, ["C15_unknown_kind_inert"])
c("C16", Q, ["C16_version_rejected_false", "C16_version_rejected_partial"], "no callback ever; but feeding on after a header of another version can fail an assertion")
c("C56", P, ["C56_buffer_changes_harmless", "C56_directory"])
c("C17", P, ["C17_directory_stream_meaning", "C17_directory_stream_meaning_flushed", "C17_directory_archive"])
c("C18", P, ["C18_split_independence"])
c("C19", Q, ["C19_symlink_targets_whole_false", "C19_symlink_targets_whole_partial"],
  "false of the code: a target cut by a buffer boundary loses its beginning; partial: suffix always, exact without a cut")
c("C20", P, ["C20_parser_memory_safety"])
c("C21", P, ["C21_callback_protocol"])
c("C22", P, ["C22_errors_final"])
c("C23", P, ["C23_truncation_prefix"])
c("C24", P, ["C24_recursion_depth"])
c("C25", P, ["C25_unknown_record_skipped"])
c("C26", Q, ["C26_balanced_directories_partial", "C26_written_archives_partial", "C26_balanced_directories_false"],
  "proved for everything the compression functions write when they return 0; false for crafted archives")
c("C27", P, ["C27_directory_archive", "C27_encoding_determines_tree", "C27_reads_back"])
c("C28", P, ["C28_dots_never_shown", "C28_archived_iff_accepted", "C28_refused_pruned"])
c("C29", P, ["C29_stop_is_final", "C29_stop_archive"])
c("C30", P, ["C30_input_error_reported", "C30_two_means_input_error"])
c("C31", Q, ["C31_root_buffers", "C31_nested_buffers_partial", "C31_nested_mode_false"],
  "root variant proved; nested variant ignores the mode of the buffer")
c("C32", Q, ["C32_size_change_harmless_false", "C32_size_change_harmless_partial"],
  "false of the code: later entries are lost; partial: entries before the changed file are unaffected")
c("C35", Q, ["C35_source_paths_false", "C35_source_paths_partial"], "false of the code for paths over 4094 bytes; proved below")
c("C36", Q, ["C36_missing_directory_reported_false", "C36_unlistable_returns_zero"], "false of the code: always 0 with an empty archive")
c("C37", P, ["C37_archive_size", "C37_beyond_ignored"])
c("C38", P, ["C38_mkdir_recurse_creates", "C38_mkdir_recurse_exists"])
c("C41", Q, ["C41_unavailable_outdir_false", "C41_unavailable_outdir_partial", "C41_existing_output_partial"],
  "false of the code: entries are created at the root of the file system; partial: 'none' is reported")
c("C42", Q, ["C42_confined_false", "C42_confined_extra_end_false", "C42_confined_link_false", "C42_link_chdir_false", "C42_confined_partial", "C42_links_partial", "C42_directory_tree_partial", "C42_file_archive_partial"],
  "false of the code for crafted archives (names with '../', unmatched directory ends, paths through links of the archive) and with links if the working directory cannot be returned to; proved for entries with plain names and links no entry leads through, in particular for archives of all directory trees, and for file archives")
c("C43", Q, ["C43_failure_reported_false", "C43_refused_entry_reported_false", "C43_failure_reported_partial", "C43_read_error_partial"],
  "false of the code for truncated archives and refused entries; partial: bad headers, unavailable output and read errors are reported")
c("C44", Q, ["C44_exact_content_false", "C44_full_disk_false", "C44_exact_content_partial", "C44_unreliable_disk_partial"],
  "false of the code for directory archives that name a file twice (no truncation) and on a full disk (lost bytes are not reported); proved for file archives; on any disk the file holds only bytes of the payload in their order")
c("C45", Q, ["C45_cwd_preserved_false", "C45_cwd_preserved_partial"],
  "false of the code if a directory above the working directory cannot be entered; proved otherwise")
c("C46", Q, ["C46_unwritable_output_false", "C46_unwritable_output_partial"], "false of the code: writes through a null FILE pointer")
c("C57", Q, ["C57_mkdir_recurse_trailing_slash_false", "C57_mkdir_trailing_slash_partial", "C57_several", "C57_extraction"], "false of the code if an ancestor is missing: C57_several shows the failure for every such path (2 to 61 missing directories), C57_extraction that no directory archive can be extracted there; holds if only the last component is missing")
c("C39", Q, ["C39_round_trip_partial", "C39_round_trip_links_partial", "C39_round_trip_small_partial", "C39_round_trip_any_partial", "C39_large_links_false", "C39_link_end_false", "C39_empty_directory_false", "C39_read_only_directory_false"],
  "false of the code for an empty directory, for read-only subdirectories and for link targets cut by or ending with a 512 KiB buffer; proved otherwise, end to end, for runs in which the last inflate call leaves room or, alternatively, if inflate withholds nothing at the end of the archive (every inflate call returns Z_OK if inflate gives up only on ended or defective streams); trees with links additionally for runs without undefined behaviour whose buffers do not cut a link target, without such conditions if tree and archive are below 512 KiB, and for trees of any size with only the beginnings of link targets lost")
c("C40", Q, ["C40_round_trip_partial", "C40_empty_file_false"],
  "false of the code for the empty file; proved for every other content, for runs in which the last inflate call leaves room or, alternatively, if inflate withholds nothing at the end of the archive (every inflate call returns Z_OK if inflate gives up only on ended or defective streams)")
c("C33", Q, ["C33_invalid_level_partial", "C33_valid_level", "C33_invalid_level_false"],
  "False of ZlibWtCompressFileEx (null session used for every refused level); proved of session creation and the directory functions.")
c("C34", Q, ["C34_compress_file_partial", "C34_compress_directory_partial", "C34_compress_directory_false",
             "C34_steps_in_order", "C34_extract_partial", "C34_extract_file_partial", "C34_extract_directory_false",
             "C34_extract_cut_false", "C34_extract_session_false", "C34_runs_partial"],
  "False: both buffers leak when the session cannot be created, the output path leaks in every directory extraction, the descriptor of a cut file, the session when inflateInit fails. Proved: nothing else leaks and nothing is released twice; every extraction of the file-system model has such an account, which ends with exactly the path copy (directories) and the descriptor of a cut file.")
c("C47", Q, ["C47_options_partial", "C47_names", "C47_reading", "C47_options_false"],
  "false of the code for names that do not start with a dash, which can be taken as the value of another option; proved for tables whose names start with a dash and that take no value in front, on every argument vector that parses; for all tables, the result is that of reading the arguments from left to right")
c("C48", P, ["C48_subsequence"])
c("C49", Q, ["C49_inside_partial", "C49_inside_false"],
  "false of the code: arguments that are no option at the end of the vector make the parser dereference the null pointer behind it; proved for vectors that end in an option or its value")
c("C50", Q, ["C50_freed_once_partial", "C50_redefinition_false"],
  "false of the code when an option is defined again; proved if the names of all options are distinct")
c("C51", P, ["C51_aligned", "C51_lines"])
c("C52", Q, ["C52_layout_partial", "C52_layout_unix", "C52_round_trip_partial", "C52_layout_false"],
  "false of the code if setting the icon makes the executable larger than the limit; proved otherwise, and for all executables where setting an icon changes nothing; packing and running composed with C39 under its hypotheses")
c("C53", Q, ["C53_packed_entries", "C53_not_packed_partial", "C53_not_packed_false"],
  "false of the code if a file with the same name is listed earlier in a subdirectory; the entries packed are determined exactly for every tree; neither is packed if no other entry has the name")
c("C54", Q, ["C54_exit_status_partial", "C54_written", "C54_exit_status_false", "C54_crash"],
  "false of the code: exits 0 without compressing anything if only a configuration file is given, and crashes on a directory given as a positional argument; proved otherwise for every argument vector that parses")
c("C55", Q, ["C55_unix", "C55_windows_partial", "C55_windows_false"],
  "false of the code for icon files shorter than 22 bytes; proved otherwise")
c("C58", P, ["C58_programs", "C58_exit_status_ignores_programs", "C58_disk", "C58_unreadable"],
  "the last two on a disk, for every behaviour of the system; removing a directory must leave a tree")
c("C59", P, ["C59_accepts_own_output"], "assumes that inflate gives up only on ended or defective streams")
c("C60", Q, ["C60_streaming_round_trip_partial", "C60_streaming_round_trip_false"],
  "false of the code when the last compress callback got a full buffer; proved otherwise, if the last inflate call leaves room or inflate withholds nothing at the end of the archive")
c("C61", P, ["C61_nothing_removed"])
c("C62", P, ["C62_no_special_permissions"])
c("C63", P, ["C63_extraction_ends"], "assumes that every call of the operating system and of zlib returns")
c("C64", P, ["C64_bounded_by_archive"])
c("C65", P, ["C65_success_means_output", "C65_backslash_false"],
  "the second theorem shows why paths with backslashes are excluded")
c("C66", Q, ["C66_directory_streaming_partial", "C66_directory_streaming_false"],
  "false of the code for link targets across the end of an output buffer, and for full buffers (C08, C11); proved otherwise")
c("C67", Q, ["C67_written_alike_partial", "C67_same_tree_partial", "C67_nothing_but_the_tree_false"],
  "false of the code: header and records hold uninitialised memory; proved: on every file system nothing else depends on it, and the trees are the same")
c("C68", Q, ["C68_root_buffers_partial", "C68_nested_buffers_partial", "C68_same_name_false", "C68_slash_false", "C68_nested_buffers_false"],
  "false of the code for names that occur twice or contain a slash (root variant) and for ordinary users (nested variant); proved for distinct plain names, resp. for users who may use directories of mode 0")
c("C69", P, ["C69_read_errors_reported"],
  "that the output is complete is claimed, as in C08, for a last piece of output that does not fill the buffer")
c("C70", Q, ["C70_compressdir_round_trip_partial", "C70_any_partial", "C70_compressdir_copy_partial", "C70_empty_directory_false"],
  "false of the code for empty directories; proved otherwise under the hypotheses of C39, and on one disk (archive outside its source) under those of C82")
c("C71", Q, ["C71_exit_status_partial", "C71_exit_status_false"],
  "false of the code: everything that fails after the download exits 0; proved: what the exit status does tell")
c("C72", Q, ["C72_memory_partial", "C72_root_false", "C72_long_name_false"],
  "false of the code for every step file that names a root (unterminated arrays) and for long package names; proved otherwise")
c("C73", Q, ["C73_effects_partial", "C73_cut_root_false", "C73_cut_command_false"],
  "false of the code for step files and command lines that exceed the buffers; proved otherwise, if the unterminated arrays happen to be followed by a NUL")
c("C74", P, ["C74_layout", "C74_directory_written", "C74_file_written", "C74_read", "C74_directory_read"])
c("C75", P, ["C75_interrupted_directory", "C75_interrupted_file"])
c("C76", P, ["C76_interrupted_tree", "C76_interrupted_file", "C76_interrupted_links"],
  "With links (C76_interrupted_links) what is left is a part of the tree as it is extracted: link targets that do not lie in one output buffer lack their beginning (C39_large_links_false).")
c("C77", Q, ["C77_concurrent_partial", "C77_concurrent_end_partial", "C77_one_link_partial", "C77_concurrent_link_false", "C77_concurrent_parent_false"],
  "False: the working directory is changed while a link is made, and missing common parents are created in a race. Proved for any number of extractions without links to places none of which is inside another, and if one of them has links and the others have absolute output paths (C77_one_link_partial).")
c("C78", P, ["C78_undisturbed", "C78_absolute", "C78_links"])
c("C79", Q, ["C79_copy_partial","C79_copy_any_partial","C79_exact","C79_copy_of_copy","C79_empty_directory_false"],
  "proved for sources that can be read entirely, with something accepted, directories the target user may add to, an archive whose last output piece does not fill the 512 KiB buffer, and (with links) below 512 KiB; false for an empty directory (witness), the other exceptions as for C39")
c("C80", Q, ["C80_failing_calls_partial","C80_links_partial","C80_failing_calls_false","C80_links_false","C80_directory_mode_false"],
  "False of the code if memory runs out (an allocation failing at a directory entry shifts the current directory: its files land in the parent, later entries outside the output directory; C80_failing_calls_false), and with links if the return to the old working directory is refused (C80_links_false, for a relative output path). Proved for trees without links whose output directory can be created, with memory for the paths: every other failure pattern, and at every point in time; the same for every tree if the output path is absolute (C80_links_partial). A directory may get the mode of a directory inside it (C80_directory_mode_false).")
c("C81", Q, ["C81_session_errors_partial","C81_creation_errors_partial","C81_file_errors_false"],
  "Proved for sessions and their creation, for every compressor. False for the functions that compress files and directories: they ignore the return codes of the compress calls (witness: a compressor that fails after the header; the function returns 0).")
c('C82', Q, ['C82_copy_directory_partial', 'C82_copy_any_partial', 'C82_copy_file_partial', 'C82_unusable', 'C82_extra_mode_false', 'C82_extra_files_false'],
  'Copying proved with the limits of C79 and C40 (empty directories and files, directories the user cannot enter, last output piece of 512 KiB), archive outside the source. False for the extra files: with d their mode is uninitialised memory; with e an ordinary user gets none of them (directories without permissions), though both runs exit with 0.')
c('C83', P, ['C83_same_copy'],
  'Stated for sources and archives below 512 KiB and a directory of which something is accepted; what happens outside these limits is C79/C39.')
c('C84', Q, ['C84_lowlevel_partial', 'C84_archive_partial', 'C84_input_false', 'C84_unused_false'],
  'The output buffer is never written to. The input is not read after 0 has been returned, for low-level sessions, and for archive sessions if inflate has reported no error and the version is 0. False for archives of another version: the call returns 0 with input left over, which destroying the session reads. A low-level session destroyed unused passes uninitialised next_out and avail_out to inflate.')
c('C85', Q, ['C85_stack_partial', 'C85_tree_partial', 'C85_stack_false'],
  'True of archives of trees (and of any beginning of one), whatever fails; for other archives every request of a run that ends is bounded by the output path plus the decompressed archive. False: a record may announce a name of 2^32-1 bytes without storing it; the size goes to alloca unchecked, so that 176 bytes of archive ask for 4 GiB of stack.')
c('C86', Q, ['C86_copy_directory_partial', 'C86_copy_file_partial', 'C86_descriptors', 'C86_status', 'C86_unusable', 'C86_links_false', 'C86_status_false', 'C86_root_false', 'C86_long_path_false', 'C86_output_false'],
  'True: files and directories are recreated at a new name, and nothing else changes. False: links become empty files, each leaving a descriptor open; extraction always exits with 1; when the output directory exists already, the directories of the archive are created in the root of the file system, a path of 4095 bytes loses its last byte, and when the output cannot be created, the program has undefined behaviour.')
c('C87', Q, ['C87_copy_partial', 'C87_copy_any_partial', 'C87_backslash_false', 'C87_no_slash_false', 'C87_root_false', 'C87_long_false'],
  'True for programs started by a path with a slash below the root and without backslashes, whose name and the name of the output file occur in one directory only. False otherwise: a program started by its name alone, from the root directory, or through a directory whose name has a backslash exits with 0 and packs nothing; one with 4191 bytes or more in its name is undefined. Removal of the extraction directory is a parameter (the POSIX version does not compile).')
c('C88', Q, ['C88_all_or_nothing_partial', 'C88_too_deep', 'C88_any_depth_false', 'C88_left_behind_false'],
  'True for at most 62 missing directories. False beyond: with more than 62 nothing is created and -1 is reported; with exactly 63 the topmost one is created and stays.')
c('C89', Q, ['C89_elsewhere', 'C89_snapshot_partial', 'C89_small_partial', 'C89_endless', 'C89_ends_false', 'C89_corrupt_false'],
  "False: with 512 KiB of incompressible data listed before the output file the call never returns, the archive growing as fast as it is read; and if the stream is flushed between the size query and the read, the files listed after the output file are lost although 0 is returned. True for archives that fit into the stream's buffer; otherwise a run that ends has archived a beginning of the archive, with the size of a possibly shorter beginning.")
c('C90', Q, ['C90_released', 'C90_success_partial', 'C90_failure_partial', 'C90_other_size_false', 'C90_unread_false', 'C90_unstored_false', 'C90_short_false', 'C90_failure_false'],
  'False: neither the result of the read nor that of storing the resources is looked at (0 with the old or a random image), the size is always announced as 32 by 32, if the second resource is refused the first one is stored nevertheless, and of a file of less than 22 bytes memory outside the buffer is stored. True: everything is given back; the image is right after 0 if the read was complete and the resources could be stored; after a failure the description is as before.')
c('C91', Q, ['C91_neighbour_partial', 'C91_other_calls_false'],
  'False of every call by a name without a backslash (such as every call on other systems): the assertion fails before the arguments are looked at, or a null pointer is used. True of all other calls, including that the path fits into its buffer.')
c('C92', Q, ['C92_removed_partial', 'C92_confined_partial', 'C92_file', 'C92_self_extract', 'C92_link_false', 'C92_locked_false', 'C92_endless_false'],
  'False: if the directory is a symbolic link, the content of its target is deleted; directories their owner cannot read stay; below a path of 4094 bytes the cut path is the directory itself, and the recursion never ends. (As it stands the code for Unix does not compile: a missing brace and an undeclared name; modelled with both corrected.) True: a directory with paths within 4094 bytes that its owner can read and change is removed completely and nothing else; whatever fails, nothing outside a directory that is not a link is changed, and nothing inside but by removal. C92_self_extract gives the assumption of C87 on the removal.')
c('C93', Q, ['C93_nothing_left_partial', 'C93_copy_removed', 'C93_other_code_false'],
  'False if the first program cannot be started or exits with another code than 0: the directory stays, though the self extractor exits with 0. True, for what C87 and C92 cover, if the first program exits with 0 and itself changes nothing: the whole second run leaves the disk as it was, without an earlier extraction directory.')
c('C94', Q, ['C94_current_partial', 'C94_same_parser', 'C94_dir_end_false', 'C94_deepness_false'],
  'True for name and type in the announcement of an entry, in the pieces of a file, at its end and in a link. False at the end of a directory: the name is that of the entry announced last, not of the directory that ends. False for the depth: it is 0 always.')
c('C95', P, ['C95_compress_destinations', 'C95_decompress_destinations', 'C95_decompress_same'],
  'Callback and user data are one value of an arbitrary type; callbacks may set another callback depending on the whole history. Callbacks that change the buffer are not covered (C56, C84 for changes between calls).')
c('C96', Q, ['C96_depth_partial', 'C96_depth_path_partial', 'C96_ends_partial', 'C96_endless_false'],
  'False for directories below a path of 4094 bytes: the path is cut and names the same directory again, without end (C96_endless_false). Holds, with the bound, for every other content. The limit of the process on open directories is not modelled.')
c('C97', Q, ['C97_shared_directories_partial', 'C97_user_false', 'C97_large_false'],
  'False for ordinary users: a directory in the path of a buffer is made with mode 0, and what the tree has in it is lost with success reported (C97_user_false). False for archives of 512 KiB and more: a directory that exists is an error that ends extraction after the first 512 KiB, with success reported (C97_large_false). Holds for smaller archives and the superuser.')
c('C98', Q, ['C98_finished_partial', 'C98_finished_false', 'C98_archive_false'],
  'False: the call that meets the end returns Z_STREAM_END without passing on the last output (C98_finished_false); extraction of an archive whose stream is finished can yield nothing and report success (C98_archive_false). Proved: what the callback got, followed by what is in the output buffer, is the plaintext, whatever follows the end.')
c('C99', Q, ['C99_accepted_partial', 'C99_complete_false'],
  'False for every session: sessions never finish their stream, and no decoder ever reports its end (C99_complete_false). Proved: the output is accepted by any decoder with every call returning 0, and yields the header and the data (all of it under the conditions on last pieces known from C11 and C60).')
c('C100', Q, ['C100_windows_partial', 'C100_links_false', 'C100_case_false'],
  'False: links are left out and success is reported (C100_links_false); two files whose names differ in case end up as one file with the content of neither (C100_case_false). Proved: with names that Windows accepts and tells apart, all files and directories arrive, for trees of any size, with links among the entries, in an output directory of which up to 61 parents are made too.')
c('C101', Q, ['C101_confined_partial', 'C101_file_archive_partial', 'C101_confined_false'],
  'False even for archives the library makes: the Unix file name ..\\x leads out of the output directory on Windows (C101_confined_false). Proved: confinement for names of one component, links included, whatever else is refused; and for archives of other kinds.')
c('C102', Q, ['C102_clear_partial', 'C102_clear_false'],
  'False: the system function expects a list of paths that ends with an empty one, and gets a single string, so the memory behind it is taken for further paths to delete, or read until a fault (C102_clear_false). Proved: as stated if the byte behind the name is 0.')
c('C103', Q, ['C103_copy_partial', 'C103_parts', 'C103_endless_false', 'C103_incomplete_false'],
  'False: if a read fails or the program file has become shorter, the loop runs forever (C103_endless_false, for every program and every behaviour of the writes); a write that stores less goes unnoticed and success is reported for a broken program (C103_incomplete_false). True: with reads that deliver at least one byte and complete writes the copy is exact; and a copy that ends consists of parts of the program in order.')
c('C104', P, ['C104_windows_success', 'C104_existing', 'C104_header'],
  "For every behaviour of the system; 'returns' as in C100: a file archive whose output cannot be opened ends in a null pointer access instead.")
c('C105', Q, ['C105_contracts', 'C105_tree_partial', 'C105_links_partial', 'C105_file_partial', 'C105_recoded_file', 'C105_recoded_directory', 'C105_finished_false'],
  'The format is defined bit by bit after the RFCs (Spec/Rfc), and a decompressor and a compressor for it are shown to meet the contracts that the other claims assume. False of finished streams, as other programs write them: nothing is extracted (C105_finished_false, for bytes written by zlib). Proved for streams that are flushed and not finished.')
c('C106', Q, ['C106_file_partial', 'C106_unreliable_partial', 'C106_unopened_partial', 'C106_unopened_false', 'C106_full_false', 'C106_empty_false'],
  'False for the empty file (nothing is created), for an output path that cannot be opened, such as a read-only file (a null FILE pointer is written through), and on a full drive (success is reported). Proved for every other file on a drive that works; on every drive the file holds only bytes of the payload in their order, and nothing else changes.')
c('C107', P, ['C107_ends', 'C107_archive_size', 'C107_beyond_ignored', 'C107_bounded_by_archive'],
  'Ends, reads and adds as stated (Windows counterparts of C37, C61, C63 and C64).')
c('C108', Q, ['C108_faults_partial', 'C108_defined_partial', 'C108_memory_false', 'C108_windows_faults_partial', 'C108_windows_defined_partial', 'C108_windows_false'],
  'False: a record announcing a longer name than it stores is read beyond its allocation; an unmatched end of a directory fails an assertion or dereferences a null pointer; so does a file archive whose output cannot be opened. Proved: these, links without terminators and other versions are the only faults (nothing is freed twice, used after release or written out of bounds, and the process is not ended), each with what the archive and the system must do for it; and archives without such records are extracted without any fault whatever else they contain and whichever calls fail, as long as there is memory for paths.')
c('C109', Q, ['C109_succeeds_partial', 'C109_again_partial', 'C109_umask_false'],
  'False for an umask that takes the right to read from the owner: the copy is made, but archiving it succeeds with an archive of nothing. Proved for every umask that leaves the permissions of the owner: the copy can be archived and extracted, and this gives the same tree; what C79 misses is missing here too.')
c('C110', Q, ['C110_no_links', 'C110_copy_partial', 'C110_links_false'],
  'False for links: they are left out of the archive and success is reported. Proved: the archive is byte for byte that of Unix with a filter that refuses links (so all theorems about archives of Unix apply), and a directory with files smaller than 2 GiB and paths up to 240 bytes that is not empty is copied exactly. Missing: larger files, longer paths, empty directories (C43), archives whose last piece fills the buffer (C39), nested extra buffers.')
c('C111', Q, ['C111_root_partial', 'C111_nested_partial', 'C111_mode_false'],
  'False of the mode of buffers at nested paths: it is not used, their files are never protected. Proved for buffers at the top with their modes, and for nested buffers without. Missing: buffers that share a directory with each other or the tree (extraction notes an error), names Windows does not accept, links (C110), archives whose last piece fills the buffer (C39).')
c('C112', Q, ['C112_to_unix_partial', 'C110_links_false'],
  'False for links, which Windows leaves out (C110_links_false extracts on Unix). Proved for directories that are not empty with files smaller than 2 GiB and paths up to 240 bytes, and an umask that leaves the permissions of the owner: everything arrives, under the listed names, and nothing more. Missing: archives whose last piece fills the buffer (C39).')
c('C113', Q, ['C113_copy_partial', 'C113_spelling_false', 'C113_mixed_false'],
  'False when the program is started with another spelling of its name than the listed one, which Windows accepts: it neither skips nor can read itself (C113_spelling_false); false for paths with both kinds of slashes (C113_mixed_false). Proved for the listed spelling, when no other file below has the name of the program or of the copy, for directories that are not empty with files smaller than 2 GiB and paths up to 240 bytes. Missing: archives whose last piece fills the buffer unless the decompressor withholds nothing (Prompt).')
c('C114', Q, ['C114_failing_calls_partial', 'C114_outdir_false', 'C114_memory_false', 'C114_silent_false'],
  'False when the output directory cannot be created: files of the archive are put at the top of the drive (C114_outdir_false); false when memory for the path of a directory cannot be allocated: its files are put beside it (C114_memory_false). Success is reported when a write fails, so the content of the files is not assured (C114_silent_false). Proved for output directories that could be created and allocations that succeed.')
c('C115', Q, ['C115_to_windows_partial', 'C100_links_false', 'C100_case_false'],
  'False for symbolic links, which are left out though success is reported (C100_links_false), and for names that differ in case only (C100_case_false). Missing besides: sources with unreadable or special files or paths beyond 4094 bytes, empty directories (C43), archives whose last piece fills the buffer unless the decompressor withholds nothing (C39).')
c('C116', Q, ['C116_back_partial', 'C110_links_false'],
  'False for links, which are left out though success is reported (C110_links_false). Missing besides: files of 2 GiB and more, paths of more than 240 bytes on Windows and output paths of more than 3850 bytes on Unix, names that are no names on Unix, an umask that takes permissions from the owner, directories that Windows reports without permissions for the owner, empty directories (C43), archives whose last piece fills the buffer unless the decompressor withholds nothing (C39).')
c('C117', P, ['C117_cut_off', 'C117_cut_off_file'],
  'Cut off means that from some call on every call is refused, so the drive at the end is the drive at that point. Memory for paths is available.')
c('C118', Q, ['C118_again_partial', 'C118_generations', 'C110_links_false'],
  'False for links, which are left out though success is reported (C110_links_false). Missing besides: what C110 misses; the paths of the copy must have at most 240 bytes again, which depends on the place it is at.')
c('C119', P, ['C119_beginning', 'C119_beginning_links', 'C119_windows'],
  'Sources as for C79 (Unix) and C110 (Windows), new output directory below directories that can be used, memory for paths available with links and on Windows. What the beginning contains does arrive: C120.')
c('C120', P, ['C120_recovered', 'C120_recovered_file', 'C120_windows', 'C120_windows_file', 'C120_to_windows'],
  'Without links (their targets may arrive damaged, C19), new output directory below directories that can be used, directories in the archive that their owner may enter and write, memory available. Where the beginning ends within a record, an empty file or a directory right before may be announced late and is not promised. On Windows: sources as for C110, or Unix sources whose names Windows accepts and tells apart (C100).')
c('C121', Q, ['C121_repeat_file_partial', 'C121_repeat_elsewhere_partial', 'C121_repeat_reports_partial', 'C121_windows_file_partial', 'C121_windows_elsewhere_partial', 'C121_windows_false', 'C121_repeat_false'],
  'False for directories: the output directory exists after the interruption, and the repetition reports that nothing was extracted (`C121_repeat_false`, `C121_repeat_reports_partial`). True for archives of files, new or overwritten; for directories (without links) the repetition under another name works whatever the first run left. The same on Windows, where directories with links are included (links are skipped).')
c('C122', P, ['C122_later_tree', 'C122_later_links', 'C122_later_file', 'C122_windows_later', 'C122_windows_later_file'],
  'Directories with links on Unix under the conditions of C39; working directory as at first; files that are not empty (C40); on Windows earlier runs that end in a fault of the program (C108) are not included.')
c('C123', Q, ['C123_full_disk_directory_partial', 'C123_full_disk_extras_partial', 'C123_full_disk_file_partial', 'C123_full_disk_false', 'C123_compressdir_partial', 'C123_compressdir_false'],
  "Reporting is false: the callback ignores the result of fwrite and the program exits with the status of the library (C123_full_disk_false, C123_compressdir_false). Proved: nothing else changes and the file has the library's output with omissions, a beginning of it if the disk fills up (so C119 and C120 tell what can be recovered). fclose is not modelled as a separate write.")
C.sort(key=lambda x: x["property"])
json.dump({"claims": C}, open(os.path.join(os.path.dirname(__file__), "..", "MANIFEST.json"), "w"), indent=1)
