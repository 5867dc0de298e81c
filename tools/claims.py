claim("C01", "proved", ["C01_first_call", "C01_read_back"])
claim("C02", "partial", ["C02_exact", "C02_refused_add_partial", "C02_counterexample"], "false as stated: an add whose kind() fails leaves the missing parents behind; proved for all other refusals")
claim("C03", "proved", ["C03_accepted_iff", "C03_readd_dir"])
claim("C04", "proved", ["C04_implicit_parents"])
claim("C05", "proved", ["C05_child_ranges"])
claim("C06", "proved", ["C06_order_independent"])
claim("C07", "proved", ["C07_finalize_converges", "C07_finalize_succeeds"])
claim("C08", "proved", ["C08_parent_links"])
claim("C32", "partial", ["C32_panics_iff", "C32_lookup_no_panic_partial", "C32_counterexample"], "false for the empty path (unreachable!())")
claim("C40", "partial", ["C40_exact", "C40_metadata_partial", "C40_counterexample"], "rights are read back as one byte")
claim("C48", "proved", ["C48_same_components", "C48_spellings"])
claim("C49", "partial", ["C49_add_no_panic_partial", "C49_panics_iff"], "panics exactly for paths without a usable last name")
claim("C09", "proved", ["C09_walk_once"])
claim("C10", "proved", ["C10_context_path", "C10_counterexample"], "for names without a component '.', as the property says; with one, leaving it pops two names (C10_counterexample). Archives made from files have none (AsSeen.noDot)")
claim("C11", "proved", ["C11_list"])
claim("C12", "partial", ["C12_exact", "C12_iff", "C12_stable_list_partial", "C12_from_files", "C10_counterexample"], "false of the code: after a directory named '.' the lines show wrong paths (C10_counterexample). C12_exact says what is printed for every archive with UTF-8 paths, C12_iff that the property holds of an archive if and only if no entry comes after a directory named '.', outside of it but in the same top-level directory")
claim("C21", "proved", ["C21_caches_invisible", "C21_default"])
claim("C22", "proved", ["C22_inodes", "C22_inode_paths"])
claim("C23", "proved", ["C23_exact", "C23_lookup", "C23_resolve"], "C23_exact: each entry on its own, also those whose attributes do not fit; C23_resolve needs only that those of the entries on the way fit")
claim("C24", "partial", ["C24_exact", "C24_page", "C24_pages_partial", "C24_complete", "C24_counterexample"], "false when the first page has room for '.' only: its cookie is 0 and reading restarts for ever")
claim("C25", "partial", ["C25_exact", "C25_read_partial", "C25_counterexample"], "reading beyond the end of the file crashes instead of answering no bytes")
claim("C26", "proved", ["C26_open_counts", "C26_open"])
claim("C27", "proved", ["C27_never_writable", "C27_other_bits"])
claim("C28", "proved", ["C28_exact", "C28_attributes", "C28_blocks", "C28_sizes"], "C28_exact: each entry on its own, also those whose attributes do not fit")
claim("C29", "proved", ["C29_exact", "C29_readdir_lookup"], "C29_exact: each entry on its own, also those whose attributes do not fit")
claim("C30", "partial", ["C30_exact", "C30_no_crash_partial", "C25_counterexample", "C50_mtime_counterexample"], "reads beyond the end of an open file and mtimes >= 2^63 crash; proved for all other kernel histories")
claim("C31", "partial", ["C31_root_dir_accepted", "C31_subtree_partial", "C31_extract_root", "C14_reproduces", "C31_dotdot_iff", "C31_dotdot_counterexample"], "'..' of a top-level directory of a sub-directory mount is not the mount root")
claim("C13", "proved", ["C13_selection", "C13_not_pruned", "C16_nothing_else"], "target as PlainTarget describes (names not '.', '..'; no symbolic link in the way)")
claim("C14", "proved", ["C14_reproduces"])
claim("C15", "proved", ["C15_existing_kept"])
claim("C16", "proved", ["C16_files", "C16_links", "C16_nothing_else", "C16_one_file", "C16_one_link"], "whole runs: target as PlainTarget describes; single entries: any file system state")
claim("C17", "partial", ["C17_inside_partial", "C17_tree_inside", "C17_escapes", "C17_escapes_any", "C17_parent_counterexample", "C17_link_counterexample", "C17_overwrite_follows_link"], "false for archives with entries named '..' or '.', which the creator accepts; proved for all others; C17_tree_inside: with '..' also, if no path leads above the start or through a link of the archive; C17_escapes: a success in a mode that replaces nothing does create a file outside, for every archive with a file behind k times ..; C17_escapes_any: for every archive with a file whose path leads out, in any shape")
claim("C18", "proved", ["C18_prefix", "C18_whole_content", "C18_error", "C18_terminates"])
claim("C19", "partial", ["C19_schedule", "C19_schedule_keep", "C19_schedule_partial", "C19_counterexample"], "false in overwrite mode for archives with both x and ./x: the content of that file depends on the schedule. C19_schedule is for every archive, target and mode: the result, all paths, all times and the content of every file opened at most once are the same, and a file opened more than once holds only bytes of the contents written to it; C19_schedule_keep: nothing differs with skip/warn/error; C19_schedule_partial: nothing differs in any mode with plain targets")
claim("C20", "partial", ["C20_exact", "C20_success_partial", "C20_counterexample"], "a missing content pack is only logged: extract returns Ok without the file")
claim("C47", "partial", ["C47_exact", "C47_created_extracts_partial", "C47_counterexamples"], "links with empty, NUL-containing or non UTF-8 targets can be archived but not extracted")
claim("C33", "proved", ["C33_strip_prefix", "C33_place"])
claim("C34", "partial", ["C34_whole_tree_partial", "C34_schedule_independent", "C34_no_deadlock", "C34_counterexample"], "false when the walk itself fails: the walking thread panics and add_from_path returns Ok with a truncated archive; proved for walks without errors; C34_schedule_independent says exactly what is added also when the walk fails")
claim("C35", "proved", ["C35_create_extract"])
claim("C36", "partial", ["C36_exact", "C36_size_partial", "C36_counterexample"], "false when the file changes between stat and read; proved for a source that may change between, but not during, the handling of two entries")
claim("C50", "partial", ["C50_newer_partial", "C50_newer_exact", "C50_newer_counterexample", "C50_mtime_counterexample", "C50_archived_time", "C50_past_counterexample"], "times before 1970 are stored as 64-bit numbers near 2^64 and crash the mount and 'newer' extraction")
claim("C41", "partial", ["C41_accepts_iff", "C41_tar_partial", "C41_accepts", "C41_counterexamples"], "hard links become empty files, a directory member after its files loses its metadata, './' and absolute members crash; proved for all other accepted conversions")
claim("C42", "partial", ["C42_accepts_iff", "C42_zip_partial", "C42_counterexamples"], "links are stored as files, late directories lose their metadata, './' members crash; proved for all other accepted conversions")
claim("C37", "partial", ["C37_life_cycle", "C37_counterexample"], "C37_life_cycle is exact for every history. False of the code in one case: if an add of a path with more than one component crashed (d/..) and the program caught that, the map of the root directory is poisoned, so the later adds and the __exit__ crash too, and what was added is lost (C37_counterexample). An exception in the with body does not prevent the archive from being written: __exit__ ignores it")
claim("C38", "proved", ["C38_reads"])
claim("C45", "partial", ["C45_exact", "C45_dump_partial", "C45_file_counterexample", "C45_missing_counterexample"], "an output file is never written (it is opened read-only: C45_file_counterexample), a missing pack is reported as success, the empty path crashes; proved for standard output")
claim("C46", "partial", ["C46_exact", "C46_parse_partial", "C46_none_counterexample", "C46_concat_mode"], "'none=5' is accepted")
claim("C51", "proved", ["C51_open_replies"])
claim("C52", "partial", ["C52_exact", "C52_extract_partial", "C52_refused", "C52_empty_list_counterexample"], "an empty list file extracts everything")
claim("C39", "proved", ["C39_iteration"])
claim("C43", "proved", ["C43_no_overwrite"], "relative to the moment of the check: an output created by another process between the check and the end is overwritten (the states of the file system at each check are separate in the model)")
claim("C44", "partial", ["C44_inputs_partial", "C44_list_partial", "C44_inputs_exact", "C44_list_exact", "C44_list_path", "C44_counterexample"], "false for file lists: --recurse is ignored; proved for input files, and for file lists without --recurse; the _exact theorems give the whole content (also of directories that are implied, and when inputs overlap)")
claim("C53", "partial", ["C53_panics_iff", "C53_get_entry_partial", "C53_entry", "C53_extract", "C53_counterexamples"], "get_entry of a path that names nothing ('' or '.') crashes")
claim("C54", "partial", ["C44_list_partial", "C44_inputs_partial", "C54_counterexample"], "false for input files: --follow-symlink is ignored; proved for file lists, and for input files without it")
claim("C55", "proved", ["C55_extract_create"], "metadata (owner, rights, times) are not restored by extraction and are not claimed")
claim("C56", "proved", ["C56_dedup"], "the content of a refused entry stays in the pack")
claim("C57", "partial", ["C57_get_sound", "C57_get_no_crash", "C57_walk_ends_iff", "C57_walk_ends_noLoop", "C57_walk_ends", "C57_extract_inside", "C57_created_forward", "C57_walk_cycle", "C57_counterexample", "C57_extract_counterexample"], "false for tables in which a directory contains itself: walking never ends (C57_walk_cycle, C57_counterexample); proved exactly when walking ends (C57_walk_ends_iff: if no directory contains itself); extraction of any table without links and .. stays in its directory (C57_extract_inside), with links it may not (C57_extract_counterexample)")
claim("C58", "partial", ["C58_list_partial", "C45_dump_partial", "C58_list_lost", "C58_dump_lost", "C58_counterexample"], "false for the last bytes: the buffers are flushed when they are dropped, ignoring errors (list on a full device reports success: C58_list_lost for every listing up to 8192 bytes, C58_dump_lost for every dump up to 1024); proved up to 9216 bytes (list) and 1024 bytes (dump)")
claim("C59", "proved", ["C59_resume", "C59_counterexample"], "holds for 'overwrite' only: skip, warn and newer keep the truncated files of the interrupted run and report success (C59_counterexample)")
claim("C60", "proved", ["C60_any_moment"])
claim("C61", "proved", ["C61_tar", "C61_zip"], "Writing replaces an existing output without asking (unlike arx create). Modelled without the options that only print.")
claim("C62", "partial", ["C62_exact", "C62_name_partial", "C62_counterexample"], "Names with more dots than those of the extension lose a part: v1.2.tar and v1.3.tar both give v1.arx.")
claim("C63", "proved", ["C63_filter", "C63_single"], "For walks without errors; errors of the walk end it silently (C34_counterexample).")
claim("C64", "proved", ["C64_lookup", "C64_listing", "C64_read", "C64_no_crash", "C64_created", "C64_counterexamples"], "C64_counterexamples: with unsorted names a listed name is not found until it has been listed; children outside the table crash the mount.")

claim("C65", "partial", ["C65_mounted", "C65_foreground_partial", "C65_background", "C65_others", "C65_created", "C65_counterexample"],
      "What is mounted and where: proved in full for the three commands. The result: exact for the foreground and the other two commands; in the background `arx mount` reports success before it mounts (C65_background says exactly when, C65_counterexample shows a refusal that is not reported).")

claim("C66", "partial", ["C66_created_opens", "C66_rows_fit", "C66_opens_iff", "C66_no_crash_partial", "C66_panics_iff", "C66_counterexample"],
      "Created archives and the exact set of containers that open: proved. Crash: a container with an index arx_root whose entries lack a property of arx crashes instead of being refused (C66_counterexample); proved for containers without that index and for containers with all properties.")

claim("C67", "proved", ["C67_copy"],
      "The limits in the statement are those of C24 (first buffer of at least 64 bytes), C50 (times) and C25 (the program never reads beyond the end, because sizes are right).")

claim("C68", "proved", ["C68_extract_is_copy"])

claim("C69", "proved", ["C69_created", "C69_success", "C69_any_table", "C69_kept", "C69_content", "C69_every_interference", "C69_alone", "C69_newer_race"],
      "Second model of the extraction, as calls with arbitrary answers; C69_alone proves it agrees with the first one when nobody else changes the file system. C69_newer_race shows why the statement speaks of the time answered before: the check of mode newer is not atomic.")

claim("C70", "proved", ["C70_as_seen", "C70_walk", "C70_create", "C12_from_files"])

claim("C71", "proved", ["C71_create_extract", "C71_list"])

claim("C72", "proved", ["C72_steps", "C72_next"])

claim("C73", "proved", ["C73_tar", "C73_zip"], "the data of a hard link member of a tar is empty and a symbolic link of a zip is a file, see C41 and C42")

claim("C74", "proved", ["C74_list", "C74_list_any", "C74_dump", "C74_status"], "The output of dump for a file whose pack is missing is empty, with status 0 (C45).")

claim("C75", "proved", ["C75_success", "C75_necessary", "C75_deterministic", "C75_names"])

claim("C76", "proved", ["C76_readers"], "With C68 (what an extraction leaves is what the mount shows) this covers every reader.")

claim("C77", "proved", ["C77_inputs", "C77_list", "C77_absolute"], "Complements C44 (what is in the archive when it succeeds): this says when it does. Hypothesis Returns: every walk is scheduled until add_from_path returns (C34 shows that it can).")

claim("C78", "partial", ["C78_no_crash_partial", "C78_inputs_iff", "C78_list_iff", "C78_counterexample"], "False: arx create -o x.arx .. (or any input stored under a path ending in ..) and arx create -o / crash. C78_no_crash_partial: nothing else does, in any environment; the iff theorems say exactly when, on a source that does not change.")

claim("C79", "proved", ["C79_inputs", "C79_list", "C79_dirs", "C79_listed"], "")

claim("C80", "partial", ["C80_content", "C80_exact", "C80_success_partial", "C80_crash", "C80_lost", "C80_after", "C80_shows", "C80_extract", "C80_counterexample"], "Content, crashes and readers are proved in full. False of the code: add of a path that does not exist (or is empty, or a dangling link) returns without an exception and adds nothing, because only the walking thread notices and it just panics (C80_counterexample). C80_success_partial says exactly when no call raises, given that; C80_crash says exactly when the first failing call crashes: a path that ends in `..`; C80_lost says exactly when the archive is lost by that, and C80_after that later adds then crash.")

claim("C81", "proved", ["C81_tar", "C81_zip"], "Composition of C61 and C41/C42 (what the converter writes) with C65, C67 and C76 (what the readers show). The copying program and its neighbours are arbitrary; others release only what they opened.")

claim("C82", "proved", ["C82_inputs", "C82_list", "C82_outcome", "C82_schedule"], "The whole content of an archive is a function of the source and the command (FirstInput, FirstPath: at each path, what the first input or line stands for that makes an entry there). C82_outcome and C82_schedule assume that the schedules run until add_from_path returns (C34 shows that they can).")

claim("C83", "proved", ["C83_find", "C83_find_ok", "C83_base_dir", "C83_base_dir_list"], "Inputs that are symbolic links are excluded in (1): add_from_path follows them, the list does not without --follow-symlink. In (2) the second command may fail where the first succeeds, as more symbolic links may be met on one path (the limit of the system is modelled), hence the hypothesis that both write.")

claim("C84", "proved", ["C84_part_of_whole"], "C31_extract_root: --root-dir d leads to the Source hypothesis.")

claim("C85", "proved", ["C85_statistics"], "counters are unbounded in the model (u64 in the code)")

claim("C86", "partial", ["C86_stable_partial", "C86_plain_partial", "C86_same", "C86_same_plain", "C86_newline", "C86_arrow", "C86_dot"], "that equal entries are listed alike holds without exceptions (C86_same, C86_same_plain). The other direction is proved for archives whose names and link targets contain no newline, whose link paths do not contain the text -> and whose targets are UTF-8, and in which no entry comes after one named . in its top-level directory; it is false otherwise: C86_newline (a name with a newline imitates another line), C86_arrow (link a->b to c prints as link a to b->c) and C86_dot (beside a/./b, a/c prints as c) are counterexamples")

claim("C87", "partial", ["C87_identity_partial", "C87_compare", "C87_index", "C87_content", "C87_repr", "C87_counterexample"], "false in full: comparison looks at the index only, so entries of different archives may compare equal; all other parts, and equality within one archive, are proved")

claim("C88", "partial", ["C88_tar_partial", "C88_zip_partial", "C88_counterexamples"], "false in full: the theorems say exactly which inputs crash, as equivalences; the archive made by `tar c .` is one")

claim("C89", "partial", ["C89_zip", "C89_zip_root", "C89_tar_partial", "C89_files_partial", "C89_create_partial", "C89_tar_escapes", "C89_tar_counterexample", "C89_create_counterexample", "C89_root_counterexample"], "proved for every archive zip2arx makes (extracted without --root-dir, or without `..` in the paths) and for everything else archived without `..` in the paths, with any symbolic links; false for tar members (C89_tar_escapes: for every tar archive with a file whose path leads out) and inputs of create with `..`, and for zip with --root-dir")

claim("C90", "proved", ["C90_add_ends", "C90_add_bound", "C90_create_ends", "C90_extract_ends", "C90_created_ends", "C90_needs_steps"], "schedules are infinite sequences; fairness is BothRun and WritersRun; C90_needs_steps shows that each hypothesis is needed. Walking the source is a finite list of items (a file system that grows for ever is not modelled)")

claim("C91", "proved", ["C91_tar", "C91_zip", "C91_tar_zip", "C91_create_tar", "C91_create_zip", "C91_python_tar", "C91_python_zip", "C91_create_create", "C91_create_python", "C91_python_python", "C91_tar_accepted", "C91_zip_accepted", "C91_order_needed"], "the items of each kind of input are Spec/SameItems; C91_order_needed shows that the order of a directory and its contents matters. Content numbers are those of packBytes; how contents are cut into clusters and compressed is not modelled")

claim("C92", "proved", ["C92_paths", "C92_order", "C92_text", "C92_shown", "C92_numbers"], "the functions are those of std and of the relative_path crate as far as arx uses them; they follow their documentation and are here proved equal to independent definitions (Spec/Words)")

claim("C93", "proved", ["C93_python", "C93_python_ok", "C93_create", "C93_create_ok", "C80_exact", "C93_exception_counterexample"], "stated for programs without exceptions: if an exception of add is caught, what was added before depends on the order in which the directory is listed (C93_exception_counterexample)")

claim("C94", "proved", ["C94_command", "C94_create_options", "C94_extract_options", "C94_order", "C94_help", "C94_program", "C94_print", "C94_tables", "C94_list_options", "C94_dump_options", "C94_mount_options", "C94_tool_options", "C94_fuse_options", "C94_tar2arx", "C94_zip2arx", "C94_mount_fuse", "C94_auto_mount"], "the loop of clap over the words is an external contract, modelled as far as these definitions need it; the tables of arguments are those of the code")
claim("C95", "partial", ["C95_create", "C95_extract", "C95_list", "C95_dump", "C95_mount", "C95_convert", "C95_recursion_counterexample", "C95_strip_counterexample", "C95_stable_counterexample", "C95_dump_file_counterexample"], "creating, extracting, listing, dumping to standard output, mounting and converting as in the README are proved, in builds with zstd. Four sentences of the README are false of the code, each with a counterexample for all names: omitting -r changes nothing; the --strip-prefix example with absolute paths always fails; list --stable-output A is refused with status 2; dump to a file writes nothing")

claim("C96", "proved", ["C96_lines", "C96_extract", "C96_all", "C96_create", "C96_newline_counterexample"], "with no line kept arx extract extracts everything (C52)")

claim("C97", "proved", ["C97_when", "C97_upgrade", "C97_overwrite"], "where the first archive has a link and the second a file, overwrite writes through the link: C17_overwrite_follows_link")

claim("C98", "proved", ["C98_read", "C98_names", "C98_programs"], "the program of the README as printed has two wrong names (loop_on_entry_generator for iterate, nb_childen for nb_children) and raises at the first directory; the model has what is meant")

claim("C99", "proved", ["C99_convert", "C99_tar_read", "C99_zip_read", "C99_tar_extract", "C99_zip_extract", "C99_tar_mount", "C99_zip_mount", "C99_other"], "a dump to a file, also in these READMEs, writes nothing: C95_dump_file_counterexample")

claim("C100", "proved", ["C100_migrate", "C100_archivable", "C100_listing", "C100_rights"], "The mounted tree is taken as what any program that copies the mount gets (C67), with the type of an entry added to its permissions, as fuser does (not modelled: the kernel, fuser).")

claim("C101", "partial", ["C101_create", "C101_tar", "C101_zip_partial", "C101_zip_counterexample"], "The property is false of zip2arx, which accepts --compression and ignores it: it always packs with zstd at its default level. What jubako does with the arguments it is given is external.")

claim("C102", "proved", ["C102_memory", "C102_released"], "The LRU cache (crate lru) is modelled by what its documentation says; memory inside jubako is external.")

claim("C103", "proved", ["C103_find", "C103_get", "C103_mount", "C103_created"], "The binary search itself is jubako's (external, modelled); libarx asks for it by ordered() and provides the comparison. Rows, not bytes, are counted.")

claim("C104", "proved", ["C104_packs", "C104_next", "C104_complete", "C104_dump", "C104_mount"], "Whether a pack is missing is what jubako reports (external); it does not change during a run. That a missing pack is not reported as a failure is C20.")

claim("C105", "proved", ["C105_inodes"], "The number 1 is the mounted directory (C22). In a mount of a sub-directory the entry .. of its directories has the archive number of the mounted directory, not 1. Paths to entries whose time or size the kernel cannot be given are excluded (C50).")

claim("C106", "partial", ["C106_python", "C106_python_all", "C106_dump", "C106_mount_partial", "C106_mount_counterexample"], "A read of a mounted file that cannot be read crashes the file system instead of giving an error; the Python exception is a PanicException.")
