{
 "claims": [
  {
   "property": "C01",
   "status": "proved",
   "theorems": [
    "Arx.C01_first_call",
    "Arx.C01_read_back"
   ],
   "note": ""
  },
  {
   "property": "C02",
   "status": "partial",
   "theorems": [
    "Arx.C02_exact",
    "Arx.C02_refused_add_partial",
    "Arx.C02_counterexample"
   ],
   "note": "false as stated: an add whose kind() fails leaves the missing parents behind; proved for all other refusals"
  },
  {
   "property": "C03",
   "status": "proved",
   "theorems": [
    "Arx.C03_accepted_iff",
    "Arx.C03_readd_dir"
   ],
   "note": ""
  },
  {
   "property": "C04",
   "status": "proved",
   "theorems": [
    "Arx.C04_implicit_parents"
   ],
   "note": ""
  },
  {
   "property": "C05",
   "status": "proved",
   "theorems": [
    "Arx.C05_child_ranges"
   ],
   "note": ""
  },
  {
   "property": "C06",
   "status": "proved",
   "theorems": [
    "Arx.C06_order_independent"
   ],
   "note": ""
  },
  {
   "property": "C07",
   "status": "proved",
   "theorems": [
    "Arx.C07_finalize_converges",
    "Arx.C07_finalize_succeeds"
   ],
   "note": ""
  },
  {
   "property": "C08",
   "status": "proved",
   "theorems": [
    "Arx.C08_parent_links"
   ],
   "note": ""
  },
  {
   "property": "C32",
   "status": "partial",
   "theorems": [
    "Arx.C32_panics_iff",
    "Arx.C32_lookup_no_panic_partial",
    "Arx.C32_counterexample"
   ],
   "note": "false for the empty path (unreachable!())"
  },
  {
   "property": "C40",
   "status": "partial",
   "theorems": [
    "Arx.C40_exact",
    "Arx.C40_metadata_partial",
    "Arx.C40_counterexample"
   ],
   "note": "rights are read back as one byte"
  },
  {
   "property": "C48",
   "status": "proved",
   "theorems": [
    "Arx.C48_same_components",
    "Arx.C48_spellings"
   ],
   "note": ""
  },
  {
   "property": "C49",
   "status": "partial",
   "theorems": [
    "Arx.C49_add_no_panic_partial",
    "Arx.C49_panics_iff"
   ],
   "note": "panics exactly for paths without a usable last name"
  },
  {
   "property": "C09",
   "status": "proved",
   "theorems": [
    "Arx.C09_walk_once"
   ],
   "note": ""
  },
  {
   "property": "C10",
   "status": "proved",
   "theorems": [
    "Arx.C10_context_path",
    "Arx.C10_counterexample"
   ],
   "note": "for names without a component '.', as the property says; with one, leaving it pops two names (C10_counterexample). Archives made from files have none (AsSeen.noDot)"
  },
  {
   "property": "C11",
   "status": "proved",
   "theorems": [
    "Arx.C11_list"
   ],
   "note": ""
  },
  {
   "property": "C12",
   "status": "partial",
   "theorems": [
    "Arx.C12_exact",
    "Arx.C12_iff",
    "Arx.C12_stable_list_partial",
    "Arx.C12_from_files",
    "Arx.C10_counterexample"
   ],
   "note": "false of the code: after a directory named '.' the lines show wrong paths (C10_counterexample). C12_exact says what is printed for every archive with UTF-8 paths, C12_iff that the property holds of an archive if and only if no entry comes after a directory named '.', outside of it but in the same top-level directory"
  },
  {
   "property": "C21",
   "status": "proved",
   "theorems": [
    "Arx.C21_caches_invisible",
    "Arx.C21_default"
   ],
   "note": ""
  },
  {
   "property": "C22",
   "status": "proved",
   "theorems": [
    "Arx.C22_inodes",
    "Arx.C22_inode_paths"
   ],
   "note": ""
  },
  {
   "property": "C23",
   "status": "proved",
   "theorems": [
    "Arx.C23_exact",
    "Arx.C23_lookup",
    "Arx.C23_resolve"
   ],
   "note": "C23_exact: each entry on its own, also those whose attributes do not fit; C23_resolve needs only that those of the entries on the way fit"
  },
  {
   "property": "C24",
   "status": "partial",
   "theorems": [
    "Arx.C24_exact",
    "Arx.C24_page",
    "Arx.C24_pages_partial",
    "Arx.C24_complete",
    "Arx.C24_counterexample"
   ],
   "note": "false when the first page has room for '.' only: its cookie is 0 and reading restarts for ever"
  },
  {
   "property": "C25",
   "status": "partial",
   "theorems": [
    "Arx.C25_exact",
    "Arx.C25_read_partial",
    "Arx.C25_counterexample"
   ],
   "note": "reading beyond the end of the file crashes instead of answering no bytes"
  },
  {
   "property": "C26",
   "status": "proved",
   "theorems": [
    "Arx.C26_open_counts",
    "Arx.C26_open"
   ],
   "note": ""
  },
  {
   "property": "C27",
   "status": "proved",
   "theorems": [
    "Arx.C27_never_writable",
    "Arx.C27_other_bits"
   ],
   "note": ""
  },
  {
   "property": "C28",
   "status": "proved",
   "theorems": [
    "Arx.C28_exact",
    "Arx.C28_attributes",
    "Arx.C28_blocks",
    "Arx.C28_sizes"
   ],
   "note": "C28_exact: each entry on its own, also those whose attributes do not fit"
  },
  {
   "property": "C29",
   "status": "proved",
   "theorems": [
    "Arx.C29_exact",
    "Arx.C29_readdir_lookup"
   ],
   "note": "C29_exact: each entry on its own, also those whose attributes do not fit"
  },
  {
   "property": "C30",
   "status": "partial",
   "theorems": [
    "Arx.C30_exact",
    "Arx.C30_no_crash_partial",
    "Arx.C25_counterexample",
    "Arx.C50_mtime_counterexample"
   ],
   "note": "reads beyond the end of an open file and mtimes >= 2^63 crash; proved for all other kernel histories"
  },
  {
   "property": "C31",
   "status": "partial",
   "theorems": [
    "Arx.C31_root_dir_accepted",
    "Arx.C31_subtree_partial",
    "Arx.C31_extract_root",
    "Arx.C14_reproduces",
    "Arx.C31_dotdot_iff",
    "Arx.C31_dotdot_counterexample"
   ],
   "note": "'..' of a top-level directory of a sub-directory mount is not the mount root"
  },
  {
   "property": "C13",
   "status": "proved",
   "theorems": [
    "Arx.C13_selection",
    "Arx.C13_not_pruned",
    "Arx.C16_nothing_else"
   ],
   "note": "target as PlainTarget describes (names not '.', '..'; no symbolic link in the way)"
  },
  {
   "property": "C14",
   "status": "proved",
   "theorems": [
    "Arx.C14_reproduces"
   ],
   "note": ""
  },
  {
   "property": "C15",
   "status": "proved",
   "theorems": [
    "Arx.C15_existing_kept"
   ],
   "note": ""
  },
  {
   "property": "C16",
   "status": "proved",
   "theorems": [
    "Arx.C16_files",
    "Arx.C16_links",
    "Arx.C16_nothing_else",
    "Arx.C16_one_file",
    "Arx.C16_one_link"
   ],
   "note": "whole runs: target as PlainTarget describes; single entries: any file system state"
  },
  {
   "property": "C17",
   "status": "partial",
   "theorems": [
    "Arx.C17_inside_partial",
    "Arx.C17_tree_inside",
    "Arx.C17_escapes",
    "Arx.C17_escapes_any",
    "Arx.C17_parent_counterexample",
    "Arx.C17_link_counterexample",
    "Arx.C17_overwrite_follows_link"
   ],
   "note": "false for archives with entries named '..' or '.', which the creator accepts; proved for all others; C17_tree_inside: with '..' also, if no path leads above the start or through a link of the archive; C17_escapes: a success in a mode that replaces nothing does create a file outside, for every archive with a file behind k times ..; C17_escapes_any: for every archive with a file whose path leads out, in any shape"
  },
  {
   "property": "C18",
   "status": "proved",
   "theorems": [
    "Arx.C18_prefix",
    "Arx.C18_whole_content",
    "Arx.C18_error",
    "Arx.C18_terminates"
   ],
   "note": ""
  },
  {
   "property": "C19",
   "status": "partial",
   "theorems": [
    "Arx.C19_schedule",
    "Arx.C19_schedule_keep",
    "Arx.C19_schedule_partial",
    "Arx.C19_counterexample"
   ],
   "note": "false in overwrite mode for archives with both x and ./x: the content of that file depends on the schedule. C19_schedule is for every archive, target and mode: the result, all paths, all times and the content of every file opened at most once are the same, and a file opened more than once holds only bytes of the contents written to it; C19_schedule_keep: nothing differs with skip/warn/error; C19_schedule_partial: nothing differs in any mode with plain targets"
  },
  {
   "property": "C20",
   "status": "partial",
   "theorems": [
    "Arx.C20_exact",
    "Arx.C20_success_partial",
    "Arx.C20_counterexample"
   ],
   "note": "a missing content pack is only logged: extract returns Ok without the file"
  },
  {
   "property": "C47",
   "status": "partial",
   "theorems": [
    "Arx.C47_exact",
    "Arx.C47_created_extracts_partial",
    "Arx.C47_counterexamples"
   ],
   "note": "links with empty, NUL-containing or non UTF-8 targets can be archived but not extracted"
  },
  {
   "property": "C33",
   "status": "proved",
   "theorems": [
    "Arx.C33_strip_prefix",
    "Arx.C33_place"
   ],
   "note": ""
  },
  {
   "property": "C34",
   "status": "partial",
   "theorems": [
    "Arx.C34_whole_tree_partial",
    "Arx.C34_schedule_independent",
    "Arx.C34_no_deadlock",
    "Arx.C34_counterexample"
   ],
   "note": "false when the walk itself fails: the walking thread panics and add_from_path returns Ok with a truncated archive; proved for walks without errors; C34_schedule_independent says exactly what is added also when the walk fails"
  },
  {
   "property": "C35",
   "status": "proved",
   "theorems": [
    "Arx.C35_create_extract"
   ],
   "note": ""
  },
  {
   "property": "C36",
   "status": "partial",
   "theorems": [
    "Arx.C36_exact",
    "Arx.C36_size_partial",
    "Arx.C36_counterexample"
   ],
   "note": "false when the file changes between stat and read; proved for a source that may change between, but not during, the handling of two entries"
  },
  {
   "property": "C50",
   "status": "partial",
   "theorems": [
    "Arx.C50_newer_partial",
    "Arx.C50_newer_exact",
    "Arx.C50_newer_counterexample",
    "Arx.C50_mtime_counterexample",
    "Arx.C50_archived_time",
    "Arx.C50_past_counterexample"
   ],
   "note": "times before 1970 are stored as 64-bit numbers near 2^64 and crash the mount and 'newer' extraction"
  },
  {
   "property": "C41",
   "status": "partial",
   "theorems": [
    "Arx.C41_accepts_iff",
    "Arx.C41_tar_partial",
    "Arx.C41_accepts",
    "Arx.C41_counterexamples"
   ],
   "note": "hard links become empty files, a directory member after its files loses its metadata, './' and absolute members crash; proved for all other accepted conversions"
  },
  {
   "property": "C42",
   "status": "partial",
   "theorems": [
    "Arx.C42_accepts_iff",
    "Arx.C42_zip_partial",
    "Arx.C42_counterexamples"
   ],
   "note": "links are stored as files, late directories lose their metadata, './' members crash; proved for all other accepted conversions"
  },
  {
   "property": "C37",
   "status": "partial",
   "theorems": [
    "Arx.C37_life_cycle",
    "Arx.C37_counterexample"
   ],
   "note": "C37_life_cycle is exact for every history. False of the code in one case: if an add of a path with more than one component crashed (d/..) and the program caught that, the map of the root directory is poisoned, so the later adds and the __exit__ crash too, and what was added is lost (C37_counterexample). An exception in the with body does not prevent the archive from being written: __exit__ ignores it"
  },
  {
   "property": "C38",
   "status": "proved",
   "theorems": [
    "Arx.C38_reads"
   ],
   "note": ""
  },
  {
   "property": "C45",
   "status": "partial",
   "theorems": [
    "Arx.C45_exact",
    "Arx.C45_dump_partial",
    "Arx.C45_file_counterexample",
    "Arx.C45_missing_counterexample"
   ],
   "note": "an output file is never written (it is opened read-only: C45_file_counterexample), a missing pack is reported as success, the empty path crashes; proved for standard output"
  },
  {
   "property": "C46",
   "status": "partial",
   "theorems": [
    "Arx.C46_exact",
    "Arx.C46_parse_partial",
    "Arx.C46_none_counterexample",
    "Arx.C46_concat_mode"
   ],
   "note": "'none=5' is accepted"
  },
  {
   "property": "C51",
   "status": "proved",
   "theorems": [
    "Arx.C51_open_replies"
   ],
   "note": ""
  },
  {
   "property": "C52",
   "status": "partial",
   "theorems": [
    "Arx.C52_exact",
    "Arx.C52_extract_partial",
    "Arx.C52_refused",
    "Arx.C52_empty_list_counterexample"
   ],
   "note": "an empty list file extracts everything"
  },
  {
   "property": "C39",
   "status": "proved",
   "theorems": [
    "Arx.C39_iteration"
   ],
   "note": ""
  },
  {
   "property": "C43",
   "status": "proved",
   "theorems": [
    "Arx.C43_no_overwrite"
   ],
   "note": "relative to the moment of the check: an output created by another process between the check and the end is overwritten (the states of the file system at each check are separate in the model)"
  },
  {
   "property": "C44",
   "status": "partial",
   "theorems": [
    "Arx.C44_inputs_partial",
    "Arx.C44_list_partial",
    "Arx.C44_inputs_exact",
    "Arx.C44_list_exact",
    "Arx.C44_list_path",
    "Arx.C44_counterexample"
   ],
   "note": "false for file lists: --recurse is ignored; proved for input files, and for file lists without --recurse; the _exact theorems give the whole content (also of directories that are implied, and when inputs overlap)"
  },
  {
   "property": "C53",
   "status": "partial",
   "theorems": [
    "Arx.C53_panics_iff",
    "Arx.C53_get_entry_partial",
    "Arx.C53_entry",
    "Arx.C53_extract",
    "Arx.C53_counterexamples"
   ],
   "note": "get_entry of a path that names nothing ('' or '.') crashes"
  },
  {
   "property": "C54",
   "status": "partial",
   "theorems": [
    "Arx.C44_list_partial",
    "Arx.C44_inputs_partial",
    "Arx.C54_counterexample"
   ],
   "note": "false for input files: --follow-symlink is ignored; proved for file lists, and for input files without it"
  },
  {
   "property": "C55",
   "status": "proved",
   "theorems": [
    "Arx.C55_extract_create"
   ],
   "note": "metadata (owner, rights, times) are not restored by extraction and are not claimed"
  },
  {
   "property": "C56",
   "status": "proved",
   "theorems": [
    "Arx.C56_dedup"
   ],
   "note": "the content of a refused entry stays in the pack"
  },
  {
   "property": "C57",
   "status": "partial",
   "theorems": [
    "Arx.C57_get_sound",
    "Arx.C57_get_no_crash",
    "Arx.C57_walk_ends_iff",
    "Arx.C57_walk_ends_noLoop",
    "Arx.C57_walk_ends",
    "Arx.C57_extract_inside",
    "Arx.C57_created_forward",
    "Arx.C57_walk_cycle",
    "Arx.C57_counterexample",
    "Arx.C57_extract_counterexample"
   ],
   "note": "false for tables in which a directory contains itself: walking never ends (C57_walk_cycle, C57_counterexample); proved exactly when walking ends (C57_walk_ends_iff: if no directory contains itself); extraction of any table without links and .. stays in its directory (C57_extract_inside), with links it may not (C57_extract_counterexample)"
  },
  {
   "property": "C58",
   "status": "partial",
   "theorems": [
    "Arx.C58_list_partial",
    "Arx.C45_dump_partial",
    "Arx.C58_list_lost",
    "Arx.C58_dump_lost",
    "Arx.C58_counterexample"
   ],
   "note": "false for the last bytes: the buffers are flushed when they are dropped, ignoring errors (list on a full device reports success: C58_list_lost for every listing up to 8192 bytes, C58_dump_lost for every dump up to 1024); proved up to 9216 bytes (list) and 1024 bytes (dump)"
  },
  {
   "property": "C59",
   "status": "proved",
   "theorems": [
    "Arx.C59_resume",
    "Arx.C59_counterexample"
   ],
   "note": "holds for 'overwrite' only: skip, warn and newer keep the truncated files of the interrupted run and report success (C59_counterexample)"
  },
  {
   "property": "C60",
   "status": "proved",
   "theorems": [
    "Arx.C60_any_moment"
   ],
   "note": ""
  },
  {
   "property": "C61",
   "status": "proved",
   "theorems": [
    "Arx.C61_tar",
    "Arx.C61_zip"
   ],
   "note": "Writing replaces an existing output without asking (unlike arx create). Modelled without the options that only print."
  },
  {
   "property": "C62",
   "status": "partial",
   "theorems": [
    "Arx.C62_exact",
    "Arx.C62_name_partial",
    "Arx.C62_counterexample"
   ],
   "note": "Names with more dots than those of the extension lose a part: v1.2.tar and v1.3.tar both give v1.arx."
  },
  {
   "property": "C63",
   "status": "proved",
   "theorems": [
    "Arx.C63_filter",
    "Arx.C63_single"
   ],
   "note": "For walks without errors; errors of the walk end it silently (C34_counterexample)."
  },
  {
   "property": "C64",
   "status": "proved",
   "theorems": [
    "Arx.C64_lookup",
    "Arx.C64_listing",
    "Arx.C64_read",
    "Arx.C64_no_crash",
    "Arx.C64_created",
    "Arx.C64_counterexamples"
   ],
   "note": "C64_counterexamples: with unsorted names a listed name is not found until it has been listed; children outside the table crash the mount."
  },
  {
   "property": "C65",
   "status": "partial",
   "theorems": [
    "Arx.C65_mounted",
    "Arx.C65_foreground_partial",
    "Arx.C65_background",
    "Arx.C65_others",
    "Arx.C65_created",
    "Arx.C65_counterexample"
   ],
   "note": "What is mounted and where: proved in full for the three commands. The result: exact for the foreground and the other two commands; in the background `arx mount` reports success before it mounts (C65_background says exactly when, C65_counterexample shows a refusal that is not reported)."
  },
  {
   "property": "C66",
   "status": "partial",
   "theorems": [
    "Arx.C66_created_opens",
    "Arx.C66_rows_fit",
    "Arx.C66_opens_iff",
    "Arx.C66_no_crash_partial",
    "Arx.C66_panics_iff",
    "Arx.C66_counterexample"
   ],
   "note": "Created archives and the exact set of containers that open: proved. Crash: a container with an index arx_root whose entries lack a property of arx crashes instead of being refused (C66_counterexample); proved for containers without that index and for containers with all properties."
  },
  {
   "property": "C67",
   "status": "proved",
   "theorems": [
    "Arx.C67_copy"
   ],
   "note": "The limits in the statement are those of C24 (first buffer of at least 64 bytes), C50 (times) and C25 (the program never reads beyond the end, because sizes are right)."
  },
  {
   "property": "C68",
   "status": "proved",
   "theorems": [
    "Arx.C68_extract_is_copy"
   ],
   "note": ""
  },
  {
   "property": "C69",
   "status": "proved",
   "theorems": [
    "Arx.C69_created",
    "Arx.C69_success",
    "Arx.C69_any_table",
    "Arx.C69_kept",
    "Arx.C69_content",
    "Arx.C69_every_interference",
    "Arx.C69_alone",
    "Arx.C69_newer_race"
   ],
   "note": "Second model of the extraction, as calls with arbitrary answers; C69_alone proves it agrees with the first one when nobody else changes the file system. C69_newer_race shows why the statement speaks of the time answered before: the check of mode newer is not atomic."
  },
  {
   "property": "C70",
   "status": "proved",
   "theorems": [
    "Arx.C70_as_seen",
    "Arx.C70_walk",
    "Arx.C70_create",
    "Arx.C12_from_files"
   ],
   "note": ""
  },
  {
   "property": "C71",
   "status": "proved",
   "theorems": [
    "Arx.C71_create_extract",
    "Arx.C71_list"
   ],
   "note": ""
  },
  {
   "property": "C72",
   "status": "proved",
   "theorems": [
    "Arx.C72_steps",
    "Arx.C72_next"
   ],
   "note": ""
  },
  {
   "property": "C73",
   "status": "proved",
   "theorems": [
    "Arx.C73_tar",
    "Arx.C73_zip"
   ],
   "note": "the data of a hard link member of a tar is empty and a symbolic link of a zip is a file, see C41 and C42"
  },
  {
   "property": "C74",
   "status": "proved",
   "theorems": [
    "Arx.C74_list",
    "Arx.C74_list_any",
    "Arx.C74_dump",
    "Arx.C74_status"
   ],
   "note": "The output of dump for a file whose pack is missing is empty, with status 0 (C45)."
  },
  {
   "property": "C75",
   "status": "proved",
   "theorems": [
    "Arx.C75_success",
    "Arx.C75_necessary",
    "Arx.C75_deterministic",
    "Arx.C75_names"
   ],
   "note": ""
  },
  {
   "property": "C76",
   "status": "proved",
   "theorems": [
    "Arx.C76_readers"
   ],
   "note": "With C68 (what an extraction leaves is what the mount shows) this covers every reader."
  },
  {
   "property": "C77",
   "status": "proved",
   "theorems": [
    "Arx.C77_inputs",
    "Arx.C77_list",
    "Arx.C77_absolute"
   ],
   "note": "Complements C44 (what is in the archive when it succeeds): this says when it does. Hypothesis Returns: every walk is scheduled until add_from_path returns (C34 shows that it can)."
  },
  {
   "property": "C78",
   "status": "partial",
   "theorems": [
    "Arx.C78_no_crash_partial",
    "Arx.C78_inputs_iff",
    "Arx.C78_list_iff",
    "Arx.C78_counterexample"
   ],
   "note": "False: arx create -o x.arx .. (or any input stored under a path ending in ..) and arx create -o / crash. C78_no_crash_partial: nothing else does, in any environment; the iff theorems say exactly when, on a source that does not change."
  },
  {
   "property": "C79",
   "status": "proved",
   "theorems": [
    "Arx.C79_inputs",
    "Arx.C79_list",
    "Arx.C79_dirs",
    "Arx.C79_listed"
   ],
   "note": ""
  },
  {
   "property": "C80",
   "status": "partial",
   "theorems": [
    "Arx.C80_content",
    "Arx.C80_exact",
    "Arx.C80_success_partial",
    "Arx.C80_crash",
    "Arx.C80_lost",
    "Arx.C80_after",
    "Arx.C80_shows",
    "Arx.C80_extract",
    "Arx.C80_counterexample"
   ],
   "note": "Content, crashes and readers are proved in full. False of the code: add of a path that does not exist (or is empty, or a dangling link) returns without an exception and adds nothing, because only the walking thread notices and it just panics (C80_counterexample). C80_success_partial says exactly when no call raises, given that; C80_crash says exactly when the first failing call crashes: a path that ends in `..`; C80_lost says exactly when the archive is lost by that, and C80_after that later adds then crash."
  },
  {
   "property": "C81",
   "status": "proved",
   "theorems": [
    "Arx.C81_tar",
    "Arx.C81_zip"
   ],
   "note": "Composition of C61 and C41/C42 (what the converter writes) with C65, C67 and C76 (what the readers show). The copying program and its neighbours are arbitrary; others release only what they opened."
  },
  {
   "property": "C82",
   "status": "proved",
   "theorems": [
    "Arx.C82_inputs",
    "Arx.C82_list",
    "Arx.C82_outcome",
    "Arx.C82_schedule"
   ],
   "note": "The whole content of an archive is a function of the source and the command (FirstInput, FirstPath: at each path, what the first input or line stands for that makes an entry there). C82_outcome and C82_schedule assume that the schedules run until add_from_path returns (C34 shows that they can)."
  },
  {
   "property": "C83",
   "status": "proved",
   "theorems": [
    "Arx.C83_find",
    "Arx.C83_find_ok",
    "Arx.C83_base_dir",
    "Arx.C83_base_dir_list"
   ],
   "note": "Inputs that are symbolic links are excluded in (1): add_from_path follows them, the list does not without --follow-symlink. In (2) the second command may fail where the first succeeds, as more symbolic links may be met on one path (the limit of the system is modelled), hence the hypothesis that both write."
  },
  {
   "property": "C84",
   "status": "proved",
   "theorems": [
    "Arx.C84_part_of_whole"
   ],
   "note": "C31_extract_root: --root-dir d leads to the Source hypothesis."
  },
  {
   "property": "C85",
   "status": "proved",
   "theorems": [
    "Arx.C85_statistics"
   ],
   "note": "counters are unbounded in the model (u64 in the code)"
  },
  {
   "property": "C86",
   "status": "partial",
   "theorems": [
    "Arx.C86_stable_partial",
    "Arx.C86_plain_partial",
    "Arx.C86_same",
    "Arx.C86_same_plain",
    "Arx.C86_newline",
    "Arx.C86_arrow",
    "Arx.C86_dot"
   ],
   "note": "that equal entries are listed alike holds without exceptions (C86_same, C86_same_plain). The other direction is proved for archives whose names and link targets contain no newline, whose link paths do not contain the text -> and whose targets are UTF-8, and in which no entry comes after one named . in its top-level directory; it is false otherwise: C86_newline (a name with a newline imitates another line), C86_arrow (link a->b to c prints as link a to b->c) and C86_dot (beside a/./b, a/c prints as c) are counterexamples"
  },
  {
   "property": "C87",
   "status": "partial",
   "theorems": [
    "Arx.C87_identity_partial",
    "Arx.C87_compare",
    "Arx.C87_index",
    "Arx.C87_content",
    "Arx.C87_repr",
    "Arx.C87_counterexample"
   ],
   "note": "false in full: comparison looks at the index only, so entries of different archives may compare equal; all other parts, and equality within one archive, are proved"
  },
  {
   "property": "C88",
   "status": "partial",
   "theorems": [
    "Arx.C88_tar_partial",
    "Arx.C88_zip_partial",
    "Arx.C88_counterexamples"
   ],
   "note": "false in full: the theorems say exactly which inputs crash, as equivalences; the archive made by `tar c .` is one"
  },
  {
   "property": "C89",
   "status": "partial",
   "theorems": [
    "Arx.C89_zip",
    "Arx.C89_zip_root",
    "Arx.C89_tar_partial",
    "Arx.C89_files_partial",
    "Arx.C89_create_partial",
    "Arx.C89_tar_escapes",
    "Arx.C89_tar_counterexample",
    "Arx.C89_create_counterexample",
    "Arx.C89_root_counterexample"
   ],
   "note": "proved for every archive zip2arx makes (extracted without --root-dir, or without `..` in the paths) and for everything else archived without `..` in the paths, with any symbolic links; false for tar members (C89_tar_escapes: for every tar archive with a file whose path leads out) and inputs of create with `..`, and for zip with --root-dir"
  },
  {
   "property": "C90",
   "status": "proved",
   "theorems": [
    "Arx.C90_add_ends",
    "Arx.C90_add_bound",
    "Arx.C90_create_ends",
    "Arx.C90_extract_ends",
    "Arx.C90_created_ends",
    "Arx.C90_needs_steps"
   ],
   "note": "schedules are infinite sequences; fairness is BothRun and WritersRun; C90_needs_steps shows that each hypothesis is needed. Walking the source is a finite list of items (a file system that grows for ever is not modelled)"
  },
  {
   "property": "C91",
   "status": "proved",
   "theorems": [
    "Arx.C91_tar",
    "Arx.C91_zip",
    "Arx.C91_tar_zip",
    "Arx.C91_create_tar",
    "Arx.C91_create_zip",
    "Arx.C91_python_tar",
    "Arx.C91_python_zip",
    "Arx.C91_create_create",
    "Arx.C91_create_python",
    "Arx.C91_python_python",
    "Arx.C91_tar_accepted",
    "Arx.C91_zip_accepted",
    "Arx.C91_order_needed"
   ],
   "note": "the items of each kind of input are Spec/SameItems; C91_order_needed shows that the order of a directory and its contents matters. Content numbers are those of packBytes; how contents are cut into clusters and compressed is not modelled"
  },
  {
   "property": "C92",
   "status": "proved",
   "theorems": [
    "Arx.C92_paths",
    "Arx.C92_order",
    "Arx.C92_text",
    "Arx.C92_shown",
    "Arx.C92_numbers"
   ],
   "note": "the functions are those of std and of the relative_path crate as far as arx uses them; they follow their documentation and are here proved equal to independent definitions (Spec/Words)"
  },
  {
   "property": "C93",
   "status": "proved",
   "theorems": [
    "Arx.C93_python",
    "Arx.C93_python_ok",
    "Arx.C93_create",
    "Arx.C93_create_ok",
    "Arx.C80_exact",
    "Arx.C93_exception_counterexample"
   ],
   "note": "stated for programs without exceptions: if an exception of add is caught, what was added before depends on the order in which the directory is listed (C93_exception_counterexample)"
  },
  {
   "property": "C94",
   "status": "proved",
   "theorems": [
    "Arx.C94_command",
    "Arx.C94_create_options",
    "Arx.C94_extract_options",
    "Arx.C94_order",
    "Arx.C94_help",
    "Arx.C94_program",
    "Arx.C94_print",
    "Arx.C94_tables",
    "Arx.C94_list_options",
    "Arx.C94_dump_options",
    "Arx.C94_mount_options",
    "Arx.C94_tool_options",
    "Arx.C94_fuse_options",
    "Arx.C94_tar2arx",
    "Arx.C94_zip2arx",
    "Arx.C94_mount_fuse",
    "Arx.C94_auto_mount"
   ],
   "note": "the loop of clap over the words is an external contract, modelled as far as these definitions need it; the tables of arguments are those of the code"
  },
  {
   "property": "C95",
   "status": "partial",
   "theorems": [
    "Arx.C95_create",
    "Arx.C95_extract",
    "Arx.C95_list",
    "Arx.C95_dump",
    "Arx.C95_mount",
    "Arx.C95_convert",
    "Arx.C95_recursion_counterexample",
    "Arx.C95_strip_counterexample",
    "Arx.C95_stable_counterexample",
    "Arx.C95_dump_file_counterexample"
   ],
   "note": "creating, extracting, listing, dumping to standard output, mounting and converting as in the README are proved, in builds with zstd. Four sentences of the README are false of the code, each with a counterexample for all names: omitting -r changes nothing; the --strip-prefix example with absolute paths always fails; list --stable-output A is refused with status 2; dump to a file writes nothing"
  },
  {
   "property": "C96",
   "status": "proved",
   "theorems": [
    "Arx.C96_lines",
    "Arx.C96_extract",
    "Arx.C96_all",
    "Arx.C96_create",
    "Arx.C96_newline_counterexample"
   ],
   "note": "with no line kept arx extract extracts everything (C52)"
  },
  {
   "property": "C97",
   "status": "proved",
   "theorems": [
    "Arx.C97_when",
    "Arx.C97_upgrade",
    "Arx.C97_overwrite"
   ],
   "note": "where the first archive has a link and the second a file, overwrite writes through the link: C17_overwrite_follows_link"
  },
  {
   "property": "C98",
   "status": "proved",
   "theorems": [
    "Arx.C98_read",
    "Arx.C98_names",
    "Arx.C98_programs"
   ],
   "note": "the program of the README as printed has two wrong names (loop_on_entry_generator for iterate, nb_childen for nb_children) and raises at the first directory; the model has what is meant"
  },
  {
   "property": "C99",
   "status": "proved",
   "theorems": [
    "Arx.C99_convert",
    "Arx.C99_tar_read",
    "Arx.C99_zip_read",
    "Arx.C99_tar_extract",
    "Arx.C99_zip_extract",
    "Arx.C99_tar_mount",
    "Arx.C99_zip_mount",
    "Arx.C99_other"
   ],
   "note": "a dump to a file, also in these READMEs, writes nothing: C95_dump_file_counterexample"
  },
  {
   "property": "C100",
   "status": "proved",
   "theorems": [
    "Arx.C100_migrate",
    "Arx.C100_archivable",
    "Arx.C100_listing",
    "Arx.C100_rights"
   ],
   "note": "The mounted tree is taken as what any program that copies the mount gets (C67), with the type of an entry added to its permissions, as fuser does (not modelled: the kernel, fuser)."
  },
  {
   "property": "C101",
   "status": "partial",
   "theorems": [
    "Arx.C101_create",
    "Arx.C101_tar",
    "Arx.C101_zip_partial",
    "Arx.C101_zip_counterexample"
   ],
   "note": "The property is false of zip2arx, which accepts --compression and ignores it: it always packs with zstd at its default level. What jubako does with the arguments it is given is external."
  },
  {
   "property": "C102",
   "status": "proved",
   "theorems": [
    "Arx.C102_memory",
    "Arx.C102_released"
   ],
   "note": "The LRU cache (crate lru) is modelled by what its documentation says; memory inside jubako is external."
  },
  {
   "property": "C103",
   "status": "proved",
   "theorems": [
    "Arx.C103_find",
    "Arx.C103_get",
    "Arx.C103_mount",
    "Arx.C103_created"
   ],
   "note": "The binary search itself is jubako's (external, modelled); libarx asks for it by ordered() and provides the comparison. Rows, not bytes, are counted."
  },
  {
   "property": "C104",
   "status": "proved",
   "theorems": [
    "Arx.C104_packs",
    "Arx.C104_next",
    "Arx.C104_complete",
    "Arx.C104_dump",
    "Arx.C104_mount"
   ],
   "note": "Whether a pack is missing is what jubako reports (external); it does not change during a run. That a missing pack is not reported as a failure is C20."
  },
  {
   "property": "C105",
   "status": "proved",
   "theorems": [
    "Arx.C105_inodes"
   ],
   "note": "The number 1 is the mounted directory (C22). In a mount of a sub-directory the entry .. of its directories has the archive number of the mounted directory, not 1. Paths to entries whose time or size the kernel cannot be given are excluded (C50)."
  },
  {
   "property": "C106",
   "status": "partial",
   "theorems": [
    "Arx.C106_python",
    "Arx.C106_python_all",
    "Arx.C106_dump",
    "Arx.C106_mount_partial",
    "Arx.C106_mount_counterexample"
   ],
   "note": "A read of a mounted file that cannot be read crashes the file system instead of giving an error; the Python exception is a PanicException."
  }
 ]
}