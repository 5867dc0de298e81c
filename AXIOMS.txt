C01_first_call [propext, Classical.choice, Quot.sound]
C01_read_back [propext, Classical.choice, Quot.sound]
C02_exact [propext, Classical.choice, Quot.sound]
C02_refused_add_partial [propext, Classical.choice, Quot.sound]
C02_counterexample [propext, Classical.choice, Quot.sound]
C03_accepted_iff [propext, Classical.choice, Quot.sound]
C03_readd_dir [propext, Classical.choice, Quot.sound]
C04_implicit_parents [propext, Classical.choice, Quot.sound]
C05_child_ranges [propext, Classical.choice, Quot.sound]
C06_order_independent [propext, Classical.choice, Quot.sound]
C07_finalize_converges [propext, Classical.choice, Quot.sound]
C07_finalize_succeeds [propext, Classical.choice, Quot.sound]
C08_parent_links [propext, Classical.choice, Quot.sound]
C32_panics_iff [propext, Classical.choice, Quot.sound]
C32_lookup_no_panic_partial [propext, Classical.choice, Quot.sound]
C32_counterexample [propext]
C40_exact [propext, Classical.choice, Quot.sound]
C40_metadata_partial [propext, Classical.choice, Quot.sound]
C40_counterexample [propext, Classical.choice, Quot.sound]
C48_same_components [propext, Classical.choice, Quot.sound]
C48_spellings [propext]
C49_add_no_panic_partial [propext, Classical.choice, Quot.sound]
C49_panics_iff [propext, Classical.choice, Quot.sound]
C09_walk_once [propext, Classical.choice, Quot.sound]
C10_context_path [propext, Classical.choice, Quot.sound]
C10_counterexample [propext, Classical.choice, Quot.sound]
C11_list [propext, Classical.choice, Quot.sound]
C12_exact [propext, Classical.choice, Quot.sound]
C12_iff [propext, Classical.choice, Quot.sound]
C12_stable_list_partial [propext, Classical.choice, Quot.sound]
C12_from_files [propext, Classical.choice, Quot.sound]
C21_caches_invisible [propext, Classical.choice, Quot.sound]
C21_default [propext, Classical.choice, Quot.sound]
C22_inodes [propext, Quot.sound]
C22_inode_paths [propext, Classical.choice, Quot.sound]
C23_exact [propext, Classical.choice, Quot.sound]
C23_lookup [propext, Classical.choice, Quot.sound]
C23_resolve [propext, Classical.choice, Quot.sound]
C24_exact [propext, Classical.choice, Quot.sound]
C24_page [propext, Classical.choice, Quot.sound]
C24_pages_partial [propext, Classical.choice, Quot.sound]
C24_complete [propext, Classical.choice, Quot.sound]
C24_counterexample [propext, Classical.choice, Quot.sound]
C25_exact [propext, Classical.choice, Quot.sound]
C25_read_partial [propext, Classical.choice, Quot.sound]
C25_counterexample [propext, Classical.choice, Quot.sound]
C26_open_counts [propext, Classical.choice, Quot.sound]
C26_open [propext, Classical.choice, Quot.sound]
C27_never_writable [propext, Quot.sound]
C27_other_bits [propext, Quot.sound]
C28_exact [propext, Classical.choice, Quot.sound]
C28_attributes [propext, Classical.choice, Quot.sound]
C28_blocks [propext, Classical.choice, Quot.sound]
C28_sizes [propext]
C29_exact [propext, Classical.choice, Quot.sound]
C29_readdir_lookup [propext, Classical.choice, Quot.sound]
C30_exact [propext, Classical.choice, Quot.sound]
C30_no_crash_partial [propext, Classical.choice, Quot.sound]
C50_mtime_counterexample [propext, Classical.choice, Quot.sound]
C31_root_dir_accepted [propext, Classical.choice, Quot.sound]
C31_subtree_partial [propext, Classical.choice, Quot.sound]
C31_extract_root [propext, Classical.choice, Quot.sound]
C14_reproduces [propext, Classical.choice, Quot.sound]
C31_dotdot_iff [propext, Classical.choice, Quot.sound]
C31_dotdot_counterexample [propext, Classical.choice, Quot.sound]
C13_selection [propext, Classical.choice, Quot.sound]
C13_not_pruned [propext, Quot.sound]
C16_nothing_else [propext, Classical.choice, Quot.sound]
C15_existing_kept [propext, Classical.choice, Quot.sound]
C16_files [propext, Classical.choice, Quot.sound]
C16_links [propext, Classical.choice, Quot.sound]
C16_one_file [propext, Quot.sound]
C16_one_link [propext, Quot.sound]
C17_inside_partial [propext, Classical.choice, Quot.sound]
C17_tree_inside [propext, Classical.choice, Quot.sound]
C17_escapes [propext, Classical.choice, Quot.sound]
C17_escapes_any [propext, Classical.choice, Quot.sound]
C17_parent_counterexample [propext, Classical.choice, Quot.sound]
C17_link_counterexample [propext, Classical.choice, Quot.sound]
C17_overwrite_follows_link [propext, Classical.choice, Quot.sound]
C18_prefix [propext, Classical.choice, Quot.sound]
C18_whole_content [propext, Classical.choice, Quot.sound]
C18_error [propext, Classical.choice, Quot.sound]
C18_terminates [propext, Classical.choice, Quot.sound]
C19_schedule [propext, Classical.choice, Quot.sound]
C19_schedule_keep [propext, Classical.choice, Quot.sound]
C19_schedule_partial [propext, Classical.choice, Quot.sound]
C19_counterexample [propext, Classical.choice, Quot.sound]
C20_exact [propext, Classical.choice, Quot.sound]
C20_success_partial [propext, Classical.choice, Quot.sound]
C20_counterexample [propext, Classical.choice, Quot.sound]
C47_exact [propext, Classical.choice, Quot.sound]
C47_created_extracts_partial [propext, Classical.choice, Quot.sound]
C47_counterexamples [propext, Classical.choice, Quot.sound]
C33_strip_prefix [propext, Classical.choice, Quot.sound]
C33_place [propext, Classical.choice, Quot.sound]
C34_whole_tree_partial [propext, Classical.choice, Quot.sound]
C34_schedule_independent [propext, Quot.sound]
C34_no_deadlock [propext, Quot.sound]
C34_counterexample [propext, Classical.choice, Quot.sound]
C35_create_extract [propext, Classical.choice, Quot.sound]
C36_exact [propext, Classical.choice, Quot.sound]
C36_size_partial [propext, Classical.choice, Quot.sound]
C36_counterexample [propext, Classical.choice, Quot.sound]
C50_newer_partial [propext, Classical.choice, Quot.sound]
C50_newer_exact [propext, Classical.choice, Quot.sound]
C50_newer_counterexample [propext, Classical.choice, Quot.sound]
C50_archived_time [propext, Classical.choice, Quot.sound]
C50_past_counterexample [propext, Classical.choice, Quot.sound]
C41_accepts_iff [propext, Classical.choice, Quot.sound]
C41_tar_partial [propext, Classical.choice, Quot.sound]
C41_accepts [propext, Classical.choice, Quot.sound]
C41_counterexamples [propext, Classical.choice, Quot.sound]
C42_accepts_iff [propext, Classical.choice, Quot.sound]
C42_zip_partial [propext, Classical.choice, Quot.sound]
C42_counterexamples [propext, Classical.choice, Quot.sound]
C37_life_cycle [propext, Classical.choice, Quot.sound]
C37_counterexample [propext, Classical.choice, Quot.sound]
C38_reads [propext, Classical.choice, Quot.sound]
C45_exact [propext, Classical.choice, Quot.sound]
C45_dump_partial [propext, Classical.choice, Quot.sound]
C45_file_counterexample [propext, Classical.choice, Quot.sound]
C45_missing_counterexample [propext, Classical.choice, Quot.sound]
C46_exact [propext, Classical.choice, Quot.sound]
C46_parse_partial [propext, Classical.choice, Quot.sound]
C46_none_counterexample [propext, Classical.choice, Quot.sound]
C46_concat_mode [propext]
C51_open_replies [propext, Classical.choice, Quot.sound]
C52_exact [propext, Classical.choice, Quot.sound]
C52_extract_partial [propext, Classical.choice, Quot.sound]
C52_refused [propext, Classical.choice, Quot.sound]
C52_empty_list_counterexample [propext, Quot.sound]
C39_iteration [propext, Classical.choice, Quot.sound]
C43_no_overwrite [propext, Quot.sound]
C44_inputs_partial [propext, Classical.choice, Quot.sound]
C44_list_partial [propext, Classical.choice, Quot.sound]
C44_inputs_exact [propext, Classical.choice, Quot.sound]
C44_list_exact [propext, Classical.choice, Quot.sound]
C44_list_path [propext, Classical.choice, Quot.sound]
C44_counterexample [propext, Classical.choice, Quot.sound]
C53_panics_iff [propext, Classical.choice, Quot.sound]
C53_get_entry_partial [propext, Classical.choice, Quot.sound]
C53_entry [propext, Classical.choice, Quot.sound]
C53_extract [propext, Classical.choice, Quot.sound]
C53_counterexamples [propext, Classical.choice, Quot.sound]
C54_counterexample [propext, Classical.choice, Quot.sound]
C55_extract_create [propext, Classical.choice, Quot.sound]
C56_dedup [propext, Classical.choice, Quot.sound]
C57_get_sound [propext, Quot.sound]
C57_get_no_crash [propext, Quot.sound]
C57_walk_ends_iff [propext, Classical.choice, Quot.sound]
C57_walk_ends_noLoop [propext, Classical.choice, Quot.sound]
C57_walk_ends [propext, Classical.choice, Quot.sound]
C57_extract_inside [propext, Classical.choice, Quot.sound]
C57_created_forward [propext, Classical.choice, Quot.sound]
C57_walk_cycle [propext, Quot.sound]
C57_counterexample [propext, Classical.choice, Quot.sound]
C57_extract_counterexample [propext, Classical.choice, Quot.sound]
C58_list_partial [propext, Classical.choice, Quot.sound]
C58_list_lost [propext, Classical.choice, Quot.sound]
C58_dump_lost [propext, Classical.choice, Quot.sound]
C58_counterexample [propext, Classical.choice, Quot.sound]
C59_resume [propext, Classical.choice, Quot.sound]
C59_counterexample [propext, Classical.choice, Quot.sound]
C60_any_moment [propext, Classical.choice, Quot.sound]
C61_tar [propext, Classical.choice, Quot.sound]
C61_zip [propext, Classical.choice, Quot.sound]
C62_exact [propext, Classical.choice, Quot.sound]
C62_name_partial [propext, Classical.choice, Quot.sound]
C62_counterexample [propext, Classical.choice, Quot.sound]
C63_filter [propext, Classical.choice, Quot.sound]
C63_single [propext, Quot.sound]
C64_lookup [propext, Classical.choice, Quot.sound]
C64_listing [propext, Classical.choice, Quot.sound]
C64_read [propext, Classical.choice, Quot.sound]
C64_no_crash [propext, Classical.choice, Quot.sound]
C64_created [propext, Classical.choice, Quot.sound]
C64_counterexamples [propext, Classical.choice, Quot.sound]
C65_mounted [propext, Classical.choice, Quot.sound]
C65_foreground_partial [propext, Classical.choice, Quot.sound]
C65_background [propext, Classical.choice, Quot.sound]
C65_others [propext, Classical.choice, Quot.sound]
C65_created [propext, Classical.choice, Quot.sound]
C65_counterexample [propext, Classical.choice, Quot.sound]
C66_created_opens [propext, Classical.choice, Quot.sound]
C66_rows_fit [propext, Classical.choice, Quot.sound]
C66_opens_iff [propext, Quot.sound]
C66_no_crash_partial [propext, Classical.choice, Quot.sound]
C66_panics_iff [propext, Classical.choice, Quot.sound]
C66_counterexample [propext]
C67_copy [propext, Classical.choice, Quot.sound]
C68_extract_is_copy [propext, Classical.choice, Quot.sound]
C69_created [propext, Classical.choice, Quot.sound]
C69_success [propext, Classical.choice, Quot.sound]
C69_any_table [propext, Classical.choice, Quot.sound]
C69_kept [propext, Classical.choice, Quot.sound]
C69_content [propext, Classical.choice, Quot.sound]
C69_every_interference [propext, Quot.sound]
C69_alone [propext, Classical.choice, Quot.sound]
C69_newer_race [propext, Classical.choice, Quot.sound]
C70_as_seen [propext, Classical.choice, Quot.sound]
C70_walk [propext, Quot.sound]
C70_create [propext, Classical.choice, Quot.sound]
C71_create_extract [propext, Classical.choice, Quot.sound]
C71_list [propext, Classical.choice, Quot.sound]
C72_steps [propext, Classical.choice, Quot.sound]
C72_next [propext, Classical.choice, Quot.sound]
C73_tar [propext, Classical.choice, Quot.sound]
C73_zip [propext, Classical.choice, Quot.sound]
C74_list [propext, Classical.choice, Quot.sound]
C74_list_any [propext, Classical.choice, Quot.sound]
C74_dump [propext, Classical.choice, Quot.sound]
C74_status [propext, Classical.choice, Quot.sound]
C75_success [propext, Classical.choice, Quot.sound]
C75_necessary [propext, Classical.choice, Quot.sound]
C75_deterministic [propext, Classical.choice, Quot.sound]
C75_names [propext, Classical.choice, Quot.sound]
C76_readers [propext, Classical.choice, Quot.sound]
C77_inputs [propext, Classical.choice, Quot.sound]
C77_list [propext, Classical.choice, Quot.sound]
C77_absolute [propext, Quot.sound]
C78_no_crash_partial [propext, Classical.choice, Quot.sound]
C78_inputs_iff [propext, Classical.choice, Quot.sound]
C78_list_iff [propext, Classical.choice, Quot.sound]
C78_counterexample [propext, Classical.choice, Quot.sound]
C79_inputs [propext, Classical.choice, Quot.sound]
C79_list [propext, Classical.choice, Quot.sound]
C79_dirs [propext, Classical.choice, Quot.sound]
C79_listed [propext, Classical.choice, Quot.sound]
C80_content [propext, Classical.choice, Quot.sound]
C80_exact [propext, Classical.choice, Quot.sound]
C80_success_partial [propext, Classical.choice, Quot.sound]
C80_crash [propext, Classical.choice, Quot.sound]
C80_lost [propext, Classical.choice, Quot.sound]
C80_after [propext, Classical.choice, Quot.sound]
C80_shows [propext, Classical.choice, Quot.sound]
C80_extract [propext, Classical.choice, Quot.sound]
C80_counterexample [propext, Classical.choice, Quot.sound]
C81_tar [propext, Classical.choice, Quot.sound]
C81_zip [propext, Classical.choice, Quot.sound]
C82_inputs [propext, Classical.choice, Quot.sound]
C82_list [propext, Classical.choice, Quot.sound]
C82_outcome [propext, Classical.choice, Quot.sound]
C82_schedule [propext, Quot.sound]
C83_find [propext, Classical.choice, Quot.sound]
C83_find_ok [propext, Classical.choice, Quot.sound]
C83_base_dir [propext, Classical.choice, Quot.sound]
C83_base_dir_list [propext, Classical.choice, Quot.sound]
C84_part_of_whole [propext, Classical.choice, Quot.sound]
C85_statistics [propext, Classical.choice, Quot.sound]
C86_stable_partial [propext, Classical.choice, Quot.sound]
C86_plain_partial [propext, Classical.choice, Quot.sound]
C86_same [propext, Classical.choice, Quot.sound]
C86_same_plain [propext, Classical.choice, Quot.sound]
C86_newline [propext, Classical.choice, Quot.sound]
C86_arrow [propext, Classical.choice, Quot.sound]
C86_dot [propext, Classical.choice, Quot.sound]
C87_identity_partial [propext, Classical.choice, Quot.sound]
C87_compare [propext, Classical.choice, Quot.sound]
C87_index [propext, Classical.choice, Quot.sound]
C87_content [propext, Quot.sound]
C87_repr [propext, Classical.choice, Quot.sound]
C87_counterexample [propext, Classical.choice, Quot.sound]
C88_tar_partial [propext, Classical.choice, Quot.sound]
C88_zip_partial [propext, Classical.choice, Quot.sound]
C88_counterexamples [propext, Classical.choice, Quot.sound]
C89_zip [propext, Classical.choice, Quot.sound]
C89_zip_root [propext, Classical.choice, Quot.sound]
C89_tar_partial [propext, Classical.choice, Quot.sound]
C89_files_partial [propext, Classical.choice, Quot.sound]
C89_create_partial [propext, Classical.choice, Quot.sound]
C89_tar_escapes [propext, Classical.choice, Quot.sound]
C89_tar_counterexample [propext, Classical.choice, Quot.sound]
C89_create_counterexample [propext, Classical.choice, Quot.sound]
C89_root_counterexample [propext, Classical.choice, Quot.sound]
C90_add_ends [propext, Quot.sound]
C90_add_bound [propext, Quot.sound]
C90_create_ends [propext, Classical.choice, Quot.sound]
C90_extract_ends [propext, Classical.choice, Quot.sound]
C90_created_ends [propext, Classical.choice, Quot.sound]
C90_needs_steps [propext, Classical.choice, Quot.sound]
C91_tar [propext, Classical.choice, Quot.sound]
C91_zip [propext, Classical.choice, Quot.sound]
C91_tar_zip [propext, Classical.choice, Quot.sound]
C91_create_tar [propext, Classical.choice, Quot.sound]
C91_create_zip [propext, Classical.choice, Quot.sound]
C91_python_tar [propext, Classical.choice, Quot.sound]
C91_python_zip [propext, Classical.choice, Quot.sound]
C91_create_create [propext, Classical.choice, Quot.sound]
C91_create_python [propext, Classical.choice, Quot.sound]
C91_python_python [propext, Classical.choice, Quot.sound]
C91_tar_accepted [propext, Classical.choice, Quot.sound]
C91_zip_accepted [propext, Classical.choice, Quot.sound]
C91_order_needed [propext, Classical.choice, Quot.sound]
C92_paths [propext, Classical.choice, Quot.sound]
C92_order [propext, Classical.choice, Quot.sound]
C92_text [propext, Classical.choice, Quot.sound]
C92_shown [propext, Classical.choice, Quot.sound]
C92_numbers [propext, Classical.choice, Quot.sound]
C93_python [propext, Classical.choice, Quot.sound]
C93_python_ok [propext, Classical.choice, Quot.sound]
C93_create [propext, Classical.choice, Quot.sound]
C93_create_ok [propext, Classical.choice, Quot.sound]
C93_exception_counterexample [propext, Classical.choice, Quot.sound]
C94_command [propext, Classical.choice, Quot.sound]
C94_create_options [propext, Classical.choice, Quot.sound]
C94_extract_options [propext, Classical.choice, Quot.sound]
C94_order [propext, Classical.choice, Quot.sound]
C94_help [propext, Classical.choice, Quot.sound]
C94_program [propext, Classical.choice, Quot.sound]
C94_print [propext, Classical.choice, Quot.sound]
C94_tables [propext, Classical.choice, Quot.sound]
C94_list_options [propext, Classical.choice, Quot.sound]
C94_dump_options [propext, Classical.choice, Quot.sound]
C94_mount_options [propext, Classical.choice, Quot.sound]
C94_tool_options [propext, Classical.choice, Quot.sound]
C94_fuse_options [propext, Classical.choice, Quot.sound]
C94_tar2arx [propext, Classical.choice, Quot.sound]
C94_zip2arx [propext, Classical.choice, Quot.sound]
C94_mount_fuse [propext, Classical.choice, Quot.sound]
C94_auto_mount [propext, Classical.choice, Quot.sound]
C95_create [propext, Classical.choice, Quot.sound]
C95_extract [propext, Classical.choice, Quot.sound]
C95_list [propext, Classical.choice, Quot.sound]
C95_dump [propext, Classical.choice, Quot.sound]
C95_mount [propext, Classical.choice, Quot.sound]
C95_convert [propext, Classical.choice, Quot.sound]
C95_recursion_counterexample [propext, Classical.choice, Quot.sound]
C95_strip_counterexample [propext, Classical.choice, Quot.sound]
C95_stable_counterexample [propext, Classical.choice, Quot.sound]
C95_dump_file_counterexample [propext, Classical.choice, Quot.sound]
C96_lines [propext, Classical.choice, Quot.sound]
C96_extract [propext, Classical.choice, Quot.sound]
C96_all [propext, Classical.choice, Quot.sound]
C96_create [propext, Classical.choice, Quot.sound]
C96_newline_counterexample [propext, Classical.choice, Quot.sound]
C97_when [propext, Classical.choice, Quot.sound]
C97_upgrade [propext, Classical.choice, Quot.sound]
C97_overwrite [propext, Classical.choice, Quot.sound]
C98_read [propext, Classical.choice, Quot.sound]
C98_names [propext, Classical.choice, Quot.sound]
C98_programs [propext, Classical.choice, Quot.sound]
C99_convert [propext, Classical.choice, Quot.sound]
C99_tar_read [propext, Classical.choice, Quot.sound]
C99_zip_read [propext, Classical.choice, Quot.sound]
C99_tar_extract [propext, Classical.choice, Quot.sound]
C99_zip_extract [propext, Classical.choice, Quot.sound]
C99_tar_mount [propext, Classical.choice, Quot.sound]
C99_zip_mount [propext, Classical.choice, Quot.sound]
C99_other [propext, Classical.choice, Quot.sound]
C100_migrate [propext, Classical.choice, Quot.sound]
C100_archivable [propext, Classical.choice, Quot.sound]
C100_listing [propext, Classical.choice, Quot.sound]
C100_rights [propext, Quot.sound]
C101_create [propext, Classical.choice, Quot.sound]
C101_tar [propext, Classical.choice, Quot.sound]
C101_zip_partial [propext, Classical.choice, Quot.sound]
C101_zip_counterexample [propext, Classical.choice, Quot.sound]
C102_memory [propext, Classical.choice, Quot.sound]
C102_released [propext, Classical.choice, Quot.sound]
C103_find [propext, Quot.sound]
C103_get [propext, Quot.sound]
C103_mount [propext, Quot.sound]
C103_created [propext, Classical.choice, Quot.sound]
C104_packs [propext, Classical.choice, Quot.sound]
C104_next [propext, Classical.choice, Quot.sound]
C104_complete [propext, Classical.choice, Quot.sound]
C104_dump [propext, Classical.choice, Quot.sound]
C104_mount [propext, Classical.choice, Quot.sound]
C105_inodes [propext, Classical.choice, Quot.sound]
C106_python [propext, Classical.choice, Quot.sound]
C106_python_all [propext, Classical.choice, Quot.sound]
C106_dump [propext, Classical.choice, Quot.sound]
C106_mount_partial [propext, Classical.choice, Quot.sound]
C106_mount_counterexample [propext, Classical.choice, Quot.sound]
