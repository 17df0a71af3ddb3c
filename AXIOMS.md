# Axioms

From `#print axioms`, by `tools/axioms.py`.

## None

* `Maike.Build.Log.C55_zero`
* `Maike.Exec.C37_success`
* `Maike.Exec.Transfer.C78_starved`
* `Maike.Io.C28_flush_ends_stream`
* `Maike.Main.C77_quotes`
* `Maike.Sched.Start.C113_false_readers`
* `Maike.Text.C30_extMode`
* `Maike.Text.C30_logFormat`
* `Maike.Text.C30_logLevel`
* `Maike.Text.C30_origin`
* `Maike.Text.C30_rebuildPolicy`
* `Maike.Text.Date.C97_order`

## `propext`

* `Maike.Build.Log.C55_blank_lines`
* `Maike.Io.C26_getchar_stream`
* `Maike.Kvs.C32_flag`
* `Maike.Kvs.C33_empty_right`
* `Maike.Kvs.C33_not_idempotent`
* `Maike.Loaders.Cxx.C40_prefix`
* `Maike.Loaders.Cxx.C40_source`
* `Maike.Loaders.Ext.C39_source`
* `Maike.Recipes.C114_guarded`
* `Maike.Recipes.C82_generic`
* `Maike.Recipes.StatusExample.C82_generic_false`
* `Maike.Recipes.StatusExample.C82_markdown_false`
* `Maike.Sched.C58_two_waiters`
* `Maike.Sched.Start.C113_readers`
* `Maike.Sched.Start.C113_workers`
* `Maike.Sched.event_wait`
* `Maike.Sched.wait_done`
* `Maike.Tree.C46_external`
* `Maike.Tree.Commands.C48_absolute`
* `Maike.Tree.Regex.C109_bad`
* `Maike.Tree.Regex.C109_ordinary`
* `Maike.Utils.LoaderHandle.C68_copy_of_moved`
* `Maike.Utils.ScopeExit.C56_handler_assignment`
* `Maike.Utils.UniqueFunction.C56_function_self_assignment`

## `Quot.sound`, `propext`

* `Maike.Build.C117_alone`
* `Maike.Build.C11_error`
* `Maike.Build.C11_meaning`
* `Maike.Build.C11_order`
* `Maike.Build.C12_skip`
* `Maike.Build.C14_needs_fine_stamps`
* `Maike.Build.C38_nothing_changes`
* `Maike.Build.C66_not_all_announced`
* `Maike.Build.C69_order`
* `Maike.Build.C86_dirs_needed`
* `Maike.Build.C88_refines`
* `Maike.Build.FleetExample.C115_lasting`
* `Maike.Build.FleetExample.C115_others_unfinished`
* `Maike.Build.FleetExample.C115_unequal`
* `Maike.Build.SeparateExample.C117_completes_needed`
* `Maike.Build.SeparateExample.C117_sources_needed`
* `Maike.Build.SeparateExample.C117_targets_needed`
* `Maike.Cli.C51_accepted`
* `Maike.Cli.C51_bits`
* `Maike.Cli.C51_full`
* `Maike.Db.C05_recursive_dependencies`
* `Maike.Db.C06_error_is_true`
* `Maike.Db.C06_fails_iff_broken`
* `Maike.Db.C06_ignore_errors`
* `Maike.Db.C06_resolved`
* `Maike.Db.C07_getNode`
* `Maike.Db.C07_ids`
* `Maike.Db.C09_generated_entries`
* `Maike.Db.C09_generated_entry`
* `Maike.Db.C09_use_target_deps`
* `Maike.Db.C21_waits_for`
* `Maike.Exec.Descriptors.DescriptorsExample.C96_false`
* `Maike.Exec.Transfer.C78_captured`
* `Maike.Exec.Transfer.C78_deterministic`
* `Maike.Graph.C01_topological_order`
* `Maike.Graph.C02_each_node_once`
* `Maike.Graph.C03_cycle_detection_from`
* `Maike.Graph.C03_cycle_detection_graph`
* `Maike.Graph.C04_visits_exactly_reachable`
* `Maike.Io.C26_byte_ne_eof`
* `Maike.Io.C27_flushed`
* `Maike.Io.C27_prefix`
* `Maike.Io.C28_content`
* `Maike.Io.C28_getchar`
* `Maike.Io.C28_progress`
* `Maike.Io.Fifo.C25_blocks`
* `Maike.Io.Fifo.C25_prefix`
* `Maike.Io.Fifo.C25_read_returns`
* `Maike.Io.Fifo.C25_safe`
* `Maike.Io.Fifo.C25_stream`
* `Maike.Kvs.C31_merge`
* `Maike.Kvs.C31_wellFormed`
* `Maike.Kvs.C33_empty_left`
* `Maike.Kvs.C34_flag_reset`
* `Maike.Kvs.C34_override`
* `Maike.Kvs.JsonLoad.C73_ignored`
* `Maike.Kvs.JsonLoad.C74_empty`
* `Maike.Loaders.Cxx.C40_newlines`
* `Maike.Loaders.Cxx.C41_tags`
* `Maike.Loaders.Ext.C39_blank`
* `Maike.Loaders.Ext.C39_lines`
* `Maike.Loaders.Ext.C39_tag`
* `Maike.Loaders.Inc.C42_includes`
* `Maike.Loaders.Inc.C43_partial`
* `Maike.Main.C111_disk`
* `Maike.Main.C111_finite`
* `Maike.Main.C111_whole`
* `Maike.Main.C114_top`
* `Maike.Main.C72_lines`
* `Maike.Main.C76_resolved`
* `Maike.Main.C77_readable`
* `Maike.Paths.C45_append`
* `Maike.Recipes.C114_hyphens`
* `Maike.Recipes.C82_copier`
* `Maike.Recipes.C82_doc_top`
* `Maike.Recipes.C82_markdown_partial`
* `Maike.Recipes.C82_sass`
* `Maike.Recipes.C82_vcslog_partial`
* `Maike.Recipes.C84_found_partial`
* `Maike.Recipes.C84_max_only`
* `Maike.Recipes.C84_oldest`
* `Maike.Sched.C58_get_done`
* `Maike.Sched.C58_get_outcome`
* `Maike.Sched.C58_get_returns`
* `Maike.Sched.Pool.C22_concurrency`
* `Maike.Sched.Pool.C22_drained`
* `Maike.Sched.Pool.C22_fifo`
* `Maike.Sched.Pool.C22_no_idling`
* `Maike.Sched.Pool.C23_bounded`
* `Maike.Sched.Pool.C23_no_deadlock`
* `Maike.Sched.Pool.C24_all_raised`
* `Maike.Sched.Pool.C24_first_exception`
* `Maike.Sched.Start.C113_drained`
* `Maike.Sched.Start.C113_false`
* `Maike.Sched.Start.C113_join_partial`
* `Maike.Sched.Start.C113_no_workers`
* `Maike.Sched.counter_wait`
* `Maike.TaskList.C18_false`
* `Maike.Text.BuildId.C29_format`
* `Maike.Text.BuildId.C29_injective`
* `Maike.Text.BuildId.C29_overlong`
* `Maike.Text.BuildId.C29_parse`
* `Maike.Text.BuildId.C29_rejects`
* `Maike.Text.BuildId.C29_roundTrip`
* `Maike.Text.BuildId.C29_short`
* `Maike.Text.Numbers.C53_default`
* `Maike.Text.Numbers.C62_accepted`
* `Maike.Text.Shell.C35_injective`
* `Maike.Text.Shell.C35_recover`
* `Maike.Tree.C111_cycle`
* `Maike.Tree.C111_found`
* `Maike.Tree.C111_resolve`
* `Maike.Tree.C111_says`
* `Maike.Tree.C111_walk`
* `Maike.Tree.C46_dotSlash`
* `Maike.Tree.C46_fileDir`
* `Maike.Tree.C46_project`
* `Maike.Tree.C46_same`
* `Maike.Tree.C47_injective_partial`
* `Maike.Tree.C47_inside_partial`
* `Maike.Tree.C47_root`
* `Maike.Tree.C47_target_partial`
* `Maike.Tree.C49_never_twice`
* `Maike.Tree.C49_once`
* `Maike.Tree.C49_parents`
* `Maike.Tree.C49_result`
* `Maike.Tree.C49_waits`
* `Maike.Tree.C50_text`
* `Maike.Tree.C50_throws`
* `Maike.Tree.C65_dotSlash`
* `Maike.Tree.C65_plain`
* `Maike.Tree.Regex.C109_search`

## `Classical.choice`, `Quot.sound`, `propext`

* `Maike.Build.C106_order`
* `Maike.Build.C106_script`
* `Maike.Build.C110_forced`
* `Maike.Build.C110_partial`
* `Maike.Build.C110_saved_again`
* `Maike.Build.C115_afterwards_partial`
* `Maike.Build.C115_agree_partial`
* `Maike.Build.C115_consistent_partial`
* `Maike.Build.C115_false`
* `Maike.Build.C115_idle_partial`
* `Maike.Build.C115_right_partial`
* `Maike.Build.C115_sources_partial`
* `Maike.Build.C115_up_to_date_partial`
* `Maike.Build.C117_idle`
* `Maike.Build.C117_pieces`
* `Maike.Build.C117_pieces_alone`
* `Maike.Build.C117_pieces_idle`
* `Maike.Build.C117_succeeds`
* `Maike.Build.C118_all`
* `Maike.Build.C118_errors`
* `Maike.Build.C118_final`
* `Maike.Build.C118_report`
* `Maike.Build.C118_result`
* `Maike.Build.C118_seen`
* `Maike.Build.C118_true`
* `Maike.Build.C118_waiting`
* `Maike.Build.C12_error`
* `Maike.Build.C12_run`
* `Maike.Build.C13_inputs_stable`
* `Maike.Build.C13_source_tree`
* `Maike.Build.C13_up_to_date`
* `Maike.Build.C14_second_build_idle`
* `Maike.Build.C14_source_tree`
* `Maike.Build.C38_bounded`
* `Maike.Build.C38_succeeds`
* `Maike.Build.C66_announced_are_executed`
* `Maike.Build.C69_dry`
* `Maike.Build.C69_forced`
* `Maike.Build.C69_last`
* `Maike.Build.C69_once`
* `Maike.Build.C69_up_to_date`
* `Maike.Build.C85_consistent`
* `Maike.Build.C85_same_as_clean`
* `Maike.Build.C86_exactly`
* `Maike.Build.C86_only_if_necessary`
* `Maike.Build.C87_bounded`
* `Maike.Build.C87_can_end`
* `Maike.Build.C87_progress`
* `Maike.Build.C88_recipes_partial`
* `Maike.Build.C91_all_executed`
* `Maike.Build.C91_executed_partial`
* `Maike.Build.C91_forced_partial`
* `Maike.Build.C94_confined`
* `Maike.Build.C94_determined`
* `Maike.Build.C94_in_order`
* `Maike.Build.C94_isolated`
* `Maike.Build.C94_recipes`
* `Maike.Build.C94_serial`
* `Maike.Build.C94_workers`
* `Maike.Build.C95_consistent`
* `Maike.Build.C95_same_as_clean`
* `Maike.Build.Log.C55_injective`
* `Maike.Build.Log.C55_lines`
* `Maike.Build.Log.C55_lines_unique`
* `Maike.Build.Log.C55_message`
* `Maike.Build.Log.C55_not_mixed`
* `Maike.Build.Log.C55_progress`
* `Maike.Build.LogTellsExample.C118_example`
* `Maike.Build.LogTellsExample.C118_example_order`
* `Maike.Build.LogTellsExample.C118_level_needed`
* `Maike.Build.LogTellsExample.C118_waiting_example`
* `Maike.Build.SeparateExample.C117_example`
* `Maike.Build.SeparateExample.C117_pieces_example`
* `Maike.Build.SerialExample.C94_left_behind`
* `Maike.Build.SerialExample.C94_not_declared`
* `Maike.Build.Threaded.C107_bounded`
* `Maike.Build.Threaded.C107_can_end`
* `Maike.Build.Threaded.C107_contents`
* `Maike.Build.Threaded.C107_contents_realised`
* `Maike.Build.Threaded.C107_progress`
* `Maike.Build.Threaded.C107_realised`
* `Maike.Build.Threaded.C107_refines`
* `Maike.Build.Threaded.C107_scripts`
* `Maike.Build.Threaded.C107_scripts_realised`
* `Maike.Build.Threaded.C107_several`
* `Maike.Cli.C51_bits_limit`
* `Maike.Cli.C51_last`
* `Maike.Cli.C51_maike`
* `Maike.Cli.C51_surprises`
* `Maike.Cli.C52_names`
* `Maike.Cli.C52_roundTrip`
* `Maike.Cli.C52_trailing_comma`
* `Maike.Cli.C92_help`
* `Maike.Cli.C92_maike`
* `Maike.Cli.C92_types`
* `Maike.Cli.C92_usage`
* `Maike.Db.C08_one_owner`
* `Maike.Db.C10_load_unresolved`
* `Maike.Db.C10_placeholders`
* `Maike.Db.C21_all_tasks`
* `Maike.Db.C21_build_order`
* `Maike.Db.C21_single_target`
* `Maike.Exec.C37_abort`
* `Maike.Exec.C37_failed`
* `Maike.Exec.C37_values`
* `Maike.Exec.Descriptors.C96_closed_once`
* `Maike.Exec.Descriptors.C96_exact`
* `Maike.Exec.Descriptors.C96_no_leak`
* `Maike.Exec.Descriptors.C96_restored`
* `Maike.Exec.Descriptors.C96_streams`
* `Maike.Exec.Launch.C67_bounded`
* `Maike.Exec.Launch.C67_no_deadlock`
* `Maike.Exec.Launch.C67_one_at_a_time`
* `Maike.Exec.Launch.C67_reported`
* `Maike.Exec.Launch.C67_returns`
* `Maike.Exec.Launch.C67_stdin_never_ends`
* `Maike.Exec.Transfer.C78_progress`
* `Maike.Exec.Transfer.C78_reached`
* `Maike.Exec.Transfer.C78_recipes`
* `Maike.Exec.Transfer.C78_returns`
* `Maike.Kvs.C32_conflict`
* `Maike.Kvs.C33_assoc`
* `Maike.Kvs.C34_assoc`
* `Maike.Kvs.C34_recipe`
* `Maike.Kvs.C34_request`
* `Maike.Kvs.C54_conflict`
* `Maike.Kvs.C54_merged`
* `Maike.Kvs.C54_skip`
* `Maike.Kvs.C59_exact`
* `Maike.Kvs.C59_false`
* `Maike.Kvs.C59_recipe_dependency_partial`
* `Maike.Kvs.C60_again`
* `Maike.Kvs.C60_load`
* `Maike.Kvs.C60_loaded`
* `Maike.Kvs.C60_roundTrip`
* `Maike.Kvs.C61_loaders`
* `Maike.Kvs.Heap.C101_history`
* `Maike.Kvs.Heap.C101_merge`
* `Maike.Kvs.Heap.C101_noLeak`
* `Maike.Kvs.JsonLoad.C73_any_source`
* `Maike.Kvs.JsonLoad.C73_blank`
* `Maike.Kvs.JsonLoad.C73_document`
* `Maike.Kvs.JsonLoad.C73_malformed`
* `Maike.Kvs.JsonLoad.C73_truncated`
* `Maike.Kvs.JsonLoad.C74_false`
* `Maike.Kvs.JsonLoad.C74_long`
* `Maike.Kvs.JsonLoad.C74_never_ends`
* `Maike.Kvs.JsonLoad.C74_short_partial`
* `Maike.Kvs.JsonText.C100_document`
* `Maike.Kvs.JsonText.C100_output`
* `Maike.Kvs.JsonText.C100_roundTrip`
* `Maike.Kvs.JsonText.C106_json`
* `Maike.Kvs.JsonText.C98_canonical`
* `Maike.Kvs.JsonText.C98_command`
* `Maike.Kvs.JsonText.C98_configdump`
* `Maike.Kvs.JsonText.C98_injective`
* `Maike.Kvs.JsonText.C98_keys`
* `Maike.Kvs.JsonText.C98_layout`
* `Maike.Kvs.JsonText.C98_lookup`
* `Maike.Kvs.JsonText.C98_only`
* `Maike.Kvs.JsonText.C98_printable`
* `Maike.Kvs.JsonText.C98_reads`
* `Maike.Kvs.Names.C99_otherwise`
* `Maike.Kvs.Names.C99_text_partial`
* `Maike.Kvs.Names.Examples.C99_false`
* `Maike.Loaders.Cxx.C41_line_comment`
* `Maike.Loaders.Cxx.C41_raw_paren`
* `Maike.Loaders.Cxx.C41_star_star_slash`
* `Maike.Loaders.Ext.C39_newlines`
* `Maike.Loaders.Inc.C43_bogus`
* `Maike.Loaders.Inc.C43_false`
* `Maike.Loaders.Inc.C43_line_comment`
* `Maike.Loaders.Inc.C43_star_star_slash`
* `Maike.Loaders.Inc.C43_unterminated`
* `Maike.Main.AcceptExample.C102_aside`
* `Maike.Main.BootstrapExample.C106_false`
* `Maike.Main.C100_compound`
* `Maike.Main.C100_configdump`
* `Maike.Main.C102_accepted`
* `Maike.Main.C102_all`
* `Maike.Main.C102_info`
* `Maike.Main.C102_named`
* `Maike.Main.C102_rejected`
* `Maike.Main.C103_always`
* `Maike.Main.C103_status`
* `Maike.Main.C103_true`
* `Maike.Main.C106_bootstrap_partial`
* `Maike.Main.C106_files_partial`
* `Maike.Main.C106_named_files_partial`
* `Maike.Main.C106_named_partial`
* `Maike.Main.C107_all`
* `Maike.Main.C107_handover`
* `Maike.Main.C107_named`
* `Maike.Main.C107_program`
* `Maike.Main.C107_same`
* `Maike.Main.C107_success`
* `Maike.Main.C107_workers`
* `Maike.Main.C109_default`
* `Maike.Main.C109_dot_slash`
* `Maike.Main.C109_dot_slash_command`
* `Maike.Main.C109_false`
* `Maike.Main.C109_generated_default`
* `Maike.Main.C109_visible_partial`
* `Maike.Main.C110_false`
* `Maike.Main.C110_false_scan`
* `Maike.Main.C110_project_partial`
* `Maike.Main.C111_same`
* `Maike.Main.C112_library_partial`
* `Maike.Main.C113_hangs`
* `Maike.Main.C113_same_files`
* `Maike.Main.C114_input_partial`
* `Maike.Main.C114_reads_partial`
* `Maike.Main.C114_starts`
* `Maike.Main.C115_project_idle_partial`
* `Maike.Main.C115_project_partial`
* `Maike.Main.C116_joins`
* `Maike.Main.C116_loads`
* `Maike.Main.C116_undisturbed`
* `Maike.Main.C116_while_building`
* `Maike.Main.C117_directories`
* `Maike.Main.C117_directories_pieces`
* `Maike.Main.C117_project`
* `Maike.Main.C117_project_idle`
* `Maike.Main.C118_project`
* `Maike.Main.C70_end_to_end`
* `Maike.Main.C71_again`
* `Maike.Main.C71_hidden_filtered`
* `Maike.Main.C71_hidden_needed`
* `Maike.Main.C71_hidden_outside`
* `Maike.Main.C71_nothing`
* `Maike.Main.C71_second_run`
* `Maike.Main.C72_dot`
* `Maike.Main.C72_false`
* `Maike.Main.C72_listed_partial`
* `Maike.Main.C72_no_unknown_partial`
* `Maike.Main.C72_plain_partial`
* `Maike.Main.C72_unreachable`
* `Maike.Main.C75_generic`
* `Maike.Main.C75_loader`
* `Maike.Main.C75_made_again`
* `Maike.Main.C75_needed`
* `Maike.Main.C75_rejected`
* `Maike.Main.C75_rules`
* `Maike.Main.C75_tags`
* `Maike.Main.C75_up_to_date`
* `Maike.Main.C76_config`
* `Maike.Main.C76_deterministic`
* `Maike.Main.C76_dirs`
* `Maike.Main.C76_includes`
* `Maike.Main.C76_info`
* `Maike.Main.C76_named`
* `Maike.Main.C76_read_only`
* `Maike.Main.C76_recipe`
* `Maike.Main.C76_rejected`
* `Maike.Main.C76_slash`
* `Maike.Main.C76_status`
* `Maike.Main.C76_success`
* `Maike.Main.C76_twice`
* `Maike.Main.C76_unimplemented`
* `Maike.Main.C76_workers`
* `Maike.Main.C77_edges`
* `Maike.Main.C77_exact`
* `Maike.Main.C77_includes`
* `Maike.Main.C77_lines`
* `Maike.Main.C77_needs`
* `Maike.Main.C77_order`
* `Maike.Main.C77_schedule`
* `Maike.Main.C79_command`
* `Maike.Main.C79_dependencies`
* `Maike.Main.C79_newer`
* `Maike.Main.C79_tasks`
* `Maike.Main.C80_retried_partial`
* `Maike.Main.C81_archive_partial`
* `Maike.Main.C81_linked_partial`
* `Maike.Main.C81_order_partial`
* `Maike.Main.C83_dependencies_partial`
* `Maike.Main.C85_as_from_scratch`
* `Maike.Main.C85_incremental`
* `Maike.Main.C86_after_changes`
* `Maike.Main.C86_run_exactly`
* `Maike.Main.C86_run_only_if_outdated`
* `Maike.Main.C87_all`
* `Maike.Main.C87_ends`
* `Maike.Main.C87_exception_false`
* `Maike.Main.C87_named`
* `Maike.Main.C87_scan`
* `Maike.Main.C88_success_partial`
* `Maike.Main.C89_current_partial`
* `Maike.Main.C89_run`
* `Maike.Main.C90_run`
* `Maike.Main.C90_target_partial`
* `Maike.Main.C90_where`
* `Maike.Main.C91_current_partial`
* `Maike.Main.C91_ignored`
* `Maike.Main.C93_false`
* `Maike.Main.C93_ignored`
* `Maike.Main.C94_run`
* `Maike.Main.C94_run_workers`
* `Maike.Main.C95_as_from_scratch`
* `Maike.Main.C95_incremental`
* `Maike.Main.GeneratorExample.C114_false_directory`
* `Maike.Main.IncrementalExample.C85_old_time_stamp`
* `Maike.Main.LinkedExample.C81_false`
* `Maike.Main.LinksExample.C111_dotdot`
* `Maike.Main.LogTellsExample.C118_example`
* `Maike.Main.ProcessesExample.C88_false`
* `Maike.Main.Report.C89_false`
* `Maike.Main.Report.C89_false_fragment`
* `Maike.Main.Report.C90_false`
* `Maike.Main.RetryExample.C80_false`
* `Maike.Main.SeparateExample.C117_example`
* `Maike.Main.SettingsExample.C91_false`
* `Maike.Paths.C44_longest`
* `Maike.Paths.C44_none`
* `Maike.Paths.C45_replace`
* `Maike.Paths.C45_replace_collision`
* `Maike.Recipes.Archive.C112_exact_partial`
* `Maike.Recipes.Archive.C112_false`
* `Maike.Recipes.Archive.C112_growing_partial`
* `Maike.Recipes.Archive.C112_members`
* `Maike.Recipes.Archive.C112_new`
* `Maike.Recipes.Archive.C112_parts`
* `Maike.Recipes.Archive.C112_stays`
* `Maike.Recipes.Archive.C112_succeeds`
* `Maike.Recipes.C114_build`
* `Maike.Recipes.C114_description`
* `Maike.Recipes.C114_install`
* `Maike.Recipes.C114_manual_partial`
* `Maike.Recipes.C114_part_partial`
* `Maike.Recipes.C114_recipes`
* `Maike.Recipes.C82_archiver_partial`
* `Maike.Recipes.C82_compiler_partial`
* `Maike.Recipes.C82_directory_partial`
* `Maike.Recipes.C82_doc_partial`
* `Maike.Recipes.C82_header`
* `Maike.Recipes.C82_linker_partial`
* `Maike.Recipes.C83_command_partial`
* `Maike.Recipes.C83_words`
* `Maike.Recipes.C84_absolute`
* `Maike.Recipes.C84_revisions`
* `Maike.Recipes.C84_selected_partial`
* `Maike.Recipes.C84_used`
* `Maike.Recipes.C89_exact`
* `Maike.Recipes.C89_plain`
* `Maike.Recipes.C89_self`
* `Maike.Recipes.C89_target_partial`
* `Maike.Recipes.C89_where_partial`
* `Maike.Recipes.C90_exact`
* `Maike.Recipes.C90_self`
* `Maike.Recipes.CompileExample.C83_false`
* `Maike.Recipes.OwnExample.C114_false`
* `Maike.Recipes.OwnExample.C114_false_part`
* `Maike.Recipes.RevisionExample.C84_false`
* `Maike.Recipes.RevisionExample.C84_oldest_false`
* `Maike.Recipes.StatusExample.C82_directory_false`
* `Maike.Recipes.StatusExample.C82_targets_false`
* `Maike.Recipes.StatusExample.C82_test_program`
* `Maike.Sched.Start.C113_join_undefined`
* `Maike.TaskList.C15_dependencies_first`
* `Maike.TaskList.C16_at_most_once`
* `Maike.TaskList.C17_bounded`
* `Maike.TaskList.C17_no_deadlock`
* `Maike.TaskList.C17_quiescent`
* `Maike.TaskList.C18_never_ends`
* `Maike.TaskList.C18_reported_partial`
* `Maike.TaskList.C19_dependants_not_started`
* `Maike.TaskList.C19_reported`
* `Maike.TaskList.C20_returns_complete`
* `Maike.TaskList.C20_success_runs_everything`
* `Maike.TaskList.Threads.C104_bounded`
* `Maike.TaskList.Threads.C104_left`
* `Maike.TaskList.Threads.C104_legal`
* `Maike.TaskList.Threads.C104_no_race`
* `Maike.TaskList.Threads.C104_order`
* `Maike.TaskList.Threads.C104_progress`
* `Maike.TaskList.Threads.C104_refines`
* `Maike.Text.About.C108_exact`
* `Maike.Text.About.C108_false`
* `Maike.Text.About.C108_partial`
* `Maike.Text.Date.C97_fits`
* `Maike.Text.Date.C97_given`
* `Maike.Text.Date.C97_injective`
* `Maike.Text.Date.C97_overflow`
* `Maike.Text.Date.C97_text`
* `Maike.Text.Numbers.C53_decimal`
* `Maike.Text.Numbers.C53_positive`
* `Maike.Text.Numbers.C53_roundTrip`
* `Maike.Text.Numbers.C53_sloppy`
* `Maike.Text.Numbers.C53_wraps`
* `Maike.Text.Numbers.C57_memAvail`
* `Maike.Text.Numbers.C57_open_fails`
* `Maike.Text.Numbers.C62_decimal`
* `Maike.Text.Numbers.C62_rejected`
* `Maike.Text.Numbers.C62_surprises`
* `Maike.Text.Shell.C36_backslash`
* `Maike.Text.Shell.C36_exact`
* `Maike.Text.Shell.C36_false`
* `Maike.Text.Shell.C36_paste_partial`
* `Maike.Tree.C111_ends`
* `Maike.Tree.C116_before`
* `Maike.Tree.C116_fails`
* `Maike.Tree.C116_once`
* `Maike.Tree.C116_progress`
* `Maike.Tree.C116_result`
* `Maike.Tree.C116_same`
* `Maike.Tree.C116_terminates`
* `Maike.Tree.C46_generated`
* `Maike.Tree.C46_generated_detour`
* `Maike.Tree.C46_same_generated`
* `Maike.Tree.C46_trailing_separator`
* `Maike.Tree.C47_false`
* `Maike.Tree.C49_ends`
* `Maike.Tree.C49_progress`
* `Maike.Tree.C49_schedule`
* `Maike.Tree.C49_terminates`
* `Maike.Tree.C63_dependency`
* `Maike.Tree.C63_load`
* `Maike.Tree.C63_tags`
* `Maike.Tree.C63_target`
* `Maike.Tree.C64_directory`
* `Maike.Tree.C64_no_loader`
* `Maike.Tree.Commands.C48_ends`
* `Maike.Tree.Commands.C48_kept`
* `Maike.Tree.Commands.C48_race`
* `Maike.Tree.Commands.C48_same`
* `Maike.Tree.Commands.C48_search`
* `Maike.Tree.MovingExample.C116_example`
* `Maike.Tree.MovingExample.C116_mixed`
* `Maike.Tree.Regex.C109_generated`
* `Maike.Tree.Regex.C109_quoted`
* `Maike.Tree.Threads.C105_bounded`
* `Maike.Tree.Threads.C105_deterministic`
* `Maike.Tree.Threads.C105_ends`
* `Maike.Tree.Threads.C105_errors`
* `Maike.Tree.Threads.C105_left`
* `Maike.Tree.Threads.C105_legal`
* `Maike.Tree.Threads.C105_no_race`
* `Maike.Tree.Threads.C105_once`
* `Maike.Tree.Threads.C105_progress`
* `Maike.Tree.Threads.C105_quiet`
* `Maike.Tree.Threads.C105_refines`
* `Maike.Tree.Threads.C105_result`
* `Maike.Tree.Threads.C105_throws`
* `Maike.Utils.LoaderHandle.C68_content`
* `Maike.Utils.LoaderHandle.C68_no_leak`
* `Maike.Utils.LoaderHandle.C68_once`
* `Maike.Utils.LoaderHandle.C68_safe`
* `Maike.Utils.ScopeExit.C56_handler_at_most_once`
* `Maike.Utils.ScopeExit.C56_handler_once`
* `Maike.Utils.UniqueFunction.C56_function_no_leak`
* `Maike.Utils.UniqueFunction.C56_function_once`
* `Maike.Utils.UniqueFunction.C56_function_one_owner`
* `Maike.Utils.UniqueFunction.C56_function_safe`
