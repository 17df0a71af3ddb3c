{
 "claims": [
  {
   "property": "C01",
   "status": "proved",
   "theorems": [
    "Maike.Graph.C01_topological_order"
   ],
   "note": ""
  },
  {
   "property": "C02",
   "status": "proved",
   "theorems": [
    "Maike.Graph.C02_each_node_once"
   ],
   "note": ""
  },
  {
   "property": "C03",
   "status": "proved",
   "theorems": [
    "Maike.Graph.C03_cycle_detection_graph",
    "Maike.Graph.C03_cycle_detection_from"
   ],
   "note": ""
  },
  {
   "property": "C04",
   "status": "proved",
   "theorems": [
    "Maike.Graph.C04_visits_exactly_reachable"
   ],
   "note": ""
  },
  {
   "property": "C05",
   "status": "proved",
   "theorems": [
    "Maike.Db.C05_recursive_dependencies"
   ],
   "note": ""
  },
  {
   "property": "C06",
   "status": "proved",
   "theorems": [
    "Maike.Db.C06_fails_iff_broken",
    "Maike.Db.C06_error_is_true",
    "Maike.Db.C06_resolved",
    "Maike.Db.C06_ignore_errors"
   ],
   "note": ""
  },
  {
   "property": "C07",
   "status": "proved",
   "theorems": [
    "Maike.Db.C07_ids",
    "Maike.Db.C07_getNode"
   ],
   "note": ""
  },
  {
   "property": "C08",
   "status": "proved",
   "theorems": [
    "Maike.Db.C08_one_owner"
   ],
   "note": ""
  },
  {
   "property": "C09",
   "status": "proved",
   "theorems": [
    "Maike.Db.C09_generated_entry",
    "Maike.Db.C09_generated_entries",
    "Maike.Db.C09_use_target_deps"
   ],
   "note": ""
  },
  {
   "property": "C10",
   "status": "proved",
   "theorems": [
    "Maike.Db.C10_placeholders",
    "Maike.Db.C10_load_unresolved"
   ],
   "note": "C10_load_unresolved is the consequence for a whole load. Loaders never set build dependencies; an external build dependency would not get a placeholder."
  },
  {
   "property": "C11",
   "status": "proved",
   "theorems": [
    "Maike.Build.C11_error",
    "Maike.Build.C11_meaning",
    "Maike.Build.C11_order"
   ],
   "note": ""
  },
  {
   "property": "C12",
   "status": "proved",
   "theorems": [
    "Maike.Build.C12_skip",
    "Maike.Build.C12_run",
    "Maike.Build.C12_error"
   ],
   "note": ""
  },
  {
   "property": "C13",
   "status": "proved",
   "theorems": [
    "Maike.Build.C13_up_to_date",
    "Maike.Build.C13_inputs_stable",
    "Maike.Build.C13_source_tree"
   ],
   "note": "Assumes that later writes get later time stamps; C14_needs_fine_stamps shows that this is needed."
  },
  {
   "property": "C14",
   "status": "proved",
   "theorems": [
    "Maike.Build.C14_second_build_idle",
    "Maike.Build.C14_source_tree",
    "Maike.Build.C14_needs_fine_stamps"
   ],
   "note": "Assumes that later writes get later time stamps; C14_needs_fine_stamps shows that this is needed."
  },
  {
   "property": "C15",
   "status": "proved",
   "theorems": [
    "Maike.TaskList.C15_dependencies_first"
   ],
   "note": ""
  },
  {
   "property": "C16",
   "status": "proved",
   "theorems": [
    "Maike.TaskList.C16_at_most_once"
   ],
   "note": ""
  },
  {
   "property": "C17",
   "status": "proved",
   "theorems": [
    "Maike.Sched.event_wait",
    "Maike.Sched.counter_wait",
    "Maike.Sched.wait_done",
    "Maike.TaskList.C17_bounded",
    "Maike.TaskList.C17_no_deadlock",
    "Maike.TaskList.C17_quiescent"
   ],
   "note": "Termination is a bound on the length of every schedule. Freedom from deadlock assumes that tasks which end record a result; see C18 for the other case."
  },
  {
   "property": "C18",
   "status": "partial",
   "theorems": [
    "Maike.TaskList.C18_reported_partial",
    "Maike.TaskList.C18_false",
    "Maike.TaskList.C18_never_ends"
   ],
   "note": "False of the code: if a recipe cannot be launched and another task needs its output, process waits forever. C18_false is a concrete run, C18_never_ends the general statement. C18_reported_partial covers tasks no other task needs."
  },
  {
   "property": "C19",
   "status": "proved",
   "theorems": [
    "Maike.TaskList.C19_dependants_not_started",
    "Maike.TaskList.C19_reported"
   ],
   "note": ""
  },
  {
   "property": "C20",
   "status": "proved",
   "theorems": [
    "Maike.TaskList.C20_returns_complete",
    "Maike.TaskList.C20_success_runs_everything"
   ],
   "note": ""
  },
  {
   "property": "C21",
   "status": "proved",
   "theorems": [
    "Maike.Db.C21_all_tasks",
    "Maike.Db.C21_single_target",
    "Maike.Db.C21_waits_for",
    "Maike.Db.C21_build_order"
   ],
   "note": ""
  },
  {
   "property": "C22",
   "status": "proved",
   "theorems": [
    "Maike.Sched.Pool.C22_fifo",
    "Maike.Sched.Pool.C22_concurrency",
    "Maike.Sched.Pool.C22_drained",
    "Maike.Sched.Pool.C22_no_idling"
   ],
   "note": ""
  },
  {
   "property": "C23",
   "status": "proved",
   "theorems": [
    "Maike.Sched.Pool.C23_no_deadlock",
    "Maike.Sched.Pool.C23_bounded"
   ],
   "note": ""
  },
  {
   "property": "C24",
   "status": "proved",
   "theorems": [
    "Maike.Sched.Pool.C24_first_exception",
    "Maike.Sched.Pool.C24_all_raised"
   ],
   "note": ""
  },
  {
   "property": "C25",
   "status": "proved",
   "theorems": [
    "Maike.Io.Fifo.C25_prefix",
    "Maike.Io.Fifo.C25_stream",
    "Maike.Io.Fifo.C25_blocks",
    "Maike.Io.Fifo.C25_safe",
    "Maike.Io.Fifo.C25_read_returns"
   ],
   "note": ""
  },
  {
   "property": "C26",
   "status": "proved",
   "theorems": [
    "Maike.Io.C26_getchar_stream",
    "Maike.Io.C26_byte_ne_eof"
   ],
   "note": ""
  },
  {
   "property": "C27",
   "status": "proved",
   "theorems": [
    "Maike.Io.C27_prefix",
    "Maike.Io.C27_flushed"
   ],
   "note": ""
  },
  {
   "property": "C28",
   "status": "proved",
   "theorems": [
    "Maike.Io.C28_content",
    "Maike.Io.C28_progress",
    "Maike.Io.C28_getchar",
    "Maike.Io.C28_flush_ends_stream"
   ],
   "note": ""
  },
  {
   "property": "C29",
   "status": "proved",
   "theorems": [
    "Maike.Text.BuildId.C29_parse",
    "Maike.Text.BuildId.C29_roundTrip",
    "Maike.Text.BuildId.C29_format",
    "Maike.Text.BuildId.C29_injective",
    "Maike.Text.BuildId.C29_rejects",
    "Maike.Text.BuildId.C29_overlong",
    "Maike.Text.BuildId.C29_short"
   ],
   "note": "C29_overlong and C29_short: strings that are not ids which are accepted nevertheless."
  },
  {
   "property": "C30",
   "status": "proved",
   "theorems": [
    "Maike.Text.C30_rebuildPolicy",
    "Maike.Text.C30_origin",
    "Maike.Text.C30_logFormat",
    "Maike.Text.C30_logLevel",
    "Maike.Text.C30_extMode"
   ],
   "note": ""
  },
  {
   "property": "C31",
   "status": "proved",
   "theorems": [
    "Maike.Kvs.C31_merge",
    "Maike.Kvs.C31_wellFormed"
   ],
   "note": ""
  },
  {
   "property": "C32",
   "status": "proved",
   "theorems": [
    "Maike.Kvs.C32_conflict",
    "Maike.Kvs.C32_flag"
   ],
   "note": ""
  },
  {
   "property": "C33",
   "status": "proved",
   "theorems": [
    "Maike.Kvs.C33_assoc",
    "Maike.Kvs.C33_empty_right",
    "Maike.Kvs.C33_empty_left",
    "Maike.Kvs.C33_not_idempotent"
   ],
   "note": ""
  },
  {
   "property": "C34",
   "status": "proved",
   "theorems": [
    "Maike.Kvs.C34_override",
    "Maike.Kvs.C34_assoc",
    "Maike.Kvs.C34_flag_reset",
    "Maike.Kvs.C34_recipe",
    "Maike.Kvs.C34_request"
   ],
   "note": ""
  },
  {
   "property": "C35",
   "status": "proved",
   "theorems": [
    "Maike.Text.Shell.C35_recover",
    "Maike.Text.Shell.C35_injective"
   ],
   "note": ""
  },
  {
   "property": "C36",
   "status": "partial",
   "theorems": [
    "Maike.Text.Shell.C36_paste_partial",
    "Maike.Text.Shell.C36_exact",
    "Maike.Text.Shell.C36_backslash",
    "Maike.Text.Shell.C36_false"
   ],
   "note": "False of the code for arguments with an apostrophe or a backslash (C36_false). C36_paste_partial covers all others, and C36_exact shows that there are no further ones."
  },
  {
   "property": "C37",
   "status": "proved",
   "theorems": [
    "Maike.Exec.C37_failed",
    "Maike.Exec.C37_values",
    "Maike.Exec.C37_abort",
    "Maike.Exec.C37_success"
   ],
   "note": ""
  },
  {
   "property": "C38",
   "status": "proved",
   "theorems": [
    "Maike.Build.C38_nothing_changes",
    "Maike.Build.C38_succeeds",
    "Maike.Build.C38_bounded"
   ],
   "note": "About the build itself. While loading, recipes are executed even in a dry run (DESIGN.md, findings)."
  },
  {
   "property": "C39",
   "status": "proved",
   "theorems": [
    "Maike.Loaders.Ext.C39_source",
    "Maike.Loaders.Ext.C39_lines",
    "Maike.Loaders.Ext.C39_newlines",
    "Maike.Loaders.Ext.C39_tag",
    "Maike.Loaders.Ext.C39_blank"
   ],
   "note": ""
  },
  {
   "property": "C40",
   "status": "proved",
   "theorems": [
    "Maike.Loaders.Cxx.C40_source",
    "Maike.Loaders.Cxx.C40_newlines",
    "Maike.Loaders.Cxx.C40_prefix"
   ],
   "note": ""
  },
  {
   "property": "C41",
   "status": "proved",
   "theorems": [
    "Maike.Loaders.Cxx.C41_tags",
    "Maike.Loaders.Cxx.C41_star_star_slash",
    "Maike.Loaders.Cxx.C41_line_comment",
    "Maike.Loaders.Cxx.C41_raw_paren"
   ],
   "note": "For files made of well-formed items. The last three theorems show what goes wrong for other files."
  },
  {
   "property": "C42",
   "status": "proved",
   "theorems": [
    "Maike.Loaders.Inc.C42_includes"
   ],
   "note": ""
  },
  {
   "property": "C43",
   "status": "partial",
   "theorems": [
    "Maike.Loaders.Inc.C43_partial",
    "Maike.Loaders.Inc.C43_false",
    "Maike.Loaders.Inc.C43_star_star_slash",
    "Maike.Loaders.Inc.C43_line_comment",
    "Maike.Loaders.Inc.C43_bogus",
    "Maike.Loaders.Inc.C43_unterminated"
   ],
   "note": "False of the code (C43_false and the theorems after it). C43_partial: an include is found whatever follows it if the lines before it are well-formed."
  },
  {
   "property": "C44",
   "status": "proved",
   "theorems": [
    "Maike.Paths.C44_longest",
    "Maike.Paths.C44_none"
   ],
   "note": ""
  },
  {
   "property": "C45",
   "status": "proved",
   "theorems": [
    "Maike.Paths.C45_append",
    "Maike.Paths.C45_replace",
    "Maike.Paths.C45_replace_collision"
   ],
   "note": ""
  },
  {
   "property": "C46",
   "status": "proved",
   "theorems": [
    "Maike.Tree.C46_dotSlash",
    "Maike.Tree.C46_fileDir",
    "Maike.Tree.C46_external",
    "Maike.Tree.C46_project",
    "Maike.Tree.C46_generated",
    "Maike.Tree.C46_same",
    "Maike.Tree.C46_same_generated",
    "Maike.Tree.C46_trailing_separator",
    "Maike.Tree.C46_generated_detour"
   ],
   "note": "C46_trailing_separator and C46_generated_detour are the exceptions mentioned in the statement."
  },
  {
   "property": "C47",
   "status": "partial",
   "theorems": [
    "Maike.Tree.C47_target_partial",
    "Maike.Tree.C47_inside_partial",
    "Maike.Tree.C47_injective_partial",
    "Maike.Tree.C47_root",
    "Maike.Tree.C47_false"
   ],
   "note": "False of the code if the source directory is not given in normal form (C47_false)."
  },
  {
   "property": "C48",
   "status": "proved",
   "theorems": [
    "Maike.Tree.Commands.C48_search",
    "Maike.Tree.Commands.C48_ends",
    "Maike.Tree.Commands.C48_same",
    "Maike.Tree.Commands.C48_kept",
    "Maike.Tree.Commands.C48_absolute",
    "Maike.Tree.Commands.C48_race"
   ],
   "note": "C48_race: answers may differ if calls overlap while the file system changes, as the statement says."
  },
  {
   "property": "C49",
   "status": "proved",
   "theorems": [
    "Maike.Tree.C49_result",
    "Maike.Tree.C49_once",
    "Maike.Tree.C49_never_twice",
    "Maike.Tree.C49_schedule",
    "Maike.Tree.C49_terminates",
    "Maike.Tree.C49_progress",
    "Maike.Tree.C49_ends",
    "Maike.Tree.C49_waits",
    "Maike.Tree.C49_parents"
   ],
   "note": "All interleavings of the tasks of a scan. Trees of unbounded size; the file system does not change during the scan."
  },
  {
   "property": "C50",
   "status": "proved",
   "theorems": [
    "Maike.Tree.C50_throws",
    "Maike.Tree.C50_text"
   ],
   "note": "The thrown text is the concatenation of the messages, one line each, in an order that depends on the schedule."
  },
  {
   "property": "C51",
   "status": "proved",
   "theorems": [
    "Maike.Cli.C51_full",
    "Maike.Cli.C51_accepted",
    "Maike.Cli.C51_last",
    "Maike.Cli.C51_maike",
    "Maike.Cli.C51_surprises",
    "Maike.Cli.C51_bits",
    "Maike.Cli.C51_bits_limit"
   ],
   "note": "C51_surprises: abbreviations are resolved silently, also when they are ambiguous."
  },
  {
   "property": "C52",
   "status": "proved",
   "theorems": [
    "Maike.Cli.C52_roundTrip",
    "Maike.Cli.C52_names",
    "Maike.Cli.C52_trailing_comma"
   ],
   "note": "C52_trailing_comma: an empty last name would be lost."
  },
  {
   "property": "C53",
   "status": "proved",
   "theorems": [
    "Maike.Text.Numbers.C53_positive",
    "Maike.Text.Numbers.C53_default",
    "Maike.Text.Numbers.C53_decimal",
    "Maike.Text.Numbers.C53_roundTrip",
    "Maike.Text.Numbers.C53_sloppy",
    "Maike.Text.Numbers.C53_wraps"
   ],
   "note": ""
  },
  {
   "property": "C54",
   "status": "proved",
   "theorems": [
    "Maike.Kvs.C54_skip",
    "Maike.Kvs.C54_merged",
    "Maike.Kvs.C54_conflict"
   ],
   "note": "C54_conflict: a file that can be read but is in conflict with an earlier one is applied in part."
  },
  {
   "property": "C55",
   "status": "proved",
   "theorems": [
    "Maike.Build.Log.C55_lines",
    "Maike.Build.Log.C55_lines_unique",
    "Maike.Build.Log.C55_injective",
    "Maike.Build.Log.C55_message",
    "Maike.Build.Log.C55_zero",
    "Maike.Build.Log.C55_blank_lines",
    "Maike.Build.Log.C55_not_mixed",
    "Maike.Build.Log.C55_progress"
   ],
   "note": ""
  },
  {
   "property": "C56",
   "status": "proved",
   "theorems": [
    "Maike.Utils.UniqueFunction.C56_function_safe",
    "Maike.Utils.UniqueFunction.C56_function_once",
    "Maike.Utils.UniqueFunction.C56_function_no_leak",
    "Maike.Utils.UniqueFunction.C56_function_one_owner",
    "Maike.Utils.UniqueFunction.C56_function_self_assignment",
    "Maike.Utils.ScopeExit.C56_handler_at_most_once",
    "Maike.Utils.ScopeExit.C56_handler_once",
    "Maike.Utils.ScopeExit.C56_handler_assignment"
   ],
   "note": "C56_handler_assignment: assignment loses an action, as the statement says. The code does not assign handlers."
  },
  {
   "property": "C57",
   "status": "proved",
   "theorems": [
    "Maike.Text.Numbers.C57_memAvail",
    "Maike.Text.Numbers.C57_open_fails"
   ],
   "note": "For contents which fit in the buffer of 4096 bytes. C57_open_fails: undefined behaviour if the file cannot be opened."
  },
  {
   "property": "C58",
   "status": "proved",
   "theorems": [
    "Maike.Sched.C58_get_outcome",
    "Maike.Sched.C58_get_done",
    "Maike.Sched.C58_get_returns",
    "Maike.Sched.C58_two_waiters"
   ],
   "note": "For a single waiting thread, which is how the class is used. C58_two_waiters shows that a second one may be left blocked."
  },
  {
   "property": "C59",
   "status": "partial",
   "theorems": [
    "Maike.Kvs.C59_recipe_dependency_partial",
    "Maike.Kvs.C59_exact",
    "Maike.Kvs.C59_false"
   ],
   "note": "False of the code (C59_false): a file whose tags change only the configuration of the compiler does not depend on the recipe of its loader. C59_recipe_dependency_partial covers the other cases; C59_exact says that these are all of them."
  },
  {
   "property": "C60",
   "status": "proved",
   "theorems": [
    "Maike.Kvs.C60_roundTrip",
    "Maike.Kvs.C60_load",
    "Maike.Kvs.C60_loaded",
    "Maike.Kvs.C60_again"
   ],
   "note": ""
  },
  {
   "property": "C61",
   "status": "proved",
   "theorems": [
    "Maike.Kvs.C61_loaders"
   ],
   "note": ""
  },
  {
   "property": "C62",
   "status": "proved",
   "theorems": [
    "Maike.Text.Numbers.C62_accepted",
    "Maike.Text.Numbers.C62_decimal",
    "Maike.Text.Numbers.C62_rejected",
    "Maike.Text.Numbers.C62_surprises"
   ],
   "note": ""
  },
  {
   "property": "C63",
   "status": "proved",
   "theorems": [
    "Maike.Tree.C63_dependency",
    "Maike.Tree.C63_target",
    "Maike.Tree.C63_tags",
    "Maike.Tree.C63_load"
   ],
   "note": ""
  },
  {
   "property": "C64",
   "status": "proved",
   "theorems": [
    "Maike.Tree.C64_directory",
    "Maike.Tree.C64_no_loader"
   ],
   "note": ""
  },
  {
   "property": "C65",
   "status": "proved",
   "theorems": [
    "Maike.Tree.C65_dotSlash",
    "Maike.Tree.C65_plain"
   ],
   "note": ""
  },
  {
   "property": "C66",
   "status": "proved",
   "theorems": [
    "Maike.Build.C66_announced_are_executed",
    "Maike.Build.C66_not_all_announced"
   ],
   "note": "C66_not_all_announced shows that the converse is false of the code."
  },
  {
   "property": "C67",
   "status": "proved",
   "theorems": [
    "Maike.Exec.Launch.C67_no_deadlock",
    "Maike.Exec.Launch.C67_bounded",
    "Maike.Exec.Launch.C67_returns",
    "Maike.Exec.Launch.C67_reported",
    "Maike.Exec.Launch.C67_one_at_a_time",
    "Maike.Exec.Launch.C67_stdin_never_ends"
   ],
   "note": "C67_stdin_never_ends: the provision about standard input is needed."
  },
  {
   "property": "C68",
   "status": "proved",
   "theorems": [
    "Maike.Utils.LoaderHandle.C68_safe",
    "Maike.Utils.LoaderHandle.C68_content",
    "Maike.Utils.LoaderHandle.C68_once",
    "Maike.Utils.LoaderHandle.C68_no_leak",
    "Maike.Utils.LoaderHandle.C68_copy_of_moved"
   ],
   "note": ""
  },
  {
   "property": "C69",
   "status": "proved",
   "theorems": [
    "Maike.Build.C69_up_to_date",
    "Maike.Build.C69_once",
    "Maike.Build.C69_last",
    "Maike.Build.C69_order",
    "Maike.Build.C69_forced",
    "Maike.Build.C69_dry"
   ],
   "note": "C69_forced: the provision that the build is not forced is needed."
  },
  {
   "property": "C70",
   "status": "proved",
   "theorems": [
    "Maike.Main.C70_end_to_end"
   ],
   "note": ""
  },
  {
   "property": "C71",
   "status": "proved",
   "theorems": [
    "Maike.Main.C71_second_run",
    "Maike.Main.C71_nothing",
    "Maike.Main.C71_again",
    "Maike.Main.C71_hidden_filtered",
    "Maike.Main.C71_hidden_outside",
    "Maike.Main.C71_hidden_needed"
   ],
   "note": "C71_hidden_needed: the provision about filters is needed. With a target directory that is scanned, each run makes directories inside of it."
  },
  {
   "property": "C72",
   "status": "partial",
   "theorems": [
    "Maike.Main.C72_lines",
    "Maike.Main.C72_listed_partial",
    "Maike.Main.C72_no_unknown_partial",
    "Maike.Main.C72_plain_partial",
    "Maike.Main.C72_unreachable",
    "Maike.Main.C72_dot",
    "Maike.Main.C72_false"
   ],
   "note": "False of the code for the target directory itself (C72_dot) and for target directories such as ./out (C72_unreachable, C72_false). C72_listed_partial says exactly which names are accepted."
  },
  {
   "property": "C73",
   "status": "proved",
   "theorems": [
    "Maike.Kvs.JsonLoad.C73_document",
    "Maike.Kvs.JsonLoad.C73_malformed",
    "Maike.Kvs.JsonLoad.C73_truncated",
    "Maike.Kvs.JsonLoad.C73_blank",
    "Maike.Kvs.JsonLoad.C73_ignored",
    "Maike.Kvs.JsonLoad.C73_any_source"
   ],
   "note": "The decoder (jansson) is a parameter. C73_ignored: malformed text may be ignored silently, as the statement says."
  },
  {
   "property": "C74",
   "status": "partial",
   "theorems": [
    "Maike.Kvs.JsonLoad.C74_short_partial",
    "Maike.Kvs.JsonLoad.C74_empty",
    "Maike.Kvs.JsonLoad.C74_long",
    "Maike.Kvs.JsonLoad.C74_never_ends",
    "Maike.Kvs.JsonLoad.C74_false"
   ],
   "note": "False of the code for documents of more than 4096 bytes (C74_long, C74_false) and for output without a document (C74_never_ends)."
  },
  {
   "property": "C75",
   "status": "proved",
   "theorems": [
    "Maike.Main.C75_needed",
    "Maike.Main.C75_up_to_date",
    "Maike.Main.C75_made_again",
    "Maike.Main.C75_tags",
    "Maike.Main.C75_rules",
    "Maike.Main.C75_generic",
    "Maike.Main.C75_rejected",
    "Maike.Main.C75_loader"
   ],
   "note": "The JSON decoder and std::regex are parameters."
  },
  {
   "property": "C76",
   "status": "proved",
   "theorems": [
    "Maike.Main.C76_success",
    "Maike.Main.C76_includes",
    "Maike.Main.C76_named",
    "Maike.Main.C76_read_only",
    "Maike.Main.C76_rejected",
    "Maike.Main.C76_info",
    "Maike.Main.C76_status",
    "Maike.Main.C76_deterministic",
    "Maike.Main.C76_dirs",
    "Maike.Main.C76_workers",
    "Maike.Main.C76_recipe",
    "Maike.Main.C76_resolved",
    "Maike.Main.C76_config",
    "Maike.Main.C76_unimplemented",
    "Maike.Main.C76_twice",
    "Maike.Main.C76_slash"
   ],
   "note": "C76_unimplemented and C76_slash are the findings mentioned in the statement."
  },
  {
   "property": "C77",
   "status": "proved",
   "theorems": [
    "Maike.Main.C77_edges",
    "Maike.Main.C77_exact",
    "Maike.Main.C77_lines",
    "Maike.Main.C77_order",
    "Maike.Main.C77_readable",
    "Maike.Main.C77_quotes",
    "Maike.Main.C77_needs",
    "Maike.Main.C77_includes",
    "Maike.Main.C77_schedule"
   ],
   "note": "C77_quotes: names with quotation marks are ambiguous, as the statement says."
  },
  {
   "property": "C78",
   "status": "proved",
   "theorems": [
    "Maike.Exec.Transfer.C78_captured",
    "Maike.Exec.Transfer.C78_deterministic",
    "Maike.Exec.Transfer.C78_progress",
    "Maike.Exec.Transfer.C78_returns",
    "Maike.Exec.Transfer.C78_recipes",
    "Maike.Exec.Transfer.C78_reached",
    "Maike.Exec.Transfer.C78_starved"
   ],
   "note": "C78_starved is the exception mentioned in the statement. The recipe is an arbitrary program that keeps its standard streams open until it ends."
  },
  {
   "property": "C79",
   "status": "proved",
   "theorems": [
    "Maike.Main.C79_dependencies",
    "Maike.Main.C79_command",
    "Maike.Main.C79_tasks",
    "Maike.Main.C79_newer"
   ],
   "note": "For projects where the targets of files that use the dependencies of their targets are not files of the project (Apart)."
  },
  {
   "property": "C80",
   "status": "partial",
   "theorems": [
    "Maike.Main.C80_retried_partial",
    "Maike.Main.RetryExample.C80_false"
   ],
   "note": "False in general (C80_false): a recipe that writes its target before it fails is taken to be up to date by the next run. Proved for commands that have not written any target, for files, when the first run is not forced."
  },
  {
   "property": "C81",
   "status": "partial",
   "theorems": [
    "Maike.Main.C81_linked_partial",
    "Maike.Main.C81_order_partial",
    "Maike.Main.C81_archive_partial",
    "Maike.Main.LinkedExample.C81_false"
   ],
   "note": "False if a part is also required by a declaration without the property (C81_false). Proved for parts of which every declaration says that they are implementations. The order is for file names that do not look like options and differ as text."
  },
  {
   "property": "C82",
   "status": "partial",
   "theorems": [
    "Maike.Recipes.C82_compiler_partial",
    "Maike.Recipes.C82_linker_partial",
    "Maike.Recipes.C82_archiver_partial",
    "Maike.Recipes.C82_copier",
    "Maike.Recipes.C82_directory_partial",
    "Maike.Recipes.C82_generic",
    "Maike.Recipes.C82_header",
    "Maike.Recipes.StatusExample.C82_generic_false",
    "Maike.Recipes.StatusExample.C82_targets_false",
    "Maike.Recipes.StatusExample.C82_directory_false",
    "Maike.Recipes.StatusExample.C82_test_program",
    "Maike.Recipes.C82_sass",
    "Maike.Recipes.C82_doc_partial",
    "Maike.Recipes.C82_doc_top",
    "Maike.Recipes.C82_markdown_partial",
    "Maike.Recipes.StatusExample.C82_markdown_false",
    "Maike.Recipes.C82_vcslog_partial"
   ],
   "note": "False in general, as the statement says. Proved for the compiler (source files), the linker and the archiver (first target only), copies, and directories (unless a file of the same name exists). For style sheets; for documents and revision logs (first target only); for text, except that a failure of pandoc is not reported."
  },
  {
   "property": "C83",
   "status": "partial",
   "theorems": [
    "Maike.Recipes.C83_command_partial",
    "Maike.Recipes.C83_words",
    "Maike.Main.C83_dependencies_partial",
    "Maike.Recipes.CompileExample.C83_false"
   ],
   "note": "False for repeated words (C83_false): flags are passed in order up to repetition, exactly if no word is repeated. The part about dependencies is for those of which every declaration asks for the same."
  },
  {
   "property": "C84",
   "status": "partial",
   "theorems": [
    "Maike.Recipes.C84_revisions",
    "Maike.Recipes.C84_selected_partial",
    "Maike.Recipes.C84_found_partial",
    "Maike.Recipes.C84_max_only",
    "Maike.Recipes.C84_oldest",
    "Maike.Recipes.C84_used",
    "Maike.Recipes.C84_absolute",
    "Maike.Recipes.RevisionExample.C84_false",
    "Maike.Recipes.RevisionExample.C84_oldest_false"
   ],
   "note": "False in general, as the statement says. Proved if there is a lower bound, and if compilers answer when asked for a revision."
  },
  {
   "property": "C85",
   "status": "proved",
   "theorems": [
    "Maike.Build.C85_consistent",
    "Maike.Build.C85_same_as_clean",
    "Maike.Main.C85_incremental",
    "Maike.Main.C85_as_from_scratch",
    "Maike.Main.IncrementalExample.C85_old_time_stamp"
   ],
   "note": "Under the provisions in the statement. Recipes are functions of what they are told and of what they may read (Tools), targets are written completely or not at all; settings, system recipes and tools do not change. C85_old_time_stamp: the provision about time stamps is needed."
  },
  {
   "property": "C86",
   "status": "proved",
   "theorems": [
    "Maike.Build.C86_only_if_necessary",
    "Maike.Build.C86_exactly",
    "Maike.Main.C86_run_only_if_outdated",
    "Maike.Main.C86_run_exactly",
    "Maike.Main.C86_after_changes",
    "Maike.Build.C86_dirs_needed"
   ],
   "note": "C86_dirs_needed: the provision about directories is needed. Provisions of C85 on names of dependencies."
  },
  {
   "property": "C87",
   "status": "proved",
   "theorems": [
    "Maike.Build.C87_bounded",
    "Maike.Build.C87_progress",
    "Maike.Build.C87_can_end",
    "Maike.Main.C87_scan",
    "Maike.Main.C87_all",
    "Maike.Main.C87_named",
    "Maike.Main.C87_ends",
    "Maike.Main.C87_exception_false"
   ],
   "note": "C87_exception_false: the provision about exceptions is needed (see also C18). Recipes are supposed to end, and not to write the same target again and again."
  },
  {
   "property": "C88",
   "status": "partial",
   "theorems": [
    "Maike.Build.C88_refines",
    "Maike.Build.C88_recipes_partial",
    "Maike.Main.C88_success_partial",
    "Maike.Main.ProcessesExample.C88_false"
   ],
   "note": "False of cxx_linker.py, make_lib.py, doc2html.py, md2htmlpart.py and vcslog.py with more than one target, of generic.py, and of headers with targets (C88_false, C82_header). Proved when recipes are used as they are made to be (Suitable): a build that executes the recipes step by step is a build in the sense of Build/Model.lean, so its theorems apply to it; contents are not tracked at this level."
  },
  {
   "property": "C89",
   "status": "partial",
   "theorems": [
    "Maike.Recipes.C89_exact",
    "Maike.Recipes.C89_self",
    "Maike.Recipes.C89_where_partial",
    "Maike.Recipes.C89_plain",
    "Maike.Recipes.C89_target_partial",
    "Maike.Main.C89_run",
    "Maike.Main.C89_current_partial",
    "Maike.Main.Report.C89_false",
    "Maike.Main.Report.C89_false_fragment"
   ],
   "note": "False in general, as the statement says. Which references are dependencies is proved for all documents (C89_exact); where they lead to is proved for references that start with ./ and lead to something inside of the tree."
  },
  {
   "property": "C90",
   "status": "partial",
   "theorems": [
    "Maike.Recipes.C90_exact",
    "Maike.Recipes.C90_self",
    "Maike.Main.C90_where",
    "Maike.Main.C90_target_partial",
    "Maike.Main.C90_run",
    "Maike.Main.Report.C90_false"
   ],
   "note": "False in general, as the statement says; C90_where says what happens. Proved for files in the source directory if that is the current directory, and for source directories with an absolute name."
  },
  {
   "property": "C91",
   "status": "partial",
   "theorems": [
    "Maike.Main.C91_ignored",
    "Maike.Main.C91_current_partial",
    "Maike.Main.SettingsExample.C91_false",
    "Maike.Build.C91_executed_partial",
    "Maike.Build.C91_all_executed",
    "Maike.Build.C91_forced_partial"
   ],
   "note": "False, as the statement says: a change of options has no effect until a source is edited or the run is forced (C91_ignored, C91_false). Proved for forced runs, and for recipes that have been executed."
  },
  {
   "property": "C92",
   "status": "proved",
   "theorems": [
    "Maike.Cli.C92_help",
    "Maike.Cli.C92_maike",
    "Maike.Cli.C92_usage",
    "Maike.Cli.C92_types"
   ],
   "note": "C92_help for all tables of options; C92_maike and C92_usage for the options of maike."
  },
  {
   "property": "C93",
   "status": "partial",
   "theorems": [
    "Maike.Main.C93_ignored",
    "Maike.Main.C93_false"
   ],
   "note": "False, as the statement says: the path is ignored (C93_ignored). What is printed goes to the standard output."
  },
  {
   "property": "C94",
   "status": "proved",
   "theorems": [
    "Maike.Build.C94_isolated",
    "Maike.Build.C94_serial",
    "Maike.Build.C94_in_order",
    "Maike.Build.C94_determined",
    "Maike.Build.C94_workers",
    "Maike.Build.C94_confined",
    "Maike.Build.C94_recipes",
    "Maike.Build.SerialExample.C94_not_declared",
    "Maike.Build.SerialExample.C94_left_behind",
    "Maike.Main.C94_run",
    "Maike.Main.C94_run_workers"
   ],
   "note": "Files have contents, and programs write them bit by bit (C88 has time stamps only). C94_run and C94_run_workers are about runs with the recipes of maike (all but vcslog.py, which reads the repository, and generic.py, which ignores the status of its program); that the number of workers does not matter is proved for forced runs, and for those where directories that are targets exist already, because what has to be done is determined by the files then (C86). C94_not_declared and C94_left_behind show what the hypotheses are there for."
  },
  {
   "property": "C95",
   "status": "proved",
   "theorems": [
    "Maike.Build.C95_consistent",
    "Maike.Build.C95_same_as_clean",
    "Maike.Main.C95_incremental",
    "Maike.Main.C95_as_from_scratch"
   ],
   "note": "C85 with recipes that are executed as in C94, instead of recipes that write what they are supposed to compute at once. The proviso about targets of recipes that have not ended with success is necessary (C94_left_behind). What a recipe computes must not depend on the number of its task or on when the run has started."
  },
  {
   "property": "C96",
   "status": "proved",
   "theorems": [
    "Maike.Exec.Descriptors.C96_streams",
    "Maike.Exec.Descriptors.C96_no_leak",
    "Maike.Exec.Descriptors.C96_closed_once",
    "Maike.Exec.Descriptors.C96_restored",
    "Maike.Exec.Descriptors.C96_exact",
    "Maike.Exec.Descriptors.DescriptorsExample.C96_false"
   ],
   "note": "Failures of dup2, fcntl and close are not modelled. C96_exact says when the streams are connected, C96_false is a concrete case where they are not."
  },
  {
   "property": "C97",
   "status": "proved",
   "theorems": [
    "Maike.Text.Date.C97_text",
    "Maike.Text.Date.C97_given",
    "Maike.Text.Date.C97_overflow",
    "Maike.Text.Date.C97_injective",
    "Maike.Text.Date.C97_fits",
    "Maike.Text.Date.C97_order"
   ],
   "note": "gmtime_r belongs to the C library; its model is a computation that is proved to be the Gregorian calendar, which is specified by the day after a day. The value passed to recipes is the one of to_time_t."
  },
  {
   "property": "C98",
   "status": "proved",
   "theorems": [
    "Maike.Kvs.JsonText.C98_reads",
    "Maike.Kvs.JsonText.C98_only",
    "Maike.Kvs.JsonText.C98_keys",
    "Maike.Kvs.JsonText.C98_injective",
    "Maike.Kvs.JsonText.C98_canonical",
    "Maike.Kvs.JsonText.C98_layout",
    "Maike.Kvs.JsonText.C98_printable",
    "Maike.Kvs.JsonText.C98_lookup",
    "Maike.Kvs.JsonText.C98_command",
    "Maike.Kvs.JsonText.C98_configdump"
   ],
   "note": "What jansson writes with the flags used by maike is modelled; the grammar of RFC 8259 is the specification. How floating point numbers are written is a parameter, which must satisfy Reals.Ok. UTF-8 is not modelled here."
  },
  {
   "property": "C99",
   "status": "partial",
   "theorems": [
    "Maike.Kvs.Names.C99_text_partial",
    "Maike.Kvs.Names.C99_otherwise",
    "Maike.Kvs.Names.Examples.C99_false"
   ],
   "note": "False of the code: the result of json_object_set_new and json_array_append_new is ignored, and these fail for names that are not UTF-8 (Examples.C99_false). C99_text_partial is the property for names that are UTF-8, C99_otherwise says what happens to other names."
  },
  {
   "property": "C100",
   "status": "proved",
   "theorems": [
    "Maike.Kvs.JsonText.C100_document",
    "Maike.Kvs.JsonText.C100_roundTrip",
    "Maike.Kvs.JsonText.C100_output",
    "Maike.Main.C100_compound",
    "Maike.Main.C100_configdump"
   ],
   "note": "The decoder is a parameter that follows RFC 8259 (JsonText.Standard), and Examples.standard_standard shows that there is such a decoder. Output of recipes that is longer than 4096 bytes is subject to C74."
  },
  {
   "property": "C101",
   "status": "proved",
   "theorems": [
    "Maike.Kvs.Heap.C101_history",
    "Maike.Kvs.Heap.C101_noLeak",
    "Maike.Kvs.Heap.C101_merge"
   ],
   "note": "What jansson does with reference counts is modelled after its documentation. A compound must not be merged with itself, or with a part of itself."
  },
  {
   "property": "C102",
   "status": "proved",
   "theorems": [
    "Maike.Main.C102_rejected",
    "Maike.Main.C102_all",
    "Maike.Main.C102_info",
    "Maike.Main.C102_accepted",
    "Maike.Main.C102_named",
    "Maike.Main.AcceptExample.C102_aside"
   ],
   "note": "Provision: a file that is linked (uses the dependencies of its target) does not have another file that has been found as its target. C102_aside: a circle that nothing depends on is only noticed when everything is built."
  },
  {
   "property": "C103",
   "status": "proved",
   "theorems": [
    "Maike.Main.C103_true",
    "Maike.Main.C103_status",
    "Maike.Main.C103_always"
   ],
   "note": "Provision: a file that is linked does not have another file that has been found as its target. Paths in messages are written with single separators. What is printed for exceptions from Execve and from recipes is not modelled."
  },
  {
   "property": "C104",
   "status": "proved",
   "theorems": [
    "Maike.TaskList.Threads.C104_refines",
    "Maike.TaskList.Threads.C104_order",
    "Maike.TaskList.Threads.C104_legal",
    "Maike.TaskList.Threads.C104_no_race",
    "Maike.TaskList.Threads.C104_progress",
    "Maike.TaskList.Threads.C104_bounded",
    "Maike.TaskList.Threads.C104_left"
   ],
   "note": "The body of a task is one action. Sequentially consistent memory. A task that ends without recording its result is the subject of C18."
  },
  {
   "property": "C105",
   "status": "proved",
   "theorems": [
    "Maike.Tree.Threads.C105_refines",
    "Maike.Tree.Threads.C105_result",
    "Maike.Tree.Threads.C105_errors",
    "Maike.Tree.Threads.C105_throws",
    "Maike.Tree.Threads.C105_deterministic",
    "Maike.Tree.Threads.C105_once",
    "Maike.Tree.Threads.C105_legal",
    "Maike.Tree.Threads.C105_no_race",
    "Maike.Tree.Threads.C105_quiet",
    "Maike.Tree.Threads.C105_progress",
    "Maike.Tree.Threads.C105_bounded",
    "Maike.Tree.Threads.C105_ends",
    "Maike.Tree.Threads.C105_left"
   ],
   "note": "Reading the file system and calling a loader are single operations, and the file system does not change. Sequentially consistent memory. That the tree is of finite height excludes circles of symbolic links."
  },
  {
   "property": "C106",
   "status": "partial",
   "theorems": [
    "Maike.Build.C106_order",
    "Maike.Build.C106_script",
    "Maike.Kvs.JsonText.C106_json",
    "Maike.Main.C106_bootstrap_partial",
    "Maike.Main.C106_files_partial",
    "Maike.Main.C106_named_partial",
    "Maike.Main.C106_named_files_partial",
    "Maike.Main.BootstrapExample.C106_false"
   ],
   "note": "False of the code if a name has an apostrophe, a backslash, a quotation mark or a control character: then the script may execute what is in the name of a file (C106_false). C106_bootstrap_partial and C106_files_partial cover all other names, C106_named_partial and C106_named_files_partial do so with `--targets`, for projects without circles. C106_order is about any build: one message per task, those of dependencies first."
  },
  {
   "property": "C107",
   "status": "proved",
   "theorems": [
    "Maike.Build.Threaded.C107_refines",
    "Maike.Build.Threaded.C107_realised",
    "Maike.Build.Threaded.C107_scripts",
    "Maike.Build.Threaded.C107_scripts_realised",
    "Maike.Build.Threaded.C107_contents",
    "Maike.Build.Threaded.C107_contents_realised",
    "Maike.Build.Threaded.C107_bounded",
    "Maike.Build.Threaded.C107_progress",
    "Maike.Build.Threaded.C107_can_end",
    "Maike.Build.Threaded.C107_several",
    "Maike.Main.C107_program",
    "Maike.Main.C107_same",
    "Maike.Main.C107_success",
    "Maike.Main.C107_all",
    "Maike.Main.C107_named",
    "Maike.Main.C107_workers",
    "Maike.Main.C107_handover"
   ],
   "note": "Comparing the time stamps for one task is one action, and so is a call of a loader; the file system does not change during the scan. Sequentially consistent memory. C107_program says that all theorems about results of the program hold for its threads."
  },
  {
   "property": "C108",
   "status": "partial",
   "theorems": [
    "Maike.Text.About.C108_partial",
    "Maike.Text.About.C108_exact",
    "Maike.Text.About.C108_false"
   ],
   "note": "False of the code if one of the texts has a quotation mark, a backslash, a line break or a null character in it (C108_false); C108_exact says that these are the only exceptions for all texts but the names of authors. The C++ compiler is modelled for headers of the form that the script writes."
  },
  {
   "property": "C109",
   "status": "partial",
   "theorems": [
    "Maike.Tree.Regex.C109_search",
    "Maike.Tree.Regex.C109_quoted",
    "Maike.Tree.Regex.C109_ordinary",
    "Maike.Tree.Regex.C109_generated",
    "Maike.Tree.Regex.C109_bad",
    "Maike.Main.C109_default",
    "Maike.Main.C109_generated_default",
    "Maike.Main.C109_visible_partial",
    "Maike.Main.C109_dot_slash",
    "Maike.Main.C109_dot_slash_command",
    "Maike.Main.C109_false"
   ],
   "note": "False of the code if the source directory is written as ./src: then nothing in it is seen (C109_false, C109_dot_slash). C109_visible_partial covers all source directories that are in normal form up to a separator at the end. Regular expressions of libstdc++ are part of the trusted base; groups, intervals, brackets and references are not modelled."
  },
  {
   "property": "C110",
   "status": "partial",
   "theorems": [
    "Maike.Build.C110_partial",
    "Maike.Build.C110_saved_again",
    "Maike.Build.C110_forced",
    "Maike.Main.C110_project_partial",
    "Maike.Main.C110_false",
    "Maike.Main.C110_false_scan"
   ],
   "note": "False of the code: a file that is edited after maike or the recipe has read it, and before the target is written, leaves a target that is newer than the edit and does not belong to it; the next build reports success and does not make it again (C110_false, C110_false_scan). The partial theorems hold for all histories, for every target that is not one of these, and for all targets if the build is forced or the file is saved again."
  },
  {
   "property": "C111",
   "status": "proved",
   "theorems": [
    "Maike.Tree.C111_resolve",
    "Maike.Tree.C111_walk",
    "Maike.Tree.C111_ends",
    "Maike.Tree.C111_found",
    "Maike.Tree.C111_cycle",
    "Maike.Tree.C111_says",
    "Maike.Main.C111_disk",
    "Maike.Main.C111_finite",
    "Maike.Main.C111_whole",
    "Maike.Main.C111_same",
    "Maike.Main.LinksExample.C111_dotdot"
   ],
   "note": "Reading only: that a recipe which writes to a path changes what other paths with links lead to is not modelled. C111_dotdot: a source directory like link/../src is scanned as src, although the kernel takes it to be another directory, so that the provision about normal form is needed. A directory that is reached by two names is handled as two directories (LinksExample.two_names)."
  },
  {
   "property": "C112",
   "status": "partial",
   "theorems": [
    "Maike.Recipes.Archive.C112_succeeds",
    "Maike.Recipes.Archive.C112_members",
    "Maike.Recipes.Archive.C112_parts",
    "Maike.Recipes.Archive.C112_exact_partial",
    "Maike.Recipes.Archive.C112_new",
    "Maike.Recipes.Archive.C112_growing_partial",
    "Maike.Recipes.Archive.C112_stays",
    "Maike.Recipes.Archive.C112_false",
    "Maike.Main.C112_library_partial"
   ],
   "note": "False when a part is taken away: ar keeps the member, with its old content (C112_false, C112_stays). Exact if and only if the library had no more members of any name than there are parts now (C112_exact_partial); no part is ever missing or outdated (C112_parts). C112_library_partial connects this with the declarations of the project. What ar does is taken from GNU binutils."
  },
  {
   "property": "C113",
   "status": "partial",
   "theorems": [
    "Maike.Sched.Start.C113_workers",
    "Maike.Sched.Start.C113_join_partial",
    "Maike.Sched.Start.C113_join_undefined",
    "Maike.Sched.Start.C113_no_workers",
    "Maike.Sched.Start.C113_drained",
    "Maike.Sched.Start.C113_readers",
    "Maike.Sched.Start.C113_false",
    "Maike.Sched.Start.C113_false_readers",
    "Maike.Main.C113_hangs",
    "Maike.Main.C113_same_files"
   ],
   "note": "False: without workers the program hangs (C113_hangs), with some of them the destructor of the pool has undefined behaviour at the end (C113_join_undefined, C113_false), and a missing reader may terminate the program (C113_false_readers). What holds: all is well if all threads can be started (C113_join_partial), and with at least one worker the work is done with the same result (C113_drained, C113_same_files; for the builds, see C107_workers)."
  },
  {
   "property": "C114",
   "status": "partial",
   "theorems": [
    "Maike.Recipes.C114_description",
    "Maike.Recipes.C114_part_partial",
    "Maike.Recipes.C114_manual_partial",
    "Maike.Recipes.C114_build",
    "Maike.Recipes.C114_guarded",
    "Maike.Recipes.C114_install",
    "Maike.Recipes.C114_recipes",
    "Maike.Recipes.C114_hyphens",
    "Maike.Recipes.OwnExample.C114_false",
    "Maike.Recipes.OwnExample.C114_false_part",
    "Maike.Main.C114_reads_partial",
    "Maike.Main.C114_input_partial",
    "Maike.Main.C114_starts",
    "Maike.Main.C114_top",
    "Maike.Main.GeneratorExample.C114_false_directory"
   ],
   "note": "False: manpage.py and the converters ignore the result of pandoc (C114_false, C114_false_part), and with a source directory that is not in normal form the script and maike disagree about the file that is read (C114_false_directory). What holds: success of the other generators, the names of the files for normal source directories, the program that is started, the text, build.py, and install.sh."
  },
  {
   "property": "C115",
   "status": "partial",
   "theorems": [
    "Maike.Build.C115_right_partial",
    "Maike.Build.C115_consistent_partial",
    "Maike.Build.C115_sources_partial",
    "Maike.Build.C115_afterwards_partial",
    "Maike.Build.C115_agree_partial",
    "Maike.Build.C115_up_to_date_partial",
    "Maike.Build.C115_idle_partial",
    "Maike.Build.C115_false",
    "Maike.Build.FleetExample.C115_lasting",
    "Maike.Build.FleetExample.C115_unequal",
    "Maike.Build.FleetExample.C115_others_unfinished",
    "Maike.Main.C115_project_partial",
    "Maike.Main.C115_project_idle_partial"
   ],
   "note": "False of runs with programs that write a target piece by piece: there is no lock, so a linker may read an object while the compiler of the other run is writing it; both runs succeed, the program is wrong, and it is not made again (C115_false, C115_lasting). The partial theorems hold for all interleavings if targets are replaced in one piece. C115_idle_partial needs that the runs make the same targets (C115_unequal) and that all that have written anything have finished (C115_others_unfinished)."
  },
  {
   "property": "C116",
   "status": "proved",
   "theorems": [
    "Maike.Tree.C116_result",
    "Maike.Tree.C116_same",
    "Maike.Tree.C116_fails",
    "Maike.Tree.C116_once",
    "Maike.Tree.C116_progress",
    "Maike.Tree.C116_before",
    "Maike.Tree.C116_terminates",
    "Maike.Tree.MovingExample.C116_example",
    "Maike.Tree.MovingExample.C116_mixed",
    "Maike.Main.C116_undisturbed",
    "Maike.Main.C116_loads",
    "Maike.Main.C116_while_building",
    "Maike.Main.C116_joins"
   ],
   "note": "For changes of what is left out because of its name. C116_mixed: without this, the scan may find what was never there at any one moment. Source files that change during the scan are not covered; what follows from edits between loading and building is the subject of C110."
  },
  {
   "property": "C117",
   "status": "proved",
   "theorems": [
    "Maike.Build.C117_alone",
    "Maike.Build.C117_succeeds",
    "Maike.Build.C117_idle",
    "Maike.Build.SeparateExample.C117_example",
    "Maike.Build.SeparateExample.C117_targets_needed",
    "Maike.Build.SeparateExample.C117_sources_needed",
    "Maike.Build.C117_pieces",
    "Maike.Build.C117_pieces_alone",
    "Maike.Build.C117_pieces_idle",
    "Maike.Build.SeparateExample.C117_pieces_example",
    "Maike.Build.SeparateExample.C117_completes_needed",
    "Maike.Main.C117_directories_pieces",
    "Maike.Main.C117_project",
    "Maike.Main.C117_project_idle",
    "Maike.Main.C117_directories",
    "Maike.Main.SeparateExample.C117_example"
   ],
   "note": "In C117_alone, C117_succeeds and C117_idle, the run in question writes its own targets in one piece; in C117_pieces, C117_pieces_alone and C117_pieces_idle, piece by piece, where a recipe that succeeds has completed its targets. Directories that matter may be touched by others if they exist already. C117_targets_needed and C117_sources_needed: what happens if another run does write a file that matters; see also C115."
  },
  {
   "property": "C118",
   "status": "proved",
   "theorems": [
    "Maike.Build.C118_result",
    "Maike.Build.C118_true",
    "Maike.Build.C118_final",
    "Maike.Build.C118_seen",
    "Maike.Build.C118_report",
    "Maike.Build.C118_errors",
    "Maike.Build.C118_waiting",
    "Maike.Build.C118_all",
    "Maike.Build.LogTellsExample.C118_waiting_example",
    "Maike.Build.LogTellsExample.C118_example",
    "Maike.Build.LogTellsExample.C118_example_order",
    "Maike.Build.LogTellsExample.C118_level_needed",
    "Maike.Main.C118_project",
    "Maike.Main.LogTellsExample.C118_example"
   ],
   "note": "C118_all: every build is that of a build with a log, so that nothing is left out. Tasks that end with an exception have no result, and may have no message. C118_level_needed: with log level errors, the line about a task is not printed."
  }
 ]
}
