#!/usr/bin/env python3
"""Write MANIFEST.json from the table below. Properties without an entry are left out."""
import json, os

CLAIMS = {}

def claim(prop, status, theorems, note=""):
    CLAIMS[prop] = {"property": prop, "status": status, "theorems": theorems, "note": note}

G = "Maike.Graph."
claim("C01", "proved", [G + "C01_topological_order"])
claim("C02", "proved", [G + "C02_each_node_once"])
claim("C03", "proved", [G + "C03_cycle_detection_graph", G + "C03_cycle_detection_from"])
claim("C04", "proved", [G + "C04_visits_exactly_reachable"])

T = "Maike.TaskList."
claim("C15", "proved", [T + "C15_dependencies_first"])
claim("C16", "proved", [T + "C16_at_most_once"])
claim("C17", "proved", ["Maike.Sched.event_wait", "Maike.Sched.counter_wait", "Maike.Sched.wait_done", T + "C17_bounded", T + "C17_no_deadlock", T + "C17_quiescent"],
      "Termination is a bound on the length of every schedule. Freedom from deadlock assumes that "
      "tasks which end record a result; see C18 for the other case.")
claim("C18", "partial", [T + "C18_reported_partial", T + "C18_false", T + "C18_never_ends"],
      "False of the code: if a recipe cannot be launched and another task needs its output, process "
      "waits forever. C18_false is a concrete run, C18_never_ends the general statement. "
      "C18_reported_partial covers tasks no other task needs.")
claim("C19", "proved", [T + "C19_dependants_not_started", T + "C19_reported"])
claim("C20", "proved", [T + "C20_returns_complete", T + "C20_success_runs_everything"])

D = "Maike.Db."
claim("C05", "proved", [D + "C05_recursive_dependencies"])
claim("C06", "proved", [D + "C06_fails_iff_broken", D + "C06_error_is_true", D + "C06_resolved",
                        D + "C06_ignore_errors"])
claim("C07", "proved", [D + "C07_ids", D + "C07_getNode"])
claim("C08", "proved", [D + "C08_one_owner"])
claim("C09", "proved", [D + "C09_generated_entry", D + "C09_generated_entries", D + "C09_use_target_deps"])
claim("C10", "proved", [D + "C10_placeholders", D + "C10_load_unresolved"],
      "C10_load_unresolved is the consequence for a whole load. Loaders never set build dependencies; "
      "an external build dependency would not get a placeholder.")
claim("C21", "proved", [D + "C21_all_tasks", D + "C21_single_target", D + "C21_waits_for",
                        D + "C21_build_order"])

B = "Maike.Build."
claim("C11", "proved", [B + "C11_error", B + "C11_meaning", B + "C11_order"])
claim("C12", "proved", [B + "C12_skip", B + "C12_run", B + "C12_error"])
claim("C13", "proved", [B + "C13_up_to_date", B + "C13_inputs_stable", B + "C13_source_tree"],
      "Assumes that later writes get later time stamps; C14_needs_fine_stamps shows that this is needed.")
claim("C14", "proved", [B + "C14_second_build_idle", B + "C14_source_tree", B + "C14_needs_fine_stamps"],
      "Assumes that later writes get later time stamps; C14_needs_fine_stamps shows that this is needed.")

P = "Maike.Sched.Pool."
claim("C22", "proved", [P + "C22_fifo", P + "C22_concurrency", P + "C22_drained", P + "C22_no_idling"])
claim("C23", "proved", [P + "C23_no_deadlock", P + "C23_bounded"])
claim("C24", "proved", [P + "C24_first_exception", P + "C24_all_raised"])

F = "Maike.Io.Fifo."
I = "Maike.Io."
claim("C25", "proved", [F + "C25_prefix", F + "C25_stream", F + "C25_blocks", F + "C25_safe", F + "C25_read_returns"])
claim("C26", "proved", [I + "C26_getchar_stream", I + "C26_byte_ne_eof"])
claim("C27", "proved", [I + "C27_prefix", I + "C27_flushed"])
claim("C28", "proved", [I + "C28_content", I + "C28_progress", I + "C28_getchar", I + "C28_flush_ends_stream"])

claim("C58", "proved", ["Maike.Sched.C58_get_outcome", "Maike.Sched.C58_get_done", "Maike.Sched.C58_get_returns", "Maike.Sched.C58_two_waiters"],
      "For a single waiting thread, which is how the class is used. C58_two_waiters shows that a second one may "
      "be left blocked.")

E = "Maike.Loaders.Ext."
X = "Maike.Loaders.Cxx."
N = "Maike.Loaders.Inc."
claim("C39", "proved", [E + "C39_source", E + "C39_lines", E + "C39_newlines", E + "C39_tag", E + "C39_blank"])
claim("C40", "proved", [X + "C40_source", X + "C40_newlines", X + "C40_prefix"])
claim("C41", "proved", [X + "C41_tags", X + "C41_star_star_slash", X + "C41_line_comment", X + "C41_raw_paren"],
      "For files made of well-formed items. The last three theorems show what goes wrong for other files.")
claim("C42", "proved", [N + "C42_includes"])
claim("C43", "partial", [N + "C43_partial", N + "C43_false", N + "C43_star_star_slash", N + "C43_line_comment",
                         N + "C43_bogus", N + "C43_unterminated"],
      "False of the code (C43_false and the theorems after it). C43_partial: an include is found whatever follows it "
      "if the lines before it are well-formed.")

T = "Maike.Text."
K = "Maike.Kvs."
claim("C30", "proved", [T + "C30_rebuildPolicy", T + "C30_origin", T + "C30_logFormat", T + "C30_logLevel", T + "C30_extMode"])
claim("C31", "proved", [K + "C31_merge", K + "C31_wellFormed"])
claim("C32", "proved", [K + "C32_conflict", K + "C32_flag"])
claim("C33", "proved", [K + "C33_assoc", K + "C33_empty_right", K + "C33_empty_left", K + "C33_not_idempotent"])
claim("C34", "proved", [K + "C34_override", K + "C34_assoc", K + "C34_flag_reset", K + "C34_recipe", K + "C34_request"])
claim("C54", "proved", [K + "C54_skip", K + "C54_merged", K + "C54_conflict"],
      "C54_conflict: a file that can be read but is in conflict with an earlier one is applied in part.")
claim("C59", "partial", [K + "C59_recipe_dependency_partial", K + "C59_exact", K + "C59_false"],
      "False of the code (C59_false): a file whose tags change only the configuration of the compiler does not depend on "
      "the recipe of its loader. C59_recipe_dependency_partial covers the other cases; C59_exact says that these are all of them.")
claim("C60", "proved", [K + "C60_roundTrip", K + "C60_load", K + "C60_loaded", K + "C60_again"])
claim("C61", "proved", [K + "C61_loaders"])

B = T + "BuildId."
claim("C29", "proved", [B + "C29_parse", B + "C29_roundTrip", B + "C29_format", B + "C29_injective", B + "C29_rejects",
                        B + "C29_overlong", B + "C29_short"],
      "C29_overlong and C29_short: strings that are not ids which are accepted nevertheless.")
H = T + "Shell."
claim("C35", "proved", [H + "C35_recover", H + "C35_injective"])
claim("C36", "partial", [H + "C36_paste_partial", H + "C36_exact", H + "C36_backslash", H + "C36_false"],
      "False of the code for arguments with an apostrophe or a backslash (C36_false). C36_paste_partial covers all others, and C36_exact shows that there are no further ones.")
M = T + "Numbers."
claim("C53", "proved", [M + "C53_positive", M + "C53_default", M + "C53_decimal", M + "C53_roundTrip", M + "C53_sloppy", M + "C53_wraps"])
claim("C57", "proved", [M + "C57_memAvail", M + "C57_open_fails"],
      "For contents which fit in the buffer of 4096 bytes. C57_open_fails: undefined behaviour if the file cannot be opened.")
claim("C62", "proved", [M + "C62_accepted", M + "C62_decimal", M + "C62_rejected", M + "C62_surprises"])

G = "Maike.Cli."
claim("C51", "proved", [G + "C51_full", G + "C51_accepted", G + "C51_last", G + "C51_maike", G + "C51_surprises", G + "C51_bits", G + "C51_bits_limit"],
      "C51_surprises: abbreviations are resolved silently, also when they are ambiguous.")
claim("C52", "proved", [G + "C52_roundTrip", G + "C52_names", G + "C52_trailing_comma"],
      "C52_trailing_comma: an empty last name would be lost.")
P = "Maike.Paths."
claim("C44", "proved", [P + "C44_longest", P + "C44_none"])
claim("C45", "proved", [P + "C45_append", P + "C45_replace", P + "C45_replace_collision"])

R = "Maike.Tree."
claim("C46", "proved", [R + "C46_dotSlash", R + "C46_fileDir", R + "C46_external", R + "C46_project", R + "C46_generated", R + "C46_same",
                        R + "C46_same_generated", R + "C46_trailing_separator", R + "C46_generated_detour"],
      "C46_trailing_separator and C46_generated_detour are the exceptions mentioned in the statement.")
claim("C47", "partial", [R + "C47_target_partial", R + "C47_inside_partial", R + "C47_injective_partial", R + "C47_root", R + "C47_false"],
      "False of the code if the source directory is not given in normal form (C47_false).")
claim("C63", "proved", [R + "C63_dependency", R + "C63_target", R + "C63_tags", R + "C63_load"])
claim("C64", "proved", [R + "C64_directory", R + "C64_no_loader"])
claim("C65", "proved", [R + "C65_dotSlash", R + "C65_plain"])

claim("C49", "proved", [R + x for x in ["C49_result", "C49_once", "C49_never_twice", "C49_schedule", "C49_terminates", "C49_progress", "C49_ends",
      "C49_waits", "C49_parents"]],
      "All interleavings of the tasks of a scan. Trees of unbounded size; the file system does not change during the scan.")
claim("C50", "proved", [R + x for x in ["C50_throws", "C50_text"]],
      "The thrown text is the concatenation of the messages, one line each, in an order that depends on the schedule.")

B = "Maike.Build."
C = "Maike.Exec."
claim("C37", "proved", [C + "C37_failed", C + "C37_values", C + "C37_abort", C + "C37_success"])
claim("C38", "proved", [B + "C38_nothing_changes", B + "C38_succeeds", B + "C38_bounded"],
      "About the build itself. While loading, recipes are executed even in a dry run (DESIGN.md, findings).")
claim("C66", "proved", [B + "C66_announced_are_executed", B + "C66_not_all_announced"],
      "C66_not_all_announced shows that the converse is false of the code.")
C = "Maike.Exec.Launch."
claim("C67", "proved", [C + x for x in ["C67_no_deadlock", "C67_bounded", "C67_returns", "C67_reported", "C67_one_at_a_time",
      "C67_stdin_never_ends"]],
      "C67_stdin_never_ends: the provision about standard input is needed.")

W = "Maike.Tree.Commands."
claim("C48", "proved", [W + x for x in ["C48_search", "C48_ends", "C48_same", "C48_kept", "C48_absolute", "C48_race"]],
      "C48_race: answers may differ if calls overlap while the file system changes, as the statement says.")
W = "Maike.Build.Log."
claim("C55", "proved", [W + x for x in ["C55_lines", "C55_lines_unique", "C55_injective", "C55_message", "C55_zero", "C55_blank_lines", "C55_not_mixed",
      "C55_progress"]])
W = "Maike.Utils.UniqueFunction."
V = "Maike.Utils.ScopeExit."
claim("C56", "proved", [W + x for x in ["C56_function_safe", "C56_function_once", "C56_function_no_leak", "C56_function_one_owner",
      "C56_function_self_assignment"]] + [V + x for x in ["C56_handler_at_most_once", "C56_handler_once", "C56_handler_assignment"]],
      "C56_handler_assignment: assignment loses an action, as the statement says. The code does not assign handlers.")
W = "Maike.Utils.LoaderHandle."
claim("C68", "proved", [W + x for x in ["C68_safe", "C68_content", "C68_once", "C68_no_leak", "C68_copy_of_moved"]])

W = "Maike.Build."
claim("C69", "proved", [W + x for x in ["C69_up_to_date", "C69_once", "C69_last", "C69_order", "C69_forced", "C69_dry"]],
      "C69_forced: the provision that the build is not forced is needed.")

W = "Maike.Main."
claim("C70", "proved", [W + "C70_end_to_end"])
claim("C71", "proved", [W + x for x in ["C71_second_run", "C71_nothing", "C71_again", "C71_hidden_filtered", "C71_hidden_outside", "C71_hidden_needed"]],
      "C71_hidden_needed: the provision about filters is needed. With a target directory that is scanned, each run makes directories inside of it.")

claim("C72", "partial", [W + x for x in ["C72_lines", "C72_listed_partial", "C72_no_unknown_partial", "C72_plain_partial", "C72_unreachable", "C72_dot",
      "C72_false"]],
      "False of the code for the target directory itself (C72_dot) and for target directories such as ./out (C72_unreachable, C72_false). "
      "C72_listed_partial says exactly which names are accepted.")
W = "Maike.Kvs.JsonLoad."
claim("C73", "proved", [W + x for x in ["C73_document", "C73_malformed", "C73_truncated", "C73_blank", "C73_ignored", "C73_any_source"]],
      "The decoder (jansson) is a parameter. C73_ignored: malformed text may be ignored silently, as the statement says.")
claim("C74", "partial", [W + x for x in ["C74_short_partial", "C74_empty", "C74_long", "C74_never_ends", "C74_false"]],
      "False of the code for documents of more than 4096 bytes (C74_long, C74_false) and for output without a document (C74_never_ends).")
W = "Maike.Main."
claim("C75", "proved", [W + x for x in ["C75_needed", "C75_up_to_date", "C75_made_again", "C75_tags", "C75_rules", "C75_generic", "C75_rejected", "C75_loader"]],
      "The JSON decoder and std::regex are parameters.")
claim("C76", "proved", [W + x for x in ["C76_success", "C76_includes", "C76_named", "C76_read_only", "C76_rejected", "C76_info", "C76_status",
      "C76_deterministic", "C76_dirs", "C76_workers", "C76_recipe", "C76_resolved", "C76_config", "C76_unimplemented", "C76_twice", "C76_slash"]],
      "C76_unimplemented and C76_slash are the findings mentioned in the statement.")
claim("C77", "proved", [W + x for x in ["C77_edges", "C77_exact", "C77_lines", "C77_order", "C77_readable", "C77_quotes", "C77_needs", "C77_includes", "C77_schedule"]],
      "C77_quotes: names with quotation marks are ambiguous, as the statement says.")
W = "Maike.Exec.Transfer."
claim("C78", "proved", [W + x for x in ["C78_captured", "C78_deterministic", "C78_progress", "C78_returns", "C78_recipes", "C78_reached", "C78_starved"]],
      "C78_starved is the exception mentioned in the statement. The recipe is an arbitrary program that keeps its standard streams open until it ends.")
W = "Maike.Main."
claim("C79", "proved", [W + x for x in ["C79_dependencies", "C79_command", "C79_tasks", "C79_newer"]],
      "For projects where the targets of files that use the dependencies of their targets are not files of the project (Apart).")

claim("C80", "partial", ["Maike.Main.C80_retried_partial", "Maike.Main.RetryExample.C80_false"],
      "False in general (C80_false): a recipe that writes its target before it fails is taken to be up to date by the next run. Proved for commands that have not written any target, for files, when the first run is not forced.")
claim("C81", "partial", ["Maike.Main.C81_linked_partial", "Maike.Main.C81_order_partial", "Maike.Main.C81_archive_partial", "Maike.Main.LinkedExample.C81_false"],
      "False if a part is also required by a declaration without the property (C81_false). Proved for parts of which every declaration says that they are implementations. The order is for file names that do not look like options and differ as text.")

R = "Maike.Recipes."
claim("C82", "partial", [R + x for x in ["C82_compiler_partial", "C82_linker_partial", "C82_archiver_partial", "C82_copier", "C82_directory_partial", "C82_generic", "C82_header",
      "StatusExample.C82_generic_false", "StatusExample.C82_targets_false", "StatusExample.C82_directory_false", "StatusExample.C82_test_program",
      "C82_sass", "C82_doc_partial", "C82_doc_top", "C82_markdown_partial", "StatusExample.C82_markdown_false", "C82_vcslog_partial"]],
      "False in general, as the statement says. Proved for the compiler (source files), the linker and the archiver (first target only), copies, and directories (unless a file of the same name exists). For style sheets; for documents and revision logs (first target only); for text, except that a failure of pandoc is not reported.")
claim("C83", "partial", [R + "C83_command_partial", R + "C83_words", "Maike.Main.C83_dependencies_partial", R + "CompileExample.C83_false"],
      "False for repeated words (C83_false): flags are passed in order up to repetition, exactly if no word is repeated. The part about dependencies is for those of which every declaration asks for the same.")
claim("C84", "partial", [R + x for x in ["C84_revisions", "C84_selected_partial", "C84_found_partial", "C84_max_only", "C84_oldest", "C84_used", "C84_absolute", "RevisionExample.C84_false", "RevisionExample.C84_oldest_false"]],
      "False in general, as the statement says. Proved if there is a lower bound, and if compilers answer when asked for a revision.")

claim("C85", "proved", ["Maike.Build.C85_consistent", "Maike.Build.C85_same_as_clean", "Maike.Main.C85_incremental", "Maike.Main.C85_as_from_scratch", "Maike.Main.IncrementalExample.C85_old_time_stamp"],
      "Under the provisions in the statement. Recipes are functions of what they are told and of what they may read (Tools), targets are written completely or not at all; settings, system recipes and tools do not change. C85_old_time_stamp: the provision about time stamps is needed.")
claim("C86", "proved", ["Maike.Build.C86_only_if_necessary", "Maike.Build.C86_exactly", "Maike.Main.C86_run_only_if_outdated", "Maike.Main.C86_run_exactly", "Maike.Main.C86_after_changes", "Maike.Build.C86_dirs_needed"],
      "C86_dirs_needed: the provision about directories is needed. Provisions of C85 on names of dependencies.")

claim("C87", "proved", ["Maike.Build.C87_bounded", "Maike.Build.C87_progress", "Maike.Build.C87_can_end"] + ["Maike.Main." + x for x in ["C87_scan", "C87_all", "C87_named", "C87_ends", "C87_exception_false"]],
      "C87_exception_false: the provision about exceptions is needed (see also C18). Recipes are supposed to end, and not to write the same target again and again.")

claim("C88", "partial", ["Maike.Build.C88_refines", "Maike.Build.C88_recipes_partial", "Maike.Main.C88_success_partial", "Maike.Main.ProcessesExample.C88_false"],
      "False of cxx_linker.py, make_lib.py, doc2html.py, md2htmlpart.py and vcslog.py with more than one target, of generic.py, and of headers with targets (C88_false, C82_header). Proved when recipes are used as they are made to be (Suitable): "
      "a build that executes the recipes step by step is a build in the sense of Build/Model.lean, so its theorems apply to it; contents are not tracked at this level.")

claim("C89", "partial", [R + x for x in ["C89_exact", "C89_self", "C89_where_partial", "C89_plain", "C89_target_partial"]] + ["Maike.Main." + x for x in ["C89_run", "C89_current_partial", "Report.C89_false", "Report.C89_false_fragment"]],
      "False in general, as the statement says. Which references are dependencies is proved for all documents (C89_exact); where they lead to is proved for references that start with ./ and lead to something inside of the tree.")
claim("C90", "partial", [R + "C90_exact", R + "C90_self"] + ["Maike.Main." + x for x in ["C90_where", "C90_target_partial", "C90_run", "Report.C90_false"]],
      "False in general, as the statement says; C90_where says what happens. Proved for files in the source directory if that is the current directory, and for source directories with an absolute name.")

claim("C91", "partial", ["Maike.Main." + x for x in ["C91_ignored", "C91_current_partial", "SettingsExample.C91_false"]] + ["Maike.Build." + x for x in ["C91_executed_partial", "C91_all_executed", "C91_forced_partial"]],
      "False, as the statement says: a change of options has no effect until a source is edited or the run is forced (C91_ignored, C91_false). Proved for forced runs, and for recipes that have been executed.")

claim("C92", "proved", ["Maike.Cli." + x for x in ["C92_help", "C92_maike", "C92_usage", "C92_types"]],
      "C92_help for all tables of options; C92_maike and C92_usage for the options of maike.")
claim("C93", "partial", ["Maike.Main." + x for x in ["C93_ignored", "C93_false"]],
      "False, as the statement says: the path is ignored (C93_ignored). What is printed goes to the standard output.")

claim("C94", "proved", ["Maike.Build." + x for x in ["C94_isolated", "C94_serial", "C94_in_order", "C94_determined", "C94_workers", "C94_confined", "C94_recipes", "SerialExample.C94_not_declared", "SerialExample.C94_left_behind"]] + ["Maike.Main." + x for x in ["C94_run", "C94_run_workers"]],
      "Files have contents, and programs write them bit by bit (C88 has time stamps only). C94_run and C94_run_workers are about runs with the recipes of maike (all but vcslog.py, which reads the repository, and generic.py, which ignores the status of its program); that the number of workers does not matter is proved for forced runs, and for those where directories that are targets exist already, because what has to be done is determined by the files then (C86). C94_not_declared and C94_left_behind show what the hypotheses are there for.")

claim("C95", "proved", ["Maike.Build.C95_consistent", "Maike.Build.C95_same_as_clean", "Maike.Main.C95_incremental", "Maike.Main.C95_as_from_scratch"],
      "C85 with recipes that are executed as in C94, instead of recipes that write what they are supposed to compute at once. The proviso about targets of recipes that have not ended with success is necessary (C94_left_behind). What a recipe computes must not depend on the number of its task or on when the run has started.")
claim("C96", "proved", ["Maike.Exec.Descriptors." + x for x in ["C96_streams", "C96_no_leak", "C96_closed_once", "C96_restored", "C96_exact", "DescriptorsExample.C96_false"]],
      "Failures of dup2, fcntl and close are not modelled. C96_exact says when the streams are connected, C96_false is a concrete case where they are not.")
claim("C97", "proved", ["Maike.Text.Date." + x for x in ["C97_text", "C97_given", "C97_overflow", "C97_injective", "C97_fits", "C97_order"]],
      "gmtime_r belongs to the C library; its model is a computation that is proved to be the Gregorian calendar, which is specified by the day after a day. The value passed to recipes is the one of to_time_t.")
claim("C98", "proved", ["Maike.Kvs.JsonText." + x for x in ["C98_reads", "C98_only", "C98_keys", "C98_injective", "C98_canonical", "C98_layout", "C98_printable", "C98_lookup", "C98_command", "C98_configdump"]],
      "What jansson writes with the flags used by maike is modelled; the grammar of RFC 8259 is the specification. How floating point numbers are written is a parameter, which must satisfy Reals.Ok. UTF-8 is not modelled here.")
claim("C99", "partial", ["Maike.Kvs.Names." + x for x in ["C99_text_partial", "C99_otherwise", "Examples.C99_false"]],
      "False of the code: the result of json_object_set_new and json_array_append_new is ignored, and these fail for names that are not UTF-8 (Examples.C99_false). C99_text_partial is the property for names that are UTF-8, C99_otherwise says what happens to other names.")

claim("C100", "proved", ["Maike.Kvs.JsonText." + x for x in ["C100_document", "C100_roundTrip", "C100_output"]] + ["Maike.Main." + x for x in ["C100_compound", "C100_configdump"]],
      "The decoder is a parameter that follows RFC 8259 (JsonText.Standard), and Examples.standard_standard shows that there is such a decoder. Output of recipes that is longer than 4096 bytes is subject to C74.")

claim("C101", "proved", ["Maike.Kvs.Heap." + x for x in ["C101_history", "C101_noLeak", "C101_merge"]],
      "What jansson does with reference counts is modelled after its documentation. A compound must not be merged with itself, or with a part of itself.")

claim("C102", "proved", ["Maike.Main." + x for x in ["C102_rejected", "C102_all", "C102_info", "C102_accepted", "C102_named"]] + ["Maike.Main.AcceptExample.C102_aside"],
      "Provision: a file that is linked (uses the dependencies of its target) does not have another file that has been found as its target. C102_aside: a circle that nothing depends on is only noticed when everything is built.")

claim("C103", "proved", ["Maike.Main." + x for x in ["C103_true", "C103_status", "C103_always"]],
      "Provision: a file that is linked does not have another file that has been found as its target. Paths in messages are written with single separators. What is printed for exceptions from Execve and from recipes is not modelled.")

claim("C104", "proved", ["Maike.TaskList.Threads." + x for x in ["C104_refines", "C104_order", "C104_legal", "C104_no_race", "C104_progress", "C104_bounded", "C104_left"]],
      "The body of a task is one action. Sequentially consistent memory. A task that ends without recording its result is the subject of C18.")

claim("C105", "proved", ["Maike.Tree.Threads." + x for x in ["C105_refines", "C105_result", "C105_errors", "C105_throws", "C105_deterministic", "C105_once", "C105_legal", "C105_no_race", "C105_quiet", "C105_progress", "C105_bounded", "C105_ends", "C105_left"]],
      "Reading the file system and calling a loader are single operations, and the file system does not change. Sequentially consistent memory. That the tree is of finite height excludes circles of symbolic links.")
claim("C106", "partial", ["Maike.Build.C106_order", "Maike.Build.C106_script", "Maike.Kvs.JsonText.C106_json", "Maike.Main.C106_bootstrap_partial", "Maike.Main.C106_files_partial", "Maike.Main.C106_named_partial", "Maike.Main.C106_named_files_partial", "Maike.Main.BootstrapExample.C106_false"],
      "False of the code if a name has an apostrophe, a backslash, a quotation mark or a control character: then the script may execute what is in the name of a file (C106_false). "
      "C106_bootstrap_partial and C106_files_partial cover all other names, C106_named_partial and C106_named_files_partial do so with `--targets`, for projects without circles. C106_order is about any build: one message per task, those of dependencies first.")

claim("C107", "proved", ["Maike.Build.Threaded." + x for x in ["C107_refines", "C107_realised", "C107_scripts", "C107_scripts_realised", "C107_contents", "C107_contents_realised", "C107_bounded", "C107_progress", "C107_can_end", "C107_several"]] +
      ["Maike.Main." + x for x in ["C107_program", "C107_same", "C107_success", "C107_all", "C107_named", "C107_workers", "C107_handover"]],
      "Comparing the time stamps for one task is one action, and so is a call of a loader; the file system does not change during the scan. Sequentially consistent memory. C107_program says that all theorems about results of the program hold for its threads.")

claim("C108", "partial", ["Maike.Text.About.C108_partial", "Maike.Text.About.C108_exact", "Maike.Text.About.C108_false"],
      "False of the code if one of the texts has a quotation mark, a backslash, a line break or a null character in it (C108_false); C108_exact says that these are the only exceptions for all texts but the names of authors. "
      "The C++ compiler is modelled for headers of the form that the script writes.")

claim("C109", "partial", ["Maike.Tree.Regex.C109_search", "Maike.Tree.Regex.C109_quoted", "Maike.Tree.Regex.C109_ordinary",
                          "Maike.Tree.Regex.C109_generated", "Maike.Tree.Regex.C109_bad", "Maike.Main.C109_default",
                          "Maike.Main.C109_generated_default", "Maike.Main.C109_visible_partial", "Maike.Main.C109_dot_slash",
                          "Maike.Main.C109_dot_slash_command", "Maike.Main.C109_false"],
      "False of the code if the source directory is written as ./src: then nothing in it is seen (C109_false, C109_dot_slash). "
      "C109_visible_partial covers all source directories that are in normal form up to a separator at the end. "
      "Regular expressions of libstdc++ are part of the trusted base; groups, intervals, brackets and references are not modelled.")

claim("C110", "partial", ["Maike.Build.C110_partial", "Maike.Build.C110_saved_again", "Maike.Build.C110_forced", "Maike.Main.C110_project_partial",
                          "Maike.Main.C110_false", "Maike.Main.C110_false_scan"],
      "False of the code: a file that is edited after maike or the recipe has read it, and before the target is written, leaves a target that is newer than the edit "
      "and does not belong to it; the next build reports success and does not make it again (C110_false, C110_false_scan). The partial theorems hold for all histories, "
      "for every target that is not one of these, and for all targets if the build is forced or the file is saved again.")
claim("C111", "proved", ["Maike.Tree." + x for x in ["C111_resolve", "C111_walk", "C111_ends", "C111_found", "C111_cycle", "C111_says"]] +
      ["Maike.Main." + x for x in ["C111_disk", "C111_finite", "C111_whole", "C111_same", "LinksExample.C111_dotdot"]],
      "Reading only: that a recipe which writes to a path changes what other paths with links lead to is not modelled. C111_dotdot: a source directory like link/../src is scanned as src, although "
      "the kernel takes it to be another directory, so that the provision about normal form is needed. A directory that is reached by two names is handled as two directories "
      "(LinksExample.two_names).")

claim("C112", "partial", ["Maike.Recipes.Archive." + x for x in ["C112_succeeds", "C112_members", "C112_parts", "C112_exact_partial", "C112_new", "C112_growing_partial", "C112_stays", "C112_false"]] +
      ["Maike.Main.C112_library_partial"],
      "False when a part is taken away: ar keeps the member, with its old content (C112_false, C112_stays). Exact if and only if the library had no more members of any name than there are parts "
      "now (C112_exact_partial); no part is ever missing or outdated (C112_parts). C112_library_partial connects this with the declarations of the project. What ar does is taken from GNU binutils.")

claim("C113", "partial", ["Maike.Sched.Start." + x for x in ["C113_workers", "C113_join_partial", "C113_join_undefined", "C113_no_workers", "C113_drained", "C113_readers", "C113_false",
      "C113_false_readers"]] + ["Maike.Main." + x for x in ["C113_hangs", "C113_same_files"]],
      "False: without workers the program hangs (C113_hangs), with some of them the destructor of the pool has undefined behaviour at the end (C113_join_undefined, C113_false), and a missing reader may terminate "
      "the program (C113_false_readers). What holds: all is well if all threads can be started (C113_join_partial), and with at least one worker the work is done with the same result (C113_drained, C113_same_files; "
      "for the builds, see C107_workers).")

claim("C114", "partial", ["Maike.Recipes." + x for x in ["C114_description", "C114_part_partial", "C114_manual_partial", "C114_build", "C114_guarded", "C114_install", "C114_recipes", "C114_hyphens",
      "OwnExample.C114_false", "OwnExample.C114_false_part"]] + ["Maike.Main." + x for x in ["C114_reads_partial", "C114_input_partial", "C114_starts", "C114_top", "GeneratorExample.C114_false_directory"]],
      "False: manpage.py and the converters ignore the result of pandoc (C114_false, C114_false_part), and with a source directory that is not in normal form the script and maike disagree about the file that is read "
      "(C114_false_directory). What holds: success of the other generators, the names of the files for normal source directories, the program that is started, the text, build.py, and install.sh.")

claim("C115", "partial", ["Maike.Build." + x for x in ["C115_right_partial", "C115_consistent_partial", "C115_sources_partial", "C115_afterwards_partial", "C115_agree_partial", "C115_up_to_date_partial",
      "C115_idle_partial", "C115_false", "FleetExample.C115_lasting", "FleetExample.C115_unequal", "FleetExample.C115_others_unfinished"]] +
      ["Maike.Main." + x for x in ["C115_project_partial", "C115_project_idle_partial"]],
      "False of runs with programs that write a target piece by piece: there is no lock, so a linker may read an object while the compiler of the other run is writing it; both runs succeed, the program is wrong, "
      "and it is not made again (C115_false, C115_lasting). The partial theorems hold for all interleavings if targets are replaced in one piece. C115_idle_partial needs that the runs make the same targets "
      "(C115_unequal) and that all that have written anything have finished (C115_others_unfinished).")

claim("C116", "proved", ["Maike.Tree." + x for x in ["C116_result", "C116_same", "C116_fails", "C116_once", "C116_progress", "C116_before", "C116_terminates", "MovingExample.C116_example",
      "MovingExample.C116_mixed"]] + ["Maike.Main." + x for x in ["C116_undisturbed", "C116_loads", "C116_while_building", "C116_joins"]],
      "For changes of what is left out because of its name. C116_mixed: without this, the scan may find what was never there at any one moment. Source files that change during the scan are not covered; "
      "what follows from edits between loading and building is the subject of C110.")

claim("C117", "proved", ["Maike.Build." + x for x in ["C117_alone", "C117_succeeds", "C117_idle", "SeparateExample.C117_example", "SeparateExample.C117_targets_needed",
      "SeparateExample.C117_sources_needed", "C117_pieces", "C117_pieces_alone", "C117_pieces_idle", "SeparateExample.C117_pieces_example", "SeparateExample.C117_completes_needed"]] + ["Maike.Main.C117_directories_pieces", "Maike.Main.C117_project", "Maike.Main.C117_project_idle", "Maike.Main.C117_directories", "Maike.Main.SeparateExample.C117_example"],
      "In C117_alone, C117_succeeds and C117_idle, the run in question writes its own targets in one piece; in C117_pieces, C117_pieces_alone and C117_pieces_idle, piece by piece, where a recipe that succeeds has completed its targets. Directories that matter may be touched by others if they exist already. C117_targets_needed and "
      "C117_sources_needed: what happens if another run does write a file that matters; see also C115.")
claim("C118", "proved", ["Maike.Build." + x for x in ["C118_result", "C118_true", "C118_final", "C118_seen", "C118_report", "C118_errors", "C118_waiting", "C118_all", "LogTellsExample.C118_waiting_example", "LogTellsExample.C118_example", "LogTellsExample.C118_example_order", "LogTellsExample.C118_level_needed"]] + ["Maike.Main.C118_project", "Maike.Main.LogTellsExample.C118_example"],
      "C118_all: every build is that of a build with a log, so that nothing is left out. Tasks that end with an exception have no result, and may have no message. C118_level_needed: with log level errors, the line about a task is not printed.")

if __name__ == "__main__":
    here = os.path.dirname(os.path.dirname(os.path.abspath(__file__)))
    out = [CLAIMS[k] for k in sorted(CLAIMS, key=lambda c: int(c[1:]))]
    with open(os.path.join(here, "MANIFEST.json"), "w") as f:
        json.dump({"claims": out}, f, indent=1)
        f.write("\n")
