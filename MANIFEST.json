{
 "claims": [
  {
   "property": "C01",
   "status": "proved",
   "theorems": [
    "Verif.TM.C01_dependencies_finished_when_returned",
    "Verif.TM.C01_dependencies_finished_before_start",
    "Verif.TM.C01_dependencies_of_started_are_finished"
   ],
   "note": "First two hold from any state; the last is the whole-run version."
  },
  {
   "property": "C02",
   "status": "proved",
   "theorems": [
    "Verif.TM.C02_started_at_most_once",
    "Verif.TM.C02_history_has_no_duplicates"
   ],
   "note": ""
  },
  {
   "property": "C03",
   "status": "proved",
   "theorems": [
    "Verif.TM.C03_started_depends_on_no_failure",
    "Verif.TM.C03_dependents_of_failed_never_started"
   ],
   "note": "Scans may grow but not shrink during the build; no -i."
  },
  {
   "property": "C04",
   "status": "proved",
   "theorems": [
    "Verif.TM.C04_any_failure_stops",
    "Verif.TM.C04_failed_run_is_stopped",
    "Verif.TM.C04_failure_stops",
    "Verif.TM.C04_nothing_starts_after_stop",
    "Verif.TM.C04_no_start_step",
    "Verif.TM.C04_candidates_dropped"
   ],
   "note": ""
  },
  {
   "property": "C05",
   "status": "proved",
   "theorems": [
    "Verif.TM.C05_everything_requested_is_built",
    "Verif.Pool.C05_parallel_everything_requested_is_built",
    "Verif.Pool.complete_is_over",
    "Verif.Pool.scheduler_refines_taskmaster"
   ],
   "note": ""
  },
  {
   "property": "C06",
   "status": "proved",
   "theorems": [
    "Verif.TM.C06_unbuilt_target_is_reported",
    "Verif.TM.findCycle_iff",
    "Verif.TM.findCycle_chain"
   ],
   "note": ""
  },
  {
   "property": "C07",
   "status": "partial",
   "theorems": [
    "Verif.TM.C07_no_false_cycle_report_partial",
    "Verif.TM.C07_counterexample_keep_going",
    "Verif.TM.C07_counterexample_ignore",
    "Verif.TM.C07_counterexample_side_effect"
   ],
   "note": "Full statement is false of the code (-k, -i, failure with shared side effects): counterexamples proved. Proved for all runs without -k/-i, and with side effects when nothing fails."
  },
  {
   "property": "C08",
   "status": "partial",
   "theorems": [
    "Verif.TM.C08_side_effects_exclusive_partial",
    "Verif.TM.C08_counterexample_raise",
    "Verif.TM.C08_counterexample_requested",
    "Verif.Pool.C08_parallel_side_effects_exclusive_partial"
   ],
   "note": "Full statement is false (scan raises under -k; side effect itself depended upon): counterexamples proved. Proved for every other run."
  },
  {
   "property": "C09",
   "status": "proved",
   "theorems": [
    "Verif.TM.C09_build_terminates",
    "Verif.TM.C09_search_terminates",
    "Verif.TM.wnb_terminates",
    "Verif.TM.wnb_total",
    "Verif.TM.wnb_loop_eq"
   ],
   "note": ""
  },
  {
   "property": "C10",
   "status": "proved",
   "theorems": [
    "Verif.TM.C10_keep_going_builds_the_rest"
   ],
   "note": ""
  },
  {
   "property": "C11",
   "status": "proved",
   "theorems": [
    "Verif.Pool.C11_at_most_N_jobs"
   ],
   "note": ""
  },
  {
   "property": "C12",
   "status": "proved",
   "theorems": [
    "Verif.Pool.C12_no_deadlock",
    "Verif.Pool.C12_no_deadlock_with_taskmaster",
    "Verif.Pool.C12_work_conserving",
    "Verif.Pool.C12_results_are_collected",
    "Verif.Pool.C12_single_worker_never_waits",
    "Verif.Pool.C12_terminates",
    "Verif.Pool.C12_complete_is_final",
    "Verif.Pool.C12_build_terminates",
    "Verif.Pool.C12_build_ends"
   ],
   "note": "Assumes the calls into the taskmaster do not raise (an exception there kills the thread inside the critical section)."
  },
  {
   "property": "C13",
   "status": "proved",
   "theorems": [
    "Verif.Pool.C13_no_task_lost_or_retired_twice",
    "Verif.Pool.C13_all_retired_when_complete",
    "Verif.Pool.C13_all_retired_when_a_worker_left",
    "Verif.Pool.scheduler_agrees"
   ],
   "note": ""
  },
  {
   "property": "C14",
   "status": "proved",
   "theorems": [
    "Verif.Pool.C14_one_thread_at_a_time"
   ],
   "note": "The signal handler's Taskmaster.stop() is the one exception (it only sets a flag)."
  },
  {
   "property": "C15",
   "status": "proved",
   "theorems": [
    "Verif.Build.C15_result_independent_of_schedule",
    "Verif.Build.finished_and_sources_keep_their_content",
    "Verif.Build.exists_history"
   ],
   "note": "Content decider, deterministic actions reading only their dependencies."
  },
  {
   "property": "C16",
   "status": "partial",
   "theorems": [
    "Verif.Sig.C16_null_build_partial",
    "Verif.Sig.C16_null_build_content_partial",
    "Verif.Sig.C16_counterexample_depends_and_ignore",
    "Verif.Build.C16_second_run_does_nothing",
    "Verif.Build.C16_same_command_again_does_nothing",
    "Verif.Build.C16_nonvacuous"
   ],
   "note": "False of the code for a node that is both Depends() and Ignore() (proved); proved for every other case, per target for each decider and, with the content decider, for whole runs driven by the Taskmaster after any history."
  },
  {
   "property": "C17",
   "status": "proved",
   "theorems": [
    "Verif.Sig.C17_every_change_triggers_a_rebuild",
    "Verif.Sig.C17_up_to_date_means_nothing_changed"
   ],
   "note": "Collision-free hash."
  },
  {
   "property": "C18",
   "status": "proved",
   "theorems": [
    "Verif.Sig.C18_up_to_date_iff",
    "Verif.Sig.ask_spec"
   ],
   "note": ""
  },
  {
   "property": "C19",
   "status": "proved",
   "theorems": [
    "Verif.Build.C19_incremental_equals_clean",
    "Verif.Build.C15_result_independent_of_schedule",
    "Verif.Build.exists_history"
   ],
   "note": ""
  },
  {
   "property": "C20",
   "status": "partial",
   "theorems": [
    "Verif.Sig.C20_reuse_only_when_allowed",
    "Verif.Sig.C20_new_timestamp_is_hashed",
    "Verif.Sig.C20_negative_drift_always_hashes",
    "Verif.Sig.C20_history_partial",
    "Verif.Sig.C20_counterexample_visit_without_hash"
   ],
   "note": "The per-call rule is proved; that the reused signature is right over all histories is false of the code (proved), and proved for histories in which every visited file is hashed."
  },
  {
   "property": "C21",
   "status": "partial",
   "theorems": [
    "Verif.Sig.C21_looked_up_under_own_name_partial",
    "Verif.Sig.C21_counterexample_depends_and_ignore"
   ],
   "note": "False of the code for a node that is both Depends() and Ignore() (proved)."
  },
  {
   "property": "C41",
   "status": "partial",
   "theorems": [
    "Verif.Build.C41_failed_builds_harmless_partial",
    "Verif.Build.C41_counterexample_failed_build",
    "Verif.Build.C41_counterexample_killed_build"
   ],
   "note": "False of the code in general (proved)."
  },
  {
   "property": "C22",
   "status": "proved",
   "theorems": [
    "Verif.Store.C22_disk_refines_ideal",
    "Verif.Store.C22_memory_refines_ideal",
    "Verif.Store.C22_previous_contents_kept",
    "Verif.Store.C22_old_or_new_at_every_crash_point",
    "Verif.Store.example_history"
   ],
   "note": "One process at a time; a killed process, not a power failure."
  },
  {
   "property": "C23",
   "status": "proved",
   "theorems": [
    "Verif.Store.C23_read_back",
    "Verif.Store.C23_read_back_new",
    "Verif.Store.C23_close_does_not_skip_assignments",
    "Verif.Store.C23_counterexample_del_then_close"
   ],
   "note": "The counterexample concerns del followed by close only, which SCons itself never does."
  },
  {
   "property": "C24",
   "status": "proved",
   "theorems": [
    "Verif.Store.C24_entries_do_not_interfere",
    "Verif.Store.C24_untouched_entries_are_kept"
   ],
   "note": ""
  },
  {
   "property": "C25",
   "status": "proved",
   "theorems": [
    "Verif.Store.C25_next_run_reads_old_new_or_nothing",
    "Verif.Store.C25_never_truncated",
    "Verif.Store.C25_completed_write_is_read_back",
    "Verif.Store.C25_counterexample_fallback_truncates",
    "Verif.Store.C25_window_without_file"
   ],
   "note": "The never-truncated part is for runs that take neither fall-back; the counterexample shows why."
  },
  {
   "property": "C26",
   "status": "proved",
   "theorems": [
    "Verif.Cache.C26_retrieved_is_what_was_pushed",
    "Verif.Cache.C26_visible_entries_are_complete",
    "Verif.Cache.C26_retrieved_equals_built",
    "Verif.Cache.example_sharing"
   ],
   "note": ""
  },
  {
   "property": "C27",
   "status": "partial",
   "theorems": [
    "Verif.Cache.Key.C27_key_covers_contents_partial",
    "Verif.Cache.Key.C27_files_partial",
    "Verif.Cache.Key.C27_counterexample_values",
    "Verif.Cache.Key.C27_counterexample_action_boundaries",
    "Verif.Cache.Key.C27_counterexample_kinds",
    "Verif.Cache.Key.C27_counterexample_path"
   ],
   "note": "Down to the contents of files, for dependencies that are files, aliases and directories, with no assumption about the hash: equal keys mean equal inputs or an explicit collision between strings hashed for the two targets. Left out: paths that start like a list of signatures, and Value nodes; there it is false, whatever the hash (proved)."
  },
  {
   "property": "C28",
   "status": "proved",
   "theorems": [
    "Verif.Cache.Exec.C28_retrieved_iff_all_available",
    "Verif.Cache.Exec.C28_retrieved_effects",
    "Verif.Cache.Exec.C28_built_effects",
    "Verif.Cache.Exec.C28_counterexample_dry_run_deletes"
   ],
   "note": "The effects theorems are for runs without -n; with -n files are deleted (counterexample)."
  },
  {
   "property": "C29",
   "status": "proved",
   "theorems": [
    "Verif.Cache.Exec.C29_cache_not_written",
    "Verif.Cache.Exec.C29_disabled_retrieves_nothing",
    "Verif.Cache.Exec.C29_show_and_force_are_cosmetic",
    "Verif.Cache.Exec.C29_force_pushes_own_content",
    "Verif.Cache.Exec.C29_nocache"
   ],
   "note": ""
  },
  {
   "property": "C30",
   "status": "partial",
   "theorems": [
    "Verif.Cache.Lock.C30_mutual_exclusion",
    "Verif.Cache.Lock.C30_writers_exclude_each_other",
    "Verif.Cache.Lock.C30_acquire_only_when_free",
    "Verif.Cache.Lock.C30_busy_raises_or_waits",
    "Verif.Cache.Lock.C30_release_frees_partial",
    "Verif.Cache.Lock.C30_counterexample_descriptor_zero"
   ],
   "note": "Mutual exclusion and raising proved in full; that release frees the lock is false for file descriptor 0 (proved) and proved otherwise."
  },
  {
   "property": "C31",
   "status": "proved",
   "theorems": [
    "Verif.Subst.C31_subst_terminates",
    "Verif.Subst.C31_subst_list_terminates",
    "Verif.Subst.C31_any_variables",
    "Verif.Subst.C31_self_reference_is_empty",
    "Verif.Subst.Witness.C31_counterexample_dotted_name"
   ],
   "note": "Variable names contain no dot (Environment.__setitem__ checks this); values of Python expressions in ${...} mention finitely many keys. The counterexample shows the first condition is needed."
  },
  {
   "property": "C32",
   "status": "proved",
   "theorems": [
    "Verif.Subst.C32_text_unchanged",
    "Verif.Subst.C32_tokens_lossless",
    "Verif.Subst.C32_raw_concatenation",
    "Verif.Subst.C32_text_prefix_kept"
   ],
   "note": ""
  },
  {
   "property": "C33",
   "status": "partial",
   "theorems": [
    "Verif.Subst.C33_escape_partial",
    "Verif.Subst.C33_escape_only",
    "Verif.Subst.Witness.C33_counterexample_lone_dollars_merge",
    "Verif.Subst.Witness.C33_counterexample_command_paren",
    "Verif.Subst.Witness.C33_counterexample_object_text"
   ],
   "note": "False of the code for lone dollars in values, for object texts with $$ and for $$( in command mode (proved); proved for every input in raw mode when no value has a lone dollar."
  },
  {
   "property": "C34",
   "status": "partial",
   "theorems": [
    "Verif.Subst.C34_signature_ignores_enclosed_partial",
    "Verif.Subst.C34_same_signature_partial",
    "Verif.Subst.C34_signature_keeps_the_rest",
    "Verif.Subst.C34_command_keeps_enclosed",
    "Verif.Subst.C34_markers_vanish_from_commands",
    "Verif.Subst.C34_unbalanced_is_an_error",
    "Verif.Subst.Witness.C34_counterexample_marker_after_escape",
    "Verif.Subst.Witness.C34_counterexample_nested_in_list_mode"
   ],
   "note": "A marker directly after an escaped dollar is not recognised (proved); proved in every other case."
  },
  {
   "property": "C35",
   "status": "partial",
   "theorems": [
    "Verif.Subst.C35_subst_list_words_partial",
    "Verif.Subst.C35_list_elements_are_arguments_partial",
    "Verif.Subst.Witness.C35_counterexample_empty_variable",
    "Verif.Subst.Witness.C35_counterexample_trailing_space",
    "Verif.Subst.Witness.C35_counterexample_empty_element",
    "Verif.Subst.Witness.C35_counterexample_redirection_in_element"
   ],
   "note": "Proved for all strings all of whose variables have at least one word and no leading white space or new line in their values; false of the code for empty values (proved)."
  },
  {
   "property": "C36",
   "status": "partial",
   "theorems": [
    "Verif.Cpp.C36_conditionals_partial",
    "Verif.Cpp.C36_stray_directives",
    "Verif.Cpp.C36_guarded_headers",
    "Verif.Cpp.Witness.C36_counterexample_skipped_condition",
    "Verif.Cpp.Witness.C36_counterexample_second_inclusion",
    "Verif.Cpp.Witness.C36_counterexample_resolve_loop"
   ],
   "note": "Refinement to the standard's rule proved for all nestings with each file processed once, and with the standard's rule itself for guarded headers; conditions in skipped groups are evaluated and second inclusions ignored (counterexamples proved)."
  },
  {
   "property": "C37",
   "status": "partial",
   "theorems": [
    "Verif.Cpp.C37_superset_partial",
    "Verif.Cpp.C37_exact",
    "Verif.Cpp.Witness.C37_counterexample_computed_include"
   ],
   "note": "Proved for all inputs whose includes are literal; false for #include MACRO (proved)."
  },
  {
   "property": "C38",
   "status": "partial",
   "theorems": [
    "Verif.Scan.C38_transitive_closure_partial",
    "Verif.Scan.C38_which_scanner",
    "Verif.Scan.C38_inherited_scanner_partial",
    "Verif.Scan.C38_terminates_and_sound",
    "Verif.Scan.C38_each_once",
    "Verif.Scan.C38_target_dependencies_partial",
    "Verif.Scan.Witness.C38_counterexample_disagreement",
    "Verif.Scan.Witness.C38_counterexample_included_twice"
   ],
   "note": "Proved for all graphs when scanners agree on which nodes are scanned in turn; otherwise dependencies are missed (proved)."
  },
  {
   "property": "C42",
   "status": "partial",
   "theorems": [
    "Verif.Scan.Find.C42_found_is_what_the_text_says_partial",
    "Verif.Scan.Find.C42_counterexample_two_scanners"
   ],
   "note": "False of the code for two different scanners on one node (proved)."
  },
  {
   "property": "C43",
   "status": "partial",
   "theorems": [
    "Verif.Scan.Find.C43_search_order_partial",
    "Verif.Scan.Find.C43_counterexample_known_paths"
   ],
   "note": "False of the code when a header is in two directories of the path (proved)."
  },
  {
   "property": "C39",
   "status": "partial",
   "theorems": [
    "Verif.Act.C39_in_order_until_first_failure",
    "Verif.Act.C39_command_ignoring",
    "Verif.Act.C39_command_strict",
    "Verif.Act.C39_command_prints",
    "Verif.Act.C39_function_runs_once",
    "Verif.Act.C39_exitstat_only_maps",
    "Verif.Act.C39_command_nonvacuous",
    "Verif.Act.C39_append",
    "Verif.Act.C39_dash_ignores_failure",
    "Verif.Act.C39_dash_is_recognised",
    "Verif.Act.C39_lines_in_order",
    "Verif.Act.C39_at_only_silences",
    "Verif.Act.C39_dry_run",
    "Verif.Act.C39_silent_same_effects",
    "Verif.Act.Witness.C39_counterexample_prefix_on_second_line",
    "Verif.Act.Witness.C39_counterexample_exitstatfunc_skips_lines"
   ],
   "note": "Proved for every action list; for multi-line commands the prefixes work only on the first line (proved counterexample)."
  },
  {
   "property": "C40",
   "status": "partial",
   "theorems": [
    "Verif.Act.C40_convert_nonzero",
    "Verif.Act.C40_exit_status",
    "Verif.Act.C40_failure_is_reported_partial",
    "Verif.Act.C40_failures_recorded",
    "Verif.Act.C40_ignore_errors",
    "Verif.Act.fn_fails_iff",
    "Verif.Act.C40_failed_action_fails_the_build",
    "Verif.Act.Witness.C40_counterexample_exit_zero_masks_failure",
    "Verif.Act.Witness.C40_counterexample_same_file_error"
   ],
   "note": "Exact characterisation of the exit status proved; the property itself is false after Exit(0) with -k and for SameFileError (proved)."
  },
  {
   "property": "C44",
   "status": "proved",
   "theorems": [
    "Verif.Build.C44_successful_run_builds_everything",
    "Verif.Build.C44_finished_targets_are_clean",
    "Verif.Build.C44_cached_scan_is_current",
    "Verif.Build.C44_nonvacuous",
    "Verif.Build.C44_rescan_shrinks",
    "Verif.Build.C44_pair_nonvacuous"
   ],
   "note": "Actions with any number of targets; no side effects, no -i; failed actions leave no file (see C41); under -k an action one of whose targets is already marked failed is not handed out again (Tidy)."
  },
  {
   "property": "C45",
   "status": "proved",
   "theorems": [
    "Verif.Subst.C45_undefined_variable",
    "Verif.Subst.C45_undefined_in_context"
   ],
   "note": "String mode; the exceptions configured are modelled by allowed error kinds."
  },
  {
   "property": "C46",
   "status": "proved",
   "theorems": [
    "Verif.Whole.C46_total_correctness",
    "Verif.Whole.C46_can_always_be_finished",
    "Verif.Whole.C46_terminates",
    "Verif.Whole.C46_no_deadlock",
    "Verif.Whole.C46_parallel_build_is_clean",
    "Verif.Whole.C46_same_result_for_every_N",
    "Verif.Whole.C46_nonvacuous"
   ],
   "note": "Actions with any number of targets, no side effects, content decider, deterministic actions; calls into the taskmaster do not raise."
  },
  {
   "property": "C47",
   "status": "proved",
   "theorems": [
    "Verif.Whole.C47_sources_are_never_touched"
   ],
   "note": "The content of the theorem is about SCons' own file operations (prepare() unlinks only the task's target): that actions write only to their targets is part of the model."
  },
  {
   "property": "C48",
   "status": "proved",
   "theorems": [
    "Verif.TM.C48_only_what_was_asked_for",
    "Verif.TM.C48_nonvacuous"
   ],
   "note": ""
  },
  {
   "property": "C49",
   "status": "partial",
   "theorems": [
    "Verif.Env.Override.C49_writes_do_not_leak",
    "Verif.Env.Override.C49_subject_is_not_modified",
    "Verif.Env.Override.C49_unwritten_shows_the_subject",
    "Verif.Env.Override.C49_given_override_wins",
    "Verif.Env.Override.C49_last_assignment_wins",
    "Verif.Env.Override.C49_last_replace_wins",
    "Verif.Env.Override.C49_deleted_stays_hidden",
    "Verif.Env.Override.C49_defaults",
    "Verif.Env.Override.C49_keys_agree_partial",
    "Verif.Env.Override.C49_subst_agrees_partial",
    "Verif.Env.Override.C49_counterexample_subst_sees_deleted",
    "Verif.Env.Override.C49_counterexample_keys_after_two_deletions",
    "Verif.Env.Override.C49_counterexample_keys_after_replace",
    "Verif.Env.Override.C49_counterexample_reserved",
    "Verif.Env.Override.C49_nonvacuous"
   ],
   "note": "Isolation and reading proved for all histories; agreement of keys() for histories without the two faulty patterns, of substitution where nothing was deleted (counterexamples proved)."
  },
  {
   "property": "C50",
   "status": "partial",
   "theorems": [
    "Verif.Env.Append.C50_append_order",
    "Verif.Env.Append.C50_prepend_order",
    "Verif.Env.Append.C50_strings",
    "Verif.Env.Append.C50_new_variable",
    "Verif.Env.Append.C50_dicts",
    "Verif.Env.Append.C50_append_raises_iff",
    "Verif.Env.Append.C50_prepend_raises_iff",
    "Verif.Env.Append.C50_appendUnique_order",
    "Verif.Env.Append.C50_appendUnique_moves",
    "Verif.Env.Append.C50_prependUnique_order",
    "Verif.Env.Append.C50_prependUnique_moves",
    "Verif.Env.Append.C50_unique_nothing_lost",
    "Verif.Env.Append.C50_unique_count",
    "Verif.Env.Append.C50_unique_idempotent",
    "Verif.Env.Append.C50_other_variables_unchanged",
    "Verif.Env.Append.C50_each_variable",
    "Verif.Env.Append.C50_counterexample_existing_duplicates",
    "Verif.Env.Append.C50_counterexample_strings",
    "Verif.Env.Append.C50_counterexample_clvar_lost",
    "Verif.Env.Append.C50_counterexample_unique_does_not_split",
    "Verif.Env.Append.C50_counterexample_prepend_to_none",
    "Verif.Env.Append.C50_nonvacuous"
   ],
   "note": "Everything proved for all values, except the claim that each value occurs once afterwards, which is false of the code (proved); C50_unique_count says exactly how often a value occurs."
  },
  {
   "property": "C51",
   "status": "partial",
   "theorems": [
    "Verif.Env.Cppdef.C51_append_flags",
    "Verif.Env.Cppdef.C51_new_variable",
    "Verif.Env.Cppdef.C51_prepend_flags_partial",
    "Verif.Env.Cppdef.C51_appendUnique",
    "Verif.Env.Cppdef.C51_no_duplicates_partial",
    "Verif.Env.Cppdef.C51_idempotent",
    "Verif.Env.Cppdef.C51_delete_existing_partial",
    "Verif.Env.Cppdef.C51_same_entries_same_flags",
    "Verif.Env.Cppdef.C51_counterexample_prepend_reverses",
    "Verif.Env.Cppdef.C51_counterexample_list_duplicates",
    "Verif.Env.Cppdef.C51_counterexample_delete_existing",
    "Verif.Env.Cppdef.C51_counterexample_same_flag_added_again",
    "Verif.Env.Cppdef.C51_nonvacuous"
   ],
   "note": "Append and AppendUnique proved for all forms; Prepend gives the added entries reversed (proved)."
  },
  {
   "property": "C52",
   "status": "partial",
   "theorems": [
    "Verif.Env.Clone.C52_copy_is_equal_and_new",
    "Verif.Env.Clone.C52_clone_cannot_change_original",
    "Verif.Env.Clone.C52_original_cannot_change_clone",
    "Verif.Env.Clone.C52_counterexample_other_objects_are_shared",
    "Verif.Env.Clone.C52_nonvacuous"
   ],
   "note": "Proved for all values made of lists, dicts, tuples, UserLists and immutable leaves, in any heap; other objects are shared (proved)."
  },
  {
   "property": "C53",
   "status": "partial",
   "theorems": [
    "Verif.Util.Path.C53_prependPath",
    "Verif.Util.Path.C53_prependPath_keep",
    "Verif.Util.Path.C53_appendPath",
    "Verif.Util.Path.C53_appendPath_keep",
    "Verif.Util.Path.C53_each_path_once_partial",
    "Verif.Util.Path.C53_nothing_lost",
    "Verif.Util.Path.C53_nothing_invented",
    "Verif.Util.Path.C53_search_order",
    "Verif.Util.Path.C53_idempotent",
    "Verif.Util.Path.C53_argument_unchanged_partial",
    "Verif.Util.Path.C53_strings",
    "Verif.Util.Path.C53_counterexample_append_keeps_duplicates",
    "Verif.Util.Path.C53_counterexample_callers_list_reversed",
    "Verif.Util.Path.C53_counterexample_which_instance",
    "Verif.Util.Path.C53_nonvacuous"
   ],
   "note": "Missing: uniqueness for AppendPath(delete_existing=False) and the caller's argument for PrependPath(delete_existing=False), both false of the code (proved)."
  },
  {
   "property": "C54",
   "status": "partial",
   "theorems": [
    "Verif.Shell.C54_arguments_arrive_partial",
    "Verif.Shell.C54_literals_arrive_iff",
    "Verif.Shell.C54_command_lines_differ",
    "Verif.Shell.C54_words",
    "Verif.Shell.C54_file_names_arrive_partial",
    "Verif.Shell.C54_windows_partial",
    "Verif.Shell.C54_counterexample_backquote",
    "Verif.Shell.C54_counterexample_joined",
    "Verif.Shell.C54_counterexample_quote_spaces",
    "Verif.Shell.C54_counterexample_windows",
    "Verif.Shell.C54_nonvacuous"
   ],
   "note": "Proved for all commands whose file names stand alone and have no backquote (exactly then: C54_literals_arrive_iff), and whose other text has no characters special to the shell; false of the code otherwise (proved)."
  },
  {
   "property": "C55",
   "status": "partial",
   "theorems": [
    "Verif.Shell.Ixes.C55_one_flag_each",
    "Verif.Shell.Ixes.C55_flags_idempotent",
    "Verif.Shell.Ixes.C55_flags_determine_directories",
    "Verif.Shell.Ixes.C55_separate_words",
    "Verif.Shell.Ixes.C55_library_names_partial",
    "Verif.Shell.Ixes.C55_literal_libraries",
    "Verif.Shell.Ixes.C55_counterexample_name_starts_with_lib",
    "Verif.Shell.Ixes.C55_counterexample_directory_looks_like_flag",
    "Verif.Shell.Ixes.C55_nonvacuous"
   ],
   "note": "Libraries: proved when the plain name has none of the prefixes and suffixes that are taken off; false of the code otherwise (proved)."
  },
  {
   "property": "C56",
   "status": "partial",
   "theorems": [
    "Verif.FS.C56_lookup_resolves_partial",
    "Verif.FS.C56_same_node_partial",
    "Verif.FS.C56_lookup_total_partial",
    "Verif.FS.C56_ancestors_are_directories",
    "Verif.FS.C56_rel_path",
    "Verif.FS.C56_slashes_counterexample",
    "Verif.FS.C56_newline_counterexample",
    "Verif.FS.C56_nonvacuous"
   ],
   "note": "Proved for all names without new lines that are not made of two or more slashes only; for these the property is false of the code (proved)."
  },
  {
   "property": "C57",
   "status": "proved",
   "theorems": [
    "Verif.Build.C57_question_changes_no_file",
    "Verif.Build.C57_zero_means_nothing_to_do",
    "Verif.Build.C57_one_means_something_to_do",
    "Verif.Build.C57_nonvacuous"
   ],
   "note": "One job for the -q run itself (an up-to-date task is retired at once); scans do not raise in the -q run; no AlwaysBuild. The file of stored signatures, which -q does rewrite, is outside 'files'."
  },
  {
   "property": "C58",
   "status": "partial",
   "theorems": [
    "Verif.Clean.C58_clean_removes_nothing_else",
    "Verif.Clean.C58_sources_are_safe",
    "Verif.Clean.C58_clean_removes_what_it_reaches",
    "Verif.Clean.C58_clean_removes_everything_partial",
    "Verif.Clean.C58_clean_keeps_history",
    "Verif.Clean.C58_clean_then_build",
    "Verif.Clean.C58_order_counterexample",
    "Verif.Clean.C58_secondary_target_counterexample",
    "Verif.Clean.C58_directory_removed_iff",
    "Verif.Clean.C58_directory_only_shrinks",
    "Verif.Clean.C58_no_exec_keeps_directory",
    "Verif.Clean.C58_directory_removes_what_it_can_partial",
    "Verif.Clean.C58_directory_stops_counterexample",
    "Verif.Clean.C58_clean_calls_are_recorded",
    "Verif.Clean.C58_clean_calls_only_partial",
    "Verif.Clean.C58_clean_calls_counterexample",
    "Verif.Clean.C58_nonvacuous",
    "Verif.Clean.C58_steady_nonvacuous",
    "Verif.Clean.C58_directory_nonvacuous"
   ],
   "note": "'Everything' is proved for scanners that do not look into files -c removes; without that it is false of the code (proved). Scans that raise are not modelled (in -c the exception is dropped). Side-effect files are not depended upon."
  },
  {
   "property": "C59",
   "status": "partial",
   "theorems": [
    "Verif.Sig.C59_reasons_are_true_partial",
    "Verif.Sig.C59_changed_dependencies_are_named_partial",
    "Verif.Sig.C59_out_of_date_is_explained_partial",
    "Verif.Sig.C59_nothing_is_made_up_partial",
    "Verif.Sig.C59_content_timestamp_blames_everything",
    "Verif.Sig.C59_counterexample_content_timestamp",
    "Verif.Sig.C59_counterexample_depends_and_ignore"
   ],
   "note": "The excluded cases (content-timestamp; a node both Depends() and Ignore()) are false of the code, proved. Dependencies are files; no repositories."
  },
  {
   "property": "C60",
   "status": "partial",
   "theorems": [
    "Verif.Bld.C60_fresh_call_accepted",
    "Verif.Bld.C60_repeat_accepted",
    "Verif.Bld.C60_side_effect_or_target",
    "Verif.Bld.C60_last_call",
    "Verif.Bld.C60_same_sources",
    "Verif.Bld.C60_other_environment_same_action",
    "Verif.Bld.C60_accumulating_builder",
    "Verif.Bld.C60_single_source",
    "Verif.Bld.C60_one_action_partial",
    "Verif.Bld.C60_accumulating_blocks",
    "Verif.Bld.C60_sources_accumulate_partial",
    "Verif.Bld.C60_one_executor_per_file_partial",
    "Verif.Bld.C60_groups_partial",
    "Verif.Bld.C60_targets_stay_together_partial",
    "Verif.Bld.C60_counterexample_same_environment",
    "Verif.Bld.C60_different_environment_is_an_error",
    "Verif.Bld.C60_counterexample_overlapping_targets",
    "Verif.Bld.C60_counterexample_repeated_source",
    "Verif.Bld.C60_counterexample_batch_twice",
    "Verif.Bld.exP_blocks",
    "Verif.Bld.exP_reads"
   ],
   "note": "The _partial theorems assume what the code does not check (same environment means same action; target lists do not overlap); without it the claims are false of the code (proved)."
  },
  {
   "property": "C61",
   "status": "partial",
   "theorems": [
    "Verif.Vars.C61_others_untouched",
    "Verif.Vars.C61_precedence_partial",
    "Verif.Vars.C61_converted_partial",
    "Verif.Vars.C61_validated",
    "Verif.Vars.C61_unknown",
    "Verif.Vars.C61_defaulted",
    "Verif.Vars.C61_bool_words",
    "Verif.Vars.C61_enum_allowed",
    "Verif.Vars.C61_list_allowed",
    "Verif.Vars.C61_save_load_partial",
    "Verif.Vars.C61_counterexample_last_does_not_win",
    "Verif.Vars.C61_counterexample_unknown_stale",
    "Verif.Vars.C61_counterexample_none",
    "Verif.Vars.C61_counterexample_default_saved",
    "Verif.Vars.C61_counterexample_map",
    "Verif.Vars.enum_fixed",
    "Verif.Vars.exV_update",
    "Verif.Vars.exS_ok"
   ],
   "note": "_partial: no source assigns one option under two names; round trip for values and defaults without $. Without these, and for the other clauses of the statement, counterexamples are proved."
  },
  {
   "property": "C62",
   "status": "proved",
   "theorems": [
    "Verif.Pool.C62_at_most_N_jobs",
    "Verif.Pool.C62_no_task_lost_or_retired_twice",
    "Verif.Pool.C62_outcomes",
    "Verif.Pool.C62_no_deadlock",
    "Verif.Pool.C62_interrupt_starts_nothing",
    "Verif.Pool.C62_terminates",
    "Verif.Pool.C62_legacy_refines_taskmaster",
    "Verif.Pool.C62_legacy_over",
    "Verif.Pool.C62_no_deadlock_with_taskmaster",
    "Verif.Pool.C62_serial",
    "Verif.Pool.C62_serial_no_deadlock",
    "Verif.Pool.C62_build_terminates",
    "Verif.Pool.C62_build_ends",
    "Verif.Pool.C62_serial_build_ends",
    "Verif.Pool.legBoth_reach",
    "Verif.Pool.legBoth_ends"
   ],
   "note": "Queue operations are atomic; calls of the taskmaster and of executed/failed/postprocess do not raise; worker threads can be created."
  },
  {
   "property": "C63",
   "status": "partial",
   "theorems": [
    "Verif.Build.C63_dry_run_changes_nothing",
    "Verif.Build.C63_announced_iff_out_of_date",
    "Verif.Build.C63_announced_is_out_of_date",
    "Verif.Build.C63_nothing_announced_nothing_done",
    "Verif.Build.C63_executed_was_announced",
    "Verif.Build.C63_exact_above_unannounced",
    "Verif.Build.C63_counterexample_understates",
    "Verif.Build.C63_counterexample_overstates",
    "Verif.Build.C63_nonvacuous"
   ],
   "note": "The last clause (announced = executed) is false of the code: both directions have proved counterexamples; it is proved where nothing below the target is announced. No derived-file cache (finding 20 covers that)."
  },
  {
   "property": "C64",
   "status": "partial",
   "theorems": [
    "Verif.Script.C64_command_line_targets",
    "Verif.Script.C64_target_words",
    "Verif.Script.C64_command_line_list",
    "Verif.Script.C64_default_list",
    "Verif.Script.C64_default_targets",
    "Verif.Script.C64_edited_build_targets",
    "Verif.Script.C64_dash_u",
    "Verif.Script.C64_dash_U",
    "Verif.Script.C64_climbs_to_nearest",
    "Verif.Script.C64_climbs_in_vain",
    "Verif.Script.C64_launch_directory_partial",
    "Verif.Script.C64_nonvacuous",
    "Verif.Script.C64_counterexample_dashes",
    "Verif.Script.C64_counterexample_emptied",
    "Verif.Script.C64_counterexample_hash"
   ],
   "note": "False of the code for targets after -- only (scons -- x builds the defaults), for a BUILD_TARGETS emptied by a script, and for launch directories whose name begins with #: counterexamples proved. Proved for everything else."
  },
  {
   "property": "C65",
   "status": "partial",
   "theorems": [
    "Verif.Env.Flags.C65_every_flag_arrives",
    "Verif.Env.Flags.C65_strings_may_be_joined",
    "Verif.Env.Flags.C65_table",
    "Verif.Env.Flags.C65_table_files",
    "Verif.Env.Flags.C65_table_others",
    "Verif.Env.Flags.C65_merge",
    "Verif.Env.Flags.C65_merge_nothing",
    "Verif.Env.Flags.C65_merge_elements",
    "Verif.Env.Flags.C65_merge_idempotent",
    "Verif.Env.Flags.C65_arguments_unchanged_partial",
    "Verif.Env.Flags.C65_nonvacuous",
    "Verif.Env.Flags.C65_counterexample_separate_strings",
    "Verif.Env.Flags.C65_counterexample_empty_word",
    "Verif.Env.Flags.C65_counterexample_repeated_word",
    "Verif.Env.Flags.C65_counterexample_leak"
   ],
   "note": "False of the code where an option and its argument are in separate strings, for empty words, for repeated two-word options unknown to ParseFlags, and the caller's flags are changed when the variable is a string and the flags a plain list (counterexamples proved). shlex.split and !commands are inputs; tuples and deques not modelled."
  },
  {
   "property": "C66",
   "status": "partial",
   "theorems": [
    "Verif.FS.Variant.C66_variantDir_refused",
    "Verif.FS.Variant.C66_variantDir_accepted",
    "Verif.FS.Variant.C66_variant_of",
    "Verif.FS.Variant.C66_srcnode",
    "Verif.FS.Variant.C66_srcnode_self",
    "Verif.FS.Variant.C66_srcnode_cases",
    "Verif.FS.Variant.C66_srcnode_dir",
    "Verif.FS.Variant.C66_srcdirs_memo",
    "Verif.FS.Variant.C66_rdirs_mem",
    "Verif.FS.Variant.C66_rdirs_order",
    "Verif.FS.Variant.C66_rdirs_det",
    "Verif.FS.Variant.C66_rdirs_ends",
    "Verif.FS.Variant.C66_rdirs_ends_dup",
    "Verif.FS.Variant.C66_memo_right_partial",
    "Verif.FS.Variant.C66_duplicate_on",
    "Verif.FS.Variant.C66_duplicate_new",
    "Verif.FS.Variant.C66_alter_file",
    "Verif.FS.Variant.C66_alter_file_inside",
    "Verif.FS.Variant.C66_alter_srcnode",
    "Verif.FS.Variant.C66_rfile",
    "Verif.FS.Variant.C66_conf_nonvacuous",
    "Verif.FS.Variant.C66_cycle",
    "Verif.FS.Variant.C66_memo_stale",
    "Verif.FS.Variant.C66_duplicate_order",
    "Verif.FS.Variant.C66_duplicate_old",
    "Verif.FS.Variant.C66_rfile_dir",
    "Verif.FS.Variant.C66_repositories",
    "Verif.FS.Variant.C66_srcdir_plain",
    "Verif.FS.Variant.C66_srcdir_dup",
    "Verif.FS.Variant.C66_srcdir_nonvacuous"
   ],
   "note": "False of the code where variant directories without duplication are each other's sources (endless recursion), where such a directory becomes a variant directory after a search (stale memo), for nested directories with different duplicate flags (order matters), and rfile may be a directory: counterexamples proved. The memo is proved right when every variant directory duplicates; rfile in the ordinary layout Plain."
  },
  {
   "property": "C67",
   "status": "partial",
   "theorems": [
    "Verif.FS.Variant.C67_link_contents",
    "Verif.FS.Variant.C67_variant_copy",
    "Verif.FS.Variant.C67_lookup_frame",
    "Verif.FS.Variant.C67_dry_run_partial",
    "Verif.FS.Variant.C67_copy_nonvacuous",
    "Verif.FS.Variant.C67_plain_nonvacuous",
    "Verif.FS.Variant.C67_relative_link_wrong",
    "Verif.FS.Variant.C67_relative_link_hangs",
    "Verif.FS.Variant.C67_dry_run_removes"
   ],
   "note": "False of the code for sources that are relative symbolic links (the copy may be another file, or the loop does not end) and under -n (old copies are removed): counterexamples proved. Proved for sources reached through no relative link; the file system's inodes, links and failures of the three linking functions are modelled, directories that are links are not."
  },
  {
   "property": "C68",
   "status": "partial",
   "theorems": [
    "Verif.Script.Scons.C68_caller_unchanged",
    "Verif.Script.Scons.C68_only_exports",
    "Verif.Script.Scons.C68_exports",
    "Verif.Script.Scons.C68_export",
    "Verif.Script.Scons.C68_import",
    "Verif.Script.Scons.C68_import_all",
    "Verif.Script.Scons.C68_import_missing",
    "Verif.Script.Scons.C68_files",
    "Verif.Script.Scons.C68_error",
    "Verif.Script.Scons.C68_exports_fixed",
    "Verif.Script.Scons.C68_return",
    "Verif.Script.Scons.C68_process_dir_partial",
    "Verif.Script.Scons.C68_process_dir_off_partial",
    "Verif.Script.Scons.C68_nonvacuous",
    "Verif.Script.Scons.C68_variant_dir_left",
    "Verif.Script.Scons.C68_chdir_flag_leaks",
    "Verif.Script.Scons.C68_stdin_return"
   ],
   "note": "False of the process's working directory when a script calls SConscriptChdir or the caller is in a variant directory that does not exist yet, and of Return in a script on the standard input: counterexamples proved. The rest is proved for all programs of the modelled statements (values are immutable; functions' local variables, which compute_exports looks at first, are not modelled)."
  },
  {
   "property": "C69",
   "status": "partial",
   "theorems": [
    "Verif.FS.Glob.C69_exact_partial",
    "Verif.FS.Glob.C69_exclude_partial",
    "Verif.FS.Glob.C69_excluded_partial",
    "Verif.FS.Glob.C69_deterministic",
    "Verif.FS.Glob.C69_nonvacuous",
    "Verif.FS.Glob.C69_source_ignored",
    "Verif.FS.Glob.C69_exclude_brackets",
    "Verif.FS.Glob.C69_trailing_slash",
    "Verif.FS.Glob.C69_hash_leaks",
    "Verif.FS.Glob.C69_hash_raises",
    "Verif.FS.Glob.C69_chain",
    "Verif.FS.Glob.C69_kind",
    "Verif.FS.Glob.C69_class"
   ],
   "note": "Exactness is proved for layouts that are Tidy (searched directories' own searches included, no names beginning with #, kinds agree); determinism for all layouts. Outside, and for source= and for excluded names with brackets, the code falsifies the claim: counterexamples proved. fnmatch and str() of nodes are parameters."
  },
  {
   "property": "C70",
   "status": "partial",
   "theorems": [
    "Verif.Conf.C70_verdict_partial",
    "Verif.Conf.C70_not_again",
    "Verif.Conf.C70_force",
    "Verif.Conf.C70_cache",
    "Verif.Conf.C70_dry_runs_nothing",
    "Verif.Conf.C70_no_exec",
    "Verif.Conf.Witness.regular",
    "Verif.Conf.Witness.nonvacuous",
    "Verif.Conf.Witness.C70_stale_header",
    "Verif.Conf.Witness.C70_stale_for_good",
    "Verif.Conf.Witness.C70_lost_directory",
    "Verif.Conf.Witness.C70_lost_output",
    "Verif.Conf.Witness.C70_cache_removes",
    "Verif.Conf.Witness.C70_question_removes",
    "Verif.Conf.Witness.C70_two_targets",
    "Verif.Conf.Names.C70_text_files",
    "Verif.Conf.Names.C70_targets",
    "Verif.Conf.Names.C70_same_files",
    "Verif.Conf.Names.C70_extension",
    "Verif.Conf.Names.C70_names_nonvacuous"
   ],
   "note": "The verdict is proved for histories in which the signatures stored for project files are current when a check is made, nothing but SCons touches the directory of the checks, and --config=cache and -q are not used; otherwise the code falsifies the claim: counterexamples proved. Force and cache are proved for every stored state."
  },
  {
   "property": "C71",
   "status": "partial",
   "theorems": [
    "Verif.Act.Py.C71_noticed_partial",
    "Verif.Act.Py.C71_varlist",
    "Verif.Act.Py.C71_moved",
    "Verif.Act.Py.C71_docstring",
    "Verif.Act.Py.C71_commas",
    "Verif.Act.Py.C71_containers",
    "Verif.Act.Py.C71_keyword_only",
    "Verif.Act.Py.C71_callables",
    "Verif.Act.Py.C71_methods",
    "Verif.Act.Py.C71_varlist_join",
    "Verif.Act.Py.C71_nonvacuous"
   ],
   "note": "One edit at any depth is proved to change the contents for values whose text is in the signature (strings, numbers, names, code, functions); the code falsifies the claim for constants with commas (two edits), bytes and containers, keyword-only defaults, callable objects, methods: counterexamples proved."
  },
  {
   "property": "C72",
   "status": "partial",
   "theorems": [
    "Verif.Scan.Dirs.C72_dependencies",
    "Verif.Scan.Dirs.C72_order",
    "Verif.Scan.Dirs.C72_edit",
    "Verif.Scan.Dirs.C72_added",
    "Verif.Scan.Dirs.C72_removed",
    "Verif.Scan.Dirs.C72_quiet",
    "Verif.Scan.Dirs.C72_unnoticed",
    "Verif.Scan.Dirs.C72_renamed",
    "Verif.Scan.Dirs.C72_file_to_directory",
    "Verif.Scan.Dirs.C72_skipped",
    "Verif.Scan.Dirs.C72_skipped_names",
    "Verif.Scan.Dirs.C72_first_build",
    "Verif.Scan.Dirs.C72_command_unknown",
    "Verif.Scan.Dirs.C72_command_subdirectory",
    "Verif.Scan.Dirs.C72_nonvacuous"
   ],
   "note": "Edits, additions and removals are proved to be noticed, and nothing else; renaming, a file replaced by an empty directory, files named like signature files, and directories given to Command are not noticed, and a directory made in the same run causes a second build: counterexamples proved. C72_unnoticed says what every unnoticed change keeps."
  },
  {
   "property": "C73",
   "status": "partial",
   "theorems": [
    "Verif.Sig.Alias.C73_noticed_partial",
    "Verif.Sig.Alias.C73_quiet",
    "Verif.Sig.Alias.C73_value",
    "Verif.Sig.Alias.C73_alias_of_values",
    "Verif.Sig.Alias.C73_alias_names",
    "Verif.Sig.Alias.C73_newline",
    "Verif.Sig.Alias.C73_alias_action",
    "Verif.Sig.Alias.C73_alias_of_sources",
    "Verif.Sig.Alias.C73_value_node_partial",
    "Verif.Sig.Alias.C73_minus_one",
    "Verif.Sig.Alias.C73_falsy_built",
    "Verif.Sig.Alias.C73_nonvacuous"
   ],
   "note": "Proved for trees without values and newlines in names and hash functions without collisions on the texts hashed; Value for values whose Python hashes differ. The code falsifies the rest: counterexamples proved."
  },
  {
   "property": "C74",
   "status": "partial",
   "theorems": [
    "Verif.Build.C74_command_leaves_nothing",
    "Verif.Build.C74_session_equals_separate_runs",
    "Verif.Build.C74_session_builds_everything",
    "Verif.Build.C74_plain_project",
    "Verif.Build.C74_plain_session_builds_everything",
    "Verif.Build.C74_requires",
    "Verif.Build.C74_other_target",
    "Verif.Build.C74_dropped_dependency",
    "Verif.Build.C74_after_failure",
    "Verif.Build.C74_nonvacuous",
    "Verif.Build.C74_plain_nonvacuous"
   ],
   "note": "Proved (as an equivalence with separate runs) for sessions in which every command is carried out and finds again what it looked at; projects without Requires(), with one file per action and without scanners that read built files always do (C74_plain_project). Each of these conditions is needed: counterexamples proved."
  },
  {
   "property": "C75",
   "status": "partial",
   "theorems": [
    "Verif.Bld.Chain.C75_accepted_suffixes",
    "Verif.Bld.Chain.C75_first_listed_suffix",
    "Verif.Bld.Chain.C75_longest_suffix_cut",
    "Verif.Bld.Chain.C75_tasks_in_order",
    "Verif.Bld.Chain.C75_one_product_per_source",
    "Verif.Bld.Chain.C75_single_source",
    "Verif.Bld.Chain.C75_product_unique",
    "Verif.Bld.Chain.C75_same_directory",
    "Verif.Bld.Chain.C75_products_typed",
    "Verif.Bld.Chain.C75_terminates",
    "Verif.Bld.Chain.C75_cycle_overflows",
    "Verif.Bld.Chain.C75_overrides",
    "Verif.Bld.Chain.C75_memory_invisible",
    "Verif.Bld.Chain.C75_given_names",
    "Verif.Bld.Chain.Ex.C75_nonvacuous",
    "Verif.Bld.Chain.Ex.C75_chdir_lost",
    "Verif.Bld.Chain.Ex.C75_builder_overrides_lost",
    "Verif.Bld.Chain.Ex.C75_first_not_longest",
    "Verif.Bld.Chain.Ex.C75_dotted_directory",
    "Verif.Bld.Chain.Ex.C75_converted_twice",
    "Verif.Bld.Chain.Ex.C75_stale_memory",
    "Verif.Bld.Chain.Ex.C75_cycle_nonvacuous"
   ],
   "note": "Proved but for: chdir is lost with several sources and for intermediate files; a single-source builder converts twice; add_action leaves a stale memory (counterexamples proved). The theorems on products and termination are for tables without emitters."
  },
  {
   "property": "C76",
   "status": "partial",
   "theorems": [
    "Verif.Repo.C76_correct",
    "Verif.Repo.C76_same_as_one_tree",
    "Verif.Repo.C76_repositories_untouched",
    "Verif.Repo.C76_null_build",
    "Verif.Repo.C76_built_elsewhere",
    "Verif.Repo.C76_local_copy",
    "Verif.Repo.Ex.C76_nonvacuous",
    "Verif.Repo.Ex.C76_built_elsewhere_nonvacuous",
    "Verif.Repo.Ex.C76_repository_overwritten",
    "Verif.Repo.Ex.C76_written_through",
    "Verif.Repo.Ex.C76_second_repository"
   ],
   "note": "Proved for --duplicate=copy, and with hard links (the default) for projects without Precious targets whose Local targets are the only targets of their actions. Without these conditions the action writes into the repository (counterexamples proved)."
  },
  {
   "property": "C77",
   "status": "partial",
   "theorems": [
    "Verif.Batch.C77_correct",
    "Verif.Batch.C77_nocache",
    "Verif.Batch.C77_failure",
    "Verif.Batch.C77_nothing_iff",
    "Verif.Batch.C77_only_changed",
    "Verif.Batch.C77_targets_mode",
    "Verif.Batch.C77_second_run",
    "Verif.Batch.C77_another_batch",
    "Verif.Batch.C77_executors",
    "Verif.Batch.C77_msvc",
    "Verif.Batch.Ex.C77_nonvacuous",
    "Verif.Batch.Ex.C77_cache_removes_target",
    "Verif.Batch.Ex.C77_second_target_ignored",
    "Verif.Batch.Ex.C77_second_target_stale",
    "Verif.Batch.Ex.C77_precious_first",
    "Verif.Batch.Ex.C77_repeated_call",
    "Verif.Batch.Ex.C77_msvc_suffix"
   ],
   "note": "Proved when the command names all sources, or all targets are removed first and no first target is precious, or there is no cache and the first target of each batch is out of date whenever another is (one target per batch is enough). Without these conditions targets are lost or stay stale: counterexamples proved."
  },
  {
   "property": "C78",
   "status": "partial",
   "theorems": [
    "Verif.Options.C78_precedence",
    "Verif.Options.C78_local_option",
    "Verif.Options.C78_append_option",
    "Verif.Options.C78_unknown",
    "Verif.Options.C78_settable",
    "Verif.Options.C78_first_parse",
    "Verif.Options.C78_words",
    "Verif.Options.Ex.words_applied",
    "Verif.Options.Ex.nonvacuous",
    "Verif.Options.Ex.applied",
    "Verif.Options.Ex.value_is_a_target",
    "Verif.Options.Ex.two_separate_values",
    "Verif.Options.Ex.last_declared_wins",
    "Verif.Options.Ex.counted_twice",
    "Verif.Options.Ex.warn_not_on_command_line",
    "Verif.Options.Ex.append_with_default",
    "Verif.Options.Ex.hash_chunksize",
    "Verif.Options.Ex.implicit_deps_changed",
    "Verif.Options.Ex.no_progress_false",
    "Verif.Options.Ex.errors"
   ],
   "note": "Proved for leftover arguments that are long options with attached values, or words, and names under which SetOption stores the value itself. Separate values, clustered letters, several options for one name, and lists with defaults break the precedence: counterexamples proved."
  },
  {
   "property": "C79",
   "status": "partial",
   "theorems": [
    "Verif.Prog.C79_linked_is_dependency",
    "Verif.Prog.C79_only_libraries",
    "Verif.Prog.Ex.nonvacuous",
    "Verif.Prog.Ex.applied",
    "Verif.Prog.Ex.file_name",
    "Verif.Prog.Ex.literal",
    "Verif.Prog.Ex.point_in_name"
   ],
   "note": "Proved for libraries given by their plain names (with or without the prefix). For libraries given by file name, with the literal prefix, or with a point in the name the linked file is not a dependency: counterexamples proved."
  },
  {
   "property": "C80",
   "status": "partial",
   "theorems": [
    "Verif.ImplicitCache.C80_implicit_cache_partial",
    "Verif.ImplicitCache.C80_deps_changed",
    "Verif.ImplicitCache.C80_deps_unchanged",
    "Verif.ImplicitCache.Ex.nonvacuous",
    "Verif.ImplicitCache.Ex.applied",
    "Verif.ImplicitCache.Ex.hidden_header",
    "Verif.ImplicitCache.Ex.ignore_removed",
    "Verif.ImplicitCache.Ex.ignored_header_changed",
    "Verif.ImplicitCache.Ex.ignored_by_one_target",
    "Verif.ImplicitCache.Ex.depends_to_source",
    "Verif.ImplicitCache.Ex.deps_unchanged",
    "Verif.ImplicitCache.Ex.old_header_still_a_child"
   ],
   "note": "Equality of whole histories with and without the option. Missing: histories in which sources, Depends() or Ignore() of the command change, targets of one command that ignore different files, and ignored files that come to include others; there the cache is wrong (counterexamples proved), as it is for a header that hides another (documented)."
  },
  {
   "property": "C81",
   "status": "partial",
   "theorems": [
    "Verif.Install.C81_directory_partial",
    "Verif.Install.C81_directory_succeeds",
    "Verif.Install.C81_file",
    "Verif.Install.Ex.nonvacuous",
    "Verif.Install.Ex.applied",
    "Verif.Install.Ex.file_applied",
    "Verif.Install.Ex.file_into_directory",
    "Verif.Install.Ex.read_only_once",
    "Verif.Install.Ex.removed_file_stays"
   ],
   "note": "Files in full; directories when no file of the source meets a directory in the destination (there the file is put into the directory: counterexample proved). Symbolic links and special files are not modelled."
  },
  {
   "property": "C82",
   "status": "partial",
   "theorems": [
    "Verif.Chmod.C82_chmod_partial",
    "Verif.Chmod.C82_octal",
    "Verif.Chmod.Ex.nonvacuous",
    "Verif.Chmod.Ex.applied",
    "Verif.Chmod.Ex.octal_applied",
    "Verif.Chmod.Ex.set_for_one_class",
    "Verif.Chmod.Ex.nobody_named",
    "Verif.Chmod.Ex.half_done"
   ],
   "note": "Missing: clauses with = that are not for all classes, and clauses that name no class; there the code differs from POSIX chmod (counterexamples proved). One file; the class of POSIX permissions r, w, x only."
  },
  {
   "property": "C83",
   "status": "partial",
   "theorems": [
    "Verif.Build.C83_content_timestamp_partial",
    "Verif.Build.C83_timestamp_match_partial",
    "Verif.Build.C83_timestamp_newer_partial",
    "Verif.Build.C83_second_run_partial",
    "Verif.Build.TEx.applied",
    "Verif.Build.TEx.second_run_applied",
    "Verif.Build.TEx.newer_restored",
    "Verif.Build.TEx.newer_deleted",
    "Verif.Build.TEx.newer_other_file",
    "Verif.Build.TEx.match_other_file",
    "Verif.Build.TEx.order_changed",
    "Verif.Build.TEx.same_time"
   ],
   "note": "Missing: dependencies that change without the command or a file that is looked at changing (Keyed, InOrder); there each of the deciders goes wrong in its own way (counterexamples proved, also for each hypothesis on times). Targets are handled one at a time; no killed runs."
  },
  {
   "property": "C84",
   "status": "partial",
   "theorems": [
    "Verif.Subst.C84_command_is_the_signed_text_partial",
    "Verif.Subst.C84_changed_command_changes_signature_partial",
    "Verif.Sgn.C84_no_change_is_lost_partial",
    "Verif.Sgn.C84_changed_actions_change_contents_partial",
    "Verif.Sgn.C84_one_change_is_noticed",
    "Verif.Sgn.CEx.applied",
    "Verif.Sgn.CEx.counterexample_command_boundary",
    "Verif.Sgn.CEx.counterexample_word_boundary",
    "Verif.Sgn.CEx.counterexample_varlist_boundary",
    "Verif.Sgn.CEx.counterexample_trailing_blank",
    "Verif.Sgn.CEx.counterexample_other_directory",
    "Verif.Sgn.CEx.counterexample_chdir"
   ],
   "note": "Missing: text that moves from one command, word or variable to the next (nothing separates them), values that end in a blank and are followed by text, redirections and $( $) in the text, sources in other directories, chdir; the code does not notice these (counterexamples proved)."
  },
  {
   "property": "C85",
   "status": "partial",
   "theorems": [
    "Verif.Sgn.C85_whereIs",
    "Verif.Sgn.C85_program_is_dependency_partial",
    "Verif.Sgn.C85_only_programs",
    "Verif.Sgn.C85_thorough",
    "Verif.Sgn.DEx.applied",
    "Verif.Sgn.DEx.thorough_applied",
    "Verif.Sgn.DEx.counterexample_relative_path",
    "Verif.Sgn.DEx.counterexample_no_sources",
    "Verif.Sgn.DEx.counterexample_after_and",
    "Verif.Sgn.DEx.counterexample_blank_in_name",
    "Verif.Sgn.DEx.counterexample_file_hides_program"
   ],
   "note": "Missing: programs named by a relative path with a slash, targets without sources, programs after the first word in the default mode, names with blanks; the code misses these (counterexamples proved)."
  },
  {
   "property": "C86",
   "status": "partial",
   "theorems": [
    "Verif.TempFile.C86_same_arguments_partial",
    "Verif.TempFile.C86_only_if_too_long",
    "Verif.TempFile.C86_signature_is_that_of_the_command",
    "Verif.TempFile.read_fileText",
    "Verif.TempFile.Ex.second_line_lost",
    "Verif.TempFile.Ex.quotes_lost",
    "Verif.TempFile.Ex.backslash_lost",
    "Verif.TempFile.Ex.old_file_used_again"
   ],
   "note": "Missing: commands of several lines, arguments with quotes or backslashes, commands whose words change within one process; the code gets these wrong (counterexamples proved)."
  },
  {
   "property": "C87",
   "status": "partial",
   "theorems": [
    "Verif.CScan.C87_exactly_the_directives_partial",
    "Verif.CScan.C87_every_file_read_is_a_dependency_partial",
    "Verif.CScan.C87_names_looked_for",
    "Verif.CScan.Ex.next_directive_hidden",
    "Verif.CScan.Ex.other_forms_missed",
    "Verif.CScan.Ex.name_cut_off",
    "Verif.CScan.Ex.angle_found_in_source_directory"
   ],
   "note": "Missing: directives with comments, macros or continuation lines before the name, and texts in which something that is not a directive begins like one; the code misses headers there (counterexamples proved)."
  },
  {
   "property": "C88",
   "status": "partial",
   "theorems": [
    "Verif.PrePost.C88_before_and_after_partial",
    "Verif.PrePost.Ex.C88_asked_before_never_runs",
    "Verif.PrePost.Ex.asked_before_is_lost",
    "Verif.PrePost.Ex.asked_before_multi_loses_builder",
    "Verif.PrePost.Ex.second_call_forgets"
   ],
   "note": "Missing: statements before the builder call and repeated calls of an ordinary builder for the same target; the code drops the added actions there (counterexamples proved). Batch builders are not modelled here."
  },
  {
   "property": "C89",
   "status": "partial",
   "theorems": [
    "Verif.CppExpr.C89_conditions_as_the_compiler_partial",
    "Verif.CppExpr.C89_defined_constants_partial",
    "Verif.CppExpr.C89_more_text_is_false",
    "Verif.CppExpr.fuel_enough",
    "Verif.CppExpr.Ex.undefined_name",
    "Verif.CppExpr.Ex.builtin_name",
    "Verif.CppExpr.Ex.defined_compared",
    "Verif.CppExpr.Ex.defined_added",
    "Verif.CppExpr.Ex.not_binds_differently",
    "Verif.CppExpr.Ex.chained_comparison",
    "Verif.CppExpr.Ex.and_binds_differently",
    "Verif.CppExpr.Ex.division",
    "Verif.CppExpr.Ex.value_of_and",
    "Verif.CppExpr.Ex.conditional_operator",
    "Verif.CppExpr.Ex.not_after_comparison",
    "Verif.CppExpr.Ex.blanks_in_parentheses",
    "Verif.CppExpr.Ex.exception_escapes",
    "Verif.CppExpr.Ex.define_is_not_textual",
    "Verif.CppExpr.Ex.define_name",
    "Verif.CppExpr.Ex.define_runs_python",
    "Verif.CppExpr.Ex.define_divides"
   ],
   "note": "Proved for conditions without division and ?:, in which !, defined and comparisons are not operands of arithmetic or comparisons without parentheses, and whose evaluated names are macros that stand for integers. Missing: the rest, where the code decides otherwise (counterexamples proved)."
  },
  {
   "property": "C90",
   "status": "partial",
   "theorems": [
    "Verif.CppText.C90_directives_found_partial",
    "Verif.CppText.Ex.C90_include_next_counterexample",
    "Verif.CppText.Ex.C90_ifdef_blank_counterexample",
    "Verif.CppText.Ex.C90_two_comments_counterexample",
    "Verif.CppText.Ex.C90_slashes_counterexample",
    "Verif.CppText.Ex.C90_null_directive_counterexample",
    "Verif.CppText.Ex.C90_elifdef_counterexample",
    "Verif.CppText.Ex.C90_in_comment_counterexample",
    "Verif.CppText.Ex.C90_empty_if_counterexample"
   ],
   "note": "Proved for texts of lines that are directives with at most one comment, at the end, or other lines. Missing: comments elsewhere (between the parts of a directive, over several lines), #include_next, a # alone, directives whose name begins like another one, white space after the name of #ifdef: there the code reads something else (counterexamples proved)."
  },
  {
   "property": "C91",
   "status": "partial",
   "theorems": [
    "Verif.Java.C91_class_files_partial",
    "Verif.Java.Ex.applied",
    "Verif.Java.Ex.constructor_reference",
    "Verif.Java.Ex.two_type_arguments",
    "Verif.Java.Ex.short_type_argument",
    "Verif.Java.Ex.new_at_end_of_line",
    "Verif.Java.Ex.qualified_new",
    "Verif.Java.Ex.class_in_anonymous",
    "Verif.Java.Ex.class_in_arguments",
    "Verif.Java.Ex.record_missing",
    "Verif.Java.Ex.enum_constant_body",
    "Verif.Java.Ex.text_block"
   ],
   "note": "Proved for Java 1.8 and later and texts of arbitrary nesting whose anonymous classes and arguments of new contain no named classes. Missing: the forms for which the code finds something else (ten counterexamples proved); older versions of Java."
  },
  {
   "property": "C92",
   "status": "partial",
   "theorems": [
    "Verif.Text.C92_file_is_the_filled_templates_partial",
    "Verif.Text.C92_without_substitutions",
    "Verif.Text.C92_order_does_not_matter_partial",
    "Verif.Text.C92_changed_entries_change_signature_partial",
    "Verif.Text.C92_blank_separators_are_not_signed",
    "Verif.Text.Ex.applies",
    "Verif.Text.Ex.applies_values",
    "Verif.Text.Ex.C92_counterexample_function",
    "Verif.Text.Ex.C92_counterexample_between",
    "Verif.Text.Ex.C92_counterexample_value",
    "Verif.Text.Ex.C92_counterexample_prefix",
    "Verif.Text.Ex.C92_counterexample_separator",
    "Verif.Text.Ex.C92_counterexample_variable",
    "Verif.Text.Ex.C92_variable_in_sequence_is_signed",
    "Verif.Text.Ex.C92_counterexample_blanks",
    "Verif.Text.Ex.signature_applies"
   ],
   "note": "Proved for placeholders between delimiters, values without the opening one, and placeholders kept apart; the signature for sequences of words. The code does not have the property in full: seven counterexamples, among them a separator and a variable in a dictionary whose change is not seen."
  },
  {
   "property": "C93",
   "status": "partial",
   "theorems": [
    "Verif.Depends.C93_dependencies_of_the_file_partial",
    "Verif.Depends.C93_only_one",
    "Verif.Depends.C93_last_line_end",
    "Verif.Depends.Ex.applies",
    "Verif.Depends.Ex.unfinished",
    "Verif.Depends.Ex.C93_counterexample_glued",
    "Verif.Depends.Ex.C93_counterexample_blank",
    "Verif.Depends.Ex.C93_counterexample_drive",
    "Verif.Depends.Ex.C93_counterexample_comment",
    "Verif.Depends.Ex.C93_counterexample_command"
   ],
   "note": "Proved for files of rules, comments and empty lines whose continuations have a blank beside them and whose names have no blanks, and targets no colon. The other forms that make knows are read wrongly: five counterexamples."
  },
  {
   "property": "C94",
   "status": "partial",
   "theorems": [
    "Verif.Kids.C94_children_partial",
    "Verif.Kids.C94_sources_partial",
    "Verif.Kids.Ex.applied_children",
    "Verif.Kids.Ex.applied_sources",
    "Verif.Kids.Ex.applied_other",
    "Verif.Kids.Ex.stale_child"
   ],
   "note": "Proved for all histories in which every scan that follows dropped implicit dependencies finds something. Otherwise false with --implicit-cache: Ex.stale_child. Executors have one batch and fixed targets; _specific_sources is left out."
  },
  {
   "property": "C95",
   "status": "partial",
   "theorems": [
    "Verif.Decide.C95_who_decides_partial",
    "Verif.Decide.C95_time_from_cache_partial",
    "Verif.Decide.Ex.applied",
    "Verif.Decide.Ex.applied_cache",
    "Verif.Decide.Ex.override_leaks",
    "Verif.Decide.Ex.lost_by_builder",
    "Verif.Decide.Ex.lost_by_entry",
    "Verif.Decide.Ex.cache_time_of_default",
    "Verif.Decide.Ex.unknown_name"
   ],
   "note": "Excluded: Decider of an override environment (it changes the overridden one), a node's own function given before its builder call or before an entry is disambiguated (it is lost), and the times of cached files when the function is that of the default environment: false of the code, counterexamples proved. No multi or batch executors."
  },
  {
   "property": "C96",
   "status": "partial",
   "theorems": [
    "Verif.ShellEnv.C96_every_schedule_partial",
    "Verif.ShellEnv.C96_plain",
    "Verif.ShellEnv.C96_started",
    "Verif.ShellEnv.C96_generators_leave_it",
    "Verif.ShellEnv.variables_unique",
    "Verif.ShellEnv.Ex.vars_ok",
    "Verif.ShellEnv.Ex.applied",
    "Verif.ShellEnv.C96_counterexample_changed",
    "Verif.ShellEnv.C96_counterexample_generator",
    "Verif.ShellEnv.C96_counterexample_tuple"
   ],
   "note": "Generators must not distinguish a value from its text, because the code converts the shared ENV in place, so what they see depends on which commands ran before; and so running a command does change ENV: false of the code, counterexamples proved. Posix; no environment without ENV."
  },
  {
   "property": "C97",
   "status": "partial",
   "theorems": [
    "Verif.Warn.C97_last_request_decides",
    "Verif.Warn.C97_command_line_partial",
    "Verif.Warn.C97_mandatory_partial",
    "Verif.Warn.C97_unknown_type",
    "Verif.Warn.Ex.applied",
    "Verif.Warn.Ex.applied_mandatory",
    "Verif.Warn.Ex.unknown",
    "Verif.Warn.C97_counterexample_precedence",
    "Verif.Warn.C97_counterexample_mandatory",
    "Verif.Warn.C97_counterexample_reserved"
   ],
   "note": "Proved with the order the code really has: SetOption after the command line. The precedence of the command line, the display of mandatory warnings after no-all and no-deprecated, and the documented default of reserved-variable are false of the code, counterexamples proved."
  },
  {
   "property": "C98",
   "status": "partial",
   "theorems": [
    "Verif.Tex.C98_finished_partial",
    "Verif.Tex.C98_same_document_partial",
    "Verif.Tex.C98_bounded",
    "Verif.Tex.C98_ends",
    "Verif.Tex.Ex.paper_programs",
    "Verif.Tex.Ex.applied",
    "Verif.Tex.C98_counterexample_parallel",
    "Verif.Tex.C98_counterexample_failed",
    "Verif.Tex.C98_counterexample_chapters",
    "Verif.Tex.C98_counterexample_glossary"
   ],
   "note": "Proved for a document whose steps are not interleaved with those of another one, one bibliography, and a start where existing index inputs have their indices. Documents built in parallel, files left by a failed run, bibliographies of chapters, and glossaries of other documents: false of the code, counterexamples proved. The log must ask for another run when auxiliary files have changed, and what BibTeX reads must be the same in every run."
  },
  {
   "property": "C99",
   "status": "partial",
   "theorems": [
    "Verif.Fortran.findUses_file",
    "Verif.Fortran.findIncls_file",
    "Verif.Fortran.findDefs_file",
    "Verif.Fortran.C99_scan_names_partial",
    "Verif.Fortran.C99_emit_targets_partial",
    "Verif.Fortran.C99_use_depends_on_definition_partial",
    "Verif.Fortran.solverFile_proper",
    "Verif.Fortran.userFile_proper",
    "Verif.Fortran.C99_counterexample_prefix",
    "Verif.Fortran.C99_counterexample_typed_function",
    "Verif.Fortran.C99_counterexample_comment",
    "Verif.Fortran.C99_counterexample_swallow",
    "Verif.Fortran.C99_counterexample_continuation",
    "Verif.Fortran.C99_counterexample_second_statement",
    "Verif.Fortran.C99_counterexample_moddir"
   ],
   "note": "The patterns are terms of a backtracking matcher, constructor by constructor as in the source. Proved for ASCII files in which no semicolon in a comment or literal is followed by use, include or module, modules are the first statement of their line and have names that do not begin with procedure, subroutine, function, pure or elemental, and use and the name are on one line. Outside of that: false of the code, counterexamples proved."
  },
  {
   "property": "C100",
   "status": "partial",
   "theorems": [
    "Verif.Methods.C100_calls_act_on_their_environment_partial",
    "Verif.Methods.C100_same_function",
    "Verif.Methods.sample_fair",
    "Verif.Methods.C100_lookup_through_override_rebinds",
    "Verif.Methods.C100_method_of_override_leaks",
    "Verif.Methods.C100_function_with_two_names",
    "Verif.Methods.C100_value_over_builder_lost",
    "Verif.Methods.C100_method_deleted_with_builder",
    "Verif.Methods.C100_replaced_method_stops_clone",
    "Verif.Methods.C100_hidden_builder_returns"
   ],
   "note": "Full for overrides, and for other environments unless the name was looked up through an override since it was set. The histories left out (methods added to an override, one function under two names one of which becomes a builder, values over builder names, deleting a builder under the name of a method, cloning with a looked-up method that hides a builder) are those for which the code does something else: a counterexample is proved for each."
  },
  {
   "property": "C101",
   "status": "partial",
   "theorems": [
    "Verif.Cache.Open.C101_everyone_finds_the_same",
    "Verif.Cache.Open.C101_no_broken_configuration",
    "Verif.Cache.Open.C101_configuration_is_kept",
    "Verif.Cache.Open.C101_only_timeouts",
    "Verif.Cache.Open.C101_no_deadlock",
    "Verif.Cache.Open.C101_nobody_hangs",
    "Verif.Cache.Open.C101_lock_given_back",
    "Verif.Cache.Open.C101_ten_steps",
    "Verif.Cache.Open.C101_everyone_gets_in",
    "Verif.Cache.Open.C101_counterexample_dangling_lock",
    "Verif.Cache.Open.C101_counterexample_existing_directory",
    "Verif.Cache.Open.C101_counterexample_readonly"
   ],
   "note": "Agreement, no broken configuration and the bound on steps hold for all runs, crashes included. That everybody gets in holds if nobody dies, everybody may write and the directory was missing or a cache directory; for each of these conditions a counterexample is proved."
  },
  {
   "property": "C102",
   "status": "partial",
   "theorems": [
    "Verif.Cache.Convert.C102_conversion_partial",
    "Verif.Cache.Convert.C102_interrupted",
    "Verif.Cache.Convert.C102_counterexample_resume",
    "Verif.Cache.Convert.C102_counterexample_leftover"
   ],
   "note": "Full for cache directories that contain only what CacheDir puts there; a leftover temporary directory or an interrupted earlier conversion makes the conversion fail with nothing findable (counterexamples proved). No file is ever lost from the disk."
  },
  {
   "property": "C103",
   "status": "partial",
   "theorems": [
    "Verif.FileAct.C103_delete_partial",
    "Verif.FileAct.C103_delete_must_exist_partial",
    "Verif.FileAct.C103_mkdir_partial",
    "Verif.FileAct.C103_mkdir_in_the_way",
    "Verif.FileAct.C103_touch_partial",
    "Verif.FileAct.C103_copy_file_partial",
    "Verif.FileAct.C103_copy_link",
    "Verif.FileAct.C103_copy_through_link_partial",
    "Verif.FileAct.C103_copy_tree_partial",
    "Verif.FileAct.C103_copy_list_partial",
    "Verif.FileAct.C103_move_partial",
    "Verif.FileAct.C103_move_gone",
    "Verif.FileAct.C103_copy_tree_exists",
    "Verif.FileAct.C103_memory_partial",
    "Verif.FileAct.C103_counterexample_delete_denied",
    "Verif.FileAct.C103_counterexample_touch_backwards",
    "Verif.FileAct.C103_counterexample_copy_name",
    "Verif.FileAct.C103_counterexample_copy_flag",
    "Verif.FileAct.C103_counterexample_copy_same_name",
    "Verif.FileAct.C103_counterexample_memory",
    "Verif.FileAct.C103_counterexample_move_denied"
   ],
   "note": "Exact effect on every path, for paths whose directories are not links and directories that may be written to. Left out: links to directories below a tree copied with symlinks=False. The code falsifies the rest of the claim: silent failure of Delete, Touch that makes a file older, wrong name and forgotten flag for Copy through links, stale memory below a deleted directory (counterexamples proved)."
  },
  {
   "property": "C104",
   "status": "partial",
   "theorems": [
    "Verif.ConfH.C104_config_h_partial",
    "Verif.ConfH.C104_have_iff",
    "Verif.ConfH.C104_checkLib_found",
    "Verif.ConfH.C104_checkLib_none",
    "Verif.ConfH.C104_with_mem",
    "Verif.ConfH.C104_with_order",
    "Verif.ConfH.C104_checkLib_iff",
    "Verif.ConfH.C104_same_macro_counterexample",
    "Verif.ConfH.C104_failed_but_defined_counterexample",
    "Verif.ConfH.C104_later_failure_counterexample",
    "Verif.ConfH.C104_same_guard_counterexample",
    "Verif.ConfH.C104_comment_counterexample",
    "Verif.ConfH.C104_newline_counterexample",
    "Verif.ConfH.C104_size_zero_counterexample",
    "Verif.ConfH.C104_unset_counterexample",
    "Verif.ConfH.C104_unique_order_counterexample"
   ],
   "note": "The header, read by a separate small reader of C comments and definitions. Hypotheses: no end of a comment in names of checks and comments, no line break in what Define is given; the code falsifies the claim without them, and macros of different checks coincide (counterexamples proved)."
  },
  {
   "property": "C105",
   "status": "partial",
   "theorems": [
    "Verif.ShLib.C105_build_partial",
    "Verif.ShLib.C105_install_partial",
    "Verif.ShLib.C105_clean",
    "Verif.ShLib.C105_lib_name",
    "Verif.ShLib.C105_lib_name_number",
    "Verif.ShLib.C105_lib_name_plain",
    "Verif.ShLib.C105_soname",
    "Verif.ShLib.C105_link_names",
    "Verif.ShLib.C105_side_by_side",
    "Verif.ShLib.C105_counterexample_upgrade",
    "Verif.ShLib.C105_counterexample_cache",
    "Verif.ShLib.C105_counterexample_suffix_given",
    "Verif.ShLib.C105_counterexample_dot",
    "Verif.ShLib.C105_counterexample_soversion_only",
    "Verif.ShLib.C105_counterexample_nolinks"
   ],
   "note": "Proved where only links, or nothing, are in the way of the links, and for names without a dot. The code falsifies the rest: a library from the cache has no links, an earlier library with the short version is in the way, names with dots (counterexamples proved)."
  },
  {
   "property": "C106",
   "status": "partial",
   "theorems": [
    "Verif.PathL.C106_fresh",
    "Verif.PathL.C106_history_partial",
    "Verif.PathL.C106_colons",
    "Verif.PathL.C106_nested",
    "Verif.PathL.C106_plain",
    "Verif.PathL.C106_scanner_is_compiler_partial",
    "Verif.PathL.C106_searched",
    "Verif.PathL.C106_same_memory",
    "Verif.PathL.C106_counterexample_split",
    "Verif.PathL.C106_counterexample_none",
    "Verif.PathL.C106_counterexample_empty"
   ],
   "note": "Proved for histories in which no string is used both split and unsplit, and for values other than None. The code falsifies the rest (counterexamples proved)."
  },
  {
   "property": "C107",
   "status": "partial",
   "theorems": [
    "Verif.PyScan.C107_statements",
    "Verif.PyScan.C107_no_statements",
    "Verif.PyScan.C107_found_partial",
    "Verif.PyScan.C107_exists",
    "Verif.PyScan.C107_transitive_partial",
    "Verif.PyScan.C107_order_partial",
    "Verif.PyScan.C107_search_path",
    "Verif.PyScan.C107_counterexample_list",
    "Verif.PyScan.C107_counterexample_semicolon",
    "Verif.PyScan.C107_counterexample_parentheses",
    "Verif.PyScan.C107_counterexample_as",
    "Verif.PyScan.C107_counterexample_relative",
    "Verif.PyScan.C107_counterexample_order",
    "Verif.PyScan.C107_counterexample_unset",
    "Verif.PyScan.C107_counterexample_namespace"
   ],
   "note": "Proved for statements with one module or with names of which only the last is renamed, regular packages, relative names with one part, and no name both beside the script and in PYTHONPATH. The code falsifies the rest (counterexamples proved)."
  },
  {
   "property": "C108",
   "status": "partial",
   "theorems": [
    "Verif.TexScan.C108_comments_partial",
    "Verif.TexScan.C108_commands",
    "Verif.TexScan.C108_import",
    "Verif.TexScan.C108_file",
    "Verif.TexScan.C108_closure_partial",
    "Verif.TexScan.C108_ends",
    "Verif.TexScan.C108_found_partial",
    "Verif.TexScan.C108_example",
    "Verif.TexScan.C108_option_two_lines",
    "Verif.TexScan.C108_comma_space",
    "Verif.TexScan.C108_empty_option",
    "Verif.TexScan.C108_group",
    "Verif.TexScan.C108_dots",
    "Verif.TexScan.C108_star",
    "Verif.TexScan.C108_newline_comment",
    "Verif.TexScan.C108_import_path",
    "Verif.TexScan.C108_history"
   ],
   "note": "Proved for documents as the specification describes them, and files without import commands. The code falsifies the rest (counterexamples proved)."
  },
  {
   "property": "C109",
   "status": "partial",
   "theorems": [
    "Verif.Zip.C109_unpacked_partial",
    "Verif.Zip.C109_link_source",
    "Verif.Zip.C109_made",
    "Verif.Zip.C109_name",
    "Verif.Zip.C109_root",
    "Verif.Zip.C109_link_lost",
    "Verif.Zip.C109_outside",
    "Verif.Zip.C109_twice",
    "Verif.Zip.C109_order",
    "Verif.Zip.C109_old",
    "Verif.Zip.C109_root_literal"
   ],
   "note": "Proved for sources below ZIPROOT that are not links to directories. Outside ZIPROOT, and below links, the code falsifies it (counterexamples proved). Empty directories are not stored; the specification speaks of files only."
  },
  {
   "property": "C110",
   "status": "partial",
   "theorems": [
    "Verif.CacheSys.C110_correct_partial",
    "Verif.CacheSys.C110_cache_truthful",
    "Verif.CacheSys.C110_same_as_without_partial",
    "Verif.CacheSys.C110_cache_stays",
    "Verif.CacheSys.C110_null_build",
    "Verif.CacheSys.C110_sources_untouched",
    "Verif.CacheSys.C110_pushed",
    "Verif.CacheSys.C110_second_tree",
    "Verif.CacheSys.Ex.C110_example",
    "Verif.CacheSys.Ex.C110_example_second",
    "Verif.CacheSys.Ex.C110_example_null",
    "Verif.CacheSys.Ex.C110_example_partial",
    "Verif.CacheSys.Ex.C110_renamed_counterexample",
    "Verif.CacheSys.Ex.C110_force_counterexample",
    "Verif.CacheSys.Ex.C110_killed_counterexample"
   ],
   "note": "Proved for actions that depend on the contents (and not the names) of their dependencies, for --cache-force only in trees without hand-edited targets and killed builds, and for trees without these; each condition is needed (counterexamples proved). Signatures and cache names are assumed not to clash."
  },
  {
   "property": "C111",
   "status": "partial",
   "theorems": [
    "Verif.Attrs.C111_splitext",
    "Verif.Attrs.C111_splitext_unique",
    "Verif.Attrs.C111_path",
    "Verif.Attrs.C111_abspath",
    "Verif.Attrs.C111_relpath",
    "Verif.Attrs.C111_base_suffix",
    "Verif.Attrs.C111_base_suffix_opens",
    "Verif.Attrs.C111_suffix",
    "Verif.Attrs.C111_base_suffix_injective",
    "Verif.Attrs.C111_str",
    "Verif.Attrs.C111_srcnode",
    "Verif.Attrs.C111_dir_file",
    "Verif.Attrs.C111_srcdir_file",
    "Verif.Attrs.C111_repository",
    "Verif.Attrs.C111_windows",
    "Verif.Attrs.C111_chains",
    "Verif.Attrs.C111_signature_name_only",
    "Verif.Attrs.C111_signature_separates",
    "Verif.Attrs.C111_srcpath_signature",
    "Verif.Attrs.C111_target_place",
    "Verif.Attrs.C111_target_collision",
    "Verif.Attrs.C111_target_pieces",
    "Verif.Attrs.Ex.C111_not_os_splitext",
    "Verif.Attrs.Ex.C111_dotfiles_collide",
    "Verif.Attrs.Ex.C111_cwd_base",
    "Verif.Attrs.Ex.C111_variant_pieces_disagree",
    "Verif.Attrs.Ex.C111_signature_blind",
    "Verif.Attrs.Ex.C111_signature_names_mixed",
    "Verif.Attrs.Ex.C111_hash_target",
    "Verif.Attrs.Ex.C111_path_moves"
   ],
   "note": "Proved for every node but the current directory itself (base and suffix), for directories with no variant directory above them or duplicated ones (dir and file), and for the attributes that are texts (signatures); the code falsifies the rest: counterexamples proved. POSIX only."
  },
  {
   "property": "C112",
   "status": "partial",
   "theorems": [
    "Verif.Tree.C112_tree_true",
    "Verif.Tree.C112_tree_complete",
    "Verif.Tree.C112_tree_pruned",
    "Verif.Tree.C112_includes",
    "Verif.Tree.C112_tree_bars",
    "Verif.Tree.C112_includes_bars",
    "Verif.Tree.C112_pruned_ends",
    "Verif.Tree.C112_includes_ends",
    "Verif.Tree.C112_tree_ends",
    "Verif.Tree.C112_cycle_fails",
    "Verif.Tree.C112_sources",
    "Verif.Tree.Ex.C112_example",
    "Verif.Tree.Ex.C112_ignored_cycle",
    "Verif.Tree.Ex.C112_same_name",
    "Verif.Tree.Ex.C112_depends_not_found"
   ],
   "note": "Proved in full for graphs without cycles (unpruned) or with different names (completeness); the code falsifies the rest: an unpruned tree of a graph with a cycle ends in a RecursionError, also when Ignore breaks the cycle; with prune, a node is hidden behind another of the same name. Status tags and the order of FindSourceFiles are not modelled."
  },
  {
   "property": "C113",
   "status": "partial",
   "theorems": [
    "Verif.Hash.C113_chunks",
    "Verif.Hash.C113_format",
    "Verif.Hash.C113_filename",
    "Verif.Hash.C113_right",
    "Verif.Hash.C113_database",
    "Verif.Hash.C113_directories",
    "Verif.Hash.C113_directories_example",
    "Verif.Hash.C113_named",
    "Verif.Hash.C113_one_format",
    "Verif.Hash.Ex.C113_example",
    "Verif.Hash.Ex.C113_formats_mixed",
    "Verif.Hash.Ex.C113_databases_mixed",
    "Verif.Hash.Ex.C113_check_first",
    "Verif.Hash.Ex.C113_default_name",
    "Verif.Hash.Ex.C113_named_late",
    "Verif.Hash.Ex.C113_check_format",
    "Verif.Hash.Ex.C113_explicit_md5"
   ],
   "note": "Proved for targets that were last made by a run with the same database, hence for all histories with a named database or with one format; the code falsifies the rest: with two databases a target built in between from another source is taken for up to date (counterexample). Up to collisions among the contents that occurred. max_drift is not 0; no repositories."
  },
  {
   "property": "C114",
   "status": "partial",
   "theorems": [
    "Verif.CompDb.C114_recorded",
    "Verif.CompDb.C114_sound",
    "Verif.CompDb.C114_once",
    "Verif.CompDb.C114_once_simple",
    "Verif.CompDb.C114_json",
    "Verif.CompDb.C114_database",
    "Verif.CompDb.C114_process",
    "Verif.CompDb.C114_process_only",
    "Verif.CompDb.C114_command_partial",
    "Verif.CompDb.C114_silent_empty",
    "Verif.CompDb.Ex.C114_tool_order",
    "Verif.CompDb.Ex.C114_earlier_calls_missing",
    "Verif.CompDb.Ex.C114_clones_interfere",
    "Verif.CompDb.Ex.C114_same_object_twice",
    "Verif.CompDb.Ex.C114_names_not_escaped",
    "Verif.CompDb.Ex.C114_backslash_lost",
    "Verif.CompDb.Ex.C114_lines_lost"
   ],
   "note": "How often each call is recorded is proved for all histories, and that the file is read back; once each where the tool was loaded once after the languages. The code falsifies the rest: order of tools, clones, objects asked for twice, names that need escaping, silent and multi-line commands (counterexamples). What a command variable expands to is given."
  },
  {
   "property": "C115",
   "status": "partial",
   "theorems": [
    "Verif.ActMake.C115_order",
    "Verif.ActMake.C115_object",
    "Verif.ActMake.C115_add",
    "Verif.ActMake.C115_add_none",
    "Verif.ActMake.C115_generator",
    "Verif.ActMake.C115_generator_one",
    "Verif.ActMake.C115_second_generator",
    "Verif.ActMake.C115_endless",
    "Verif.ActMake.C115_variable_generator",
    "Verif.ActMake.C115_odd"
   ],
   "note": "Proved for everything without the keyword generator, generator objects included, and for one function with it. The code falsifies it for several functions with generator=True, for functions and variables in one such list, and for objects that are no actions, which are left out of lists without a word (counterexamples)."
  },
  {
   "property": "C116",
   "status": "partial",
   "theorems": [
    "Verif.Prep.C116_ready",
    "Verif.Prep.C116_link_above",
    "Verif.Prep.C116_link_above_sample",
    "Verif.Prep.C116_link_for_directory",
    "Verif.Prep.C116_frame",
    "Verif.Prep.C116_schedule",
    "Verif.Prep.C116_schedule_runs",
    "Verif.Prep.C116_missing_source",
    "Verif.Prep.C116_missing_dependency",
    "Verif.Prep.C116_up_to_date",
    "Verif.Prep.C116_dry_run",
    "Verif.Prep.C116_removed_and_not_built",
    "Verif.Prep.C116_directory_not_made_again"
   ],
   "note": "Proved for all graphs and schedules in which commands remove no directories. The code falsifies two parts: a target can be removed although the command is then not run, and a directory SCons has made once and that was removed is not made again (counterexamples). Targets that are directories and the action keyword targets are not modelled."
  },
  {
   "property": "C117",
   "status": "partial",
   "theorems": [
    "Verif.Link.C117_shared",
    "Verif.Link.C117_first",
    "Verif.Link.C117_same",
    "Verif.Link.C117_prebuilt_refused",
    "Verif.Link.C117_false_is_true",
    "Verif.Link.C117_linker",
    "Verif.Link.C117_one_fits",
    "Verif.Link.C117_after_d",
    "Verif.Link.C117_d_signature",
    "Verif.Link.C117_d_without_tool",
    "Verif.Link.C117_cxx_not_seen"
   ],
   "note": "The part on shared objects and, without sources in D, the part on linkers are proved for all histories. With sources in D the code falsifies it (counterexamples): the command of all later programs of the environment changes, and the signature of the first one is not that of the command that is run. Prebuilt shared objects are refused; C++ in libraries is not seen."
  },
  {
   "property": "C118",
   "status": "partial",
   "theorems": [
    "Verif.Lists.C118_unique_list",
    "Verif.Lists.C118_determined",
    "Verif.Lists.C118_unique",
    "Verif.Lists.C118_unique_sets",
    "Verif.Lists.C118_init_keeps",
    "Verif.Lists.C118_remove_leaves",
    "Verif.Lists.C118_copy_keeps",
    "Verif.Lists.C118_del_wrong",
    "Verif.Lists.C118_eq_not_symmetric",
    "Verif.Lists.C118_flatten",
    "Verif.Lists.C118_flatten_twice"
   ],
   "note": "Flatten is proved in full. UniqueList is proved for all histories in which, after something was added, the list is looked at before it is changed at a position or copied, and starts without repetitions; the code falsifies the rest (counterexamples), and unique for elements such as sets whose order is not total."
  },
  {
   "property": "C119",
   "status": "partial",
   "theorems": [
    "Verif.Select.C119_ext",
    "Verif.Select.C119_last",
    "Verif.Select.C119_select",
    "Verif.Select.C119_order",
    "Verif.Select.C119_action",
    "Verif.Select.C119_refused",
    "Verif.Select.C119_chosen",
    "Verif.Select.C119_emitter",
    "Verif.Select.C119_no_sources",
    "Verif.Select.C119_order_of_sources",
    "Verif.Select.C119_variable_dots",
    "Verif.Select.C119_emitter_dots",
    "Verif.Select.C119_clash_elsewhere",
    "Verif.Select.C119_no_default",
    "Verif.Select.C119_digits"
   ],
   "note": "The choice is characterised for all dictionaries and sources, and its independence of the order of the actions proved. The code falsifies: independence of the order of sources (one without suffix may come first), variables with two dots, emitters for the same suffixes as actions, clashes of suffixes the source does not have (counterexamples)."
  },
  {
   "property": "C120",
   "status": "partial",
   "theorems": [
    "Verif.DScan.C120_file_partial",
    "Verif.DScan.C120_decl_partial",
    "Verif.DScan.C120_find_partial",
    "Verif.DScan.C120_some",
    "Verif.DScan.C120_sample",
    "Verif.DScan.C120_comment_counterexample",
    "Verif.DScan.C120_commented_out_counterexample",
    "Verif.DScan.C120_comment_inside_counterexample",
    "Verif.DScan.C120_dots_counterexample",
    "Verif.DScan.C120_word_counterexample",
    "Verif.DScan.C120_find_counterexample",
    "Verif.DScan.C120_package_counterexample",
    "Verif.DScan.C120_find_sample"
   ],
   "note": "The names are exactly those of the declarations for all texts in which the word import is only what begins one; after any text that ends with a character no import goes over, a declaration is found. The code falsifies the rest: comments, blanks around dots, packages, interface files of later directories (counterexamples)."
  },
  {
   "property": "C121",
   "status": "partial",
   "theorems": [
    "Verif.JavaCp.C121_reads_partial",
    "Verif.JavaCp.C121_derived_partial",
    "Verif.JavaCp.C121_entries_partial",
    "Verif.JavaCp.C121_exact",
    "Verif.JavaCp.C121_sample",
    "Verif.JavaCp.C121_sample_class",
    "Verif.JavaCp.C121_sample_jar",
    "Verif.JavaCp.C121_sample_archive",
    "Verif.JavaCp.C121_sample_derived",
    "Verif.JavaCp.C121_new_directory_counterexample",
    "Verif.JavaCp.C121_link_counterexample",
    "Verif.JavaCp.C121_capitals_counterexample",
    "Verif.JavaCp.C121_list_counterexample"
   ],
   "note": "The dependencies are characterised exactly, and contain what javac reads on all trees but for: classes to be made in a directory that is not there yet, links to directories, names in capitals, hidden jar files and names with asterisks, lists with separators in an element (counterexamples for the main ones)."
  },
  {
   "property": "C122",
   "status": "partial",
   "theorems": [
    "Verif.Yacc.C122_yacc_partial",
    "Verif.Yacc.C122_lex",
    "Verif.Yacc.C122_first",
    "Verif.Yacc.C122_variables",
    "Verif.Yacc.C122_only",
    "Verif.Yacc.C122_apart_partial",
    "Verif.Yacc.C122_frozen_counterexample",
    "Verif.Yacc.C122_sample",
    "Verif.Yacc.C122_sample_asked",
    "Verif.Yacc.C122_sample_frozen",
    "Verif.Yacc.C122_cluster_counterexample",
    "Verif.Yacc.C122_joined_counterexample",
    "Verif.Yacc.C122_verbose_counterexample",
    "Verif.Yacc.C122_objc_counterexample"
   ],
   "note": "The targets are exactly what flags and variables ask for, but for options in one word with others or with their file, and the long form of -v (counterexamples). Calls are independent when the variables expand to nothing; otherwise the code falsifies it, proved for all sequences of calls."
  },
  {
   "property": "C123",
   "status": "partial",
   "theorems": [
    "Verif.Swig.C123_module_partial",
    "Verif.Swig.C123_targets_partial",
    "Verif.Swig.C123_directors_partial",
    "Verif.Swig.C123_sample",
    "Verif.Swig.C123_sample_module",
    "Verif.Swig.C123_sample_targets",
    "Verif.Swig.C123_sample_directors",
    "Verif.Swig.C123_java_counterexample",
    "Verif.Swig.C123_comment_counterexample",
    "Verif.Swig.C123_semicolon_counterexample",
    "Verif.Swig.C123_flag_counterexample",
    "Verif.Swig.C123_twice"
   ],
   "note": "Name and directors of a directive anywhere in any text without a second one, and the files written for it, for Python and Java. Excluded because the code falsifies them: a closing parenthesis later on the line of a directive with options, names with a semicolon, the flag -module, Java files beside a wrapper in another directory (counterexamples)."
  },
  {
   "property": "C124",
   "status": "partial",
   "theorems": [
    "Verif.Pot.C124_template_partial",
    "Verif.Pot.C124_written_iff",
    "Verif.Pot.C124_failed",
    "Verif.Pot.C124_again",
    "Verif.Pot.C124_names_partial",
    "Verif.Pot.C124_deps_partial",
    "Verif.Pot.C124_sample",
    "Verif.Pot.C124_sample_names",
    "Verif.Pot.C124_sample_deps",
    "Verif.Pot.C124_stale_counterexample",
    "Verif.Pot.C124_message_counterexample",
    "Verif.Pot.C124_crlf_counterexample",
    "Verif.Pot.C124_blank_counterexample",
    "Verif.Pot.C124_comment_counterexample",
    "Verif.Pot.C124_node_counterexample"
   ],
   "note": "Both directions of when a template is written, for all texts; the names of lists of files with comments and blank lines; dependencies through the search path. The code falsifies the rest: no messages at all, lines of messages that look like the date, carriage returns, blanks at the end of a line, nodes in XGETTEXTFROM (counterexamples)."
  },
  {
   "property": "C125",
   "status": "partial",
   "theorems": [
    "Verif.Jar.C125_archive_partial",
    "Verif.Jar.C125_calls_partial",
    "Verif.Jar.C125_order",
    "Verif.Jar.C125_sample",
    "Verif.Jar.C125_sample_archive",
    "Verif.Jar.C125_sample_calls",
    "Verif.Jar.C125_flags_counterexample",
    "Verif.Jar.C125_option_counterexample",
    "Verif.Jar.C125_order_counterexample",
    "Verif.Jar.C125_chdir_counterexample",
    "Verif.Jar.C125_manifests_counterexample",
    "Verif.Jar.C125_letter_counterexample",
    "Verif.Jar.C125_text_counterexample"
   ],
   "note": "The archive that the command makes, against a specification of how jar reads its arguments, for one word of letters in JARFLAGS and sources below their directory; the calls of the pseudo-builder. The code falsifies the rest: more options in JARFLAGS, m before f, sources outside JARCHDIR, a second manifest, a text as the only source (counterexamples)."
  },
  {
   "property": "C126",
   "status": "partial",
   "theorems": [
    "Verif.Vars.C126_value_partial",
    "Verif.Vars.C126_accepted",
    "Verif.Vars.C126_sample",
    "Verif.Vars.C126_sample_value",
    "Verif.Vars.C126_sample_last",
    "Verif.Vars.C126_sample_last_met",
    "Verif.Vars.C126_case_counterexample",
    "Verif.Vars.C126_false_counterexample",
    "Verif.Vars.C126_empty_counterexample"
   ],
   "note": "For all sources and other variables, values without a dollar sign, and defaults that are words in lower case or paths; the code falsifies it for default words with capitals, the default False and the empty text (counterexamples). As in C61 no source assigns the variable under two names."
  },
  {
   "property": "C127",
   "status": "partial",
   "theorems": [
    "Verif.Iface.C127_swig_partial",
    "Verif.Iface.C127_swig_lines",
    "Verif.Iface.C127_idl_partial",
    "Verif.Iface.C127_sample",
    "Verif.Iface.C127_sample_swig",
    "Verif.Iface.C127_sample_idl",
    "Verif.Iface.C127_swig_counterexample",
    "Verif.Iface.C127_idl_counterexample"
   ],
   "note": "For all texts; names without blanks (SWIG) and brackets or quotes, a blank before the name in IDL, one import in a line. The code falsifies it for options in parentheses, blanks in names, comments, an IDL #include directly before the name and several imports in a line (counterexamples)."
  },
  {
   "property": "C128",
   "status": "proved",
   "theorems": [
    "Verif.Ver.C128_version",
    "Verif.Ver.C128_scons",
    "Verif.Ver.C128_monotone",
    "Verif.Ver.C128_python",
    "Verif.Ver.C128_sample",
    "Verif.Ver.C128_sample_tag",
    "Verif.Ver.C128_tag",
    "Verif.Ver.C128_development"
   ],
   "note": "For all versions and demands in natural numbers. Tags such as b1 are not compared (C128_tag), and the version of an unbuilt source tree meets every demand (C128_development)."
  },
  {
   "property": "C129",
   "status": "partial",
   "theorems": [
    "Verif.Util.FindProg.C129_found",
    "Verif.Util.FindProg.C129_kept",
    "Verif.Util.FindProg.C129_added_partial",
    "Verif.Util.FindProg.C129_sample",
    "Verif.Util.FindProg.C129_sample_kept",
    "Verif.Util.FindProg.C129_current_counterexample",
    "Verif.Util.FindProg.C129_empty_counterexample"
   ],
   "note": "For all paths and file systems in which paths that are the same when normalised are one directory. The code falsifies it for a program found through the current directory, and for an empty directory in PATH (counterexamples)."
  },
  {
   "property": "C130",
   "status": "partial",
   "theorems": [
    "Verif.InstTo.C130_targets",
    "Verif.InstTo.C130_apart",
    "Verif.InstTo.C130_sandbox_partial",
    "Verif.InstTo.C130_moved",
    "Verif.InstTo.C130_as_partial",
    "Verif.InstTo.C130_found_partial",
    "Verif.InstTo.C130_sample",
    "Verif.InstTo.C130_sample_found",
    "Verif.InstTo.C130_sandbox_counterexample",
    "Verif.InstTo.C130_relative_counterexample",
    "Verif.InstTo.C130_as_counterexample",
    "Verif.InstTo.C130_found_counterexample"
   ],
   "note": "For all texts that do not lead out and all histories. The code falsifies it for nodes, names that begin with a number sign and .. with a sandbox, relative directories of different scripts with a sandbox, InstallAs with lists of different lengths, and callers that change the list (counterexamples)."
  }
 ]
}