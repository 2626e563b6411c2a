#!/usr/bin/env python3
"""Regenerates MANIFEST.json.  Run from anywhere."""
import json, os
C = []
def c(p, status, theorems, note=""):
    C.append(dict(property=p, status=status, theorems=theorems, note=note))
T="Verif.TM."; P="Verif.Pool."
c("C01","proved",[T+x for x in ["C01_dependencies_finished_when_returned","C01_dependencies_finished_before_start","C01_dependencies_of_started_are_finished"]],"First two hold from any state; the last is the whole-run version.")
c("C02","proved",[T+x for x in ["C02_started_at_most_once","C02_history_has_no_duplicates"]])
c("C03","proved",[T+x for x in ["C03_started_depends_on_no_failure","C03_dependents_of_failed_never_started"]],"Scans may grow but not shrink during the build; no -i.")
c("C04","proved",[T+x for x in ["C04_any_failure_stops","C04_failed_run_is_stopped","C04_failure_stops","C04_nothing_starts_after_stop","C04_no_start_step","C04_candidates_dropped"]])
c("C05","proved",[T+"C05_everything_requested_is_built",P+"C05_parallel_everything_requested_is_built",P+"complete_is_over",P+"scheduler_refines_taskmaster"])
c("C06","proved",[T+"C06_unbuilt_target_is_reported",T+"findCycle_iff",T+"findCycle_chain"])
c("C07","partial",[T+x for x in ["C07_no_false_cycle_report_partial","C07_counterexample_keep_going","C07_counterexample_ignore","C07_counterexample_side_effect"]],"Full statement is false of the code (-k, -i, failure with shared side effects): counterexamples proved. Proved for all runs without -k/-i, and with side effects when nothing fails.")
c("C08","partial",[T+x for x in ["C08_side_effects_exclusive_partial","C08_counterexample_raise","C08_counterexample_requested"]]+[P+"C08_parallel_side_effects_exclusive_partial"],"Full statement is false (scan raises under -k; side effect itself depended upon): counterexamples proved. Proved for every other run.")
c("C09","proved",[T+x for x in ["C09_build_terminates","C09_search_terminates","wnb_terminates","wnb_total","wnb_loop_eq"]])
c("C10","proved",[T+"C10_keep_going_builds_the_rest"])
c("C11","proved",[P+"C11_at_most_N_jobs"])
c("C12","proved",[P+x for x in ["C12_no_deadlock","C12_no_deadlock_with_taskmaster","C12_work_conserving","C12_results_are_collected","C12_single_worker_never_waits","C12_terminates","C12_complete_is_final","C12_build_terminates","C12_build_ends"]],"Assumes the calls into the taskmaster do not raise (an exception there kills the thread inside the critical section).")
c("C13","proved",[P+x for x in ["C13_no_task_lost_or_retired_twice","C13_all_retired_when_complete","C13_all_retired_when_a_worker_left","scheduler_agrees"]])
c("C14","proved",[P+"C14_one_thread_at_a_time"],"The signal handler's Taskmaster.stop() is the one exception (it only sets a flag).")
S="Verif.Sig."; B="Verif.Build."
c("C15","proved",[B+"C15_result_independent_of_schedule",B+"finished_and_sources_keep_their_content",B+"exists_history"],"Content decider, deterministic actions reading only their dependencies.")
c("C16","partial",[S+"C16_null_build_partial",S+"C16_null_build_content_partial",S+"C16_counterexample_depends_and_ignore","Verif.Build.C16_second_run_does_nothing","Verif.Build.C16_same_command_again_does_nothing","Verif.Build.C16_nonvacuous"],"False of the code for a node that is both Depends() and Ignore() (proved); proved for every other case, per target for each decider and, with the content decider, for whole runs driven by the Taskmaster after any history.")
c("C17","proved",[S+"C17_every_change_triggers_a_rebuild",S+"C17_up_to_date_means_nothing_changed"],"Collision-free hash.")
c("C18","proved",[S+"C18_up_to_date_iff",S+"ask_spec"])
c("C19","proved",[B+"C19_incremental_equals_clean",B+"C15_result_independent_of_schedule",B+"exists_history"])
c("C20","partial",[S+"C20_reuse_only_when_allowed",S+"C20_new_timestamp_is_hashed",S+"C20_negative_drift_always_hashes",S+"C20_history_partial",S+"C20_counterexample_visit_without_hash"],"The per-call rule is proved; that the reused signature is right over all histories is false of the code (proved), and proved for histories in which every visited file is hashed.")
c("C21","partial",[S+"C21_looked_up_under_own_name_partial",S+"C21_counterexample_depends_and_ignore"],"False of the code for a node that is both Depends() and Ignore() (proved).")
c("C41","partial",[B+"C41_failed_builds_harmless_partial",B+"C41_counterexample_failed_build",B+"C41_counterexample_killed_build"],"False of the code in general (proved).")
St="Verif.Store."; Ca="Verif.Cache."
c("C22","proved",[St+x for x in ["C22_disk_refines_ideal","C22_memory_refines_ideal","C22_previous_contents_kept","C22_old_or_new_at_every_crash_point","example_history"]],"One process at a time; a killed process, not a power failure.")
c("C23","proved",[St+x for x in ["C23_read_back","C23_read_back_new","C23_close_does_not_skip_assignments","C23_counterexample_del_then_close"]],"The counterexample concerns del followed by close only, which SCons itself never does.")
c("C24","proved",[St+"C24_entries_do_not_interfere",St+"C24_untouched_entries_are_kept"])
c("C25","proved",[St+x for x in ["C25_next_run_reads_old_new_or_nothing","C25_never_truncated","C25_completed_write_is_read_back","C25_counterexample_fallback_truncates","C25_window_without_file"]],"The never-truncated part is for runs that take neither fall-back; the counterexample shows why.")
c("C26","proved",[Ca+x for x in ["C26_retrieved_is_what_was_pushed","C26_visible_entries_are_complete","C26_retrieved_equals_built","example_sharing"]])
c("C27","partial",[Ca+"Key."+x for x in ["C27_key_covers_contents_partial","C27_files_partial","C27_counterexample_values","C27_counterexample_action_boundaries","C27_counterexample_kinds","C27_counterexample_path"]],"Down to the contents of files, for dependencies that are files, aliases and directories, with no assumption about the hash: equal keys mean equal inputs or an explicit collision between strings hashed for the two targets. Left out: paths that start like a list of signatures, and Value nodes; there it is false, whatever the hash (proved).")
c("C28","proved",[Ca+"Exec."+x for x in ["C28_retrieved_iff_all_available","C28_retrieved_effects","C28_built_effects","C28_counterexample_dry_run_deletes"]],"The effects theorems are for runs without -n; with -n files are deleted (counterexample).")
c("C29","proved",[Ca+"Exec."+x for x in ["C29_cache_not_written","C29_disabled_retrieves_nothing","C29_show_and_force_are_cosmetic","C29_force_pushes_own_content","C29_nocache"]])
c("C30","partial",[Ca+"Lock."+x for x in ["C30_mutual_exclusion","C30_writers_exclude_each_other","C30_acquire_only_when_free","C30_busy_raises_or_waits","C30_release_frees_partial","C30_counterexample_descriptor_zero"]],"Mutual exclusion and raising proved in full; that release frees the lock is false for file descriptor 0 (proved) and proved otherwise.")
U="Verif.Subst."; W="Verif.Subst.Witness."
c("C31","proved",[U+"C31_subst_terminates",U+"C31_subst_list_terminates",U+"C31_any_variables",U+"C31_self_reference_is_empty",W+"C31_counterexample_dotted_name"],"Variable names contain no dot (Environment.__setitem__ checks this); values of Python expressions in ${...} mention finitely many keys. The counterexample shows the first condition is needed.")
c("C32","proved",[U+"C32_text_unchanged",U+"C32_tokens_lossless",U+"C32_raw_concatenation",U+"C32_text_prefix_kept"])
c("C33","partial",[U+"C33_escape_partial",U+"C33_escape_only",W+"C33_counterexample_lone_dollars_merge",W+"C33_counterexample_command_paren",W+"C33_counterexample_object_text"],"False of the code for lone dollars in values, for object texts with $$ and for $$( in command mode (proved); proved for every input in raw mode when no value has a lone dollar.")
c("C34","partial",[U+"C34_signature_ignores_enclosed_partial",U+"C34_same_signature_partial",U+"C34_signature_keeps_the_rest",U+"C34_command_keeps_enclosed",U+"C34_markers_vanish_from_commands",U+"C34_unbalanced_is_an_error",W+"C34_counterexample_marker_after_escape",W+"C34_counterexample_nested_in_list_mode"],"A marker directly after an escaped dollar is not recognised (proved); proved in every other case.")
c("C35","partial",[U+"C35_subst_list_words_partial",U+"C35_list_elements_are_arguments_partial",W+"C35_counterexample_empty_variable",W+"C35_counterexample_trailing_space",W+"C35_counterexample_empty_element",W+"C35_counterexample_redirection_in_element"],"Proved for all strings all of whose variables have at least one word and no leading white space or new line in their values; false of the code for empty values (proved).")
X="Verif.Cpp."; XW="Verif.Cpp.Witness."; Z="Verif.Scan."; ZW="Verif.Scan.Witness."
c("C36","partial",[X+"C36_conditionals_partial",X+"C36_stray_directives",X+"C36_guarded_headers",XW+"C36_counterexample_skipped_condition",XW+"C36_counterexample_second_inclusion",XW+"C36_counterexample_resolve_loop"],"Refinement to the standard's rule proved for all nestings with each file processed once, and with the standard's rule itself for guarded headers; conditions in skipped groups are evaluated and second inclusions ignored (counterexamples proved).")
c("C37","partial",[X+"C37_superset_partial",X+"C37_exact",XW+"C37_counterexample_computed_include"],"Proved for all inputs whose includes are literal; false for #include MACRO (proved).")
c("C38","partial",[Z+"C38_transitive_closure_partial",Z+"C38_which_scanner",Z+"C38_inherited_scanner_partial",Z+"C38_terminates_and_sound",Z+"C38_each_once",Z+"C38_target_dependencies_partial",ZW+"C38_counterexample_disagreement",ZW+"C38_counterexample_included_twice"],"Proved for all graphs when scanners agree on which nodes are scanned in turn; otherwise dependencies are missed (proved).")
c("C42","partial",[Z+"Find.C42_found_is_what_the_text_says_partial",Z+"Find.C42_counterexample_two_scanners"],"False of the code for two different scanners on one node (proved).")
c("C43","partial",[Z+"Find.C43_search_order_partial",Z+"Find.C43_counterexample_known_paths"],"False of the code when a header is in two directories of the path (proved).")
A="Verif.Act."; AW="Verif.Act.Witness."
c("C39","partial",[A+"C39_in_order_until_first_failure",A+"C39_command_ignoring",A+"C39_command_strict",A+"C39_command_prints",A+"C39_function_runs_once",A+"C39_exitstat_only_maps",A+"C39_command_nonvacuous",A+"C39_append",A+"C39_dash_ignores_failure",A+"C39_dash_is_recognised",A+"C39_lines_in_order",A+"C39_at_only_silences",A+"C39_dry_run",A+"C39_silent_same_effects",AW+"C39_counterexample_prefix_on_second_line",AW+"C39_counterexample_exitstatfunc_skips_lines"],"Proved for every action list; for multi-line commands the prefixes work only on the first line (proved counterexample).")
c("C40","partial",[A+"C40_convert_nonzero",A+"C40_exit_status",A+"C40_failure_is_reported_partial",A+"C40_failures_recorded",A+"C40_ignore_errors",A+"fn_fails_iff",A+"C40_failed_action_fails_the_build",AW+"C40_counterexample_exit_zero_masks_failure",AW+"C40_counterexample_same_file_error"],"Exact characterisation of the exit status proved; the property itself is false after Exit(0) with -k and for SameFileError (proved).")
c("C44","proved",[B+"C44_successful_run_builds_everything",B+"C44_finished_targets_are_clean",B+"C44_cached_scan_is_current",B+"C44_nonvacuous",B+"C44_rescan_shrinks",B+"C44_pair_nonvacuous"],"Actions with any number of targets; no side effects, no -i; failed actions leave no file (see C41); under -k an action one of whose targets is already marked failed is not handed out again (Tidy).")
c("C45","proved",[U+"C45_undefined_variable",U+"C45_undefined_in_context"],"String mode; the exceptions configured are modelled by allowed error kinds.")
Wh="Verif.Whole."
c("C46","proved",[Wh+x for x in ["C46_total_correctness","C46_can_always_be_finished","C46_terminates","C46_no_deadlock","C46_parallel_build_is_clean","C46_same_result_for_every_N","C46_nonvacuous"]],"Actions with any number of targets, no side effects, content decider, deterministic actions; calls into the taskmaster do not raise.")
c("C47","proved",[Wh+"C47_sources_are_never_touched"],"The content of the theorem is about SCons' own file operations (prepare() unlinks only the task's target): that actions write only to their targets is part of the model.")
c("C48","proved",[T+"C48_only_what_was_asked_for",T+"C48_nonvacuous"])
EO="Verif.Env.Override."; EA="Verif.Env.Append."; EC="Verif.Env.Cppdef."; EL="Verif.Env.Clone."; UP="Verif.Util.Path."
c("C49","partial",[EO+"C49_"+x for x in ["writes_do_not_leak","subject_is_not_modified","unwritten_shows_the_subject","given_override_wins","last_assignment_wins","last_replace_wins","deleted_stays_hidden","defaults","keys_agree_partial","subst_agrees_partial","counterexample_subst_sees_deleted","counterexample_keys_after_two_deletions","counterexample_keys_after_replace","counterexample_reserved","nonvacuous"]],"Isolation and reading proved for all histories; agreement of keys() for histories without the two faulty patterns, of substitution where nothing was deleted (counterexamples proved).")
c("C50","partial",[EA+"C50_"+x for x in ["append_order","prepend_order","strings","new_variable","dicts","append_raises_iff","prepend_raises_iff","appendUnique_order","appendUnique_moves","prependUnique_order","prependUnique_moves","unique_nothing_lost","unique_count","unique_idempotent","other_variables_unchanged","each_variable","counterexample_existing_duplicates","counterexample_strings","counterexample_clvar_lost","counterexample_unique_does_not_split","counterexample_prepend_to_none","nonvacuous"]],"Everything proved for all values, except the claim that each value occurs once afterwards, which is false of the code (proved); C50_unique_count says exactly how often a value occurs.")
c("C51","partial",[EC+"C51_"+x for x in ["append_flags","new_variable","prepend_flags_partial","appendUnique","no_duplicates_partial","idempotent","delete_existing_partial","same_entries_same_flags","counterexample_prepend_reverses","counterexample_list_duplicates","counterexample_delete_existing","counterexample_same_flag_added_again","nonvacuous"]],"Append and AppendUnique proved for all forms; Prepend gives the added entries reversed (proved).")
c("C52","partial",[EL+"C52_"+x for x in ["copy_is_equal_and_new","clone_cannot_change_original","original_cannot_change_clone","counterexample_other_objects_are_shared","nonvacuous"]],"Proved for all values made of lists, dicts, tuples, UserLists and immutable leaves, in any heap; other objects are shared (proved).")
c("C53","partial",[UP+"C53_"+x for x in ["prependPath","prependPath_keep","appendPath","appendPath_keep","each_path_once_partial","nothing_lost","nothing_invented","search_order","idempotent","argument_unchanged_partial","strings","counterexample_append_keeps_duplicates","counterexample_callers_list_reversed","counterexample_which_instance","nonvacuous"]],"Missing: uniqueness for AppendPath(delete_existing=False) and the caller's argument for PrependPath(delete_existing=False), both false of the code (proved).")
Sh="Verif.Shell."
c("C54","partial",[Sh+"C54_"+x for x in ["arguments_arrive_partial","literals_arrive_iff","command_lines_differ","words","file_names_arrive_partial","windows_partial","counterexample_backquote","counterexample_joined","counterexample_quote_spaces","counterexample_windows","nonvacuous"]],"Proved for all commands whose file names stand alone and have no backquote (exactly then: C54_literals_arrive_iff), and whose other text has no characters special to the shell; false of the code otherwise (proved).")
c("C55","partial",[Sh+"Ixes.C55_"+x for x in ["one_flag_each","flags_idempotent","flags_determine_directories","separate_words","library_names_partial","literal_libraries","counterexample_name_starts_with_lib","counterexample_directory_looks_like_flag","nonvacuous"]],"Libraries: proved when the plain name has none of the prefixes and suffixes that are taken off; false of the code otherwise (proved).")
Fs="Verif.FS."
c("C56","partial",[Fs+"C56_"+x for x in ["lookup_resolves_partial","same_node_partial","lookup_total_partial","ancestors_are_directories","rel_path","slashes_counterexample","newline_counterexample","nonvacuous"]],"Proved for all names without new lines that are not made of two or more slashes only; for these the property is false of the code (proved).")
Bq="Verif.Build."
c("C57","proved",[Bq+"C57_"+x for x in ["question_changes_no_file","zero_means_nothing_to_do","one_means_something_to_do","nonvacuous"]],"One job for the -q run itself (an up-to-date task is retired at once); scans do not raise in the -q run; no AlwaysBuild. The file of stored signatures, which -q does rewrite, is outside 'files'.")
Cl="Verif.Clean."
c("C58","partial",[Cl+"C58_"+x for x in ["clean_removes_nothing_else","sources_are_safe","clean_removes_what_it_reaches","clean_removes_everything_partial","clean_keeps_history","clean_then_build","order_counterexample","secondary_target_counterexample","directory_removed_iff","directory_only_shrinks","no_exec_keeps_directory","directory_removes_what_it_can_partial","directory_stops_counterexample","clean_calls_are_recorded","clean_calls_only_partial","clean_calls_counterexample","nonvacuous","steady_nonvacuous","directory_nonvacuous"]],"'Everything' is proved for scanners that do not look into files -c removes; without that it is false of the code (proved). Scans that raise are not modelled (in -c the exception is dropped). Side-effect files are not depended upon.")
c("C59","partial",["Verif.Sig.C59_"+x for x in ["reasons_are_true_partial","changed_dependencies_are_named_partial","out_of_date_is_explained_partial","nothing_is_made_up_partial","content_timestamp_blames_everything","counterexample_content_timestamp","counterexample_depends_and_ignore"]],"The excluded cases (content-timestamp; a node both Depends() and Ignore()) are false of the code, proved. Dependencies are files; no repositories.")
c("C60","partial",["Verif.Bld.C60_"+x for x in ["fresh_call_accepted","repeat_accepted","side_effect_or_target","last_call","same_sources","other_environment_same_action","accumulating_builder","single_source","one_action_partial","accumulating_blocks","sources_accumulate_partial","one_executor_per_file_partial","groups_partial","targets_stay_together_partial","counterexample_same_environment","different_environment_is_an_error","counterexample_overlapping_targets","counterexample_repeated_source","counterexample_batch_twice"]]+["Verif.Bld.exP_blocks","Verif.Bld.exP_reads"],"The _partial theorems assume what the code does not check (same environment means same action; target lists do not overlap); without it the claims are false of the code (proved).")
c("C61","partial",["Verif.Vars.C61_"+x for x in ["others_untouched","precedence_partial","converted_partial","validated","unknown","defaulted","bool_words","enum_allowed","list_allowed","save_load_partial","counterexample_last_does_not_win","counterexample_unknown_stale","counterexample_none","counterexample_default_saved","counterexample_map"]]+["Verif.Vars.enum_fixed","Verif.Vars.exV_update","Verif.Vars.exS_ok"],"_partial: no source assigns one option under two names; round trip for values and defaults without $. Without these, and for the other clauses of the statement, counterexamples are proved.")
c("C62","proved",["Verif.Pool.C62_"+x for x in ["at_most_N_jobs","no_task_lost_or_retired_twice","outcomes","no_deadlock","interrupt_starts_nothing","terminates","legacy_refines_taskmaster","legacy_over","no_deadlock_with_taskmaster","serial","serial_no_deadlock","build_terminates","build_ends","serial_build_ends"]]+["Verif.Pool.legBoth_reach","Verif.Pool.legBoth_ends"],"Queue operations are atomic; calls of the taskmaster and of executed/failed/postprocess do not raise; worker threads can be created.")
c("C63","partial",["Verif.Build.C63_"+x for x in ["dry_run_changes_nothing","announced_iff_out_of_date","announced_is_out_of_date","nothing_announced_nothing_done","executed_was_announced","exact_above_unannounced","counterexample_understates","counterexample_overstates","nonvacuous"]],"The last clause (announced = executed) is false of the code: both directions have proved counterexamples; it is proved where nothing below the target is announced. No derived-file cache (finding 20 covers that).")
c("C64","partial",["Verif.Script.C64_"+x for x in ["command_line_targets","target_words","command_line_list","default_list","default_targets","edited_build_targets","dash_u","dash_U","climbs_to_nearest","climbs_in_vain","launch_directory_partial","nonvacuous","counterexample_dashes","counterexample_emptied","counterexample_hash"]],"False of the code for targets after -- only (scons -- x builds the defaults), for a BUILD_TARGETS emptied by a script, and for launch directories whose name begins with #: counterexamples proved. Proved for everything else.")
c("C65","partial",["Verif.Env.Flags.C65_"+x for x in ["every_flag_arrives","strings_may_be_joined","table","table_files","table_others","merge","merge_nothing","merge_elements","merge_idempotent","arguments_unchanged_partial","nonvacuous","counterexample_separate_strings","counterexample_empty_word","counterexample_repeated_word","counterexample_leak"]],"False of the code where an option and its argument are in separate strings, for empty words, for repeated two-word options unknown to ParseFlags, and the caller's flags are changed when the variable is a string and the flags a plain list (counterexamples proved). shlex.split and !commands are inputs; tuples and deques not modelled.")
c("C66","partial",["Verif.FS.Variant.C66_"+x for x in ["variantDir_refused","variantDir_accepted","variant_of","srcnode","srcnode_self","srcnode_cases","srcnode_dir","srcdirs_memo","rdirs_mem","rdirs_order","rdirs_det","rdirs_ends","rdirs_ends_dup","memo_right_partial","duplicate_on","duplicate_new","alter_file","alter_file_inside","alter_srcnode","rfile","conf_nonvacuous","cycle","memo_stale","duplicate_order","duplicate_old","rfile_dir","repositories","srcdir_plain","srcdir_dup","srcdir_nonvacuous"]],"False of the code where variant directories without duplication are each other's sources (endless recursion), where such a directory becomes a variant directory after a search (stale memo), for nested directories with different duplicate flags (order matters), and rfile may be a directory: counterexamples proved. The memo is proved right when every variant directory duplicates; rfile in the ordinary layout Plain.")
c("C67","partial",["Verif.FS.Variant.C67_"+x for x in ["link_contents","variant_copy","lookup_frame","dry_run_partial","copy_nonvacuous","plain_nonvacuous","relative_link_wrong","relative_link_hangs","dry_run_removes"]],"False of the code for sources that are relative symbolic links (the copy may be another file, or the loop does not end) and under -n (old copies are removed): counterexamples proved. Proved for sources reached through no relative link; the file system's inodes, links and failures of the three linking functions are modelled, directories that are links are not.")
c("C68","partial",["Verif.Script.Scons.C68_"+x for x in ["caller_unchanged","only_exports","exports","export","import","import_all","import_missing","files","error","exports_fixed","return","process_dir_partial","process_dir_off_partial","nonvacuous","variant_dir_left","chdir_flag_leaks","stdin_return"]],"False of the process's working directory when a script calls SConscriptChdir or the caller is in a variant directory that does not exist yet, and of Return in a script on the standard input: counterexamples proved. The rest is proved for all programs of the modelled statements (values are immutable; functions' local variables, which compute_exports looks at first, are not modelled).")
c("C69","partial",["Verif.FS.Glob.C69_"+x for x in ["exact_partial","exclude_partial","excluded_partial","deterministic","nonvacuous","source_ignored","exclude_brackets","trailing_slash","hash_leaks","hash_raises","chain","kind","class"]],"Exactness is proved for layouts that are Tidy (searched directories' own searches included, no names beginning with #, kinds agree); determinism for all layouts. Outside, and for source= and for excluded names with brackets, the code falsifies the claim: counterexamples proved. fnmatch and str() of nodes are parameters.")
c("C70","partial",["Verif.Conf."+x for x in ["C70_verdict_partial","C70_not_again","C70_force","C70_cache","C70_dry_runs_nothing","C70_no_exec"]]+["Verif.Conf.Witness."+x for x in ["regular","nonvacuous","C70_stale_header","C70_stale_for_good","C70_lost_directory","C70_lost_output","C70_cache_removes","C70_question_removes","C70_two_targets"]]+["Verif.Conf.Names."+x for x in ["C70_text_files","C70_targets","C70_same_files","C70_extension","C70_names_nonvacuous"]],"The verdict is proved for histories in which the signatures stored for project files are current when a check is made, nothing but SCons touches the directory of the checks, and --config=cache and -q are not used; otherwise the code falsifies the claim: counterexamples proved. Force and cache are proved for every stored state.")
c("C71","partial",["Verif.Act.Py."+x for x in ["C71_noticed_partial","C71_varlist","C71_moved","C71_docstring","C71_commas","C71_containers","C71_keyword_only","C71_callables","C71_methods","C71_varlist_join","C71_nonvacuous"]],"One edit at any depth is proved to change the contents for values whose text is in the signature (strings, numbers, names, code, functions); the code falsifies the claim for constants with commas (two edits), bytes and containers, keyword-only defaults, callable objects, methods: counterexamples proved.")
c("C72","partial",["Verif.Scan.Dirs."+x for x in ["C72_dependencies","C72_order","C72_edit","C72_added","C72_removed","C72_quiet","C72_unnoticed","C72_renamed","C72_file_to_directory","C72_skipped","C72_skipped_names","C72_first_build","C72_command_unknown","C72_command_subdirectory","C72_nonvacuous"]],"Edits, additions and removals are proved to be noticed, and nothing else; renaming, a file replaced by an empty directory, files named like signature files, and directories given to Command are not noticed, and a directory made in the same run causes a second build: counterexamples proved. C72_unnoticed says what every unnoticed change keeps.")
c("C73","partial",["Verif.Sig.Alias."+x for x in ["C73_noticed_partial","C73_quiet","C73_value","C73_alias_of_values","C73_alias_names","C73_newline","C73_alias_action","C73_alias_of_sources","C73_value_node_partial","C73_minus_one","C73_falsy_built","C73_nonvacuous"]],"Proved for trees without values and newlines in names and hash functions without collisions on the texts hashed; Value for values whose Python hashes differ. The code falsifies the rest: counterexamples proved.")
c("C74","partial",["Verif.Build."+x for x in ["C74_command_leaves_nothing","C74_session_equals_separate_runs","C74_session_builds_everything","C74_plain_project","C74_plain_session_builds_everything","C74_requires","C74_other_target","C74_dropped_dependency","C74_after_failure","C74_nonvacuous","C74_plain_nonvacuous"]],"Proved (as an equivalence with separate runs) for sessions in which every command is carried out and finds again what it looked at; projects without Requires(), with one file per action and without scanners that read built files always do (C74_plain_project). Each of these conditions is needed: counterexamples proved.")
c("C75","partial",["Verif.Bld.Chain."+x for x in ["C75_accepted_suffixes","C75_first_listed_suffix","C75_longest_suffix_cut","C75_tasks_in_order","C75_one_product_per_source","C75_single_source","C75_product_unique","C75_same_directory","C75_products_typed","C75_terminates","C75_cycle_overflows","C75_overrides","C75_memory_invisible","C75_given_names","Ex.C75_nonvacuous","Ex.C75_chdir_lost","Ex.C75_builder_overrides_lost","Ex.C75_first_not_longest","Ex.C75_dotted_directory","Ex.C75_converted_twice","Ex.C75_stale_memory","Ex.C75_cycle_nonvacuous"]],"Proved but for: chdir is lost with several sources and for intermediate files; a single-source builder converts twice; add_action leaves a stale memory (counterexamples proved). The theorems on products and termination are for tables without emitters.")
c("C76","partial",["Verif.Repo."+x for x in ["C76_correct","C76_same_as_one_tree","C76_repositories_untouched","C76_null_build","C76_built_elsewhere","C76_local_copy","Ex.C76_nonvacuous","Ex.C76_built_elsewhere_nonvacuous","Ex.C76_repository_overwritten","Ex.C76_written_through","Ex.C76_second_repository"]],"Proved for --duplicate=copy, and with hard links (the default) for projects without Precious targets whose Local targets are the only targets of their actions. Without these conditions the action writes into the repository (counterexamples proved).")
c("C77","partial",["Verif.Batch."+x for x in ["C77_correct","C77_nocache","C77_failure","C77_nothing_iff","C77_only_changed","C77_targets_mode","C77_second_run","C77_another_batch","C77_executors","C77_msvc","Ex.C77_nonvacuous","Ex.C77_cache_removes_target","Ex.C77_second_target_ignored","Ex.C77_second_target_stale","Ex.C77_precious_first","Ex.C77_repeated_call","Ex.C77_msvc_suffix"]],"Proved when the command names all sources, or all targets are removed first and no first target is precious, or there is no cache and the first target of each batch is out of date whenever another is (one target per batch is enough). Without these conditions targets are lost or stay stale: counterexamples proved.")
c("C78","partial",["Verif.Options."+x for x in ["C78_precedence","C78_local_option","C78_append_option","C78_unknown","C78_settable","C78_first_parse","C78_words","Ex.words_applied","Ex.nonvacuous","Ex.applied","Ex.value_is_a_target","Ex.two_separate_values","Ex.last_declared_wins","Ex.counted_twice","Ex.warn_not_on_command_line","Ex.append_with_default","Ex.hash_chunksize","Ex.implicit_deps_changed","Ex.no_progress_false","Ex.errors"]],"Proved for leftover arguments that are long options with attached values, or words, and names under which SetOption stores the value itself. Separate values, clustered letters, several options for one name, and lists with defaults break the precedence: counterexamples proved.")
c("C79","partial",["Verif.Prog."+x for x in ["C79_linked_is_dependency","C79_only_libraries","Ex.nonvacuous","Ex.applied","Ex.file_name","Ex.literal","Ex.point_in_name"]],"Proved for libraries given by their plain names (with or without the prefix). For libraries given by file name, with the literal prefix, or with a point in the name the linked file is not a dependency: counterexamples proved.")
c("C80","partial",["Verif.ImplicitCache."+x for x in ["C80_implicit_cache_partial","C80_deps_changed","C80_deps_unchanged","Ex.nonvacuous","Ex.applied","Ex.hidden_header","Ex.ignore_removed","Ex.ignored_header_changed","Ex.ignored_by_one_target","Ex.depends_to_source","Ex.deps_unchanged","Ex.old_header_still_a_child"]],"Equality of whole histories with and without the option. Missing: histories in which sources, Depends() or Ignore() of the command change, targets of one command that ignore different files, and ignored files that come to include others; there the cache is wrong (counterexamples proved), as it is for a header that hides another (documented).")
c("C81","partial",["Verif.Install."+x for x in ["C81_directory_partial","C81_directory_succeeds","C81_file","Ex.nonvacuous","Ex.applied","Ex.file_applied","Ex.file_into_directory","Ex.read_only_once","Ex.removed_file_stays"]],"Files in full; directories when no file of the source meets a directory in the destination (there the file is put into the directory: counterexample proved). Symbolic links and special files are not modelled.")
c("C82","partial",["Verif.Chmod."+x for x in ["C82_chmod_partial","C82_octal","Ex.nonvacuous","Ex.applied","Ex.octal_applied","Ex.set_for_one_class","Ex.nobody_named","Ex.half_done"]],"Missing: clauses with = that are not for all classes, and clauses that name no class; there the code differs from POSIX chmod (counterexamples proved). One file; the class of POSIX permissions r, w, x only.")
c("C83","partial",["Verif.Build."+x for x in ["C83_content_timestamp_partial","C83_timestamp_match_partial","C83_timestamp_newer_partial","C83_second_run_partial","TEx.applied","TEx.second_run_applied","TEx.newer_restored","TEx.newer_deleted","TEx.newer_other_file","TEx.match_other_file","TEx.order_changed","TEx.same_time"]],"Missing: dependencies that change without the command or a file that is looked at changing (Keyed, InOrder); there each of the deciders goes wrong in its own way (counterexamples proved, also for each hypothesis on times). Targets are handled one at a time; no killed runs.")
c("C84","partial",["Verif.Subst.C84_command_is_the_signed_text_partial","Verif.Subst.C84_changed_command_changes_signature_partial"]+["Verif.Sgn."+x for x in ["C84_no_change_is_lost_partial","C84_changed_actions_change_contents_partial","C84_one_change_is_noticed","CEx.applied","CEx.counterexample_command_boundary","CEx.counterexample_word_boundary","CEx.counterexample_varlist_boundary","CEx.counterexample_trailing_blank","CEx.counterexample_other_directory","CEx.counterexample_chdir"]],"Missing: text that moves from one command, word or variable to the next (nothing separates them), values that end in a blank and are followed by text, redirections and $( $) in the text, sources in other directories, chdir; the code does not notice these (counterexamples proved).")
c("C85","partial",["Verif.Sgn."+x for x in ["C85_whereIs","C85_program_is_dependency_partial","C85_only_programs","C85_thorough","DEx.applied","DEx.thorough_applied","DEx.counterexample_relative_path","DEx.counterexample_no_sources","DEx.counterexample_after_and","DEx.counterexample_blank_in_name","DEx.counterexample_file_hides_program"]],"Missing: programs named by a relative path with a slash, targets without sources, programs after the first word in the default mode, names with blanks; the code misses these (counterexamples proved).")
c("C86","partial",["Verif.TempFile."+x for x in ["C86_same_arguments_partial","C86_only_if_too_long","C86_signature_is_that_of_the_command","read_fileText","Ex.second_line_lost","Ex.quotes_lost","Ex.backslash_lost","Ex.old_file_used_again"]],"Missing: commands of several lines, arguments with quotes or backslashes, commands whose words change within one process; the code gets these wrong (counterexamples proved).")
c("C87","partial",["Verif.CScan."+x for x in ["C87_exactly_the_directives_partial","C87_every_file_read_is_a_dependency_partial","C87_names_looked_for","Ex.next_directive_hidden","Ex.other_forms_missed","Ex.name_cut_off","Ex.angle_found_in_source_directory"]],"Missing: directives with comments, macros or continuation lines before the name, and texts in which something that is not a directive begins like one; the code misses headers there (counterexamples proved).")
c("C88","partial",["Verif.PrePost."+x for x in ["C88_before_and_after_partial","Ex.C88_asked_before_never_runs","Ex.asked_before_is_lost","Ex.asked_before_multi_loses_builder","Ex.second_call_forgets"]],"Missing: statements before the builder call and repeated calls of an ordinary builder for the same target; the code drops the added actions there (counterexamples proved). Batch builders are not modelled here.")
c("C89","partial",["Verif.CppExpr."+x for x in ["C89_conditions_as_the_compiler_partial","C89_defined_constants_partial","C89_more_text_is_false","fuel_enough","Ex.undefined_name","Ex.builtin_name","Ex.defined_compared","Ex.defined_added","Ex.not_binds_differently","Ex.chained_comparison","Ex.and_binds_differently","Ex.division","Ex.value_of_and","Ex.conditional_operator","Ex.not_after_comparison","Ex.blanks_in_parentheses","Ex.exception_escapes","Ex.define_is_not_textual","Ex.define_name","Ex.define_runs_python","Ex.define_divides"]],"Proved for conditions without division and ?:, in which !, defined and comparisons are not operands of arithmetic or comparisons without parentheses, and whose evaluated names are macros that stand for integers. Missing: the rest, where the code decides otherwise (counterexamples proved).")
c("C90","partial",["Verif.CppText."+x for x in ["C90_directives_found_partial","Ex.C90_include_next_counterexample","Ex.C90_ifdef_blank_counterexample","Ex.C90_two_comments_counterexample","Ex.C90_slashes_counterexample","Ex.C90_null_directive_counterexample","Ex.C90_elifdef_counterexample","Ex.C90_in_comment_counterexample","Ex.C90_empty_if_counterexample"]],"Proved for texts of lines that are directives with at most one comment, at the end, or other lines. Missing: comments elsewhere (between the parts of a directive, over several lines), #include_next, a # alone, directives whose name begins like another one, white space after the name of #ifdef: there the code reads something else (counterexamples proved).")
c("C91","partial",["Verif.Java."+x for x in ["C91_class_files_partial","Ex.applied","Ex.constructor_reference","Ex.two_type_arguments","Ex.short_type_argument","Ex.new_at_end_of_line","Ex.qualified_new","Ex.class_in_anonymous","Ex.class_in_arguments","Ex.record_missing","Ex.enum_constant_body","Ex.text_block"]],"Proved for Java 1.8 and later and texts of arbitrary nesting whose anonymous classes and arguments of new contain no named classes. Missing: the forms for which the code finds something else (ten counterexamples proved); older versions of Java.")
c("C92","partial",["Verif.Text."+x for x in ["C92_file_is_the_filled_templates_partial","C92_without_substitutions","C92_order_does_not_matter_partial","C92_changed_entries_change_signature_partial","C92_blank_separators_are_not_signed","Ex.applies","Ex.applies_values","Ex.C92_counterexample_function","Ex.C92_counterexample_between","Ex.C92_counterexample_value","Ex.C92_counterexample_prefix","Ex.C92_counterexample_separator","Ex.C92_counterexample_variable","Ex.C92_variable_in_sequence_is_signed","Ex.C92_counterexample_blanks","Ex.signature_applies"]],"Proved for placeholders between delimiters, values without the opening one, and placeholders kept apart; the signature for sequences of words. The code does not have the property in full: seven counterexamples, among them a separator and a variable in a dictionary whose change is not seen.")
c("C93","partial",["Verif.Depends."+x for x in ["C93_dependencies_of_the_file_partial","C93_only_one","C93_last_line_end","Ex.applies","Ex.unfinished","Ex.C93_counterexample_glued","Ex.C93_counterexample_blank","Ex.C93_counterexample_drive","Ex.C93_counterexample_comment","Ex.C93_counterexample_command"]],"Proved for files of rules, comments and empty lines whose continuations have a blank beside them and whose names have no blanks, and targets no colon. The other forms that make knows are read wrongly: five counterexamples.")
c("C94","partial",["Verif.Kids."+x for x in ["C94_children_partial","C94_sources_partial","Ex.applied_children","Ex.applied_sources","Ex.applied_other","Ex.stale_child"]],"Proved for all histories in which every scan that follows dropped implicit dependencies finds something. Otherwise false with --implicit-cache: Ex.stale_child. Executors have one batch and fixed targets; _specific_sources is left out.")
c("C95","partial",["Verif.Decide."+x for x in ["C95_who_decides_partial","C95_time_from_cache_partial","Ex.applied","Ex.applied_cache","Ex.override_leaks","Ex.lost_by_builder","Ex.lost_by_entry","Ex.cache_time_of_default","Ex.unknown_name"]],"Excluded: Decider of an override environment (it changes the overridden one), a node's own function given before its builder call or before an entry is disambiguated (it is lost), and the times of cached files when the function is that of the default environment: false of the code, counterexamples proved. No multi or batch executors.")
c("C96","partial",["Verif.ShellEnv."+x for x in ["C96_every_schedule_partial","C96_plain","C96_started","C96_generators_leave_it","variables_unique","Ex.vars_ok","Ex.applied","C96_counterexample_changed","C96_counterexample_generator","C96_counterexample_tuple"]],"Generators must not distinguish a value from its text, because the code converts the shared ENV in place, so what they see depends on which commands ran before; and so running a command does change ENV: false of the code, counterexamples proved. Posix; no environment without ENV.")
c("C97","partial",["Verif.Warn."+x for x in ["C97_last_request_decides","C97_command_line_partial","C97_mandatory_partial","C97_unknown_type","Ex.applied","Ex.applied_mandatory","Ex.unknown","C97_counterexample_precedence","C97_counterexample_mandatory","C97_counterexample_reserved"]],"Proved with the order the code really has: SetOption after the command line. The precedence of the command line, the display of mandatory warnings after no-all and no-deprecated, and the documented default of reserved-variable are false of the code, counterexamples proved.")
c("C98","partial",["Verif.Tex."+x for x in ["C98_finished_partial","C98_same_document_partial","C98_bounded","C98_ends","Ex.paper_programs","Ex.applied","C98_counterexample_parallel","C98_counterexample_failed","C98_counterexample_chapters","C98_counterexample_glossary"]],"Proved for a document whose steps are not interleaved with those of another one, one bibliography, and a start where existing index inputs have their indices. Documents built in parallel, files left by a failed run, bibliographies of chapters, and glossaries of other documents: false of the code, counterexamples proved. The log must ask for another run when auxiliary files have changed, and what BibTeX reads must be the same in every run.")
c("C99","partial",["Verif.Fortran."+x for x in ["findUses_file","findIncls_file","findDefs_file","C99_scan_names_partial","C99_emit_targets_partial","C99_use_depends_on_definition_partial","solverFile_proper","userFile_proper","C99_counterexample_prefix","C99_counterexample_typed_function","C99_counterexample_comment","C99_counterexample_swallow","C99_counterexample_continuation","C99_counterexample_second_statement","C99_counterexample_moddir"]],"The patterns are terms of a backtracking matcher, constructor by constructor as in the source. Proved for ASCII files in which no semicolon in a comment or literal is followed by use, include or module, modules are the first statement of their line and have names that do not begin with procedure, subroutine, function, pure or elemental, and use and the name are on one line. Outside of that: false of the code, counterexamples proved.")
c("C100","partial",["Verif.Methods."+x for x in ["C100_calls_act_on_their_environment_partial","C100_same_function","sample_fair","C100_lookup_through_override_rebinds","C100_method_of_override_leaks","C100_function_with_two_names","C100_value_over_builder_lost","C100_method_deleted_with_builder","C100_replaced_method_stops_clone","C100_hidden_builder_returns"]],"Full for overrides, and for other environments unless the name was looked up through an override since it was set. The histories left out (methods added to an override, one function under two names one of which becomes a builder, values over builder names, deleting a builder under the name of a method, cloning with a looked-up method that hides a builder) are those for which the code does something else: a counterexample is proved for each.")
c("C101","partial",["Verif.Cache.Open."+x for x in ["C101_everyone_finds_the_same","C101_no_broken_configuration","C101_configuration_is_kept","C101_only_timeouts","C101_no_deadlock","C101_nobody_hangs","C101_lock_given_back","C101_ten_steps","C101_everyone_gets_in","C101_counterexample_dangling_lock","C101_counterexample_existing_directory","C101_counterexample_readonly"]],"Agreement, no broken configuration and the bound on steps hold for all runs, crashes included. That everybody gets in holds if nobody dies, everybody may write and the directory was missing or a cache directory; for each of these conditions a counterexample is proved.")
c("C102","partial",["Verif.Cache.Convert."+x for x in ["C102_conversion_partial","C102_interrupted","C102_counterexample_resume","C102_counterexample_leftover"]],"Full for cache directories that contain only what CacheDir puts there; a leftover temporary directory or an interrupted earlier conversion makes the conversion fail with nothing findable (counterexamples proved). No file is ever lost from the disk.")
c("C103","partial",["Verif.FileAct."+x for x in ["C103_delete_partial","C103_delete_must_exist_partial","C103_mkdir_partial","C103_mkdir_in_the_way","C103_touch_partial","C103_copy_file_partial","C103_copy_link","C103_copy_through_link_partial","C103_copy_tree_partial","C103_copy_list_partial","C103_move_partial","C103_move_gone","C103_copy_tree_exists","C103_memory_partial","C103_counterexample_delete_denied","C103_counterexample_touch_backwards","C103_counterexample_copy_name","C103_counterexample_copy_flag","C103_counterexample_copy_same_name","C103_counterexample_memory","C103_counterexample_move_denied"]],"Exact effect on every path, for paths whose directories are not links and directories that may be written to. Left out: links to directories below a tree copied with symlinks=False. The code falsifies the rest of the claim: silent failure of Delete, Touch that makes a file older, wrong name and forgotten flag for Copy through links, stale memory below a deleted directory (counterexamples proved).")
c("C104","partial",["Verif.ConfH."+x for x in ["C104_config_h_partial","C104_have_iff","C104_checkLib_found","C104_checkLib_none","C104_with_mem","C104_with_order","C104_checkLib_iff","C104_same_macro_counterexample","C104_failed_but_defined_counterexample","C104_later_failure_counterexample","C104_same_guard_counterexample","C104_comment_counterexample","C104_newline_counterexample","C104_size_zero_counterexample","C104_unset_counterexample","C104_unique_order_counterexample"]],"The header, read by a separate small reader of C comments and definitions. Hypotheses: no end of a comment in names of checks and comments, no line break in what Define is given; the code falsifies the claim without them, and macros of different checks coincide (counterexamples proved).")
c("C105","partial",["Verif.ShLib."+x for x in ["C105_build_partial","C105_install_partial","C105_clean","C105_lib_name","C105_lib_name_number","C105_lib_name_plain","C105_soname","C105_link_names","C105_side_by_side","C105_counterexample_upgrade","C105_counterexample_cache","C105_counterexample_suffix_given","C105_counterexample_dot","C105_counterexample_soversion_only","C105_counterexample_nolinks"]],"Proved where only links, or nothing, are in the way of the links, and for names without a dot. The code falsifies the rest: a library from the cache has no links, an earlier library with the short version is in the way, names with dots (counterexamples proved).")
c("C106","partial",["Verif.PathL."+x for x in ["C106_fresh","C106_history_partial","C106_colons","C106_nested","C106_plain","C106_scanner_is_compiler_partial","C106_searched","C106_same_memory","C106_counterexample_split","C106_counterexample_none","C106_counterexample_empty"]],"Proved for histories in which no string is used both split and unsplit, and for values other than None. The code falsifies the rest (counterexamples proved).")
c("C107","partial",["Verif.PyScan."+x for x in ["C107_statements","C107_no_statements","C107_found_partial","C107_exists","C107_transitive_partial","C107_order_partial","C107_search_path","C107_counterexample_list","C107_counterexample_semicolon","C107_counterexample_parentheses","C107_counterexample_as","C107_counterexample_relative","C107_counterexample_order","C107_counterexample_unset","C107_counterexample_namespace"]],"Proved for statements with one module or with names of which only the last is renamed, regular packages, relative names with one part, and no name both beside the script and in PYTHONPATH. The code falsifies the rest (counterexamples proved).")
c("C108","partial",["Verif.TexScan."+x for x in ["C108_comments_partial","C108_commands","C108_import","C108_file","C108_closure_partial","C108_ends","C108_found_partial","C108_example","C108_option_two_lines","C108_comma_space","C108_empty_option","C108_group","C108_dots","C108_star","C108_newline_comment","C108_import_path","C108_history"]],"Proved for documents as the specification describes them, and files without import commands. The code falsifies the rest (counterexamples proved).")
c("C109","partial",["Verif.Zip."+x for x in ["C109_unpacked_partial","C109_link_source","C109_made","C109_name","C109_root","C109_link_lost","C109_outside","C109_twice","C109_order","C109_old","C109_root_literal"]],"Proved for sources below ZIPROOT that are not links to directories. Outside ZIPROOT, and below links, the code falsifies it (counterexamples proved). Empty directories are not stored; the specification speaks of files only.")
c("C110","partial",["Verif.CacheSys."+x for x in ["C110_correct_partial","C110_cache_truthful","C110_same_as_without_partial","C110_cache_stays","C110_null_build","C110_sources_untouched","C110_pushed","C110_second_tree","Ex.C110_example","Ex.C110_example_second","Ex.C110_example_null","Ex.C110_example_partial","Ex.C110_renamed_counterexample","Ex.C110_force_counterexample","Ex.C110_killed_counterexample"]],"Proved for actions that depend on the contents (and not the names) of their dependencies, for --cache-force only in trees without hand-edited targets and killed builds, and for trees without these; each condition is needed (counterexamples proved). Signatures and cache names are assumed not to clash.")
c("C111","partial",["Verif.Attrs."+x for x in ["C111_splitext","C111_splitext_unique","C111_path","C111_abspath","C111_relpath","C111_base_suffix","C111_base_suffix_opens","C111_suffix","C111_base_suffix_injective","C111_str","C111_srcnode","C111_dir_file","C111_srcdir_file","C111_repository","C111_windows","C111_chains","C111_signature_name_only","C111_signature_separates","C111_srcpath_signature","C111_target_place","C111_target_collision","C111_target_pieces","Ex.C111_not_os_splitext","Ex.C111_dotfiles_collide","Ex.C111_cwd_base","Ex.C111_variant_pieces_disagree","Ex.C111_signature_blind","Ex.C111_signature_names_mixed","Ex.C111_hash_target","Ex.C111_path_moves"]],"Proved for every node but the current directory itself (base and suffix), for directories with no variant directory above them or duplicated ones (dir and file), and for the attributes that are texts (signatures); the code falsifies the rest: counterexamples proved. POSIX only.")
c("C112","partial",["Verif.Tree."+x for x in ["C112_tree_true","C112_tree_complete","C112_tree_pruned","C112_includes","C112_tree_bars","C112_includes_bars","C112_pruned_ends","C112_includes_ends","C112_tree_ends","C112_cycle_fails","C112_sources","Ex.C112_example","Ex.C112_ignored_cycle","Ex.C112_same_name","Ex.C112_depends_not_found"]],"Proved in full for graphs without cycles (unpruned) or with different names (completeness); the code falsifies the rest: an unpruned tree of a graph with a cycle ends in a RecursionError, also when Ignore breaks the cycle; with prune, a node is hidden behind another of the same name. Status tags and the order of FindSourceFiles are not modelled.")
c("C113","partial",["Verif.Hash."+x for x in ["C113_chunks","C113_format","C113_filename","C113_right","C113_database","C113_directories","C113_directories_example","C113_named","C113_one_format","Ex.C113_example","Ex.C113_formats_mixed","Ex.C113_databases_mixed","Ex.C113_check_first","Ex.C113_default_name","Ex.C113_named_late","Ex.C113_check_format","Ex.C113_explicit_md5"]],"Proved for targets that were last made by a run with the same database, hence for all histories with a named database or with one format; the code falsifies the rest: with two databases a target built in between from another source is taken for up to date (counterexample). Up to collisions among the contents that occurred. max_drift is not 0; no repositories.")
c("C114","partial",["Verif.CompDb."+x for x in ["C114_recorded","C114_sound","C114_once","C114_once_simple","C114_json","C114_database","C114_process","C114_process_only","C114_command_partial","C114_silent_empty","Ex.C114_tool_order","Ex.C114_earlier_calls_missing","Ex.C114_clones_interfere","Ex.C114_same_object_twice","Ex.C114_names_not_escaped","Ex.C114_backslash_lost","Ex.C114_lines_lost"]],"How often each call is recorded is proved for all histories, and that the file is read back; once each where the tool was loaded once after the languages. The code falsifies the rest: order of tools, clones, objects asked for twice, names that need escaping, silent and multi-line commands (counterexamples). What a command variable expands to is given.")
c("C115","partial",["Verif.ActMake."+x for x in ["C115_order","C115_object","C115_add","C115_add_none","C115_generator","C115_generator_one","C115_second_generator","C115_endless","C115_variable_generator","C115_odd"]],"Proved for everything without the keyword generator, generator objects included, and for one function with it. The code falsifies it for several functions with generator=True, for functions and variables in one such list, and for objects that are no actions, which are left out of lists without a word (counterexamples).")
c("C116","partial",["Verif.Prep."+x for x in ["C116_ready","C116_link_above","C116_link_above_sample","C116_link_for_directory","C116_frame","C116_schedule","C116_schedule_runs","C116_missing_source","C116_missing_dependency","C116_up_to_date","C116_dry_run","C116_removed_and_not_built","C116_directory_not_made_again"]],"Proved for all graphs and schedules in which commands remove no directories. The code falsifies two parts: a target can be removed although the command is then not run, and a directory SCons has made once and that was removed is not made again (counterexamples). Targets that are directories and the action keyword targets are not modelled.")
c("C117","partial",["Verif.Link."+x for x in ["C117_shared","C117_first","C117_same","C117_prebuilt_refused","C117_false_is_true","C117_linker","C117_one_fits","C117_after_d","C117_d_signature","C117_d_without_tool","C117_cxx_not_seen"]],"The part on shared objects and, without sources in D, the part on linkers are proved for all histories. With sources in D the code falsifies it (counterexamples): the command of all later programs of the environment changes, and the signature of the first one is not that of the command that is run. Prebuilt shared objects are refused; C++ in libraries is not seen.")
c("C118","partial",["Verif.Lists."+x for x in ["C118_unique_list","C118_determined","C118_unique","C118_unique_sets","C118_init_keeps","C118_remove_leaves","C118_copy_keeps","C118_del_wrong","C118_eq_not_symmetric","C118_flatten","C118_flatten_twice"]],"Flatten is proved in full. UniqueList is proved for all histories in which, after something was added, the list is looked at before it is changed at a position or copied, and starts without repetitions; the code falsifies the rest (counterexamples), and unique for elements such as sets whose order is not total.")
c("C119","partial",["Verif.Select."+x for x in ["C119_ext","C119_last","C119_select","C119_order","C119_action","C119_refused","C119_chosen","C119_emitter","C119_no_sources","C119_order_of_sources","C119_variable_dots","C119_emitter_dots","C119_clash_elsewhere","C119_no_default","C119_digits"]],"The choice is characterised for all dictionaries and sources, and its independence of the order of the actions proved. The code falsifies: independence of the order of sources (one without suffix may come first), variables with two dots, emitters for the same suffixes as actions, clashes of suffixes the source does not have (counterexamples).")
c("C120","partial",["Verif.DScan."+x for x in ["C120_file_partial","C120_decl_partial","C120_find_partial","C120_some","C120_sample","C120_comment_counterexample","C120_commented_out_counterexample","C120_comment_inside_counterexample","C120_dots_counterexample","C120_word_counterexample","C120_find_counterexample","C120_package_counterexample","C120_find_sample"]],"The names are exactly those of the declarations for all texts in which the word import is only what begins one; after any text that ends with a character no import goes over, a declaration is found. The code falsifies the rest: comments, blanks around dots, packages, interface files of later directories (counterexamples).")
c("C121","partial",["Verif.JavaCp."+x for x in ["C121_reads_partial","C121_derived_partial","C121_entries_partial","C121_exact","C121_sample","C121_sample_class","C121_sample_jar","C121_sample_archive","C121_sample_derived","C121_new_directory_counterexample","C121_link_counterexample","C121_capitals_counterexample","C121_list_counterexample"]],"The dependencies are characterised exactly, and contain what javac reads on all trees but for: classes to be made in a directory that is not there yet, links to directories, names in capitals, hidden jar files and names with asterisks, lists with separators in an element (counterexamples for the main ones).")
c("C122","partial",["Verif.Yacc."+x for x in ["C122_yacc_partial","C122_lex","C122_first","C122_variables","C122_only","C122_apart_partial","C122_frozen_counterexample","C122_sample","C122_sample_asked","C122_sample_frozen","C122_cluster_counterexample","C122_joined_counterexample","C122_verbose_counterexample","C122_objc_counterexample"]],"The targets are exactly what flags and variables ask for, but for options in one word with others or with their file, and the long form of -v (counterexamples). Calls are independent when the variables expand to nothing; otherwise the code falsifies it, proved for all sequences of calls.")
c("C123","partial",["Verif.Swig."+x for x in ["C123_module_partial","C123_targets_partial","C123_directors_partial","C123_sample","C123_sample_module","C123_sample_targets","C123_sample_directors","C123_java_counterexample","C123_comment_counterexample","C123_semicolon_counterexample","C123_flag_counterexample","C123_twice"]],"Name and directors of a directive anywhere in any text without a second one, and the files written for it, for Python and Java. Excluded because the code falsifies them: a closing parenthesis later on the line of a directive with options, names with a semicolon, the flag -module, Java files beside a wrapper in another directory (counterexamples).")
c("C124","partial",["Verif.Pot."+x for x in ["C124_template_partial","C124_written_iff","C124_failed","C124_again","C124_names_partial","C124_deps_partial","C124_sample","C124_sample_names","C124_sample_deps","C124_stale_counterexample","C124_message_counterexample","C124_crlf_counterexample","C124_blank_counterexample","C124_comment_counterexample","C124_node_counterexample"]],"Both directions of when a template is written, for all texts; the names of lists of files with comments and blank lines; dependencies through the search path. The code falsifies the rest: no messages at all, lines of messages that look like the date, carriage returns, blanks at the end of a line, nodes in XGETTEXTFROM (counterexamples).")
c("C125","partial",["Verif.Jar."+x for x in ["C125_archive_partial","C125_calls_partial","C125_order","C125_sample","C125_sample_archive","C125_sample_calls","C125_flags_counterexample","C125_option_counterexample","C125_order_counterexample","C125_chdir_counterexample","C125_manifests_counterexample","C125_letter_counterexample","C125_text_counterexample"]],"The archive that the command makes, against a specification of how jar reads its arguments, for one word of letters in JARFLAGS and sources below their directory; the calls of the pseudo-builder. The code falsifies the rest: more options in JARFLAGS, m before f, sources outside JARCHDIR, a second manifest, a text as the only source (counterexamples).")
c("C126","partial",["Verif.Vars."+x for x in ["C126_value_partial","C126_accepted","C126_sample","C126_sample_value","C126_sample_last","C126_sample_last_met","C126_case_counterexample","C126_false_counterexample","C126_empty_counterexample"]],"For all sources and other variables, values without a dollar sign, and defaults that are words in lower case or paths; the code falsifies it for default words with capitals, the default False and the empty text (counterexamples). As in C61 no source assigns the variable under two names.")
c("C127","partial",["Verif.Iface."+x for x in ["C127_swig_partial","C127_swig_lines","C127_idl_partial","C127_sample","C127_sample_swig","C127_sample_idl","C127_swig_counterexample","C127_idl_counterexample"]],"For all texts; names without blanks (SWIG) and brackets or quotes, a blank before the name in IDL, one import in a line. The code falsifies it for options in parentheses, blanks in names, comments, an IDL #include directly before the name and several imports in a line (counterexamples).")
c("C128","proved",["Verif.Ver."+x for x in ["C128_version","C128_scons","C128_monotone","C128_python","C128_sample","C128_sample_tag","C128_tag","C128_development"]],"For all versions and demands in natural numbers. Tags such as b1 are not compared (C128_tag), and the version of an unbuilt source tree meets every demand (C128_development).")
c("C129","partial",["Verif.Util.FindProg."+x for x in ["C129_found","C129_kept","C129_added_partial","C129_sample","C129_sample_kept","C129_current_counterexample","C129_empty_counterexample"]],"For all paths and file systems in which paths that are the same when normalised are one directory. The code falsifies it for a program found through the current directory, and for an empty directory in PATH (counterexamples).")
c("C130","partial",["Verif.InstTo."+x for x in ["C130_targets","C130_apart","C130_sandbox_partial","C130_moved","C130_as_partial","C130_found_partial","C130_sample","C130_sample_found","C130_sandbox_counterexample","C130_relative_counterexample","C130_as_counterexample","C130_found_counterexample"]],"For all texts that do not lead out and all histories. The code falsifies it for nodes, names that begin with a number sign and .. with a sandbox, relative directories of different scripts with a sandbox, InstallAs with lists of different lengths, and callers that change the list (counterexamples).")
#MORE
here=os.path.dirname(os.path.abspath(__file__))
json.dump({"claims":C},open(os.path.join(here,"..","MANIFEST.json"),"w"),indent=1)
