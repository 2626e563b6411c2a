{"id": "C01", "title": "A target is handed out only after its dependencies are finished", "statement": "Whenever Taskmaster.next_task() hands out a task for a node (and no exception is pending on that task), every dependency and order-only prerequisite returned by the scan of that node at that moment is already in the up-to-date or executed state - none is unvisited, pending, still executing or failed.", "quantifier": "all dependency graphs (also cyclic), all scan results that change over time, all interleavings of outstanding tasks and all success/failure outcomes", "why_tests_cant": "the walk interleaves with task completions; no finite set of graphs/schedules covers the ordering guarantee", "anchors": ["SCons/Taskmaster/__init__.py: Taskmaster._find_next_ready_node, next_task", "SCons/Executor.py: get_all_children, get_all_prerequisites"]}
{"id": "C02", "title": "Each target is built at most once per run", "statement": "In one run, a given target node is started for execution at most once, however many parents, duplicate candidates, co-targets or re-scans refer to it.", "quantifier": "all graphs, scan results, schedules and outcomes", "why_tests_cant": "needs an invariant over every history of candidate pushes and re-evaluations", "anchors": ["SCons/Taskmaster/__init__.py: Task.make_ready_current, executed_with_callbacks, fail_continue, Taskmaster._find_next_ready_node"]}
{"id": "C03", "title": "Nothing that depends on a failed target is built", "statement": "With --keep-going, once a target failed, no target that (transitively) depends on it is ever started afterwards.", "quantifier": "all graphs, all failure sets, all schedules", "why_tests_cant": "depends on every way failure status can propagate through partially visited graphs", "anchors": ["SCons/Taskmaster/__init__.py: Task.fail_continue, Taskmaster.will_not_build, _find_next_ready_node (children_failed)"]}
{"id": "C04", "title": "After a stop no new task is started", "statement": "Without --keep-going, after the first failed task has been processed (or after an interrupt called stop), next_task() returns None for ever: no further target is started, and the candidate list is emptied.", "quantifier": "all states of the walk at which the failure can arrive, all later completions of tasks still running", "why_tests_cant": "the failure may arrive at any point in any schedule, with any number of other tasks in flight", "anchors": ["SCons/Taskmaster/__init__.py: Task.fail_stop, Taskmaster.stop, no_next_candidate, will_not_build"]}
{"id": "C05", "title": "Completeness: a finished build without failures has visited everything requested", "statement": "If the dependency relation is acyclic, no task failed and the walk is over (next_task() returned None and no task is outstanding) then every requested target is up to date or executed, and so is, recursively, everything found in the scan of each such node.", "quantifier": "all acyclic graphs, all scan results within them, all schedules", "why_tests_cant": "a lost wake-up in reference counting would show up only in particular graphs and schedules", "anchors": ["SCons/Taskmaster/__init__.py: Task.postprocess, Taskmaster._find_next_ready_node", "SCons/Node/__init__.py: add_to_waiting_parents"]}
{"id": "C06", "title": "A dependency cycle is never silently ignored", "statement": "If the walk ends with no failure but some requested target was not brought up to date, Taskmaster.cleanup() raises the 'Found dependency cycle(s)' error.", "quantifier": "all graphs and schedules", "why_tests_cant": "cycle detection is driven by the pending_children bookkeeping, which must be right for every visiting order", "anchors": ["SCons/Taskmaster/__init__.py: Taskmaster.cleanup, pending_children, find_cycle"]}
{"id": "C07", "title": "No false cycle reports", "statement": "If the (scanned) dependency relation is acyclic, cleanup() does not raise, whatever failed. (FOUND FALSE for --keep-going and for --ignore-errors: see DESIGN.md; proved for runs without such failures, including stopped runs.)", "quantifier": "all acyclic graphs, schedules, failures", "why_tests_cant": "a stale pending_children entry needs a particular combination of graph shape, failure and schedule", "anchors": ["SCons/Taskmaster/__init__.py: Taskmaster.cleanup, will_not_build, _find_next_ready_node (children_failed)"]}
{"id": "C08", "title": "Targets sharing a side effect never run concurrently", "statement": "Two tasks that have a common SideEffect() node are never executing at the same time. (FOUND FALSE with --keep-going when the side-effect file is itself requested/depended upon; proved otherwise.)", "quantifier": "all graphs, schedules with any number of jobs, outcomes", "why_tests_cant": "mutual exclusion must hold in every interleaving", "anchors": ["SCons/Taskmaster/__init__.py: Taskmaster._find_next_ready_node (wait_side_effects), Task.make_ready_current, Task.postprocess, executed_with_callbacks"]}
{"id": "C09", "title": "Searching for the next task terminates", "statement": "next_task() returns: it cannot loop for ever re-considering candidates, on any graph, cyclic or not; likewise will_not_build() terminates.", "quantifier": "all graphs (also cyclic), all states, all scan results", "why_tests_cant": "termination cannot be tested", "anchors": ["SCons/Taskmaster/__init__.py: Taskmaster._find_next_ready_node, will_not_build, no_next_candidate"]}
{"id": "C10", "title": "--keep-going builds everything that does not depend on a failure", "statement": "With --keep-going on an acyclic graph, when the walk is over every requested target that does not transitively depend on a failed node is up to date or executed.", "quantifier": "all acyclic graphs, all sets of failing tasks, all schedules", "why_tests_cant": "a combination of failure propagation and reference counting over all graph shapes", "anchors": ["SCons/Taskmaster/__init__.py: Task.fail_continue, Taskmaster.will_not_build, Task.postprocess"]}
{"id": "C11", "title": "At most N commands run at once with -jN", "statement": "At no time are more than N tasks being executed by the scheduler created with num=N.", "quantifier": "all N, all thread interleavings, all task durations", "why_tests_cant": "quantifies over thread schedules", "anchors": ["SCons/Taskmaster/Job.py: NewParallel._work, _maybe_start_worker, start"]}
{"id": "C12", "title": "The parallel scheduler cannot deadlock or lose a wake-up", "statement": "In every reachable state of the worker pool in which the walk is not complete, some worker can make progress (is executing a task or can enter the critical section); when the walk is complete every worker terminates.", "quantifier": "all interleavings, all N, every taskmaster behaviour", "why_tests_cant": "missed-notification bugs depend on rare interleavings", "anchors": ["SCons/Taskmaster/Job.py: NewParallel._work (can_search_cv, state machine)"]}
{"id": "C13", "title": "Every executed task is retired exactly once, before the scheduler finishes", "statement": "Each task whose execute() was called is passed exactly once to executed()/failed() followed by postprocess(), in the critical section, before the workers report completion; none is lost or retired twice, and a task is retired as failed exactly when its execution raised.", "quantifier": "all interleavings, all N, every taskmaster behaviour", "why_tests_cant": "lost or duplicated results depend on the interleaving", "anchors": ["SCons/Taskmaster/Job.py: NewParallel._work (results_queue, jobs), Serial.start"]}
{"id": "C14", "title": "Only one thread talks to the taskmaster at a time", "statement": "At any time at most one worker is inside the critical section calling next_task/prepare/executed/failed/postprocess.", "quantifier": "all interleavings, all N", "why_tests_cant": "race conditions are schedule dependent", "anchors": ["SCons/Taskmaster/Job.py: NewParallel._work (tm_lock)"]}
{"id": "C15", "title": "Result of a successful build does not depend on -j or the schedule", "statement": "For deterministic actions that only read their declared dependencies, two complete successful runs of the same acyclic graph end with the same file contents, whatever the order and parallelism of execution.", "quantifier": "all acyclic graphs, all pairs of complete schedules", "why_tests_cant": "requires comparing all schedules with one another", "anchors": ["SCons/Taskmaster/__init__.py: Taskmaster._find_next_ready_node", "SCons/Taskmaster/Job.py: NewParallel, Serial"]}
{"id": "C16", "title": "Null build: nothing is rebuilt when nothing changed", "statement": "After a target was built and its information recorded, if its dependency list, the content of its dependencies and its action are unchanged, the target exists, then the next run decides it is up to date. (FOUND FALSE if the same node is both Depends() and Ignore(): see DESIGN.md.)", "quantifier": "all dependency lists, contents, signatures and actions", "why_tests_cant": "ranges over all dependency sets and histories", "anchors": ["SCons/Node/__init__.py: Node.changed, get_binfo, is_up_to_date", "SCons/Node/FS.py: File.changed, File.is_up_to_date"]}
{"id": "C17", "title": "Every relevant change triggers a rebuild", "statement": "With content decider: if the content of any source/explicit/implicit dependency changed, a dependency was added, removed or reordered within the recorded list, or the action signature changed, or the target is missing, the target is considered out of date (assuming the hash is collision free).", "quantifier": "all recorded states and all new states", "why_tests_cant": "a missed rebuild appears only for the unlucky combination", "anchors": ["SCons/Node/__init__.py: Node.changed, get_binfo", "SCons/Node/FS.py: File.changed_content, File.is_up_to_date"]}
{"id": "C18", "title": "Deciders mean what they say", "statement": "Decider('timestamp-match') says changed iff the dependency's timestamp differs from the recorded one (or nothing was recorded); 'timestamp-newer' iff the dependency's timestamp is newer than the target's; 'content' iff the content signature differs from the recorded one; 'content-timestamp' iff timestamp differs and content differs.", "quantifier": "all timestamps, contents, recorded infos", "why_tests_cant": "all combinations of recorded/actual values", "anchors": ["SCons/Node/FS.py: File.changed_content, changed_timestamp_match, changed_timestamp_newer, changed_timestamp_then_content", "SCons/Node/__init__.py: decide_source, decide_target"]}
{"id": "C19", "title": "Incremental build equals clean build", "statement": "After any sequence of edits to sources/actions and successful builds, the file contents after a successful content-based incremental build equal those of a build from scratch with the current sources and actions (deterministic actions, collision-free hash).", "quantifier": "all histories of edits and builds, all acyclic graphs", "why_tests_cant": "quantifies over histories", "anchors": ["SCons/Node/__init__.py: Node.changed, built, visited, store_info", "SCons/Node/FS.py: File.is_up_to_date, get_csig, store_info", "SCons/Taskmaster/__init__.py"]}
{"id": "C20", "title": "Cached content signatures are reused only when safe", "statement": "With max_drift > 0 a recorded content signature is reused without re-reading the file only if the recorded timestamp equals the file's and is older than now - max_drift; with max_drift == 0 the recorded signature is always reused (as documented); with a negative value never. (FOUND FALSE over histories: a run that visits a file without hashing it stores the new timestamp next to the old signature, see DESIGN.md.) So if a file that has not the recorded timestamp is changed, the new content is always hashed.", "quantifier": "all timestamps, drift values, recorded infos, clocks", "why_tests_cant": "unbounded integers/clock values", "anchors": ["SCons/Node/FS.py: File.get_max_drift_csig, get_csig"]}
{"id": "C21", "title": "Dependencies are compared with their own previous record", "statement": "With the content-timestamp decider, when dependencies were reordered/added/removed, the previous information used for a dependency is the one recorded under that dependency's own name, never another file's.", "quantifier": "all old and new dependency lists", "why_tests_cant": "all permutations of lists", "anchors": ["SCons/Node/FS.py: File._build_dependency_map, _get_previous_signatures, changed_timestamp_then_content"]}
{"id": "C22", "title": "The signature database is never left half written", "statement": "If the process dies at any point while the sconsign database is being written, then on the next start the database file holds either the complete previous contents or the complete new contents.", "quantifier": "all database contents, all crash points between file system operations, any number of crash/retry cycles", "why_tests_cant": "crash points cannot be enumerated by unit tests", "anchors": ["SCons/dblite.py: _Dblite.sync, close"]}
{"id": "C23", "title": "What is written to the signature database is read back", "statement": "After any sequence of set operations followed by a completed close/sync, reopening the database returns for each key the last value stored, and no other keys.", "quantifier": "all operation sequences", "why_tests_cant": "unbounded histories", "anchors": ["SCons/dblite.py: _Dblite.__init__, __setitem__, __getitem__, sync, close", "SCons/SConsign.py: DB, Base.merge, Base.set_entry"]}
{"id": "C24", "title": "Signature entries of different directories do not interfere, repositories' databases are not written", "statement": "Writing the signatures of one directory leaves the stored entries of any other directory unchanged, and merge() adds to the entries that exist rather than dropping them.", "quantifier": "all directories, all entry sets, all orders of writes", "why_tests_cant": "unbounded histories", "anchors": ["SCons/SConsign.py: DB.__init__, DB.write, Base.merge, write"]}
{"id": "C25", "title": "Per-directory .sconsign update: no corrupt file on crash", "statement": "With SConsignFile(None), a crash at any point of Dir/DirFile.write leaves, for the next run, either the old complete file, the new complete file, or no file (a full rebuild) - never a truncated file under the final name. (FOUND: the two fall-backs that write .sconsign in place - temporary file cannot be created, or cannot be renamed - do leave a truncated file on a crash; the next run recognises and ignores it, so it still reads old, new or no entries.)", "quantifier": "all crash points and contents", "why_tests_cant": "crash points", "anchors": ["SCons/SConsign.py: DirFile.__init__, DirFile.write"]}
{"id": "C26", "title": "Cache retrieval gives the bytes pushed under the same signature", "statement": "If any number of builds push into and retrieve from one CacheDir in any order, and pushes under one signature come from deterministic builds, each retrieved file is complete and equal to the file that would have been built - an entry never becomes visible under its final name before it is complete.", "quantifier": "all interleavings of pushes and fetches by concurrent processes, all crash points of pushers", "why_tests_cant": "concurrent processes and crashes", "anchors": ["SCons/CacheDir.py: CacheRetrieveFunc, CachePushFunc, CacheDir.copy_to_cache, copy_from_cache"]}
{"id": "C27", "title": "Cache key covers everything the build depends on", "statement": "Two targets get the same cache key only if target path, all dependency content signatures and the build action's signature agree (collision-free hash and fixed-length signatures). (FOUND: false when Value nodes, whose signature is their text, are among the dependencies; and the signature of a list of commands ignores where one command ends.)", "quantifier": "all pairs of build infos", "why_tests_cant": "all pairs", "anchors": ["SCons/Node/FS.py: File.get_cachedir_bsig", "SCons/CacheDir.py: CacheDir.cachepath"]}
{"id": "C28", "title": "Multi-target cache retrieval is all or nothing", "statement": "Executing a task either retrieves every target from the cache (and runs no action, pushes nothing), or removes the partially retrieved targets, runs the action exactly once and pushes every target; a build is never skipped when one target is missing in the cache. (FOUND: with -n the removal of 'partially retrieved' targets still deletes files of the build tree.)", "quantifier": "all numbers of targets and all hit/miss patterns", "why_tests_cant": "all patterns of any length", "anchors": ["SCons/Taskmaster/__init__.py: Task.execute"]}
{"id": "C29", "title": "Read-only or disabled cache is never written", "statement": "With --cache-readonly (or cache disabled, or no cache path) no push operation creates or replaces a file in the cache; with cache disabled nothing is retrieved either; --cache-force/--cache-show do not change which bytes are stored or retrieved.", "quantifier": "all flag combinations, all states of the cache", "why_tests_cant": "all states/flags", "anchors": ["SCons/CacheDir.py: CacheDir.is_enabled, is_readonly, push, push_if_forced, retrieve"]}
{"id": "C30", "title": "File lock mutual exclusion", "statement": "At no time do two processes hold the same FileLock as writer; a lock that was released can be acquired again; acquisition fails (raises) rather than proceeding unlocked when the timeout expires. (FOUND: a lock whose file descriptor happens to be 0 is never released.)", "quantifier": "all interleavings of any number of processes", "why_tests_cant": "process interleavings", "anchors": ["SCons/Util/filelock.py: FileLock.acquire_lock, release_lock"]}
{"id": "C31", "title": "Variable expansion terminates or reports an error on recursive definitions", "statement": "env.subst terminates on every set of construction variables given a string without nested ${} code, including self- and mutually-recursive definitions: a variable being expanded is not expanded again inside itself (it expands to the empty string).", "quantifier": "all variable environments and input strings", "why_tests_cant": "termination over all environments", "anchors": ["SCons/Subst.py: StringSubber.expand, StringSubber.substitute, scons_subst"]}
{"id": "C32", "title": "Text without '$' is never altered by substitution", "statement": "A string without '$' is returned unchanged by env.subst (raw mode) and as is by the tokeniser; nothing outside of variable references is altered in raw mode.", "quantifier": "all strings, all environments", "why_tests_cant": "all strings", "anchors": ["SCons/Subst.py: StringSubber.expand, scons_subst"]}
{"id": "C33", "title": "'$$' yields a literal dollar sign", "statement": "Each '$$' in the input of env.subst yields exactly one '$' that is not interpreted again. In SUBST_CMD mode '$$(' is an exception (FOUND: the removal of '$(' has no look-behind).", "quantifier": "all strings", "why_tests_cant": "all strings/positions", "anchors": ["SCons/Subst.py: StringSubber.expand, _rm, _regex_remove, scons_subst"]}
{"id": "C34", "title": "$( ... $) text does not affect the build signature", "statement": "Two command lines differing only in text enclosed in $( $) have the same signature contents (SUBST_SIG), while in command mode the enclosed text is kept and only the markers are dropped; unbalanced markers raise an error rather than produce a wrong signature.", "quantifier": "all token sequences and nestings", "why_tests_cant": "all nestings", "anchors": ["SCons/Subst.py: _remove_list, scons_subst, scons_subst_list"]}
{"id": "C35", "title": "subst_list keeps arguments apart", "statement": "In scons_subst_list a variable that expands to a list with n elements placed as a word of its own yields n separate arguments, text adjacent to a variable is glued to the first/last expanded word, white space separates words, newlines separate command lines.", "quantifier": "all token streams", "why_tests_cant": "all token streams", "anchors": ["SCons/Subst.py: ListSubber.expand, add_to_current_word, add_new_word, next_line, next_word, this_word"]}
{"id": "C36", "title": "Preprocessor conditionals select exactly the C-semantics branch", "statement": "For every well-nested sequence of #if/#ifdef/#ifndef/#elif/#else/#endif, #define and #include lines, the set of includes SCons' CPP scanner processes equals that of the C standard's rule: in each group the first branch with a true condition, nested groups only inside taken branches; conditions in skipped groups are not evaluated.", "quantifier": "all nestings, all conditions, any depth", "why_tests_cant": "unbounded nesting", "anchors": ["SCons/cpp.py: PreProcessor.process_contents, save, restore, start_handling_includes, stop_handling_includes, _do_if_else_condition, do_elif, do_else, do_endif"]}
{"id": "C37", "title": "DumbPreProcessor finds a superset of the includes", "statement": "The conditional scanner that ignores conditions (DumbPreProcessor/ClassicCPP behaviour) processes every include that the evaluating preprocessor processes.", "quantifier": "all inputs", "why_tests_cant": "unbounded nesting", "anchors": ["SCons/cpp.py: DumbPreProcessor"]}
{"id": "C38", "title": "Implicit dependencies are the transitive closure of includes", "statement": "get_implicit_deps returns exactly the nodes reachable from the start node through scanner-found includes for which the scanner recurses, each once, never the start node itself, and terminates on circular includes.", "quantifier": "all include graphs, also cyclic", "why_tests_cant": "all graphs", "anchors": ["SCons/Node/__init__.py: Node.get_implicit_deps, _get_scanner", "SCons/Scanner/__init__.py: ScannerBase.__call__, recurse_nodes"]}
{"id": "C39", "title": "Multi-step action lists stop at the first failure", "statement": "A list action runs its actions in order, stops at the first one that returns a non-zero status, and returns that status; a '-' prefixed command's failure is ignored; with -n nothing is executed; '@' suppresses printing but not execution.", "quantifier": "all action lists and results", "why_tests_cant": "all lists", "anchors": ["SCons/Action.py: ListAction.__call__, CommandAction.execute, _ActionAction.__call__", "SCons/Executor.py: execute_action_list"]}
{"id": "C40", "title": "Failures are reported in the exit status", "statement": "convert_to_BuildError maps every kind of status/exception to a BuildError with a non-zero exit status, unless the status given was success or an explicit Exit(0); if any task failed (without -i) the exit status of scons is non-zero and the failure is recorded in GetBuildFailures().", "quantifier": "all error values and all outcome sequences", "why_tests_cant": "all sequences", "anchors": ["SCons/Errors.py: convert_to_BuildError", "SCons/Script/Main.py: BuildTask.failed, do_failed, executed, _exec_main"]}
{"id": "C41", "title": "A failed or killed run does not make later builds wrong", "statement": "If a run fails or is killed at any point, a later successful run still produces exactly what a clean build would. (FOUND FALSE: the record of the last successful build is kept while the target file may be a left-over of the failed action or the output of the killed run; undoing the edit then makes SCons take it for up to date. It holds when failing actions leave no target file and the run is not killed.)", "quantifier": "all histories with failures and crashes", "why_tests_cant": "all histories and crash points", "anchors": ["SCons/Node/__init__.py: Node.built, Node.changed", "SCons/Node/FS.py: File.prepare, File.built", "SCons/SConsign.py: Base.store_info, write"]}
{"id": "C42", "title": "What a scanner finds does not depend on earlier scans", "statement": "The includes a file scanner reports for a file are those the scanner's pattern matches in the file's current text, whichever scanners scanned the file before. (FOUND FALSE: the names are remembered per node, not per scanner; proved when all scanners of the node look for the same names.)", "quantifier": "all files, all histories of scans and rebuilds of the file", "why_tests_cant": "depends on which scanner came first", "anchors": ["SCons/Scanner/__init__.py: Classic.scan", "SCons/Node/__init__.py: Node.clear"]}
{"id": "C43", "title": "The conditional C scanner searches directories in CPPPATH order", "statement": "CConditionalScanner resolves every #include to the file in the first CPPPATH directory that has it, as the compiler does. (FOUND FALSE: directories where something was found before are searched first.)", "quantifier": "all directory contents, all sequences of includes", "why_tests_cant": "depends on the sequence of earlier includes", "anchors": ["SCons/Scanner/C.py: SConsCPPConditionalScanner.find_include_file", "SCons/Node/FS.py: FileFinder.find_file"]}
{"id": "C44", "title": "A successful run really builds everything that was asked for", "statement": "Starting from the state left by any history of edits and earlier runs, when the Taskmaster's walk ends without failures, every requested target and everything it depends on has been considered, and every target considered has exactly the content a clean build of the present sources would give, although scan results are cached on the nodes and the files that are scanned change during the run.", "quantifier": "all build descriptions, histories, graphs discovered while building, orders of completion", "why_tests_cant": "all schedules and histories; the walk and the files change together", "anchors": ["SCons/Taskmaster/__init__.py: Taskmaster._find_next_ready_node, next_task, Task.executed_with_callbacks", "SCons/Node/__init__.py: Node.built, Node.scan", "SCons/Node/FS.py: File.prepare"]}
{"id": "C45", "title": "An undefined variable expands to nothing, or raises, exactly as configured", "statement": "Expanding a reference to a name that is in neither the local variables nor the environment gives the empty string when NameError is among the exceptions allowed by AllowSubstExceptions, and raises otherwise; a defined name is never treated as undefined.", "quantifier": "all environments, all names, all settings of the allowed exceptions", "why_tests_cant": "quantifies over all environments and all contexts of the reference", "anchors": ["SCons/Subst.py: StringSubber.expand, AllowSubstExceptions, raise_exception"]}
{"id": "C46", "title": "A parallel build in which nothing fails ends, with the same result for every -j", "statement": "After any history, for every project without cyclic dependencies, every N and every interleaving of the worker threads and of the file writes of their actions: scons -jN does not deadlock; it cannot take infinitely many steps other than file writes of actions still running; and if no action fails and nobody interrupts, it can only end with all workers gone, no error reported and every requested target having the content of a clean build - the same for every N and schedule.", "quantifier": "all projects, histories, numbers of threads, interleavings, orders of file writes", "why_tests_cant": "every interleaving of threads, taskmaster, and file system", "anchors": ["SCons/Taskmaster/Job.py: NewParallel", "SCons/Taskmaster/__init__.py: Taskmaster", "SCons/Node/__init__.py: Node", "SCons/Node/FS.py: File.prepare, File.built"]}
{"id": "C47", "title": "A build never touches its sources", "statement": "No step of a build - successful, failing or interrupted - changes a file that is not a target, provided actions write only to their targets.", "quantifier": "all projects, schedules, outcomes", "why_tests_cant": "every schedule and failure", "anchors": ["SCons/Taskmaster/__init__.py: Task.prepare", "SCons/Node/FS.py: File.prepare, File.built"]}
{"id": "C48", "title": "Only what was asked for is built", "statement": "At every moment of a build, every node that was evaluated, built, found up to date or failed is a requested target (or what alter_targets() names instead) or connected to one by dependencies found by scans, prerequisites, common executors or side effects. Nothing else is built.", "quantifier": "all graphs, scan results, schedules, outcomes", "why_tests_cant": "all graphs and all schedules", "anchors": ["SCons/Taskmaster/__init__.py: Taskmaster._find_next_ready_node, find_next_candidate, Task.postprocess, will_not_build"]}
{"id": "C49", "title": "An override environment never changes what it overrides", "statement": "However a program creates, nests, reads and writes environments and override environments, writes and deletions through an override environment change only that one and those built on it; a variable that was never written through it shows the present value of the environment below; the last write through it wins, and a deleted variable stays deleted. Reading, listing (keys, Dictionary) and substitution agree on what is there. (FOUND FALSE for substitution after a deletion, and for keys() after a second deletion or Replace.)", "quantifier": "all finite sequences of operations on all environments, all nestings of overrides", "why_tests_cant": "all histories of operations on a graph of environments", "anchors": ["SCons/Environment.py: OverrideEnvironment, Base.Override, Base.Replace, Base.SetDefault, SubstitutionEnvironment.__setitem__"]}
{"id": "C50", "title": "Append, Prepend and their Unique forms add what was asked, in order, and nothing else", "statement": "Append puts the new values after the old ones, Prepend before, in the order given, losing and inventing nothing, whatever mixture of strings, lists, deques, CLVars and dictionaries the two values are; AppendUnique and PrependUnique add exactly the values that are missing (or move them, with delete_existing) and doing it twice is the same as once; afterwards each value occurs once. Other variables are not touched. (FOUND FALSE: duplicates that were there stay; strings are simply concatenated; AppendUnique to a CLVar loses its splitting.)", "quantifier": "all pairs of values, all environments", "why_tests_cant": "all values of all kinds", "anchors": ["SCons/Environment.py: Base.Append, Base.Prepend, Base.AppendUnique, Base.PrependUnique", "SCons/Util/__init__.py: CLVar"]}
{"id": "C51", "title": "Adding to CPPDEFINES adds exactly the macro definitions asked for", "statement": "Whatever form the existing CPPDEFINES and the added ones have (string, list, tuple, dictionary), the -D flags after Append are the flags before followed by the flags of what is added, in order, and before them for Prepend; AppendUnique adds a definition only if it is not there. (FOUND FALSE: Prepend reverses the added ones; duplicates within the added list, and definitions written in another form, are added again.)", "quantifier": "all CPPDEFINES values of all forms", "why_tests_cant": "all values in all mixtures of forms", "anchors": ["SCons/Environment.py: _add_cppdefines, Base.Append, Base.Prepend, Base.AppendUnique", "SCons/Defaults.py: processDefines, _defines"]}
{"id": "C52", "title": "A clone and its original do not influence each other", "statement": "After env.Clone(), no sequence of changes made through the clone can be seen in the original, and none made through the original can be seen in the clone, however deeply the values are nested. (FOUND FALSE: values that are not exactly list, dict, tuple, CLVar... are shared.)", "quantifier": "all values, all heaps with sharing and cycles, all sequences of mutations", "why_tests_cant": "all histories of mutations of all object graphs", "anchors": ["SCons/Environment.py: Base.Clone", "SCons/Util/__init__.py: semi_deepcopy, semi_deepcopy_dict"]}
{"id": "C53", "title": "PrependPath and AppendPath put the new directories where promised and keep every directory once", "statement": "After PrependPath the new directories come first in the order given (or stay where they were with delete_existing=False), AppendPath the same at the end; no directory is lost or invented, each is there once up to normalisation, the order of the old ones is kept, doing it twice is the same as once, and the caller's arguments are not changed. (FOUND FALSE: with delete_existing=False the caller's list is reversed, and AppendPath keeps old duplicates.)", "quantifier": "all old and new paths, separators, normalisation functions", "why_tests_cant": "all path lists", "anchors": ["SCons/Util/envs.py: PrependPath, AppendPath", "SCons/Environment.py: Base.PrependENVPath, Base.AppendENVPath"]}
{"id": "C54", "title": "Programs are called with exactly the arguments the command stands for", "statement": "When SCons runs a command, the program receives each word of the expanded command as one argument, unchanged: file names in particular may contain blanks, quotes, dollar signs, backslashes, new lines or any other character. (FOUND FALSE: a backquote is not escaped; a file name joined to other text, as in -o$TARGET, is not escaped at all; text with blanks is quoted but not escaped.)", "quantifier": "all commands, all file names over all characters, both platforms' quoting rules", "why_tests_cant": "all strings", "anchors": ["SCons/Platform/posix.py: escape, subprocess_spawn", "SCons/Platform/win32.py: escape", "SCons/Subst.py: CmdStringHolder.escape, quote_spaces, escape_list, ListSubber.add_to_current_word, add_new_word", "SCons/Action.py: CommandAction.execute"]}
{"id": "C55", "title": "Search paths and libraries become one flag each, in order", "statement": "Each non-empty element of CPPPATH, LIBPATH or LIBS gives exactly one flag (or one pair of words), in the order of the list, and different directories give different flags; a library named by its plain name or by its file name gives the same flag. (FOUND FALSE: a plain library name that begins with lib loses these letters, and a directory whose name begins with -I is taken for a flag.)", "quantifier": "all lists of items, prefixes and suffixes", "why_tests_cant": "all strings", "anchors": ["SCons/Defaults.py: _concat_ixes, _stripixes"]}
{"id": "C56", "title": "One node for each file, however it is named", "statement": "Two calls of File(), Dir() or Entry(), made at any time and from any directory, return the same object exactly when the two names stand for the same path: # begins at the top-level directory, / at the root, any other name at the current or given directory, and empty names, . and .. mean what they mean in a path. A node never changes its path, changes its class only from Entry, and has only directories above it; a lookup fails only if a file is where a directory is needed or the other way round. dir.rel_path(other) leads from dir to other. (FOUND FALSE: Dir('//') is the current directory; names with a new line are not always normalised.)", "quantifier": "all names, all starting directories, all histories of lookups and changes of directory, case-sensitive and case-insensitive systems", "why_tests_cant": "all histories and all strings", "anchors": ["SCons/Node/FS.py: FS._lookup, RootDir._lookup_abs, needs_normpath_check, Base.must_be_same, Entry.must_be_same, RootDir.must_be_same, Dir.rel_path, FS.chdir"]}
{"id": "C57", "title": "scons -q tells the truth", "statement": "scons -q changes no file. If it exits with status 0 (and reports no cycle), then scons for the same targets, with any number of jobs and any schedule, starts no action and changes no file. If it exits with status 1, then every scons run for the same targets that ends without a failure has run an action, or a requested file does not exist and has no builder.", "quantifier": "all histories of builds, edits and crashes before, all dependency graphs with re-scans and actions with several targets, all schedules of the build that follows", "why_tests_cant": "all histories and all schedules; two whole runs are compared", "anchors": ["SCons/Script/Main.py: QuestionTask", "SCons/Taskmaster/__init__.py: Task.make_ready_current, Taskmaster._find_next_ready_node"]}
{"id": "C58", "title": "scons -c removes the targets, all of them, and nothing else", "statement": "A run of scons -c only removes files; each is a target with a builder, not protected by NoClean(), that the walk from the requested targets reached, or a file attached by Clean() to a node it reached. Sources are never removed unless named in Clean(). When the run ends normally, everything the walk reached is gone (if the system lets it be removed), and everything needed for the requested targets in the graph of the moment when it started was reached. Whatever Clean() attached to a target is removed with it. A later build is as after deleting the files by hand. Clean() of a directory removes everything below it that can be removed; with -n nothing is removed. (FOUND FALSE: a generated file that only the scan of another generated file names stays when the latter was removed before the scan; so -c a.c a.o and -c a.o a.c differ. Files attached to a target that is not the first one of its action are never removed. Clean(['a','b'],'x'); Clean('a','y') attaches y to b. One undeletable file in a Clean() directory keeps the entries after it.)", "quantifier": "all dependency graphs, all walks and numbers of jobs, all interleavings of removals and scans, all trees, all sequences of Clean() calls", "why_tests_cant": "all graphs and schedules; removal races with scanning", "anchors": ["SCons/Script/Main.py: CleanTask", "SCons/Environment.py: Base.Clean, Base.NoClean", "SCons/Taskmaster/__init__.py: Task.make_ready_all, Task.executed_without_callbacks", "SCons/Node/FS.py: File.remove"]}
{"id": "C59", "title": "--debug=explain tells the truth, the whole truth, and always gives a reason", "statement": "For an existing target found out of date, --debug=explain prints at least one reason. Every reason printed is true: a dependency named as removed/new was/was not there in the last build, one named as changed is changed in the sense of the decider, 'order changed' means same dependencies in another order, 'action changed' means another action signature. Every dependency that was removed, added or changed is named. For an up-to-date target no reason is made up. (FOUND FALSE for Decider('content-timestamp'), where every kept dependency is reported as changed whatever its state and the true reason is hidden, and for a node both in Depends() and Ignore().)", "quantifier": "all pairs of dependency lists (then, now), all recorded infos, all file states, all other deciders", "why_tests_cant": "all combinations of removals, additions, reorderings and changes", "anchors": ["SCons/Node/__init__.py: Node.explain", "SCons/Node/FS.py: File.changed_timestamp_then_content", "SCons/Script/Main.py: BuildTask.make_ready"]}
{"id": "C60", "title": "Each target has one way to be built", "statement": "Whatever Builder and SideEffect() calls the SConscript files make, if no error is raised: a file is not both a side effect and a target; all calls for one target (with ordinary builders) name the same sources, and these are its sources; calls from different environments would execute the same action; all calls for one target with an accumulating builder (Tar, Zip, Install) name the same target list, and the action gets the sources of all the calls; a single-source builder gets at most one source; the builder and environment in force are those of the last call; each file is a target of at most one action in use, and the targets of one action form a group (this is what the Taskmaster properties C01... assume). (FOUND FALSE: two calls from one environment with the same sources and different actions are accepted, the first action is dropped silently; Command(['a','b'],...) followed by Command('a',...) is accepted and leaves two actions that both write 'a'. The same call twice is an error when its source list has a repetition. The same batch call twice enters its files twice in the batch.)", "quantifier": "all sequences of Builder and SideEffect() calls, all target and source lists, environments, builders and batch keys", "why_tests_cant": "all programs of any length; order and repetition of calls", "anchors": ["SCons/Builder.py: _node_errors, BuilderBase._execute", "SCons/Environment.py: Base.SideEffect", "SCons/Executor.py: Executor.add_sources, add_batch, get_all_targets, GetBatchExecutor, AddBatchExecutor", "SCons/Node/__init__.py: Node.add_source, _add_child, builder_set"]}
{"id": "C61", "title": "Build variables: precedence, and Save/load round trip", "statement": "After Variables.Update(env): a declared variable has the value given last on the command line (under its name or an alias), else last in the last saved-variables file that names it, else its default, else what env had; put through its converter after expansion, and accepted by its validator; undeclared names are not set in env; UnknownVariables() has exactly the names no option has; `defaulted` exactly the variables with a default that no source names. For plain, Bool, Enum and List variables the file Save() writes can be loaded again and gives every variable its value. (FOUND FALSE: with an alias, `scons DEBUG=1 debug=2 DEBUG=3` gives 2; UnknownVariables() keeps names of earlier Update calls; Save() omits a value None of a variable without default, writes a ListVariable that is at its default, and with an EnumVariable map a->b->c the reloaded value differs.)", "quantifier": "all lists of options with any converters and validators, all saved-variables files, command lines, environments and values", "why_tests_cant": "all inputs: orders and repetitions of assignments, all values of all kinds; round trip for every set of values", "anchors": ["SCons/Variables/__init__.py: Variables.Add, _do_add, Update, Save, UnknownVariables", "SCons/Variables/BoolVariable.py: _text2bool", "SCons/Variables/EnumVariable.py: EnumVariable", "SCons/Variables/ListVariable.py: _ListVariable, _converter, _validator"]}
{"id": "C62", "title": "The legacy schedulers: bounded, lossless, live, and every build ends", "statement": "With --experimental=legacy_sched_deprecated (Serial for -j1, LegacyParallel with its thread pool otherwise): at most N commands run at a time; every task handed out is retired exactly once, with the outcome of its execution (or as failed, without being executed, if an interrupt came first); after an interrupt no further command is started; no deadlock; every build of a finite project ends, whatever the interleaving, and then the walk is over; and every run is a run of the taskmaster, so what holds of that (order, at most once, failures) holds with these schedulers too.", "quantifier": "all projects, taskmaster answers, numbers of jobs, interleavings of the worker threads and the main thread, outcomes, and moments of interrupts", "why_tests_cant": "interleavings of threads and queue operations; unbounded numbers of tasks", "anchors": ["SCons/Taskmaster/Job.py: Serial.start, Worker.run, ThreadPool, LegacyParallel.start"]}
{"id": "C63", "title": "scons -n changes nothing and announces what would be done", "statement": "A dry run changes no file and no stored build information, whatever happens in it; it announces an action exactly if a target of it does not agree with the stored information as the files are now; if it announces nothing, a real run executes nothing; a real run executes only what was announced or needs something announced; and, the literal claim, the actions it announces are exactly those a real run would execute.", "quantifier": "all projects, histories of builds and edits, targets, schedules of the dry run and of the real run", "why_tests_cant": "relates two whole runs over all project graphs, histories and interleavings", "anchors": ["SCons/Script/Main.py: _build_targets (SCons.Action.execute_actions, do_store_info)", "SCons/Action.py: _ActionAction.__call__", "SCons/Node/__init__.py: Node.built, store_info_file", "SCons/Node/FS.py: File.prepare, File.built"]}
{"id": "C64", "title": "Which targets are built", "statement": "The targets named on the command line are built, exactly those and in that order, each being the alias of that name or else the file of that name seen from the directory scons was started in; without any, what the Default() calls since the last Default(None) add up to, or the top-level directory if Default() was never called; a BUILD_TARGETS changed by a script is built as it is; -u keeps of the default targets what lies under the launch directory (a directory above it becomes the launch directory), -D all, -U those defined by the SConscript file there; climbing stops at the nearest directory with an SConstruct file; when nothing is left an error is reported.", "quantifier": "all command lines, sequences of Default() calls and changes of BUILD_TARGETS, file names, aliases, and launch directories", "why_tests_cant": "command lines, call sequences and directory trees are unbounded", "anchors": ["SCons/Script/__init__.py: TargetList, _Add_Targets, _Set_Default_Targets, _Get_Default_Targets", "SCons/Script/Main.py: _main (argument split, climb_up loop), _build_targets", "SCons/Node/FS.py: Base.is_under"]}
{"id": "C65", "title": "ParseFlags and MergeFlags keep every flag", "statement": "ParseFlags distributes every flag of its input, in order, to at least one variable, where it stands for the same flag (maybe in another spelling), and to the variable the manual says; it makes no difference whether flags come in one string or several; MergeFlags makes each variable the old elements followed by the new ones, each once (the first occurrence for ...PATH variables, the last for others), merging the same flags again changes nothing, and neither the flags passed nor other environments are changed.", "quantifier": "all lists of words, nested lists of strings, old values (missing, string, list, CLVar, dict) and new values", "why_tests_cant": "word lists and values are unbounded; equality of results for every way of cutting a string", "anchors": ["SCons/Environment.py: SubstitutionEnvironment.ParseFlags, MergeFlags", "SCons/Util/__init__.py: Split, CLVar"]}
{"id": "C66", "title": "Variant directories and repositories: where a file is looked for", "statement": "VariantDir refuses a source directory that is or lies in the variant directory, and a second source directory; after any sequence of VariantDir, Repository, lookups and searches, the source node of a file is the file of the same relative path under the source directory of the nearest variant directory above it, a source file named as a target stands for the files of the same relative path in every variant directory of the directories above it, and a file that is not there is looked for in the directory's repositories and source directories that are not duplicated, nearest first, in the order of the calls, the first found being used.", "quantifier": "all sequences of VariantDir, Repository, lookup and search calls, all paths, all states of the disk", "why_tests_cant": "sequences of calls, nesting depths and caches are unbounded; the result must not depend on what was asked before", "anchors": ["SCons/Node/FS.py: FS.VariantDir, FS.Repository, Dir.link, Dir.srcdir_list, Base.srcnode, Dir.get_all_rdirs, File.rfile, FS.variant_dir_target_climb"]}
{"id": "C67", "title": "A duplicated source is the source", "statement": "When SCons has asked for a source file in a duplicating variant directory, the copy there has the contents the source (or its version in a repository) has now, or there is no copy when there is no source; nothing outside variant directories is changed, no target is changed, no existing file's contents are changed; with -n nothing on disk changes.", "quantifier": "all layouts of sources, repositories and old copies, all orders and failures of hard link, symbolic link and copy, symbolic links as sources", "why_tests_cant": "disk states and link failures are unbounded", "anchors": ["SCons/Node/__init__.py: exists_file", "SCons/Node/FS.py: File.do_duplicate, LinkFunc, _hardlink_func, Dir.srcdir_duplicate, Dir.file_on_disk"]}
{"id": "C68", "title": "SConscript calls: Export, Import, Return and what the caller keeps", "statement": "A SConscript file sees of its callers exactly the variables the call exports and the global exports; Import gives the call's value before the global one and refuses a name that has neither; Export sets the global value; the value of the call is the value Return names; and after the call, however the script ended and whatever it called itself, the caller's variables and exports, the directory names are relative to, sys.path, the count of scripts being read and the process's working directory are as before.", "quantifier": "all SConscript files, programs with exceptions and handlers, depths of nesting, variable values and ways to end", "why_tests_cant": "scripts are arbitrary programs nested to any depth that may end by an exception at any point", "anchors": ["SCons/Script/SConscript.py: _SConscript, compute_exports, Frame, Return, SConsEnvironment.Export, Import, SConscriptChdir", "SCons/Node/FS.py: FS.chdir"]}
{"id": "C69", "title": "Glob returns exactly what matches, in a fixed order", "statement": "Glob returns exactly the paths whose components match the pattern's components and are known to SCons or (with ondisk) present on disk, in the directory itself, its repositories or its source directories, without those that exclude matches; each once, sorted, the same in every run; as strings and as nodes alike; a node has the kind of what is there; with source=True it gives the source nodes; and a Glob does not change what a later Glob finds.", "quantifier": "all layouts of directories, repositories and variant directories, all patterns, all orders in which Python iterates over sets, all earlier calls", "why_tests_cant": "directory contents, search lists, patterns and histories are unbounded; set order changes between runs", "anchors": ["SCons/Node/FS.py: Dir.glob, Dir._glob1, Entry.disambiguate, FS.Glob", "SCons/Environment.py: Glob"]}
{"id": "C70", "title": "Configure checks report what is true now", "statement": "A Configure check (TryCompile, TryLink, TryRun, TryBuild) reports what carrying it out on the present project files would report, success or failure, and leaves the files that would leave, although it reuses recorded results; a check made again with nothing changed runs nothing and reports the same; --config=force redoes every check whatever is recorded; --config=cache runs nothing and reports what is recorded or raises; with -n and -q checks run nothing, and with -n they change nothing; no two checks of a run share their files, and a check finds its own record in the next run.", "quantifier": "all checks (any number of tasks, sources, headers and targets), all actions that are functions of their inputs, all histories of edits, builds and checks, all stored states for force and cache", "why_tests_cant": "the histories and the contents of the project and of the store are unbounded; a wrong verdict needs a particular order of edits and runs", "anchors": ["SCons/SConf.py: SConfBuildTask, SConfBase.BuildNodes, TryBuild", "SCons/Node/FS.py: get_max_drift_csig, get_csig, File.prepare, File.is_up_to_date", "SCons/Taskmaster/__init__.py: make_ready_current, prepare"]}
{"id": "C71", "title": "A Python function used as an action is part of the signature", "statement": "The contents of an action that is a Python function differ after the function has been edited: a constant, a name, the code, the number of arguments or variables, a default value, a captured value, at any depth of nested functions; and after a variable named in varlist has another value. They are the same after the function was moved to another line or file, renamed, its local variables renamed, or its docstring changed.", "quantifier": "all functions, code objects and values nested to any depth, all single edits in them, all varlists and environments", "why_tests_cant": "the space of functions and edits is unbounded; a missed rebuild needs a particular pair of functions", "anchors": ["SCons/Action.py: _object_contents, _code_contents, _function_contents, _callable_contents, _object_instance_content, FunctionAction, ActionCaller, _ActionAction.get_contents"]}
{"id": "C72", "title": "A target made from a directory is redone when anything in the directory changes", "statement": "A target whose source is a directory scanned with DirScanner (Tar, Zip, Package) depends on every file and directory below it, each once, in an order that does not depend on how the system lists directories. It is out of date when a file below is edited, when something is added or removed, renamed or replaced, and not when nothing changed.", "quantifier": "all directory trees, listing orders, sets of files SCons already knows, pairs of states before and after", "why_tests_cant": "trees and edits are unbounded; listing order is up to the operating system", "anchors": ["SCons/Scanner/Dir.py: DirScanner, DirEntryScanner, scan_on_disk, scan_in_memory", "SCons/Node/FS.py: Dir.get_found_includes, Dir.get_env_scanner", "SCons/Node/__init__.py: changed, get_implicit_deps, changed_since_last_build_state_changed"]}
{"id": "C73", "title": "Aliases and values stand for what they name", "statement": "A target that depends on an alias is out of date when anything the alias stands for has changed, through any number of aliases and directories; one that depends on Value(v) is out of date exactly when the text of v is another. The action of an alias is run when something it stands for is out of date. Value(v, name=n) returns a node with that value and name, and the same node for the same arguments.", "quantifier": "all trees of aliases, directories, files and values; all pairs of states; all sequences of Value calls", "why_tests_cant": "the trees and the sequences of calls are unbounded", "anchors": ["SCons/Node/Alias.py: Alias.get_contents, get_csig", "SCons/Node/Python.py: Value, ValueWithMemo", "SCons/Node/__init__.py: get_contents_dir, changed_since_last_build_alias, children_are_up_to_date", "SCons/Node/FS.py: Dir.get_csig"]}
{"id": "C74", "title": "A session of scons --interactive builds what separate runs would build", "statement": "With the same edits in between, the build commands of one scons --interactive process leave the same files and the same signature database as separate runs of scons with the same targets: nothing a command left in memory changes what a later command does. In particular a command that is carried out leaves every target it was asked for as a build from scratch would make it, whatever was built and edited before, and a command does not build what was not asked for.", "quantifier": "all sequences of edits and build commands, all schedules of every command, all projects", "why_tests_cant": "sequences of commands are unbounded and what is left in memory depends on the schedule of every earlier command", "anchors": ["SCons/Script/Interactive.py: SConsInteractiveCmd.do_build", "SCons/Node/__init__.py: Node.clear, Walker", "SCons/Script/Main.py: _build_targets", "SCons/Taskmaster/__init__.py: Taskmaster"]}
{"id": "C75", "title": "Chains of builders turn every source into a file the builder can use", "statement": "A call such as Program('p', ['a.y','b.c','c.o']) declares, for each source and in the given order, exactly one file that the called builder uses: the source itself or what the source builders make of it, chosen by the first suffix in the builder's list with which the name ends and the last source builder that accepts this suffix. Intermediate files are in the directory of their source and are declared before they are used; nothing is used that was not given or declared in the call. A source the chain accepts reaches the builder as a file of a type it lists. The accepted suffixes are those of all builders below; that lists are remembered and appended to in place does not show. A call comes to an end whenever no builder is below itself. All declarations of a call see its keyword arguments and its chdir.", "quantifier": "all tables of builders, all names of sources, all calls, all orders of earlier calls", "why_tests_cant": "the tree of builders has any depth and any suffixes; the remembered lists depend on the history of calls", "anchors": ["SCons/Builder.py: match_splitext, BuilderBase._execute, _create_nodes, _adjustixes, __call__, _get_sdict, src_builder_sources, get_src_builders, subst_src_suffixes, src_suffixes, CompositeBuilder.add_action", "SCons/Util/__init__.py: adjustixes, splitext"]}
{"id": "C76", "title": "Repositories: the same result as one tree, nothing built twice, nothing written to them", "statement": "With Repository() a build gives every target the content it would have if all visible files (local ones first, then those of the repositories in order) were in one tree; a target that a repository has, built from what is visible now, is not built again and appears locally only if Local() asks for it; a second run builds nothing; and no run changes a file or a signature of a repository.", "quantifier": "all histories of edits, deletions, builds of any projects and added or withdrawn repositories, all orders of tasks that respect dependencies, all contents", "why_tests_cant": "which tree a file comes from depends on the history of all trees; correctness must hold for every mixture", "anchors": ["SCons/Node/FS.py: File.is_up_to_date, File.rfile, File.prepare, File.visited, LocalCopy, LinkFunc", "SCons/Node/__init__.py: Node.changed, store_info_file", "SCons/Taskmaster/__init__.py: Task.make_ready_current", "SCons/Environment.py: Local, Precious, Repository"]}
{"id": "C77", "title": "Batch builds: the targets that changed, all of them and only them", "statement": "Builder calls whose action gives them the same batch_key are built by one execution of the action, in the order of the calls. When the action is done every target of every batch is what the action makes of the present contents of its sources and dependencies; with $CHANGED_SOURCES the command names exactly the sources of the batches that are out of date and the targets of the others are not touched; when nothing is out of date nothing is executed, and a second run executes nothing.", "quantifier": "all sets of builder calls and keys, all batches, states of files, records and cache, precious, always-built and uncached targets, both settings of targets=, all tools", "why_tests_cant": "which batches are given to the command depends on the state of all of them and on what is removed or retrieved in between", "anchors": ["SCons/Executor.py: Executor._get_changes, get_action_targets, add_batch, get_contents, GetBatchExecutor", "SCons/Builder.py: BuilderBase._execute", "SCons/Action.py: _ActionAction.__init__ (batch_key, targets)", "SCons/Taskmaster/__init__.py: Task.prepare, Task.execute, Task.make_ready_current", "SCons/Tool/msvc.py: msvc_batch_key, msvc_output_flag"]}
{"id": "C78", "title": "Options: the command line, then SetOption, then the default", "statement": "What GetOption gives after the scripts are read is the value of the command line (SCONSFLAGS first, the last occurrence counts), else what the last SetOption stored, else the default. This holds for options that a script declares with AddOption too, although the command line was parsed before, whatever the order of the declarations; options that collect have all their values in order. SetOption is refused for options that are not settable; at the end the run goes on if and only if every long option of the command line has been declared; the words of the command line stay what they were.", "quantifier": "all tables of options, settings, SCONSFLAGS and command lines, all sequences of AddOption and SetOption in the scripts", "why_tests_cant": "the leftover arguments are parsed again after each declaration, with the values of the parses before", "anchors": ["SCons/Script/SConsOptions.py: SConsValues, SConsOptionParser._process_long_opt, _process_short_opts, reparse_local_options, add_local_option", "SCons/Script/Main.py: AddOption, GetOption, SetOption, _main, _exec_main"]}
{"id": "C79", "title": "A program depends on the libraries it is linked with", "statement": "For a library named in LIBS the file that the linker takes (the first directory of LIBPATH that has the library under one of the prefixes and suffixes, whatever the linker's preference among them) is a dependency of the program, so that the program is linked again when it changes; libraries given as nodes are dependencies; everything the scanner finds is the first file of its name in LIBPATH.", "quantifier": "all LIBS, LIBPATH, prefixes, suffixes, contents of the directories, files that are there and files still to be built", "why_tests_cant": "scanner and linker search in different orders, over arbitrary directories and names", "anchors": ["SCons/Scanner/Prog.py: scan, _subst_libs", "SCons/Node/FS.py: FileFinder.find_file", "SCons/Util/__init__.py: adjustixes, splitext", "SCons/Defaults.py: _stripixes", "SCons/Tool/link.py, gnulink.py: _LIBFLAGS, LIBLITERALPREFIX"]}
{"id": "C80", "title": "--implicit-cache changes nothing but the time a build takes", "statement": "Over every history of edits and runs, with the cached lists of implicit dependencies used in any of the runs (and a new scan forced with --implicit-deps-changed in any), every run makes the same decision to build or not, and leaves the same files and the same records, as it would without the option, as long as a file with the same content includes the same files. With --implicit-deps-unchanged no file is scanned for a target that has been built before.", "quantifier": "all histories of edits and runs, all commands with any number of targets and sources, all scanners, all choices of options per run", "why_tests_cant": "a wrong cached list shows only several runs later, when the file missing in it changes", "anchors": ["SCons/Node/__init__.py: Node.scan, add_to_implicit, _add_child, _children_get, get_binfo", "SCons/Node/FS.py: File.get_stored_implicit, File.is_up_to_date", "SCons/Executor.py: scan, scan_sources, scan_targets", "SCons/Script/Main.py: implicit_cache, implicit_deps_changed, implicit_deps_unchanged"]}
{"id": "C81", "title": "Install() puts a faithful copy at the destination", "statement": "Installing a file again and again to the same place, whatever its versions and modes, always ends with the content of the last version and its permissions plus write permission for the owner. Installing a directory over whatever an earlier installation left gives the destination every file and directory of the source with content and mode, and leaves the other files of the destination as they were; it succeeds whenever nothing in the way is of the other kind or not writable.", "quantifier": "all trees of files and directories, all modes, all previous states of the destination, superuser or not, all sequences of versions of a file", "why_tests_cant": "the state the destination is in is the result of any number of earlier installations", "anchors": ["SCons/Tool/install.py: copyFunc, scons_copytree"]}
{"id": "C82", "title": "Chmod() with a symbolic mode does what POSIX chmod does", "statement": "For every list of clauses such as ug+rw,o-x the permissions of the file afterwards are those POSIX chmod gives: the clauses one after the other, for the classes and permissions named in them, the others left alone, and the set-id and sticky bits left alone if no clause has =. A text of octal digits sets that mode.", "quantifier": "all lists of clauses, all previous modes, all octal numbers", "why_tests_cant": "there are unboundedly many lists of clauses and their effects accumulate", "anchors": ["SCons/Defaults.py: chmod_func, permission_dic"]}
{"id": "C83", "title": "The timestamp deciders build what a clean build would build, and nothing twice", "statement": "Over every history of edits, changes of the scripts, failed and successful runs with Decider timestamp-newer, timestamp-match or content-timestamp: everything a run has built or found up to date has the content a build from scratch would give it, provided times tell versions apart (a file gets a time it had before only with its content of then; for timestamp-newer: the clock ticks between runs and edits and files have the time they were written). A second run with nothing changed in between finds everything up to date that the first one finished.", "quantifier": "all projects with scanned dependencies, all histories, all contents and times, each of the three deciders", "why_tests_cant": "whether a stale target is noticed depends on the times of all files in all earlier runs", "anchors": ["SCons/Environment.py: Decider", "SCons/Node/FS.py: changed_timestamp_newer, changed_timestamp_match, changed_timestamp_then_content, visited", "SCons/Node/__init__.py: changed, get_binfo, built"]}
{"id": "C84", "title": "A change of a command is a change of its signature", "statement": "If the commands, functions or signed variables of a target change so that something else would be run, the text that is signed for the target changes. For a command given as text, the words that are run are exactly the words of the text that is signed.", "quantifier": "all command texts, all construction variables (nested, lists, undefined, empty), all action lists with actions before and after, all varlists", "why_tests_cant": "the signed text and the command that is run are computed by two different classes and the pieces are concatenated without separators; a test sees a few pairs", "anchors": ["SCons/Action.py: ActionBase.get_contents, CommandAction.get_presig, CommandAction.process, ListAction.get_presig, ListAction.get_varlist", "SCons/Executor.py: Executor.get_contents", "SCons/Subst.py: scons_subst, scons_subst_list"]}
{"id": "C85", "title": "The program a command runs is a dependency of its targets", "statement": "With IMPLICIT_COMMAND_DEPENDENCIES on, the program that the shell will run for a command of a target is a dependency of the target, and nothing else becomes one in this way; with a number or all, the files named by the first words of each part of the command line are. WhereIs returns the first program of that name on the search path that is not rejected, and None only if there is none.", "quantifier": "all commands and construction variables, all search paths, all contents of the directories searched", "why_tests_cant": "the shell searches by its own rules; agreement for every name and every path is not tested", "anchors": ["SCons/Action.py: CommandAction.get_implicit_deps, _get_implicit_deps_lightweight, _get_implicit_deps_heavyweight, strip_quotes", "SCons/Environment.py: Base.WhereIs", "SCons/Util/__init__.py: WhereIs", "SCons/Executor.py: scan, scan_sources, get_implicit_deps"]}
{"id": "C86", "title": "A long command runs with the same arguments as a short one", "statement": "A command wrapped in TEMPFILE gives the program the same arguments whether the line fits into MAXLINELENGTH or is passed through an argument file, also when it was printed before; a line that fits is left alone; the signature does not depend on which way was taken.", "quantifier": "all commands and construction variables, all line lengths, all histories of calls in one run, all arguments without quotes and backslashes", "why_tests_cant": "arguments are written by one program and read by another; agreement for every argument and every history is not a test", "anchors": ["SCons/Platform/__init__.py: TempFileMunge.__call__", "SCons/Subst.py: quote_spaces, scons_subst_list"]}
{"id": "C87", "title": "Every header the compiler reads is found by the default C scanner", "statement": "For every C source, each file the compiler reads through include directives, directly or at any depth, whichever conditions hold, becomes a dependency of the target, and it is the same file of several with that name; files that no directive can lead to do not.", "quantifier": "all texts of all files, all directory layouts and search paths, all sets of directives that a compiler obeys", "why_tests_cant": "the scanner is a regular expression that is run over arbitrary text; tests try a few spellings", "anchors": ["SCons/Scanner/C.py: CScanner", "SCons/Scanner/__init__.py: Classic.scan, Classic.find_include_names, ClassicCPP.find_include", "SCons/Node/FS.py: FileFinder.find_file", "SCons/Node/__init__.py: Node.get_implicit_deps"]}
{"id": "C88", "title": "Pre- and post-actions surround the target's own action", "statement": "Building a target runs the actions given to AddPreAction for it (or for a target of the same builder call), in the order of the calls, then the action of its builder, then those given to AddPostAction, in order, each exactly once for each call that names one or more targets of that builder call.", "quantifier": "all SConscript programs of builder calls, AddPreAction and AddPostAction over any nodes in any order", "why_tests_cant": "the added actions live in an executor shared by several targets that later statements may replace; tests try one order", "anchors": ["SCons/Environment.py: AddPreAction, AddPostAction", "SCons/Executor.py: Executor.add_pre_action, add_post_action, get_action_list, Null._morph", "SCons/Builder.py: BuilderBase._execute", "SCons/Node/__init__.py: Node.get_executor"]}
{"id": "C89", "title": "Conditions of the C preprocessor are decided as the compiler decides them", "statement": "When the conditional C scanner reads #define, #undef, #if and #elif lines, each condition to which the compiler gives a value is taken as true exactly if that value is not zero, and scanning does not stop with an exception.", "quantifier": "all conditions of the C grammar, all spellings with white space, all sequences of definitions", "why_tests_cant": "conditions are translated to Python text and evaluated; tests try a few operators, not every nesting of them", "anchors": ["SCons/cpp.py: CPP_to_Python, PreProcessor.eval_expression, eval_constant_expression, do_define, do_undef, do_if, do_elif"]}
{"id": "C90", "title": "The directive lines of a C file are found, with their arguments", "statement": "When a C file is scanned with the conditional scanner, the directives it obeys are exactly those a C preprocessor sees: each line (after lines that end with a backslash are joined) whose first mark is #, followed by if, ifdef, ifndef, elif, else, endif, include, import, define or undef, in order, with the argument text without comments and carriage returns; no other line counts.", "quantifier": "all texts: any number of lines, any white space, any comments at ends of lines, both conventions for ends of lines", "why_tests_cant": "regular expressions with backtracking over arbitrary text; tests try some spellings", "anchors": ["SCons/cpp.py: PreProcessor.tupleize, _parse_tuples, _match_tuples, CPP_Expression, Cleanup_CPP_Expressions, Table, line_continuations"]}
{"id": "C91", "title": "The class files of a Java source are those the compiler makes", "statement": "For every Java source file given to the Java builder, the targets are exactly the class files javac makes of it: one for each class, interface and enum, nested, local or anonymous, with its binary name, in the directory of its package.", "quantifier": "all Java texts: any nesting of classes, blocks, parentheses, anonymous classes, comments and strings", "why_tests_cant": "a machine of states over tokens; tests try a few nestings", "anchors": ["SCons/Tool/JavaCommon.py: parse_java, OuterState, ScopeState, AnonClassState, SkipState, ClassState, IgnoreState, PackageState, _reToken", "SCons/Tool/javac.py: emit_java_classes"]}
{"id": "C92", "title": "Textfile and Substfile write the filled template, and write it again when it changes", "statement": "For every list of sources and every SUBST_DICT, the file written is the sources separated by LINESEPARATOR, with every placeholder replaced by the value of its name, all at once and whatever the order of the entries. When an entry, a value, or the separator changes, the signature of the action changes, so that the file is written again.", "quantifier": "all sources, names, values, separators and orders of entries", "why_tests_cant": "the replacements are made one after the other on the growing text: whether they interfere depends on all texts together; tests use a few keys", "anchors": ["SCons/Tool/textfile.py: _do_subst, _action, _common_varlist", "SCons/Action.py: ActionBase.get_contents", "SCons/Subst.py: scons_subst", "SCons/Util/sctypes.py: to_String_for_signature"]}
{"id": "C93", "title": "ParseDepends makes the dependencies of the file, and no others", "statement": "For every dependency file in the form compilers write for make, after ParseDepends a node depends on another exactly if it did before or a rule of the file says so; earlier dependencies keep their places and none is doubled. With only_one a file with more targets is refused before anything is changed.", "quantifier": "all dependency files: any rules, continuations, comments and blanks, any earlier dependencies", "why_tests_cant": "the layout of such files is unbounded; tests parse a few", "anchors": ["SCons/Environment.py: ParseDepends, Depends", "SCons/Util/__init__.py: logical_lines", "SCons/Node/__init__.py: Node._add_child"]}
{"id": "C94", "title": "The children of a node are what was said, whenever one asks", "statement": "After any sequence of builder calls, Depends, Ignore, scans and questions, the children of a node are all sources it was given, then all it was said to depend on, then all that scanners found, each once and without what is ignored; the sources recorded for a target are those it was given without the ignored ones. No remembered answer is older than the last change.", "quantifier": "all histories of calls, dependencies, ignores, scans and questions, in any order, over any nodes and executors", "why_tests_cant": "staleness depends on the order in which things are said and asked, of which there are unboundedly many", "anchors": ["SCons/Node/__init__.py: Node._children_get, _children_reset, _add_child, add_to_implicit, scan", "SCons/Executor.py: Executor.add_sources, get_unignored_sources, cleanup"]}
{"id": "C95", "title": "The decision function that was chosen is the one that decides", "statement": "Whether a dependency has changed is decided by the function given to it with its own Decider method; otherwise, for files, by the function last given to the environment the target is built with, also after the builder call, or to its original before it was cloned; otherwise by that of the default environment at the time of the build. Files from the cache get the present time exactly when timestamp-newer decides.", "quantifier": "all sequences of Environment(), Clone, overrides, Decider calls on environments and nodes, builder calls and entries that turn out to be files", "why_tests_cant": "the choice depends on the order of statements over any number of environments and nodes", "anchors": ["SCons/Environment.py: Base.Decider, Base.Clone, default_decide_source, OverrideEnvironment.__setattr__", "SCons/Node/__init__.py: Node.Decider, Node.changed", "SCons/Node/FS.py: File._morph, File.builder_set", "SCons/CacheDir.py: CacheDir.copy_from_cache"]}
{"id": "C96", "title": "Commands run with exactly the variables of ENV", "statement": "Every program that a command starts is given exactly the variables in ENV as the SConscript files left it, after the functions in SHELL_ENV_GENERATORS: a string as it is, a list as a search path, anything else as its text, and no other variable, whatever commands run at the same time with the same environment; running a command changes no construction variable.", "quantifier": "all values of ENV, all numbers of parallel commands and all interleavings of their steps", "why_tests_cant": "several threads convert the same dictionary in place at the same time; the interleavings cannot be enumerated", "anchors": ["SCons/Action.py: _resolve_shell_env, CommandAction.execute", "SCons/Platform/posix.py: exec_subprocess", "SCons/Util/sctypes.py: flatten_sequence"]}
{"id": "C97", "title": "The last request that covers a warning decides whether it is shown", "statement": "At every moment of a run a warning is shown exactly if the last request that covers it enables it, and without a request if the manual says it is on by default; requests of the command line have precedence over those of SetOption; warnings about deprecated features that are mandatory are always shown; a text that names no type changes nothing.", "quantifier": "all sequences of requests on the command line and by SetOption, all warnings", "why_tests_cant": "any number of requests can be given in any order and are processed again after reading; only for all sequences can one say which decides", "anchors": ["SCons/Warnings.py: warn, process_warn_strings, enableWarningClass, suppressWarningClass", "SCons/Script/SConsOptions.py: SConsValues.set_option, SConsValues.__getattr__, opt_warn", "SCons/Script/Main.py: _main"]}
{"id": "C98", "title": "LaTeX is run until the document is finished", "statement": "When the action of a LaTeX document succeeds and the limit LATEXRETRIES was not reached, LaTeX has run at least once, the last run found exactly the tables of contents, indices, auxiliary files and bibliographies that are there in the end, so another run would give the same document, and indices and bibliographies are those of the last run, whatever other documents are built at the same time and whatever earlier runs left behind; LaTeX is never run more than LATEXRETRIES times and every build ends.", "quantifier": "all documents and programs, all numbers of documents built at the same time, all interleavings of their steps, all files left by earlier runs", "why_tests_cant": "how many runs are needed depends on what the programs write; the loop shares a global variable with the other documents, so the interleavings matter", "anchors": ["SCons/Tool/tex.py: InternalLaTeXAuxAction, check_content_hash, must_rerun_latex, newglossary_suffix"]}
{"id": "C99", "title": "Fortran module files are dependencies of the files that use them", "statement": "The Fortran scanner finds exactly the files a source file includes and the modules it uses and does not define itself; compiling a source file has exactly the module files of the modules it defines as extra targets; so a file that uses a module, in whatever mixture of upper and lower case, depends on the module file that compiling the module's source makes.", "quantifier": "all source texts made of lines, statements separated by semicolons, comments, literals and blanks; all mixtures of case; all search paths; all suffixes", "why_tests_cant": "the patterns cross line ends and semicolons, so whether a text is read rightly depends on everything around it; tests try a few texts", "anchors": ["SCons/Scanner/Fortran.py: F90Scanner.scan, FortranScan", "SCons/Tool/FortranCommon.py: _fortranEmitter"]}
{"id": "C100", "title": "A call through an environment acts on that environment", "statement": "What env.name(...) does is decided by what was set last under that name, in that environment or in the one it was cloned from or overrides, before it was; and the builder or method acts on the environment it was called through: a clone's builders and methods act on the clone, an override's on the override, and giving a name another meaning in one environment changes no other.", "quantifier": "all histories of creating, cloning and overriding environments, adding methods, setting and deleting builders, setting attributes, and calls through any of them; all environments and names afterwards", "why_tests_cant": "binding is done by object identity and by rebinding at clone time, so the outcome depends on the whole history of additions and lookups", "anchors": ["SCons/Util/envs.py: MethodWrapper, AddMethod", "SCons/Environment.py: BuilderWrapper, BuilderDict, Base.AddMethod, RemoveMethod, Clone, Override, OverrideEnvironment.__getattr__, __setattr__"]}
{"id": "C101", "title": "Many processes may open a cache directory at once", "statement": "Any number of SCons processes may open the same cache directory at the same time, whether it exists already or not: all of them find the same configuration, nobody reads a configuration that is missing or half written, a configuration once there is never overwritten, and every process gets in after a bounded number of its own steps, whatever the others do, including dying.", "quantifier": "all numbers of processes, all interleavings of their file system operations, all points at which processes die or give up waiting, all three states of the directory before (missing, plain, cache)", "why_tests_cant": "races between creation, configuration and locking appear only under particular interleavings of processes", "anchors": ["SCons/CacheDir.py: CacheDir.__init__, _readconfig, _mkdir_atomic, _add_config", "SCons/Util/filelock.py: FileLock.acquire_lock, release_lock"]}
{"id": "C102", "title": "Changing the prefix length of a cache loses nothing", "statement": "After scons-configure-cache has changed the prefix length of a cache directory, each cached file is found under its signature exactly as before, in the directory of its new prefix, and the directories of the old prefixes are gone; an interruption loses no file.", "quantifier": "all cache directories, all pairs of prefix lengths, all orders in which the operating system lists the files, all points of interruption", "why_tests_cant": "tests convert a few files in one order and are not interrupted", "anchors": ["SCons/Utilities/ConfigureCache.py: rearrange_cache_entries, main", "SCons/CacheDir.py: CacheDir.cachepath"]}
{"id": "C103", "title": "Delete, Mkdir, Touch, Copy and Move do exactly what they say", "statement": "Delete removes what is there under each name (never what a link leads to) and nothing else; Mkdir makes the directories and the missing ones above; Touch makes or re-dates files and keeps their contents; Copy and Move put a faithful copy, or the thing itself, at the destination or in it; every other path of the file system is as before, and a failure is reported. After Execute() the nodes know what is there.", "quantifier": "all file systems with files, directories and links, all argument lists, all paths afterwards", "why_tests_cant": "the effect has to be known for every path of every file system, with links and existing destinations, not only for those looked at", "anchors": ["SCons/Defaults.py: copy_func, delete_func, mkdir_func, move_func, touch_func", "SCons/Node/FS.py: invalidate_node_memos"]}
{"id": "C104", "title": "config.h says what the checks found, and LIBS holds the library that was found", "statement": "The header written by Configure defines, read as C, exactly the macros of the checks that succeeded, the sizes found and what Define was given, in that order, each with its value, and nothing for what failed. CheckLib takes the first library of the list with which the program links; with autoadd LIBS is what the program was linked with, otherwise (and if none links) what it was; the libraries tried are recorded.", "quantifier": "all sequences of checks and definitions, all names, all lists of libraries, all values of LIBS, all outcomes of the test programs", "why_tests_cant": "tests look at a few checks; names and comments that break the text, and lists in which an earlier library leaves traces, are not among them", "anchors": ["SCons/Conftest.py: _Have, _YesNoResult, CheckLib, CheckFunc, CheckHeader, CheckType, CheckTypeSize, CheckDeclaration, CheckMember", "SCons/SConf.py: _createConfigH, SConfBase.Define, CheckContext.AppendLIBS, CheckContext.PrependLIBS, CheckContext.SetLIBS"]}
{"id": "C105", "title": "A shared library with a version is found by the linker and by the loader", "statement": "SharedLibrary with SHLIBVERSION makes a library whose file name is prefix, name, suffix and version; the name it carries for the loader, and the name without a version, are links that lead to it, where it is built and where InstallVersionedLib puts it. Other files are left alone; versions with another first number can be built side by side and each is still found; scons -c removes the library with its links.", "quantifier": "all prefixes, suffixes, names and versions, all directories, any order of builds of different versions", "why_tests_cant": "the names come from string functions with special cases, and what happens depends on what earlier versions left in the directory", "anchors": ["SCons/Tool/linkCommon/SharedLibrary.py: shlib_symlink_emitter, _soname, _soversion, _get_shlib_stem", "SCons/Tool/linkCommon/__init__.py: EmitLibSymlinks, CreateLibSymlinks, LibSymlinksActionFunction", "SCons/Tool/install.py: copyFuncVersionedLib, listShlibLinksToInstall, installShlibLinks", "SCons/Util/__init__.py: adjustixes, splitext"]}
{"id": "C106", "title": "Search paths mean what they say, whatever was expanded before", "statement": "The entries of CPPPATH, LIBPATH and the like are searched in the order in which they are given: a string with colons is the same as the list of its parts, lists in lists are flattened, variables are replaced by what they stand for, for the target at hand. What one target or environment asked for before does not change the answer for another. The scanner looks in exactly the directories that the compiler is told to look in.", "quantifier": "all values (strings, nodes, None, nested lists), all substitutions, all sequences of earlier requests", "why_tests_cant": "parsed paths are remembered across environments by a key that leaves out one argument; a test has to know the history that shows it", "anchors": ["SCons/PathList.py: _PathList, PathListCache, node_conv", "SCons/Scanner/__init__.py: FindPathDirs", "SCons/Defaults.py: _concat, _stripixes", "SCons/Node/FS.py: Rfindalldirs, RDirs"]}
{"id": "C107", "title": "Every file a Python script imports is a dependency", "statement": "If a Python file is a source, each file that Python reads to run it - modules and packages named in import statements, the __init__.py files on the way, the files that those import - is found as an implicit dependency, through PYTHONPATH, the directory of the script, and relative names.", "quantifier": "all texts with any other lines around the statements, all names, all sets of files, all search paths, any depth of imports", "why_tests_cant": "the statements are found by two regular expressions in arbitrary text and resolved against arbitrary trees; a test has a handful of spellings", "anchors": ["SCons/Scanner/Python.py: scan, find_include_names, find_import, path_function"]}
{"id": "C108", "title": "Every file a LaTeX document reads is a dependency", "statement": "If a LaTeX file is a source, each file that LaTeX reads for it - through input, include, pictures, listings, bibliographies, packages and themes, with options, spaces, comments and lists of names in the usual forms, directly or through a file read - is found as an implicit dependency; what stands in a comment is not. The search is that of LaTeX: from the directory of the main document, then TEXINPUTS or BIBINPUTS. The scan always ends.", "quantifier": "all texts of documents, all comments, all names, all sets of files, all search paths, any depth and any cycle of includes", "why_tests_cant": "the commands are found by a regular expression in text from which comments are removed line by line, and the files are worked through with a queue; a test has a handful of spellings and trees", "anchors": ["SCons/Scanner/LaTeX.py: LaTeX, canonical_text, scan, scan_recurse, find_include, _latex_names"]}
{"id": "C109", "title": "A zip archive holds the files of its sources", "statement": "Unpacking what Zip() made gives exactly the files that were below the sources, at their places relative to ZIPROOT, with their contents, whatever the order in which the file system lists its directories; the name of each member leads from ZIPROOT to the file.", "quantifier": "all trees of files, directories, links and other things, all lists of sources, all values of ZIPROOT, every order of the directory entries", "why_tests_cant": "trees are unbounded, the order of the entries is the file system's, and names are computed with relative paths; a test packs one small directory", "anchors": ["SCons/Tool/zip.py: zip_builder, _create_zipinfo_for_file"]}
{"id": "C110", "title": "Builds that share a cache directory give the same result as builds without one", "statement": "Any number of builds, in any number of working trees, at the same time or one after the other, each with any number of jobs, share one CacheDir: every target a build has done is what its action makes of the dependencies as they are, just as without a cache; every file of the cache is what an action makes of the dependencies it is named after; a second build executes nothing; and a second tree with the same sources executes nothing the first one has pushed.", "quantifier": "all histories of edits, builds, kills and removals of cache files in any number of trees, all interleavings of the single steps of the tasks, all projects (with scanners and several targets), all flags", "why_tests_cant": "processes race for the cache, histories are unbounded, and what one build pushes is used by others much later", "anchors": ["SCons/Taskmaster/__init__.py: Task.execute, make_ready_current, executed_with_callbacks", "SCons/CacheDir.py: CacheRetrieveFunc, CachePushFunc, retrieve, push, push_if_forced", "SCons/Node/FS.py: push_to_cache, retrieve_from_cache, visited, get_cachedir_bsig"]}
{"id": "C111", "title": "The pieces of a path fit together", "statement": "For every file or directory: base and suffix together are its path, filebase and suffix its name; dir, a slash and file name the same file, as do path, abspath and relpath; the suffix is a last dot and what follows it unless that is a number; two nodes with the same base and suffix are the same; changing a command from one of these attributes to another that shows something else changes its signature; a target named after a source is beside it, and two sources collide exactly if their filebases are the same.", "quantifier": "all names, all places in the directory tree, all current directories, all variant directories, all chains of attributes", "why_tests_cant": "names and places are unbounded, and the special cases (dots in directories, numbers, root, current directory, outside the project) combine", "anchors": ["SCons/Util/__init__.py: splitext, rightmost_separator", "SCons/Node/FS.py: EntryProxy, Base.get_path, get_abspath, get_relpath, _get_str, srcnode, srcdir_list, for_signature", "SCons/Subst.py: SpecialAttrWrapper", "SCons/Node/__init__.py: target_from_source_base"]}
{"id": "C112", "title": "The dependency tree that is printed is the dependency graph, and FindSourceFiles finds the sources", "statement": "The text printed by --tree and --debug=includes can be read back as a tree: it begins with the target, below each name stand exactly the children of the node in their order, a name in brackets is opened elsewhere; every bar leads down to the next child of the same node; every dependency is in the tree; with prune each node is opened once, and the tree ends even if there are cycles. FindSourceFiles returns exactly the source files below directories and among the sources of what is built, as the file in the source directory, each once.", "quantifier": "all dependency graphs, all names, with and without prune, both character sets, all stack sizes", "why_tests_cant": "graphs are unbounded and may share nodes or have cycles; whether the text is unambiguous depends on all lines together", "anchors": ["SCons/Util/__init__.py: render_tree, print_tree", "SCons/Script/Main.py: TreePrinter", "SCons/Node/__init__.py: render_include_tree", "SCons/Environment.py: FindSourceFiles"]}
{"id": "C113", "title": "The hash format changes no result", "statement": "With any hash format (--hash-format, SetOption), any --hash-chunksize and any signature database (SConsignFile), in any order over the runs of a project: every target a run has visited is what its command makes of its dependencies as they are now; the format asked for is the one used, or there is an error; signatures of different formats are never taken for each other; the database is named after the format, and the databases of other formats are left alone.", "quantifier": "all histories of runs and edits, all formats, chunk sizes, scripts with SetOption, SConsignFile and configure checks, all projects", "why_tests_cant": "what is recorded for a target depends on all runs of the past, and on when the scripts touch the database for the first time", "anchors": ["SCons/Util/hashes.py: set_hash_format, hash_file_signature, hash_signature", "SCons/SConsign.py: current_sconsign_filename, Get_DataBase, File, DirFile", "SCons/Environment.py: SConsignFile", "SCons/Node/FS.py: get_csig, get_max_drift_csig, sconsign_dir", "SCons/Script/Main.py: _main", "SCons/Script/SConsOptions.py: set_option"]}
{"id": "C114", "title": "The compilation database lists the compilations", "statement": "The file CompilationDatabase writes is valid JSON whatever the names and commands are; it has one record for each compilation of C, C++ and assembler sources that was set up and passes the path filter, and no others, in order; relative to the record's directory, file and output name the source and the object; the command calls the compiler with the arguments it is run with.", "quantifier": "all histories of environments, clones, tools and Object/SharedObject calls, all names, commands, overrides and filters", "why_tests_cant": "which calls are recorded depends on the order in which tools are loaded into environments that share builders, and the text on every character of every name", "anchors": ["SCons/Tool/compilation_db.py: write_compilation_db, generate", "SCons/Tool/__init__.py: createObjBuilders", "SCons/Builder.py: DictEmitter, ListEmitter, add_emitter", "SCons/Action.py: _string_from_cmd_list, CommandAction.process, CommandAction.strfunction", "SCons/Environment.py: Clone"]}
{"id": "C115", "title": "An action runs the commands it was written with, in order, each once", "statement": "An action made from text, lists, functions, variables, action objects and sums of these runs exactly what was written, in the order it was written, each once, up to the first that fails: a text is its lines, a line that is nothing but a variable is what the variable has when the action is carried out, a list in a list is one command, a generator function is what it returns.", "quantifier": "all values given as actions, to any depth of lists, variables and generators, all environments, all outcomes of commands", "why_tests_cant": "actions are made from values of any shape, some of them only when the action is carried out, and share one dictionary of keywords", "anchors": ["SCons/Action.py: Action, _do_create_action, _do_create_list_action, _actionAppend, CommandGeneratorAction, LazyAction, ListAction", "SCons/Util/sctypes.py: get_environment_var"]}
{"id": "C116", "title": "A command starts with its directories made and its old targets removed", "statement": "When a command is started, all its sources and dependencies are there, the directories of all its targets and side effects exist, and those of its targets that are not precious have been removed; nothing else on disk was removed or made. A target that is not built is left as it was, and under -n nothing is touched.", "quantifier": "all dependency graphs, disks, states of what nodes remember, and all interleavings of preparing, working and ending of any number of tasks", "why_tests_cant": "preparation relies on what nodes remember of the disk while commands change it, and on the order in which targets are gone through", "anchors": ["SCons/Taskmaster/__init__.py: Task.prepare", "SCons/Executor.py: Executor.prepare, nullify", "SCons/Node/__init__.py: Node.prepare, Node.missing, Node.built", "SCons/Node/FS.py: File.prepare, File._rmv_existing, Dir._create, MkdirFunc, UnlinkFunc, Base.stat"]}
{"id": "C117", "title": "Linking fits the objects", "statement": "A shared library is linked only from files made as shared ones, and refused, naming the first that is not, otherwise, unless static and shared objects are declared to be the same. The linker and command a program is linked with are those of the languages of its own sources, whatever other programs are linked in the same environment before, and are the same for the signature and for the run.", "quantifier": "all histories of builder calls with all targets, all values of the variable, all sequences of expansions of link commands with all sources", "why_tests_cant": "the flag is on nodes that many calls can set, and the choice of the linker is made while the command is expanded, with side effects on the environment, in the order of the build", "anchors": ["SCons/Defaults.py: StaticObjectEmitter, SharedObjectEmitter, SharedFlagChecker", "SCons/Tool/linkCommon/__init__.py: smart_link, lib_emitter", "SCons/Tool/cxx.py: iscplusplus", "SCons/Tool/FortranCommon.py: isfortran", "SCons/Tool/DCommon.py: isD"]}
{"id": "C118", "title": "Each thing once and in order: UniqueList, unique, Flatten", "statement": "A UniqueList, such as the prerequisites Requires gives a node, behaves through all calls in all orders as a list in which each thing is once, at the place where it came first. unique gives each element of what it is given once. Flatten gives all that is not a sequence, strings whole, from all depths, in order, nothing left out or repeated; flattening again changes nothing.", "quantifier": "all initial lists, all histories of method calls with all arguments and positions, all orders of the elements, all nestings", "why_tests_cant": "uniqueness is made up lazily, so that results depend on which methods were called before; the nestings are unbounded", "anchors": ["SCons/Util/__init__.py: UniqueList, unique, uniquer_hashables, flatten, do_flatten", "SCons/Node/__init__.py: Node.add_prerequisite"]}
{"id": "C119", "title": "A source is built with the action for its suffix", "statement": "A builder whose actions are given for suffixes builds sources with the action given last for the longest suffix they end with, else for what follows the last dot, else for the variable that expands to that; the order in which actions and sources were given does not matter; sources of different suffixes, and suffixes nothing is given for, are refused; the emitter is chosen in the same way.", "quantifier": "all dictionaries of suffixes and variables, all histories of add_action, all expansions, all lists of sources of all names", "why_tests_cant": "suffixes overlap, are expanded only when nothing is found, and the sources are compared one after the other", "anchors": ["SCons/Builder.py: match_splitext, DictCmdGenerator, DictEmitter", "SCons/Util/__init__.py: Selector"]}
{"id": "C120", "title": "Every module a D source imports is a dependency", "statement": "The modules of every import declaration of a D source, each that is declared and no other, are dependencies, in the order of the text: renamed modules by their own names, names that are bound from a module not at all; each is the file the compiler reads, the interface file before the source.", "quantifier": "all texts of declarations with all blanks, names and other text between them, all search paths and directories", "why_tests_cant": "the scanner uses one regular expression on the whole text, which goes over lines and knows no comments", "anchors": ["SCons/Scanner/D.py: D.find_include, D.find_include_names"]}
{"id": "C121", "title": "What javac reads of its class path is a dependency", "statement": "Every class file below a directory of JAVACLASSPATH or JAVAPROCESSORPATH, every jar file of a directory given with an asterisk, and every archive that is named, is a dependency of what javac makes; nothing else on the paths is.", "quantifier": "all values of the two variables, texts, lists and nodes, all trees of directories on the disk and in memory", "why_tests_cant": "the scanner walks whole trees, and what it must find is what another program makes of the same text", "anchors": ["SCons/Scanner/Java.py: _subst_paths, _collect_classes, scan", "SCons/Tool/javac.py: pathopt", "SCons/Node/FS.py: Dir.walk"]}
{"id": "C122", "title": "What yacc and lex are told to write are targets", "statement": "Every file that the flags or the variables for header, graph and table files tell yacc or lex to write, besides the parser or scanner, is a target or a side effect of the call, and nothing else is; a call has the targets it would have if it were the only one.", "quantifier": "all lists of flags, all values of the variables, all sequences of calls with one environment", "why_tests_cant": "flags combine freely, and the emitters change the environment they are called with", "anchors": ["SCons/Tool/yacc.py: _yaccEmitter", "SCons/Tool/lex.py: lexEmitter"]}
{"id": "C123", "title": "Every file SWIG writes for a module is a target", "statement": "For every interface file with a module directive, the proxy files that SWIG writes for that module and the header of directors, if the directive asks for directors, are targets besides the wrapper, in the directory where SWIG puts them.", "quantifier": "all interface texts, all forms of the directive (options, blanks, quotes), all lists of flags, output directories and sources", "why_tests_cant": "the directive is found with a backtracking expression, in texts nobody can list", "anchors": ["SCons/Tool/swig.py: _find_modules, _add_director_header_targets, _swigEmitter"]}
{"id": "C124", "title": "A message template is rewritten when messages change, and only then", "statement": "After POTUpdate the template has the lines that xgettext printed, but for the date; it is written only if something other than the date changed or it was not there, and left alone if xgettext fails. The template depends on every file that the lists of files name, where the search path has it, and comments and blank lines in the lists are no names.", "quantifier": "all outputs of xgettext, all contents of the template, all lists of files, search paths and file systems", "why_tests_cant": "texts are compared after a substitution over lines, and lists are parsed with three substitutions, on texts nobody can list", "anchors": ["SCons/Tool/xgettext.py: _update_pot_file, _scan_xgettext_from_files, _pot_update_emitter"]}
{"id": "C125", "title": "A jar file has every source under its name, and the manifest", "statement": "The command that Jar runs makes the target, an archive with every source that is no manifest, read from where it is and stored under its path below its class directory, in order, and with the first manifest among the sources as its manifest. Java files and directories given to Jar stand for their class files, everything else for itself; several targets are each made from all sources.", "quantifier": "all lists of sources and targets, class directories, values of JARCHDIR and letters of JARFLAGS", "why_tests_cant": "what an argument means to jar depends on the letters and arguments before it", "anchors": ["SCons/Tool/jar.py: jarSources, jarManifest, jarFlags, Jar", "SCons/Node/FS.py: Base.get_path"]}
{"id": "C126", "title": "A package variable is true, false or a path that exists", "statement": "After Variables.Update a PackageVariable has what the manual says for the text that the last source, or else the default, gives: True for an enabling word in any case, or the default if that is a path; False for a disabling word; else the text itself, which names something that exists, or Update ends in an error; and in no other case does it.", "quantifier": "all texts on the command line and in files, all defaults, other variables and file systems", "why_tests_cant": "converter and validator see the value after expansion, in an environment that other variables change", "anchors": ["SCons/Variables/PackageVariable.py: _converter, _validator, PackageVariable", "SCons/Variables/__init__.py: Variables.Update"]}
{"id": "C127", "title": "What a SWIG or IDL file includes is a dependency", "statement": "The scanner of a file for SWIG finds the name, with its kind of quotes, of every line that is %include, %import or %extern and a name, whatever the other lines are, and looks only at such lines; that of an IDL file finds the names of #include and import, in order, and nothing else.", "quantifier": "all texts, blanks, forms of the name, positions of the directives and rests of the lines", "why_tests_cant": "the names depend on what the expression matches anywhere in the text, also over the ends of lines", "anchors": ["SCons/Scanner/SWIG.py: SWIGScanner", "SCons/Scanner/IDL.py: IDLScan", "SCons/Scanner/__init__.py: Classic.find_include_names"]}
{"id": "C128", "title": "A demand on the version is decided by numbers", "statement": "GetSConsVersion gives the three numbers that the text of the version says, 0 for a third that is not written. EnsureSConsVersion ends SCons with a status that is not 0, and says what is demanded and what is there, just if these numbers, compared as numbers and the first first, are less than those demanded; else it does nothing. A demand that is met stays met if less is demanded and when SCons gets newer. EnsurePythonVersion does the same with two numbers.", "quantifier": "all versions with any numbers, tags after the second and third and other text behind, and all demands", "why_tests_cant": "the numbers have no bound, and texts compare in another order", "anchors": ["SCons/Script/SConscript.py: SConsEnvironment._get_major_minor_revision, GetSConsVersion, EnsureSConsVersion, EnsurePythonVersion"]}
{"id": "C129", "title": "A tool is located where the search order says, and can then be run", "statement": "find_program_path finds the program in the first directory that has it: of those in PATH of ENV, then of those in the search path of SCons, then of the defaults; and finds nothing only if none has it. PATH of ENV is as before unless something should be added and what is found is not found through it; then commands find the same program through the PATH that results, and what they found before.", "quantifier": "all search paths with duplicates, several and empty directories, all default paths, all file systems", "why_tests_cant": "the path is changed during the search, without what is already there in another form, and then put back", "anchors": ["SCons/Tool/__init__.py: find_program_path", "SCons/Environment.py: Base.AppendENVPath, Base.WhereIs", "SCons/Util/__init__.py: WhereIs"]}
{"id": "C130", "title": "Installed files are where they should be, and FindInstalledFiles knows all of them", "statement": "Install puts each source under its name into each directory, and makes nothing else; if directories and names differ no target has two sources. InstallAs puts each source to its target. With --install-sandbox everything is below the sandbox, at the place below it that an absolute path says. After any history of calls FindInstalledFiles gives the targets of all calls so far, each once, in the order of their first call.", "quantifier": "all directories, sources, targets, sandboxes, current directories, and all histories of calls and questions", "why_tests_cant": "the sandbox must hold for every way to name a directory, and the list is kept between calls", "anchors": ["SCons/Tool/install.py: DESTDIR_factory, InstallBuilderWrapper, InstallAsBuilderWrapper, add_targets_to_INSTALLED_FILES", "SCons/Environment.py: Base.FindInstalledFiles"]}
