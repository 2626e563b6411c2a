# Formal model of SCons in Lean 4 — design

Sources: `/repo` (SCons, Python).  Model: `/verif/lean/Verif/*.lean`.  Properties: `/verif/properties.jsonl`.
Status per property: `/verif/MANIFEST.json`.

## Trusted base

* Lean 4.33.0's kernel and the elaborator for *statements* (what a theorem says).
* Axioms: only Lean's standard three, `propext`, `Classical.choice`, `Quot.sound` (checked by `vcheck`'s audit;
  no axioms of our own, no compiled-evaluation tactics).
* The correspondence model <-> Python, which was made by reading.  Every definition cites file and lines and
  says what is simplified.
* Python semantics of lists/sets/dicts as used in the modelled code.  Iteration order of Python `set`s is
  treated as arbitrary (an order chosen by the step label), never fixed.

## Method

Each area has: a *model* (total computable functions or labelled transition systems that mirror the code),
a *specification* (small, independent definitions from the English property), *theorems* (in the same or a
`…Props` file), and `example`s that exhibit a non-trivial case meeting the hypotheses.
Where the code does not satisfy the English property we prove the negation with a concrete witness, and prove
the strongest true variant (`_partial` if it does not cover the full statement).

## Plan and result per property

"LTS" = labelled transition system; everything the model does not compute (scan results, up-to-date answers, failures,
iteration orders of sets, crash points, scheduling) is a label or an arbitrary parameter, and theorems quantify over it.

| Id | Modelled (directory) | Proof | Result |
|----|----------------------|-------|--------|
| C01-C10 | `TM/`: `Taskmaster` as LTS over node states, ref counts, waiting sets, candidate stack, pending children, side effects | invariants by induction over label sequences; acyclicity/pigeonhole for C05-C07, C10; lexicographic measure for C09 | C07, C08 false in the situations proved as counterexamples, proved otherwise |
| C11-C14 | `Pool/`: `NewParallel._work` as thread-interleaving LTS over an arbitrary abstract taskmaster, then over `TM` | inductive invariants, progress theorem, refinement | proved |
| C16-C18, C20, C21 | `Sig/`: `Node.changed`, `get_binfo`, deciders, csig cache | case analysis, induction on lists | C16, C20, C21 false in corner cases (proved), proved otherwise |
| C15, C19, C41 | `Build/Model`, `Build/Props`: runs, edits, kills, re-runs of a project whose dependencies are found by scanning the files | history induction with a clean-build function as specification | C41 false for failed actions that leave files (proved) |
| C44, C16 (whole runs) | `Build/Group`, `Build/Compose`, `Build/NullBuild`: `TM` and `Build` run together with cached scan results; actions have any number of targets, checked and run together | simulation: every composed step is a `TM` step and a legal `Build` step | proved |
| C22-C25 | `Store/`: `dblite`, `SConsign.DB`, `SConsign.DirFile` as sequences of file system calls with a crash possible after each | invariant on the disk after every prefix | proved (C25 with the documented window) |
| C26-C30 | `Cache/`: cache directory shared by processes (LTS), retrieval and push of one task, the cache key, `FileLock` | invariants over interleavings; for the key (`Cache/KeyDeps`), induction over aliases and directories down to file contents: equal inputs or an explicit collision | C27, C30 partly false (proved) |
| C31-C35, C45 | `Subst/`: `StringSubber`, `ListSubber`, `_remove_list` on characters | structural induction, termination by the set of variables being expanded | C33-C35 partly false (proved) |
| C36, C37, C43 | `Cpp/`: `cpp.PreProcessor`, `DumbPreProcessor`; `Scan/`: `find_include_file` | simulation against a recursive (tree) semantics of conditionals | partly false (proved) |
| C38, C42 | `Scan/`: `get_implicit_deps` work list, `Classic.scan` memo | reachability closure invariant | partly false (proved) |
| C39, C40 | `Act/`: command/function/list actions, error conversion, exit status | induction, case analysis | partly false (proved) |
| C46, C47 | `Whole/`: `Pool` + `TM` + `Build` as one program with file writes interleaved | lexicographic measure for termination, no-deadlock theorem, invariants, layering for acyclicity; existence of a complete run for every N | proved |
| C48 | `TM/Only` | inductive invariant: everything in the walk's hands is in any set closed under dependencies | proved |
| C49 | `Env/Override`: a heap of environments, operations as in the code | invariants over all operation sequences | keys()/subst after deletion partial, false of the code |
| C50 | `Env/Append`: values as an inductive type with Python's `+`, list, deque, CLVar, dict | case analysis and induction over the added values | final uniqueness false of the code |
| C51 | `Env/Cppdef`: `_add_cppdefines` and the flags of `processDefines` | induction over entries | Prepend order and duplicates false of the code |
| C52 | `Env/Clone`: a heap with references; `semi_deepcopy` | frame property: all reachable containers are fresh | proved for containers, false for other objects |
| C53 | `Util/Path` | induction; normalisation is any function | two claims false of the code |
| C54 | `Shell/Model`: `escape`, words and pieces; a reader for the POSIX shell's quoting as specification | induction over characters and words | backquote and joined names false of the code |
| C55 | `Shell/Ixes` | induction over the list | names that look like flags false of the code |
| C56 | `FS/Lookup`: `_lookup`, the regular expression, `_lookup_abs`, `must_be_same`, `rel_path`; `walk`, `resolve` as specification | splitting and joining of strings, invariant of the table of nodes over all histories | new lines and all-slash names false of the code |
| C57 | `Script/Question`: `QuestionTask` over the composed model of `Build/Compose` | a run that starts nothing found every stored entry equal to the present files (`Calm`), so any second run from the same state stays inside and finds the same (`Idle`) | |
| C58 | `Script/Clean`: `CleanTask` over the walk of `TM/Model`, one removal at a time, memory of scans; `Script/FsDelete`: `fs_delete` on trees, `Clean()` with its shared lists | invariant of runs plus C01, C06, C48; induction on trees and call sequences | "everything" only for scanners that do not read removed files; four parts false of the code (proved) |
| C59 | `Sig/Explain`: `Node.explain` over the model of `changed` | induction on the dependency loop plus C18, C21 | false of the code for content-timestamp and Depends+Ignore (proved) |
| C60 | `Bld/Calls`: `_node_errors`, `_execute` after `_create_nodes`, executors, batches, `SideEffect()` as a state machine over nodes; `Bld/Props`, `Bld/Execs` | induction over the program, invariants of nodes and executors | same-environment calls and overlapping target lists are not checked by the code: counterexamples proved |
| C61 | `Vars/Model`: `Variables.Add/Update/Save`, Bool/Enum/List converters and validators over dictionaries; `Vars/Props`, `Vars/Save` | induction over assignments (from the right), split/join inversion | aliases: the last setting does not always win; stale unknown variables; Save: counterexamples proved. `$` in values not covered in the round trip |
| C62 | `Pool/Legacy`: `Serial`, `Worker`, `ThreadPool`, `LegacyParallel` as transition systems over the taskmaster interface; `Pool/Total`: with the taskmaster | invariant over queues and workers as multisets; lexicographic measure (walk, work left); refinement into `TM` | exceptions out of the taskmaster, thread creation failure not modelled |
| C63 | `Script/DryRun`: `scons -n` as a transition system over the same taskmaster, scans and checks as a build, with `execute_actions` and `do_store_info` false | invariant of dry runs; comparison with `Build/Compose` runs from the same state; concrete runs for the counterexamples | announced = executed is false (counterexamples); no derived-file cache |
| C64 | `Script/Targets`: the argument split, the three target lists, `Default()`, the climb and the choice of top nodes, function by function | induction over call sequences and paths | `scons -- x` does not build `x` (counterexample); names resolve as in C56 |
| C65 | `Env/Flags`: the classification of words, the loop with its pending option, and the unique merge, function by function | case analysis on words; induction over word lists; first/last occurrences | words are the result of `shlex.split`; separate strings, empty words, repeated words, leak into the caller's list: counterexamples |
| C66 | `FS/Variant`: nodes as paths, `srcdir`, `duplicate`, repositories, variant lists and the two memos; `FS/Dup`: `exists`, `rfile`, `file_on_disk`, `srcdir_duplicate` on a disk | invariant over all call sequences; explicit formula for the search; well-foundedness for its end | `rfile` for layouts `Plain`; four counterexamples |
| C67 | `FS/Dup`: inodes, symbolic links, `LinkFunc` with its fallbacks and failures, `exists_file` | induction over link chains and over the recursion depth (frame) | no links among directories; relative links and `-n` are counterexamples |
| C68 | `Script/Sconscript`: scripts as programs of Export, Import, Return, SConscript, assignments by arbitrary functions, exceptions and handlers; the call stack, `fs._cwd`, the process's directory, `sys.path` | frame property by induction on the running time, for every program and every way to end | values are not changed in place; no local variables; three counterexamples |
| C69 | `FS/Glob`: nodes, disk and search lists; `_glob1`, `glob` with `exclude`, stable sort, set iteration as an oracle | invariant of the nodes made, induction over search lists and pattern components; permutation argument for determinism | exactness for tidy layouts; six counterexamples |
| C70 | `Conf/Model`: the tasks of a check, records, files and stored signatures; `collect_node_states`, `execute`, `make_ready`, `prepare`, `visited`; `Conf/Names`: the file names | invariant (records are true of some inputs), induction over tasks and over histories; specification: the tasks carried out from nothing | seven counterexamples |
| C71 | `Act/PyCode`: values, code objects and functions as trees; `_object_contents`, `_code_contents`, `_function_contents`, `get_contents` with `varlist` | mutual structural induction over the edit; specification: the relation of one edit, and erasure of names, lines, files and docstrings | six counterexamples |
| C72 | `Scan/Dirs`: the two directory scanners over `Scan/Model`, the comparison of `Node.changed` with the deciders of files and directories | instance of the closure theorem C38; sorted lists are determined by their elements; specification: the inductive predicate `Visible` | six counterexamples |
| C73 | `Sig/Alias`: signatures of trees of files, values, aliases and directories; `children_are_up_to_date`; `ValueWithMemo` as a state machine | mutual structural induction (the signature is injective); invariant over calls | five counterexamples |
| C74 | `Build/Session`: a session is a chain of runs of `Build/Compose`, each starting from the node states, counters, cached scans and signatures the one before left, after the clearing walk of `do_build`; compared with separate runs | invariant: what a command touches lies in what the walk finds (`TM/Only` for sets closed under what was seen); equivalence by induction over events; C44 for the result | four counterexamples (prerequisites, other targets, dropped dependencies, failed commands) |
| C75 | `Bld/Chain`: builders, `src_suffixes` (pure and with the memory appended to in place), `src_builder_sources`, `_create_nodes`, `_execute`, `__call__` as functions with fuel for the recursion; a call gives a list of declarations | induction on fuel; an inductive relation `Product` says which file is used for a source; rank functions for termination | counterexamples: lost chdir, double conversion, stale memory |
| C76 | `Repo/Model`: the local tree and repositories as files and records, `is_up_to_date` with `rfile` and `LocalCopy`, `prepare`, the action, `visited`; runs in any order respecting dependencies; histories in which repositories are trees of other histories | invariant: records are truthful in every tree; settled tasks are framed; induction over runs and histories | two counterexamples (hard links), one limitation (only the first repository is compared) |
| C77 | `Bld/Batch`: executors shared by key, batches, `_get_changes`, prepare, retrieval from and push to the cache, the action, records, in both modes; the key of the Microsoft compiler | case analysis of the task; records and cache honest as invariant; induction over the calls | four counterexamples: cache, second targets, precious targets, suffix |
| C78 | `Script/Options`: three layers of values, parse loop of optparse with kept unknown options, `reparse_local_options`, `AddOption`, `SetOption`, the last parse | induction over arguments and over the commands of the scripts, with the leftovers as invariant | nine counterexamples: `Script/OptionsWitness` |
| C79 | `Scan/Prog`: `LIBS` split, prefixes and suffixes, `find_file`; specification: the linker's search | the name taken is the name looked for; induction over the path | three counterexamples: file name, literal prefix, point in the name |
| C80 | `Scan/ImplicitCache`: `Node.scan` with the three options, the memo of the children, the records, runs and histories of one command | up to date with the cached list ⇒ the recursive scan meets only files with unchanged content ⇒ same list; induction over the history | six counterexamples |
| C81 | `Act/Install`: `copyFunc` and `scons_copytree` over trees of files and directories with modes | structural induction on the source tree; for files induction over the versions | |
| C82 | `Act/Chmod`: `chmod_func` on texts, the split into clauses, the two loops over classes and permissions | inversion of the printing of the clauses; bits by `testBit` | three counterexamples |
| C83 | `Build/Timed`: whole projects with modification times, the records at the end of a run, histories; the deciders of `Sig` | invariant: every record is that of a build whose inputs are known up to their times; the scan meets the same files again | six counterexamples |
| C84 | `Subst/Signed`: both expansions of a command in step; `Act/Contents`: contents of single actions, lists, executors | simulation: words collected by ListSubber = words of the text of StringSubber; concatenation is injective if no piece shrinks | six counterexamples |
| C85 | `Act/CmdDeps`: WhereIs, both ways of finding programs, where the executor adds them | characterisation of the search; the first word of the command by C84; specification of the shell's search | five counterexamples |
| C86 | `Shell/TempFile`: one call of TempFileMunge with the memo on the target and the files; specification: the GNU rules for reading argument files | invariant over histories of calls; induction on the text of the file; C84's lemma on neat commands | four counterexamples |
| C87 | `Scan/CText`: the regular expression with findall over whole texts, the search for a name; composed with the closure of C38; specification: directives of the C standard line by line | characterisation of the matcher, induction on lines, then C38 | four counterexamples |
| C88 | `Bld/PrePost`: executors as shared objects, AddPreAction, AddPostAction, Null and its morphing, the choice of executor in a builder call; specification: the list of actions asked for, read off the program | invariant of the executor along the program | three counterexamples |
| C89 | `Cpp/Expr`: the translation of conditions, an evaluator for Python's expression grammar, definition of macros; specification: C's expression grammar as trees with levels, and their values | left-recursive grammar against loops: invariants for every level, fuel shown sufficient, then values by induction on trees | seventeen counterexamples |
| C90 | `Cpp/Text`: joining of lines, the expression for directive lines with findall, the removal of comments, the argument expressions; specification: grammar of lines | induction over the lines; a match never ends before the end of its line; induction over the text before a comment | eight counterexamples |
| C91 | `Java/Parse`: the tokens of a text by the regular expression, the machine of states with its stacks; specification: texts as trees, binary names of the Java language | induction over the tree in two contexts (classes; anonymous classes and arguments), with frame conditions for the stacks | ten counterexamples |
| C92 | `Text/File`: str.replace, `_do_subst`, `_action`, the signed variables, on top of the model of scons_subst; specification: templates as lists of names and texts, filled at once | induction over the entries and over the placeholders; the signed words are recovered from the signature | seven counterexamples |
| C93 | `Text/Depends`: lines, continued lines, splitting, Depends; specification: rules as lists of names, blanks and continuations | induction over the pieces of a rule, then over the file; membership after the fold | five counterexamples |
| C94 | `Kids/Model`: the lists of a node, both memos, everything that changes or resets them; specification: folds over the history | invariant: lists are the said ones, every remembered answer is the present one | counterexample with --implicit-cache |
| C95 | `Decide/Model`: attributes of environments, overrides, the map of deciders with its indices, morphing, builder calls; specification: the last thing said | invariant over histories | five counterexamples |
| C96 | `ShellEnv/Model`: threads converting the shared dictionary one read or write at a time; specification: relations for the text of a value | invariant over all schedules | counterexamples for generators, for ENV itself, for tuples |
| C97 | `Warn/Model`: classes, names, list of entries, processing and reprocessing; specification: the table of the manual | evaluation of the table; invariant over sessions | counterexamples for precedence, mandatory warnings, reserved-variable |
| C98 | `Tex/Model`: calls of the action as threads with one global flag, programs as parameters; specification: what LaTeX reads, when an index is up to date | invariants at the head of the loop and during a pass; lexicographic measure | counterexamples for parallel documents, failed runs, chapters, glossaries |
| C99 | `Fortran/Regex`: a backtracking matcher (all matches in the order re tries them) and findall; `Fortran/Model`: the three patterns, scanner, emitter; `Fortran/Spec`: lines and statements of Fortran | common form: at the start of a line (or some character), blanks, BODY; with lemmas for crossing blanks and line ends; induction over text, statements and lines | counterexamples for prefixes, typed functions, comments, continuation, second statements, module directory |
| C100 | `Methods/Model`: wrappers with identity, attributes, added_methods, BUILDERS, clone, override; `Methods/Spec`: one table of meanings per environment | relation between an environment and its table, kept by each operation; clone: two folds characterised; lookups by induction on the chain of overrides | counterexamples: rebinding through overrides, leaks, lost values, uncloneable environments |
| C101 | `Cache/Open`: every file system operation of opening a cache directory as a step of a transition system, with the lock file, crashes, timeouts and processes that may not write | one invariant kept by all steps; rank for the step bound; liveness as absence of stuck states | counterexamples: lock left by a dead process, plain directory, read-only process |
| C102 | `Cache/Convert`: rearrange_cache_entries on a list of files and directories | invariant of the loop over the files moved so far; then the directories removed | counterexamples: resuming, leftovers |
| C103 | `FileAct/Model`: the five functions on a file system of files, directories, links and protected directories, with the functions of os and shutil they call | lookups after each primitive; induction over argument lists and, for Mkdir, over the path; trees by induction over the list of objects | counterexamples: failures without report, times, names, flags, memory |
| C104 | `ConfH/Model`: the text each check and Define adds, the header with its guard, the loop of CheckLib on values of LIBS; `ConfH/Spec`: a reader for comments and definitions | reading a concatenation piece by piece; induction over the events and over the list of libraries | counterexamples: equal macros, equal guards, ends of comments, line breaks |
| C105 | `ShLib/Model`: the naming functions, the emitter, the links made in a directory, installing, cleaning, retrieving | case analysis on the two links; string lemmas for prefix and suffix; two builds in a row for versions side by side | counterexamples: cache, upgrade from 1 to 1.2, dots in names |
| C106 | `PathL/Model`: keys, parsing, the memory, substitution, what the scanner and the compiler get | invariant of the memory over any list of calls; specification by entries and their meanings | counterexamples: split is not in the key; None; empty strings behind variables |
| C107 | `PyScan/Model`: both expressions with findall over whole texts, the cutting of names, the search; `PyScan/Spec`: what Python reads, as inductive relations | line by line equation for findall; the first directory of Python's search is the one the scanner finds | counterexamples: lists, parentheses, renaming, relative packages, order |
| C108 | `TexScan/Model`: comments, the expression with findall, names, search, the loop with its memory; `TexScan/Spec`: TeX reading characters, a grammar of documents, where LaTeX looks | text without comments = what TeX sees; findall over rendered documents; invariant of the worklist, measure for its end | counterexamples: options over lines, spaces after commas, groups, dots, history |
| C109 | `Zip/Model`: os.walk, relpath, normpath, members; `Zip/Spec`: unpacking, looking up a path | characterisation of the walk by induction on the size of the tree; relative paths by induction | counterexamples: links, files outside ZIPROOT, order, times before 1980 |
| C110 | `CacheSys/Model`: trees with running builds, tasks in phases (ask, retrieve one by one, execute, push one by one), one cache, commands interleaved in any order | invariant over all histories (records truthful, cache truthful, tasks at work and done consistent); agreement of two builds by induction on the order of tasks; further invariants for what is not executed | counterexamples: renamed dependencies, --cache-force after hand edits, killed builds |
| C111 | `Attrs/Model`: splitext, names, paths and the special attributes of nodes, character by character | last occurrences of dot and slash; paths as lists of names, split and joined again; what the operating system opens under a path as specification | counterexamples: current directory, variant directories without duplicates, signatures of srcpath, sources beginning with a hash sign |
| C112 | `Tree/Model`: print_tree and render_tree with margins, visited set and stack depth; FindSourceFiles | a reader of the printed text as specification; the printed lines are the lines of a tree (refinement); measure: names not yet visited | counterexamples: cycles broken by Ignore, an alias and a file with the same name |
| C113 | `Hash/Model`: the choice of format and database in the order in which a run does it, chunks, signatures with max_drift, histories of runs and edits | invariant: recorded signatures are digests, with some algorithm, of what they are recorded for; digests of different length differ; induction over histories | counterexamples: two databases, configure checks before the format is set |
| C114 | `CompDb/Model`: the object builders with their actions and emitters, tools, clones, calls; `process` and `strfunction`; the loop that writes the records; `json.dump` | invariant relating builder objects to the history; a JSON reader as specification, round trip; C111 for the paths, the shell reader of C54 for the commands | counterexamples: tool order, clones, duplicates, escaping |
| C115 | `ActMake/Model`: the factory of actions with its shared dictionary, sums, lazy and generator actions, carrying out with a bound on the depth | an inductive relation from what is written to the steps; induction on it | counterexamples: second generator, lost keyword, endless variable |
| C116 | `Prep/Model`: `Task.prepare` down to `unlink` and `mkdir`, with remembered `stat` results and nullified directory executors; `Prep/Sched`: tasks prepared, working and ending in any order | invariant relating what is remembered to the disk; frame relation | counterexamples: target lost, directory not made again |
| C117 | `Link/Model`: the emitters and `SharedFlagChecker`, `smart_link` with what it assigns to the environment, programs expanded one after the other | induction on histories, independent specifications `MadeShared`, `Fits` | counterexamples with D, prebuilt objects, texts that look false |
| C118 | `Lists/Model`: `UniqueList` with all methods it has and inherits, `unique`, `flatten` | refinement of an independent list without repetitions, shown to be deterministic; `Flatten` against places of leaves in dictionary order | counterexamples: initial repetitions, remove, copy, positions, equality, sets |
| C119 | `Select/Model`: `match_splitext`, `Selector`, `DictCmdGenerator`, `DictEmitter` | equivalence with the specifications `ExtOf` and `Picks`, which are deterministic; invariance under permutation | counterexamples: sources without suffix, variables with two dots, emitters, clashes, `None`, digits |
| C120 | `DScan/Model`: the expression as a matching function, `findall`, the cutting of names, `find_include`; `DScan/Props`: declarations as a grammar, the search of the compiler as a relation | the text before a stop character contributes the same whatever follows it; induction on the declarations; induction on the search path | counterexamples: comments that end with the word, comments inside, blanks around dots, packages, directories in the wrong order |
| C121 | `JavaCp/Model`: `_subst_paths`, `scan`, both walks, `splitext`, the text of `-classpath`; `JavaCp/Props`: what javac reads, as inductive relations | mutual induction over trees; cutting undoes joining; equivalence with the relation `Looked` | counterexamples: directories still to be made, links, `.JAR`, lists with separators |
| C122 | `Yacc/Model`: `_yaccEmitter`, `lexEmitter` with the environment they leave behind; `Yacc/Props`: the files bison and flex are asked for, as relations | both inclusions by cases on the options; induction on the sequence of calls | counterexamples: combined options, `--verbose`, variables that are expanded once for all calls |
| C123 | `Swig/Model`: `_reModule` with its backtracking, `_find_modules`, `_add_director_header_targets`, `_swigEmitter`; `Swig/Props`: the directive as data, the files SWIG writes as a relation | induction on the text before the directive and on the parentheses tried; targets are only added | counterexamples: comments after options, semicolons, `-module`, Java files |
| C124 | `Pot/Model`: `_update_pot_file`, `_scan_xgettext_from_files`, `_pot_update_emitter`, the substitutions as walks over the text; `Pot/Props`: texts as lines, lists of files as entries | induction on the lines; a text is cut into lines in one way | counterexamples: the last message removed, carriage returns, blanks after a name, nodes |
| C125 | `Jar/Model`: `jarSources`, `jarManifest`, `jarFlags`, the command, `Jar`; `Jar/Props`: how `jar` reads its arguments, as a function from arguments to an archive | induction on letters and sources; cases of the pseudo-builder | counterexamples: options in `JARFLAGS`, `JARCHDIR`, two manifests, a text as source |
| C126 | `Vars/Package`: `_converter`, `_validator`, `PackageVariable` in the model of `Variables.Update` (C61); what the manual says as a relation | from C61_converted_partial and C61_validated; cases on the words | counterexamples: `Yes` as default, `False` as default, the empty text |
| C127 | `Iface/Model`: the expressions of the SWIG and IDL scanners as functions of the text from the beginning of a line, `findall`; specification: a text is lines, a line is a directive in parts | an expression is decided by its line; then induction on the lines | counterexamples: options, blanks in names, comments, no blank, several imports |
| C128 | `Ver/Model`: `_get_major_minor_revision`, `EnsureSConsVersion`, `EnsurePythonVersion`; specification: the text of a version in parts, being older | the digits of a number are read back; cases on the first difference | `3.2b1` meets the demand for 3.2 |
| C129 | `Util/FindProg`: `find_program_path` on `appendPath` (C53); which directories have the program is a parameter | the first that has it is the same in a list without doubles and in the list with them; fold over the defaults | counterexamples: current directory, empty directory |
| C130 | `InstTo/Model`: `DESTDIR_factory`, the wrappers of Install and InstallAs, the list of installed files with its memory | a text that does not lead out only adds names; invariant of the memory over histories | counterexamples: nodes, `#`, `..`, relative directories, lengths, changed list |

No property on the list was left out as inexpressible.

## What is modelled, by file

* `SCons/Taskmaster/__init__.py`: `Task.prepare`, `execute`, `executed_*`, `failed`, `fail_stop`, `fail_continue`, `make_ready_*`,
  `postprocess`, `exception_*`; `Taskmaster.find_next_candidate`, `no_next_candidate`, `_find_next_ready_node`, `next_task`,
  `will_not_build`, `stop`, `cleanup`, `_validate_pending_children` (not modelled: it is only a debugging aid), `find_cycle`.
* `SCons/Taskmaster/Job.py`: `NewParallel` (`_work`, `start`, `_adjust_stack_size` not), the interrupt flag.
  Assumed: calls into the taskmaster inside the critical section do not raise (finding 17).
* `SCons/Node/__init__.py`: `changed`, `is_up_to_date`, `get_binfo`, `built`, `visited`, `children`, `scan`, `get_implicit_deps`,
  `add_to_waiting_*`, `Depends`/`Ignore` lists; `SCons/Node/FS.py`: `File.changed_*`, `get_csig`, `get_max_drift_csig`,
  `_get_previous_signatures`, `get_cachedir_bsig`, `prepare`, `built`, `FileFinder.find_file`.
* `SCons/dblite.py`, `SCons/SConsign.py` (`Base`, `DB`, `Dir`, `DirFile`, `write`), `SCons/CacheDir.py`, `SCons/Util/filelock.py`.
* `SCons/Subst.py`: `scons_subst`, `scons_subst_list`, `StringSubber`, `ListSubber`, `_remove_list`, `Literal` only as an opaque object.
* `SCons/cpp.py`: dispatch table, `#if` groups, include stack, macro resolution of `#include` (`Cpp/Model`, where the evaluation of conditions
  is an arbitrary function; `Cpp/Expr` models it).
* `SCons/Scanner/__init__.py`, `SCons/Scanner/C.py`: `Base.__call__`, `Current`, `Classic.scan`, `find_include_file`.
* `SCons/Action.py`, `SCons/Errors.py`, `SCons/Executor.py` (`execute_action_list`, `get_contents`, child lists), `SCons/Script/Main.py`
  (`BuildTask` reporting and the exit status).
* `SCons/Environment.py`: `OverrideEnvironment`, the dictionary methods, `Append`, `Prepend`, `AppendUnique`, `PrependUnique`,
  `_add_cppdefines`, `Clone`'s copy of the variables; `SCons/Util/__init__.py`: `semi_deepcopy`, `CLVar.__add__`/`__radd__`;
  `SCons/Util/envs.py`: `PrependPath`, `AppendPath`; `SCons/Defaults.py`: `processDefines`.
* `SCons/Platform/posix.py`: `escape`; `SCons/Platform/win32.py`: `escape`; `SCons/Subst.py`: `CmdStringHolder.escape`, `quote_spaces`, the word building of
  `ListSubber`; `SCons/Defaults.py`: `_concat_ixes`, `_stripixes`.
* `SCons/Node/FS.py`: `FS._lookup`, `RootDir._lookup_abs`, `needs_normpath_check`, `must_be_same`, `chdir`, `Dir.rel_path` (without drive letters).
* `SCons/Script/Main.py`: `QuestionTask` (447-459).
* `SCons/Script/Main.py`: `CleanTask` (363-445); `SCons/Environment.py`: `Clean` (2556-2573).
* `SCons/Node/__init__.py`: `explain` (1637-1730).
* `SCons/Builder.py`: `_node_errors` (283-330), `_execute` (556-647, without `src_builder` and `_create_nodes`); `SCons/Environment.py`: `SideEffect` (2897-2920); `SCons/Executor.py`: `add_sources`, `add_batch` (392-411).
* `SCons/Variables/__init__.py`: `_do_add` (153-190), `Update` (242-367), `Save` (383-431); `BoolVariable.py`, `EnumVariable.py`, `ListVariable.py`: converters and validators.
* `SCons/Taskmaster/Job.py`: `Serial` (178-230), `Worker`, `ThreadPool` (233-330), `LegacyParallel` (346-432).
* `scons -n`: `SCons/Script/Main.py` 1237-1238, 1403-1409; `SCons/Action.py` 655-720; `SCons/Node/FS.py` 345-376, 3145-3180; `SCons/Node/__init__.py` 341-348, 779-814.
* Choice of targets: `SCons/Script/__init__.py` 186-226, 274-306; `SCons/Script/Main.py` 985-997, 1080-1094, 1254-1330; `SCons/Script/SConscript.py` 488-489; `is_under` in `SCons/Node/FS.py` 817-821, 2529-2530.
* `SCons/Environment.py`: `ParseFlags` (1005-1210), `MergeFlags` with `unique=True` (1212-1285).
* `SCons/Node/FS.py`: `VariantDir` (1503-1517), `Repository`, `Dir.link`, `addRepository`, `__clearRepositoryCache`, `srcdir_list`, `srcnode`, `get_all_rdirs`, `variant_dir_target_climb` (1546-1570), `srcdir_duplicate`, `file_on_disk` (2117-2193), `do_duplicate` (3189-3207), `rfile` (3588-3620), `LinkFunc` (250-340); `SCons/Node/__init__.py`: `exists_file` (148-171).
* `SCons/Script/SConscript.py`: `_SConscript` (180-339), `compute_exports`, `Frame`, `Return`, `handle_missing_SConscript`, `Export`, `Import`, `SConscriptChdir`; `SCons/Node/FS.py`: `chdir` (1301-1314).
* `SCons/Node/FS.py`: `Dir.glob` (2224-2284), `Dir._glob1` (2289-2351), `Entry.disambiguate` (1036-1077), `FS.Glob` (1573-1581).
* `SCons/SConf.py`: `SConfBuildTask` (222-400), `BuildNodes` (524-590), `TryBuild`'s names (620-653), cache modes (70-90); with `get_max_drift_csig` (FS.py 3222-3246), `get_csig` (3248-3278), `File.prepare` (3161-3176), `File.is_up_to_date` (3553-3585) as used there. Not modelled: the checks of `Conftest.py`, `config.h`, log output, derived project files as inputs of checks.
* `SCons/Action.py`: `_callable_contents` ... `_function_contents` (133-345), `FunctionAction.get_presig` (1455-1461), `_ActionAction.get_contents` (555-580). Not modelled: objects with state pickled by their own means, `repr` of objects with addresses in them.
* `SCons/Scanner/Dir.py` (all), `Dir.get_found_includes`, `Dir.get_env_scanner` (FS.py 1857-1884), `Dir.get_csig` (1958-1965), `get_contents_dir` (Node/__init__.py 207-213), `children_are_up_to_date` (1539-1554); `SCons/Node/Alias.py` and `SCons/Node/Python.py`: signatures and `ValueWithMemo`. Not modelled: `read`/`write` of values, variant directories and links below scanned directories.
* `SCons/Script/Interactive.py` 151-248 (`do_build`: the clearing walk), `Node.clear` (Node/__init__.py 869-887). Not modelled: the options of a command, `rfile` of variant directories, the memory of directories and search paths, which nothing clears.
* `SCons/Builder.py` 120-126, 474-572, 649-682, 694-910 (`Bld/Chain`). Not modelled there: `$` in names, prefixes and suffixes that are functions or dictionaries, `srcdir`, `multi` and batches (C60).
* `SCons/Node/FS.py` 3553-3585 (`is_up_to_date` with repositories), 3161-3176 (`prepare`), 293-343 (`LinkFunc`, `LocalCopy`) (`Repo/Model`). Not modelled there: timestamps deciders, soft links, actions that fail after writing.
* `SCons/Executor.py` 177-222, 267-303, 405-463, 562-571, `SCons/Builder.py` 588-626, `SCons/Tool/msvc.py` 165-198 (`Bld/Batch`). Not modelled there: side effects, repositories, `UNCHANGED_*`, `${TEMPFILE}`.
* `SCons/Script/SConsOptions.py` 71-272, 352-583, 912-918, 1026-1038, 1171-1175, `SCons/Script/Main.py` 519-575, 1041-1043, 1082-1095, 1175-1176, 1200-1212 (`Script/Options`). Not modelled there: `choices`, help, identity of shared default lists, `optparse` itself beyond the functions named.
* `SCons/Scanner/Prog.py` 36-101, `SCons/Node/FS.py` 3783-3831 (`Scan/Prog`).
* `SCons/Node/__init__.py` 1071-1131, `SCons/Executor.py` 468-501 with the cached lists (`Scan/ImplicitCache`).
* `SCons/Tool/install.py` 46-161 (`Act/Install`), `SCons/Defaults.py` 177-245 (`Act/Chmod`).
* `SCons/Node/FS.py` 3472-3551 and 3031-3051 over whole builds with times (`Build/Timed`).
* `SCons/Action.py` 555-583, 1105-1118, 1500-1531, `SCons/Executor.py` 439-462 (`Act/Contents`, `Subst/Signed`).
* `SCons/Action.py` 150, 1120-1223, `SCons/Environment.py` 2354-2404, `SCons/Util/__init__.py` 768-800, `SCons/Executor.py` 472-503, 540-552 (`Act/CmdDeps`).
* `SCons/Platform/__init__.py` 210-346, `SCons/Subst.py` 133-138 (`Shell/TempFile`).
* `SCons/Scanner/C.py` CScanner, `SCons/Scanner/__init__.py` Classic, ClassicCPP (`Scan/CText`).
* `SCons/Environment.py` AddPreAction, AddPostAction; `SCons/Executor.py` pre and post actions, Null (`Bld/PrePost`).
* `SCons/cpp.py` CPP_to_Python, eval_expression, eval_constant_expression, do_define, do_undef (`Cpp/Expr`), with Python's expression grammar.
* `SCons/cpp.py` tupleize and the regular expressions (`Cpp/Text`).
* `SCons/Tool/JavaCommon.py` parse_java and its states (`Java/Parse`); of `SCons/Tool/javac.py` nothing else.
* `SCons/Tool/textfile.py` without encodings and flattening of the sources (`Text/File`).
* `SCons/Environment.py` ParseDepends, Depends, `SCons/Util/__init__.py` logical_lines (`Text/Depends`).
* `SCons/Node/__init__.py` 1071-1131, 1295-1430, `SCons/Executor.py` 388-401, 480-538 (`Kids/Model`).
* `SCons/Environment.py` Decider, default_decide_*, Clone (attributes), `SCons/Node/__init__.py` Node.Decider, `_decider_map` (`Decide/Model`).
* `SCons/Action.py` _resolve_shell_env, the conversion in CommandAction.execute (`ShellEnv/Model`).
* `SCons/Warnings.py` (`Warn/Model`).
* `SCons/Tool/tex.py` InternalLaTeXAuxAction (`Tex/Model`).
* `SCons/Scanner/Fortran.py`, `SCons/Tool/FortranCommon.py` _fortranEmitter (`Fortran/Model`). The matcher was also compared with CPython's re on 1500 random texts (a test, not part of the proof).
* `SCons/Util/envs.py` MethodWrapper; `SCons/Environment.py` BuilderWrapper, BuilderDict, AddMethod, RemoveMethod, rebinding in Clone, attribute access of OverrideEnvironment (`Methods/Model`). Not modelled: Clone of an override (read: it raises KeyError from copy.copy), tools and keyword arguments of Clone, assigning a whole dictionary to BUILDERS.
* `SCons/CacheDir.py` `__init__`, `_readconfig`, `_mkdir_atomic`, `_add_config`, `SCons/Util/filelock.py` FileLock (`Cache/Open`); `SCons/Utilities/ConfigureCache.py` rearrange_cache_entries (`Cache/Convert`). Not modelled: what CACHEDIR.TAG is for, the other options of the tool.
* `SCons/Defaults.py` 259-394 (copy, delete, mkdir, move, touch), `SCons/Node/FS.py` 3836-3874 (`FileAct/Model`). Assumed: the functions of Python's os and shutil as modelled there. Not modelled: access times, modes, other devices, relative links.
* `SCons/Conftest.py` 234-859 (what checks record, CheckLib), `SCons/SConf.py` 107-140, 498-521, 951-971 (`ConfH/Model`). Not modelled: the test programs themselves (C70 is about whether they are run), languages, other headers of the context.
* `SCons/Tool/linkCommon/SharedLibrary.py` 30-197, `SCons/Tool/linkCommon/__init__.py` 48-100, `SCons/Tool/install.py` 187-236, `SCons/Util/__init__.py` 159-170, 974-996 (`ShLib/Model`). Not modelled: loadable modules, other platforms, names with directories, permissions.
* `SCons/PathList.py`, `SCons/Scanner/__init__.py` 58-66, `SCons/Defaults.py` 403-428, 514-522, `SCons/Node/FS.py` 933-969 (`PathL/Model`). Not modelled: string substitution itself (C31-C35), repositories (C66, C76).
* `SCons/Scanner/Python.py` (`PyScan/Model`). Not modelled: characters outside ASCII, `node.includes` as a memory, the order of the result.
* `SCons/Scanner/LaTeX.py` (`TexScan/Model`). Not modelled: characters outside ASCII, other line ends than newline, the order of the result (sorted by name), warnings, the variables BSTINPUTS and INDEXSTYLE, the scan check.
* `SCons/Tool/zip.py` (`Zip/Model`). Not modelled: compression and the bytes of the archive, errors of os.walk, Windows paths.
* `CacheSys/Model`: the whole path of a task through `Task.execute` and the cache, for many builds at once. Not modelled: -n, precious targets, side effects, repositories together with the cache, failing file operations.
* `Attrs/Model`: `Util.splitext`, `EntryProxy`, `SpecialAttrWrapper`, `get_path`, `get_abspath`, `get_relpath`, `_get_str`, `srcnode`, `target_from_source`. Not modelled: Windows paths and drive letters, memoised strings.
* `Tree/Model`: `Util.print_tree`, `Util.render_tree`, `TreePrinter.display`, `render_include_tree`, `FindSourceFiles`. Not modelled: status tags, the order of the set.
* `Hash/Model`: `set_hash_format`, `hash_file_signature`, `current_sconsign_filename`, `Get_DataBase`, `SConsignFile`, `get_csig`, `get_max_drift_csig`. Not modelled: repositories, `max_drift` 0 (C20), which hash functions hashlib has.
* `CompDb/Model`: `compilation_db.py` (`generate`, the emitters, `write_compilation_db`), `createObjBuilders`, the suffixes and emitters of the tools cc, cxx and as, `_string_from_cmd_list`, `CommandAction.process` and `strfunction`, `json.dump`. Not modelled: sources in repositories, `fnmatch` itself (a predicate), Windows suffixes.
* `ActMake/Model`: `Action`, `_do_create_action`, `_do_create_list_action`, `_actionAppend`, `get_environment_var`, `CommandGeneratorAction`, `LazyAction`, `ListAction.__call__`. Not modelled: keywords other than `generator`, letters outside ASCII in names of variables.
* `Prep/Model`: `Task.prepare`, `Executor.prepare`, `Node.prepare`, `Node.missing`, `File.prepare`, `_rmv_existing`, `Dir._create`, `MkdirFunc`, `UnlinkFunc`, `Base.stat`. Not modelled: targets that are directories, `$CHANGED_TARGETS`, duplication into variant directories, permissions.
* `Link/Model`: `StaticObjectEmitter`, `SharedObjectEmitter`, `lib_emitter`, `SharedFlagChecker`, `smart_link`, `iscplusplus`, `isfortran`, `isD`. Not modelled: the warning about mixed Fortran and C++, override environments, the suffixes of versioned libraries (for these see C105).
* `Lists/Model`: `UniqueList`, `unique`, `uniquer_hashables`, `do_flatten`, `flatten`. Not modelled: `sort` with arguments, slices, lists that contain themselves, comparisons by order.
* `Select/Model`: `match_splitext`, `DictCmdGenerator`, `DictEmitter`, `Selector`. Not modelled: `CallableSelector` (prefixes and suffixes of targets: C60), `CompositeBuilder` beyond `add_action`.
* `DScan/Model`: `SCons/Scanner/D.py` (all). The scan itself is `Scanner/__init__.py`, in C38 and C79; `find_file` is C79.
* `JavaCp/Model`: `SCons/Scanner/Java.py` (all), `pathopt` of `SCons/Tool/javac.py` (136-160), `Dir.walk` (FS.py 2198-2222). `Glob` is a parameter (C69).
* `Yacc/Model`: `_yaccEmitter` and `lexEmitter`. Not modelled: the rest of `yacc.py` and `lex.py` (finding the programs), calls with keywords, whose environment is their own.
* `Swig/Model`: the emitter of `Tool/swig.py`. Not modelled: finding the program and its version, `Scanner/SWIG.py`; languages other than Python and Java have no targets in the code either.
* `Pot/Model`: `_update_pot_file`, `_scan_xgettext_from_files`, `_pot_update_emitter` of `Tool/xgettext.py`. Not modelled: `GettextCommon.py`, the builders for PO and MO files, the command line of xgettext.
* `Jar/Model`: `Tool/jar.py` without `generate`. Not modelled: what `JavaClassFile` and `JavaClassDir` find (C91) and exceptions they raise, response files, `JARCHDIR` with the value `.` (it is no directory at all in the model).
* `Vars/Package`: `PackageVariable.py` without `searchfunc`.
* `Iface`: the expressions of `Scanner/SWIG.py` and `Scanner/IDL.py`.
* `Ver`: the demands on versions in `SConscript.py`.
* `Util/FindProg`: `find_program_path`.
* `InstTo`: `Tool/install.py` 310-399, `FindInstalledFiles`.

## What is not modelled

* Tools: choice and configuration of compilers; of `SCons/Tool/*` only what the list above names (install, the batch key of msvc, zip, textfile,
  the Java parser, tex, FortranCommon, linkCommon, compilation_db, the emitters of yacc, lex and swig, POTUpdate); MSVC detection; packaging; gettext beyond POTUpdate, DocBook; the Ninja generator.
* The scanner RC.
* The programs that `Conftest.py` compiles for its checks (their results are given); `PathVariable`.
* Messages, progress output, statistics, stack traces, memory figures, `--debug` output other than `explain`.
* Python exceptions other than those named in each model; threads of Python itself (signals are modelled by an interrupt flag in `Pool`).
* Real time (clocks are integers in `Sig/Drift` and `Build/Timed`); power failures (a crash is the death of a process; completed system calls
  persist); network file systems whose rename is not atomic; file systems that ignore case; drive letters, except in `Shell/` for escaping.
* Each model file says at its head what it leaves out of the functions it does model.

## Assumptions that appear as hypotheses

* Hash functions: injective on the contents that occur (`Faithful`, collision-free) for C15-C19, C44. Nothing is assumed
  about their values. C27 assumes only a fixed length, and its conclusion names the collision.
* Actions are deterministic functions of the dependencies' contents (C15, C19, C41, C44), and read only dependencies.
* Scanners are functions of the files they look at (`Scan` trees), and report every file they look at that may be generated (`WF`).
* `pickle`/`json` decode what they encode (`Codec`), and what a truncated file decodes to is arbitrary.
* `os.replace`, `os.rename`, `os.unlink`, exclusive creation are atomic.

## Findings in SCons (each with a proved witness unless marked "read")

 1. C07 - with `-k` a cycle is reported although there is none (a child failed while its parent was pending).
 2. C16/C21 - a node that is both `Depends()` and `Ignore()`: `get_binfo` filters ignored nodes from `bdepends` but the comparison pairs
    lists of different lengths: rebuilt for ever / compared with another node's record.
 3. C27 - `Executor.get_contents` joins the actions' contents without separator: different action lists, same signature.
 4. C23 - `dblite.__delitem__` does not set `_needs_sync`: the deletion is lost on `close()`.
 5. (read) `CacheDir.copy_to_cache`: `if not st | S_IWRITE` is always false.
 6. C25 - `DirFile.write` unlinks `.sconsign` before `os.rename`: between the two there is no file; the fall-backs truncate in place.
 7. C36 - `cpp.resolve_include` loops for ever on `#define A A`, `#include A`; (read) an integer macro raises AttributeError.
 8. C53 - `Util.PrependPath(delete_existing=False)` reverses the caller's list in place.
 9. C33 - `$$(` in command mode loses the parenthesis.
10. C07 - `-i` and an exception while scanning: false cycle report.
11. C08 - `-k`, the side-effect node itself requested or depended on: two users run at once.
12. C07 - stop mode, a failure and shared side effects: false cycle report.
13. C08 - a scan that raises with `-k`/`-i` leaves the side effect unmarked.
14. (read) a source node with a failed `Requires` child stays PENDING.
15. (read) `$CHANGED_TARGETS` batch builders: hypothesis `hA` of C08.
16. (documented behaviour) `max_drift == 0` reuses stored signatures.
17. (read) an exception escaping into `NewParallel`'s critical section kills the worker while it is SEARCHING: the others wait for ever.
18. C41 - failed action that leaves a file, source edit undone: the wrong file is considered up to date.
19. C20 - visiting a source without hashing stores the new timestamp with the old signature.
20. C28 - `scons -n` with a cache: after a partial multi-target hit existing targets are deleted.
21. C27 - Value nodes make cache keys ambiguous; an alias and a file that contains the signatures of its sources have the same signature.
22. C30 - `FileLock.release_lock` does nothing for file descriptor 0.
23. `Value(-1)` and `Value(-2)` (and `1`, `True`, `1.0`) are one node.
24. C33 - `$A$A` with `A='$'` gives one `$`.
25. C31 - a variable with a dot in its name can refer to itself for ever.
26. C34 - `$$$(x$)` in signature mode raises.
27. C35 - `subst_list("a ${EMPTY}b")` joins the arguments; empty list elements vanish; `> a` becomes two arguments.
28. C33/C34 - text of objects is collapsed by `env.subst`; nested `$(` in lists closes at the first `$)`.
29. C36/C37 - conditional scanner: a second inclusion with other macros is ignored; conditions in skipped groups are evaluated.
30. C38 - a header found first by a non-recursive scanner is never scanned.
31. C42 - `node.includes` is remembered per node, not per scanner.
32. `--implicit-cache`: stale children memo (proved: `Verif.Kids.Ex.stale_child`).
33. C43 - `_known_paths` changes the search order: dependency on the wrong header.
34. C40 - with `-k` a later `Exit(0)` hides earlier failures in the exit status.
35. C40 - a function raising `shutil.SameFileError` counts as success.
36. C39 - `-`/`@` on later lines of a multi-line command are not recognised; an `exitstatfunc` that maps a failure to success skips the remaining lines.
37. (read) `CommandAction.execute` changes `env['ENV']` in place; `find_file` remembers failures.
38. A rescan that drops a dependency: the parent may run while still registered with the dropped child; if this fails, the running parent
    is marked failed and its success is not recorded (`CStep.unrecorded`; proved impossible in runs without failures).

39. C49 - after `del over['X']`, `over.subst('$X')` still expands to the subject's value (`gvars`/`lvars` ignore `__deleted`).
40. C49 - a second `del` of the same key raises nothing, and a later assignment leaves the key out of `keys()` and `Dictionary()`; the same after
    `del` and `Replace`/`SetDefault`; `OverrideEnvironment.__setitem__` accepts the reserved names (TARGET, ...) the base class refuses.
41. C50 - `AppendUnique`/`PrependUnique` do not prune existing duplicates although the docstring says so; on two strings they concatenate
    ('a' + 'a' = 'aa'), and raise TypeError with `delete_existing`.
42. C51 - `Prepend(CPPDEFINES=[...])` reverses the added macros.
43. C51 - `AppendUnique(CPPDEFINES=['A','A'])` adds both; `delete_existing` removes only the first match; `("N",3)` and `"N=3"` are not recognised as the same.
44. C52 - `Clone` shares sets, user objects and list subclasses.
45. C50 - `AppendUnique(delete_existing=True)` turns a CLVar into a list; a string added by `AppendUnique` to a CLVar is not split.
46. C50 - `Prepend(X='a')` raises AttributeError when X is None; `Append` does not.
47. C53 - with `delete_existing=False`, `PrependPath` leaves the last of duplicate new paths, `AppendPath` the first, the opposite of the documentation;
    `AppendPath` keeps old duplicates; `PrependPath` raises AttributeError on tuples.
48. C54 - the posix `escape` does not escape backquotes: a file name with one makes the shell run a command.
49. C54 - a file name joined to other text (`-o$TARGET`, `/Fo$TARGET`) is not escaped at all; text with blanks is put in double quotes unescaped.
50. C54 - the Windows `escape` fails on two trailing backslashes and raises IndexError on the empty string.
51. C55 - `LIBS=['library']` gives `-lrary`, `LIBS=['lib']` gives nothing; `CPPPATH=['-Include']` gives no `-I`.
52. C56 - `Dir('//')` (any name of two or more slashes) is the current directory, not the root: trailing slashes are taken off before the name is seen to be absolute.
53. C56 - the regular expression of `_lookup` uses `.*` without DOTALL: a name with a new line before `..` or `//` is not normalised, so one file has two nodes.
54. C58 - `scons -c a.c a.o` leaves a generated header that only the generated `a.c` includes, `scons -c a.o a.c` removes it: `a.c` is removed before `a.o` is scanned.
55. C58 - `Clean(t, f)` has no effect if `t` is not the first target of its builder call: `_clean_targets` looks only at `self.targets[0]`.
56. C58 - `Clean(['a','b'], 'x')` stores one list object for both keys; a later `Clean('a', 'y')` extends it, so `scons -c b` removes `y`.
57. C58 - `fs_delete`: an `OSError` from one file of a directory ends the loop, so later entries that could be removed stay.
58. C57/C58 - `QuestionTask.prepare` and `CleanTask.prepare` do nothing, so an exception raised by a scanner, which `Task.prepare` would raise again, is dropped silently (not modelled).
59. C59 - with `Decider('content-timestamp')`, `--debug=explain` reports every kept dependency as changed: `explain` calls the decider without the fourth argument, so it looks the dependency up in the dependency's own record.
60. C59 - with a node both in `Depends()` and `Ignore()`, `--debug=explain` blames an unchanged implicit dependency.
61. C60 - `env.Command('t','s',a); env.Command('t','s',b)` (same environment, same sources) raises no error and drops the first action silently; from two environments it is an error.
62. C60 - `Command(['a','b'],'s',x); Command('a','s',y)` is accepted and leaves two executors in use that both write `a` (the check of target lists is made only for `multi` builders).
63. C60 - the same call twice raises 'Multiple ways to build the same target' if its source list contains a repetition (`t.sources` has none).
64. C60 - the same call twice with a batch builder (e.g. one source in two programs with MSVC_BATCH) enters its targets and sources twice in the batch.
65. C61 - an option with an alias: `scons DEBUG=1 debug=2 DEBUG=3` gives 2, because `ARGUMENTS` keeps the place of the first `DEBUG` and `Update` walks it in that order.
66. C61 - `UnknownVariables()` is never cleared: it reports names given to an earlier `Update` only.
67. C61 - `Save()` does not write a variable without default whose value is the string `None`; it writes a `ListVariable` that is at its default (blank-joined against comma-joined text), so later changes of the default are not picked up; with an `EnumVariable` map `a->b->c` the saved value `b` is loaded as `c`.
68. `scons -n` understates: when the source of an intermediate target has changed, only the intermediate is announced; its dependents, which a real run rebuilds, are judged by the old intermediate file and not announced (`C63_counterexample_understates`).
69. `scons -n` overstates: when an intermediate target was deleted, its dependents are announced too, although a real run that recreates the same file does not rebuild them (`C63_counterexample_overstates`).
70. `scons -- x` builds the default targets instead of `x`: `_main` passes `targets`, which lacks `parser.rargs`, to `_build_targets`, and BUILD_TARGETS equals `_build_plus_default` (`C64_counterexample_dashes`; the test test/option/option--.py builds everything either way).
71. A script that empties BUILD_TARGETS when `Default()` was not called has no effect: the top-level directory is built (`C64_counterexample_emptied`).
72. `scons -u` (or -U) from a directory whose first name below the SConstruct directory begins with `#` looks at another directory, because `fs.Dir(target_top)` gives `#` its special meaning (`C64_counterexample_hash`).
73. `env.ParseFlags(['-I', 'inc'])`: each string is parsed on its own, so the option is forgotten and its argument becomes a library in LIBS (`C65_counterexample_separate_strings`); an option at the very end of a string is dropped silently.
74. `ParseFlags` raises IndexError for an empty word, such as in a string with a pair of quotes (`C65_counterexample_empty_word`).
75. `MergeFlags` with its default `unique=True` breaks options whose repeated first word is not known to `ParseFlags`: `-Xlinker -a -Xlinker -b` becomes `-a -Xlinker -b` (`C65_counterexample_repeated_word`; the same for `-dylib_file`, whose words are stored one by one).
76. `MergeFlags(flags)` changes the caller's `flags` when the variable is a string and the flags are a plain list (`value.insert(0, orig)`): merging the same result of `ParseFlags` into a second environment gives it the first one's libraries (`C65_counterexample_leak`).
77. `_hardlink_func` (FS.py 255-260) has the test for relative links the wrong way round: a source that is a relative symbolic link `src/a.c -> b.c` is taken relative to the current directory, so the variant copy is a hard link to the top directory's `b.c` when there is one (`C67_relative_link_wrong`), and the loop may never end (`C67_relative_link_hangs`).
78. `scons -n` removes the old variant copy of a source that is gone: `exists_file` calls `fs.unlink` directly instead of through an action object (`C67_dry_run_removes`).
79. `VariantDir('a','b',duplicate=0)` and `VariantDir('b','a',duplicate=0)` are both accepted; `get_all_rdirs` then recurses for ever (`C66_cycle`).
80. `get_all_rdirs` of a directory is not forgotten when its source directory itself becomes a variant directory (`C66_memo_stale`).
81. `VariantDir('b/sub', 'other', duplicate=0)` is undone by a later `VariantDir('b', 'src')`, and does not reach nodes already made under a duplicating `b` (`C66_duplicate_order`, `C66_duplicate_old`).
82. `File.rfile` may return a directory of a repository (the class test is or'ed with `not is_derived()`) (`C66_rfile_dir`).
83. A SConscript read through a variant directory without duplication that does not exist yet runs in the source directory, but after its first nested `SConscript()` call it runs in the variant directory, which is made for that: relative `open()` or `os.listdir()` then fail or see nothing (`C68_variant_dir_left`).
84. `SConscriptChdir(0)` in a subsidiary SConscript leaves the caller with the setting and with the process in the subsidiary directory (`C68_chdir_flag_leaks`).
85. `Return()` in a script read from the standard input (`-`) is not caught: it ends the calling script as well, and at the top level (`scons -f -`) it is an error (`C68_stdin_return`).
86. `Glob(..., source=True)` has no effect: the argument is passed down to `_glob1` and never used (`C69_source_ignored`).
87. `Glob(exclude=...)` uses the names it has found as patterns: a file `a[1].c` cannot be excluded, and excluding it excludes `a1.c` instead (`C69_exclude_brackets`).
88. A source file whose name begins with `#` (Emacs auto-save `#x.c#`), once known, makes `Glob` in its variant directory create a node `x.c#` in the top directory, which later `Glob`s return; with `ondisk=False` it raises KeyError (`C69_hash_leaks`, `C69_hash_raises`).
89. `Glob` in a variant directory whose source directory is itself a duplicating variant directory finds files only after a `Glob` in the latter (`C69_chain`).
90. `Glob` turns a local file into a Dir node when a repository has a directory of that name (`C69_kind`); `Glob('dir/')` raises IndexError (`C69_trailing_slash`).
91. Configure checks do not see a changed project header when a build has recorded its signature: `BuildNodes` calls `set_max_drift(0)`, which makes the recorded signature count whatever the time stamp (`C70_stale_header`); a check may thereby be recorded under the signature of other contents and stay wrong for good (`C70_stale_for_good`).
92. Removing `.sconf_temp` without `.sconsign.dblite` makes Configure checks fail for good: targets that are not there count as up to date (`C70_lost_directory`, `C70_lost_output`).
93. `--config=cache` with changed inputs removes the files of the check (`Task.prepare` runs before `execute` decides) and reports success; `TryRun` returns success with empty output, and, because `BuildNodes` assigns `n.store_info` instead of `c.store_info`, the next ordinary run fails (`C70_cache_removes`).
94. `scons -q` removes the files of a Configure check that needs updating; if the change is undone the check then fails (`C70_question_removes`).
95. A Configure check with two targets of which one is lost: the other is removed and the check reported as up to date (`C70_two_targets`).
96. `TryBuild` with an extension that begins with a digit can reuse another check's file (`C70_extension`).
97. The contents of Python function actions join constants with commas: swapping text between two constants that contain commas is not noticed (`C71_commas`).
98. `bytes`, tuple, list, dict and set constants, defaults and captured values are in the contents of a Python function action by their class only; changing them does not cause a rebuild (`C71_containers`).
99. Defaults of keyword-only arguments are not in the contents of a function action (`C71_keyword_only`).
100. Attributes of callable objects are not in the contents; every action made with an ActionFactory (`Copy`, `Touch`, `Delete`, ...) has the same contents whatever its arguments, because `_callable_contents` is tried before `get_contents` (`C71_callables`); the object of a bound method is not in the contents either (`C71_methods`).
101. The values of the variables in `varlist` are joined without separator (`C71_varlist_join`).
102. `Value(-1)` and `Value(-2)` are one node, and so are `Value(1)` and `Value(True)`: `ValueWithMemo` looks nodes up by `hash((value, name))` alone (`C73_minus_one`; the equality of the hashes was checked with plain Python 3.11).
103. `Value(v, built_value=x)` with a false `x` (0, empty string) shares its node with `Value(v)` and gives it, or loses, the built value (`C73_falsy_built`).
104. The action of an alias of source files is never run when these change: only states are looked at (`C73_alias_of_sources`); the manual's example `Alias('update', ['file1', 'file2'], ...)` is of this kind.
105. Texts of values in an alias are joined without separator (`C73_alias_of_values`); aliases do not record names (`C73_alias_names`).
106. Renaming a file in a directory that is packed with Tar or Zip, with the order kept, is not noticed (`C72_renamed`); nor is replacing a file by an empty directory (`C72_file_to_directory`).
107. A target made from a directory that does not exist yet when dependencies are determined is built again in the next run: `scan_on_disk` returns nothing, even for known entries, if the directory cannot be listed (`C72_first_build`).
108. With `Command`, a source directory's files are looked at only if SCons has nodes of them, and those in subdirectories never (`C72_command_unknown`, `C72_command_subdirectory`).
109. `scons --interactive`: a prerequisite (`Requires`) is built by a command but not cleared after it; a later `build` of it does nothing, whatever was edited (`C74_requires`).
110. The same for the other targets of an action: `build a`, edit, `build b` (one action makes both) does nothing (`C74_other_target`), and for a dependency that was handled because a stale generated file mentioned it (`C74_dropped_dependency`).
111. `clear()` does not reset `ref_count` and `waiting_parents`: after a `-k` command with a failure, a later command can build a target that was not asked for (`C74_after_failure`).
112. `do_exit` and end of input leave with status 0, whatever the builds of the session did (Interactive.py 315-319, Main.py 1527-1529).
113. `Object(['a.c','b.c'], chdir=...)`: the directory is forgotten when a single-source builder is given several sources, and for intermediate files (`C75_chdir_lost`).
114. What a builder was defined with (`Builder(..., CCFLAGS=...)`) does not apply when it makes an intermediate file for another builder (`C75_builder_overrides_lost`).
115. A single-source builder with source builders applies them twice to each source when given several sources (`C75_converted_twice`).
116. The source builder is chosen by the first listed suffix, the base name by the longest one (`C75_first_not_longest`).
117. `sub.d/foo` gets no default suffix from a builder with source builders, because the whole text is searched for a dot (`C75_dotted_directory`).
118. `add_action` on a builder already used leaves the remembered list of suffixes as it was: files with the new suffix are not recognized in that environment (`C75_stale_memory`).
119. A target that is `Local` and `Precious` is a hard link to the repository's file and written in place: the repository is changed under its signatures (`C76_repository_overwritten`).
120. With several targets, a `Local` copy made while another target is out of date is not removed before the action (`exists()` remembers), and the action writes to the repository's file through the hard link (`C76_written_through`).
121. Only the first repository that has a target is compared; a later one may have it up to date (`C76_second_repository`).
122. With `CacheDir` and `$CHANGED_TARGETS` (`MSVC_BATCH`), up-to-date targets that are in the cache are retrieved and, because another target of the batch is not in the cache, unlinked; the command builds only the changed ones: the others are gone although the build succeeded (`C77_cache_removes_target`; `Task.execute` unlinks what it retrieved, `_get_changes` was computed before).
123. `_get_changes` looks only at the first target of each batch: a missing or out-of-date second target is never rebuilt, the command is executed with no sources, and the stale target is recorded as up to date (`C77_second_target_ignored`, `C77_second_target_stale`).
124. With `$TARGETS`, a precious first target protects its batch from being given to the command while the other targets of the batch are removed (`C77_precious_first`).
125. Repeating a builder call with a batch key adds its batch again; the source is on the command line twice (`C77_repeated_call`).
126. `msvc_batch_key` compares base names but not the suffix of the target, and `/Fo<dir>` lets the compiler choose `.obj` (`C77_msvc_suffix`).
127. Adding a file to a batch rebuilds the whole batch: the action's signature is over all sources (`C77_another_batch`); and implicit dependencies of one source are dependencies of all targets of the executor (`Executor.scan`).
128. Two local options with separate values (`--prefix /usr --level 3`) end the run with an error whatever the order of the `AddOption` calls: `reparse_local_options` keeps back options not known yet but not the words after them (`two_separate_values`; `--prefix=/usr --level=3` works). The value is also a target (`value_is_a_target`, a TODO in Main.py).
129. Two local options with the same `dest`: the last declared wins, not the last on the command line (`last_declared_wins`).
130. A cluster of letters (`-vw`) with options declared one after the other: `reparse_local_options` processes the known letters again each time, so a counting option is counted twice (`counted_twice`).
131. `--warn=` (and every local `append` option with a list as default) extends the default list in place, so that `SetOption` overrides the command line (`warn_not_on_command_line`, `append_with_default`).
132. After `SetOption('hash_chunksize', n)`, `GetOption('hash_chunksize')` raises AttributeError (`hash_chunksize`).
133. `SetOption('implicit_deps_changed', 1)` has no effect but to switch on the implicit cache: the option is read only before the scripts (Main.py 1041-1043; `implicit_deps_changed`).
134. `SetOption('no_progress', False)` switches the progress display off (`no_progress_false`).
135. `LIBS=['libfoo.a']` (or `'foo.a'`) makes the flag `-lfoo`, for which the linker takes `libfoo.so` if there is one; the program depends on `libfoo.a` only, and is not linked again when the shared library changes (`Verif.Prog.Ex.file_name`).
136. A library with the literal prefix (`LIBS=[':libfoo.a']`, gnulink) is linked but not a dependency: the scanner looks for `lib:libfoo.a` (`Verif.Prog.Ex.literal`).
137. A library with a point followed by more than digits in its name (`LIBS=['old.v2']`) is linked but not a dependency: the scanner takes `.v2` for the suffix (`Verif.Prog.Ex.point_in_name`).
138. With `--implicit-cache`, removing `Ignore(t, h)` from a script has no effect until something else makes `t` out of date: the recorded list lacks the ignored header, and is taken as the list of all (`Verif.ImplicitCache.Ex.ignore_removed`).
139. With `--implicit-cache`, if only the first target of a command with two targets ignores a header, its list is given to the second one too: the second run builds for no reason, and after that changes of the header do not rebuild the second target (`Ex.ignored_by_one_target`).
140. With `--implicit-cache`, an ignored header that comes to include another file (`Ex.ignored_header_changed`), and a file moved from `Depends()` to the sources (`Ex.depends_to_source`), leave the new files out of the dependencies.
141. `Install` of a directory in which `x` is now a file, over a copy in which `x` is a directory, puts the file at `x/x` and succeeds (`Verif.Install.Ex.file_into_directory`).
142. `Install` of a directory with a read-only file succeeds the first time and fails ever after (not as superuser), since only the top of the copy is made writable (`Verif.Install.Ex.read_only_once`).
143. `Chmod(f, 'u=rwx,g=rx')`: every clause with `=` sets the whole mode, so only the bits of the last one remain, and the owner is left with nothing (`Verif.Chmod.Ex.set_for_one_class`).
144. `Chmod(f, '+x')` succeeds and does nothing (`Verif.Chmod.Ex.nobody_named`); a wrong clause is an error only after the clauses before it have been done (`Verif.Chmod.Ex.half_done`).
145. `Decider('timestamp-newer')`: a source that has been deleted is not noticed, the target stays up to date and the build succeeds (`Verif.Build.TEx.newer_deleted`); so does one replaced by an older version (`TEx.newer_restored`).
146. `Decider('timestamp-newer')` looks at no record: a target that comes to depend on another, older file without a change of its command is not built again (`TEx.newer_other_file`).
147. `Decider('timestamp-match')` compares by position in the list of dependencies: a dependency replaced by another file with the same time (as after a check-out) is not noticed (`TEx.match_other_file`).
148. `Decider('content-timestamp')` looks dependencies up by name and does not see that their order has changed; `content` does (`TEx.order_changed`).
149. Nothing separates the commands of a list, the words of a command given as a list, or the values of a varlist in what is signed: `['ab', 'c']` and `['a', 'bc']`, `['prog', 'a b']` and `['prog', 'a', 'b']` are signed alike (`Verif.Sgn.CEx.counterexample_command_boundary`, `counterexample_word_boundary`, `counterexample_varlist_boundary`).
150. `$A$B` with `A='x '` and `B='y'` runs `xy` but is signed as `x y`, like `A='x'` and `B=' y'`, which runs `x` with the argument `y` (`CEx.counterexample_trailing_blank`).
151. Only the names of files are signed, not their directories, and `chdir` is not signed: `cc $SOURCE` with a source moved to another directory with the same content is not run again (`CEx.counterexample_other_directory`, `CEx.counterexample_chdir`).
152. By default a program named by a relative path (`./gen.sh`) is not a dependency: it is looked for only below the directories of the search path (`Verif.Sgn.DEx.counterexample_relative_path`).
153. The program is not a dependency of a target without sources, because `scan_sources` does nothing then (`DEx.counterexample_no_sources`).
154. A program whose path contains a blank is looked for by the first word of its path (`DEx.counterexample_blank_in_name`).
155. With `IMPLICIT_COMMAND_DEPENDENCIES` of 2 or more a file in the current directory called like the program replaces the program as a dependency (`DEx.counterexample_file_hides_program`).
156. A command of several lines wrapped in `TEMPFILE` loses all lines but the first when that one is long: only `subst_list(...)[0]` is used (`Verif.TempFile.Ex.second_line_lost`).
157. Quotes and backslashes in an argument reach the program of a short command but not that of a long one: `quote_spaces` escapes neither (`Ex.quotes_lost`, `Ex.backslash_lost`).
158. The argument file of a target is remembered by the unexpanded command, so a second build in one process (interactive mode) with other sources passes the old arguments (`Ex.old_file_used_again`).
159. A comment that mentions `#include <` at the beginning of a line without a closing bracket on it hides the next include directive from the default C scanner: the name in the expression may reach over the end of the line (`Verif.CScan.Ex.next_directive_hidden`).
160. Directives with a comment before the name, a macro, a continuation line, or `#include_next` are not found (`Ex.other_forms_missed`).
161. AddPreAction or AddPostAction before the builder call for the target has no effect and gives no message (`Verif.PrePost.Ex.C88_asked_before_never_runs`); with a builder that allows several calls, such as Tar, the action of the builder itself is lost instead (`Ex.asked_before_multi_loses_builder`).
162. A repeated call of an ordinary builder for the same target, as when two programs name the same C file, takes the added actions away (`Ex.second_call_forgets`).
163. In a condition evaluated by the conditional C scanner, one name that is not a macro makes the whole condition false: `#if !FOO` and `#if FOO || 1` are false (`Verif.CppExpr.Ex.undefined_name`); if the name is that of a Python function, such as `max`, it is true (`Ex.builtin_name`).
164. `#if defined(A) == 1`, `#if defined(A) + defined(B) >= 1`, `#if !A == 3`, `#if 3 > 2 > 1`, `#if 2 & 2 == 2`, `#if 7 / 2 == 3`, `#if (5 && 3) == 1`, `#if 1 ? 0 : 1`, `#if 1 == !A` and `#if defined( A )` are decided wrongly (`Ex.defined_compared` and following).
165. A division by zero in a condition or in the body of a macro, even in a part that the compiler skips, stops SCons with an exception (`Ex.exception_escapes`, `Ex.define_divides`).
166. The body of a macro is evaluated as Python with its builtins: `#define FAIL exit(1)` in a scanned C file ends SCons (`Ex.define_runs_python`).
167. `#define A 1 + 1` makes A the number 2 rather than the text, so `A * 2` is 4 (`Ex.define_is_not_textual`).
168. `#include_next <x.h>` is read as an include of `_next <x.h>`: the alternatives of the expression are tried in order (`Verif.CppText.Ex.C90_include_next_counterexample`); `#elifdef X` is read as elif (`Ex.C90_elifdef_counterexample`).
169. With white space after its name, `#ifdef FOO ` tests a macro called `FOO ` and is never true (`Ex.C90_ifdef_blank_counterexample`).
170. `#if A /* x */ && B /* y */` is read as `#if A`; `#include <sys//t.h>` as an include of `<sys` (`Ex.C90_two_comments_counterexample`, `Ex.C90_slashes_counterexample`).
171. A `#` alone on a line takes the first word of the next line as its directive (`Ex.C90_null_directive_counterexample`); directives within block comments count (`Ex.C90_in_comment_counterexample`).
172. A constructor reference among the arguments of new, as in `new Foo(Bar::new)`, makes SCons read the rest of the Java file as arguments: none of its class files are targets (`Verif.Java.Ex.constructor_reference`).
173. Anonymous classes of types with two type arguments, or one of a single letter (`new HashMap<String, Integer>() {...}`, `new Foo<T>() {...}`), are not found; nor are classes inside anonymous classes, records and the classes of enumeration constants (`Ex.two_type_arguments` and following). A quote inside a text block hides the classes after it (`Ex.text_block`).
174. `Textfile` and `Substfile` are not built again when `LINESEPARATOR` changes from one white space to another: any white space is signed as nothing (`Verif.Text.C92_blank_separators_are_not_signed`, `Ex.C92_counterexample_separator`).
175. A `SUBST_DICT` that is a dictionary is signed without expanding its values: with the value `$VERSION`, a new value of VERSION does not cause the file to be written again (`Verif.Text.Ex.C92_counterexample_variable`). A sequence of pairs is signed with expanded values, but without regard to the amount of white space (`Ex.C92_counterexample_blanks`).
176. `ParseDepends` joins two names into one when a line ends with a backslash directly after a name and the next begins without a blank; reads `my\ file.h` as two names, and `C:/a.o: b.h` as a rule for the target C (`Verif.Depends.Ex`).
177. With `--implicit-cache`, when the last include is removed from a source, the old header stays a child of the target in that run: it is built, and awaited, for nothing (`Verif.Kids.Ex.stale_child`).
178. `Decider` called on an override environment (as in an emitter of a builder called with keywords) changes the overridden environment and so the decisions for all its targets (`Verif.Decide.Ex.override_leaks`).
179. `node.Decider(f)` is forgotten when the node becomes a target or an entry turns out to be a file (`Verif.Decide.Ex.lost_by_builder`, `lost_by_entry`).
180. With a global `Decider('timestamp-newer')` files from the cache keep their old times in every other environment, so they are built again in the next run (`Verif.Decide.Ex.cache_time_of_default`).
181. (read) `Clone()` of an override environment, as in an emitter of a builder called with keywords, raises KeyError: copy.copy looks for `__setstate__` on an object that has no subject yet (Environment.py:1798, 3075).
182. Running a command without SHELL_ENV_GENERATORS converts `env['ENV']` in place: a search path that was a list is a string in every function and generator that looks at it afterwards, so with parallel builds the result depends on the schedule (`Verif.ShellEnv.C96_counterexample_changed`, `C96_counterexample_generator`).
183. A tuple in ENV, unlike one inside a list, is not joined: the program sees Python's repr (`Verif.ShellEnv.C96_counterexample_tuple`).
184. `SetOption('warn', ...)` overrides `--warn`: the callback extends the list of the defaults instead of setting a value, so after `SetOption` `options.warn` no longer gives what the command line said (`Verif.Warn.C97_counterexample_precedence`).
185. `--warn=no-deprecated` and `--warn=no-all` disable mandatory warnings, which the manual says will still display (`Verif.Warn.C97_counterexample_mandatory`).
186. `reserved-variable` warnings are enabled by default, the manual says disabled (`Verif.Warn.C97_counterexample_reserved`); `VisualVersionMismatch` has no name that `--warn` accepts (`Ex.unknown`).
187. The flag that decides whether LaTeX is run again is a global variable: with -j another document can clear it between a comparison and the test, and the document is left unfinished, with success (`Verif.Tex.C98_counterexample_parallel`).
188. If LaTeX fails (or scons is killed) after the input of MakeIndex was written, the next run does not see a change and never makes the index (`Verif.Tex.C98_counterexample_failed`).
189. Only the bibliography of the main file is compared: a changed bibliography of an included chapter is made but not read (`Verif.Tex.C98_counterexample_chapters`).
190. The list of new glossaries is global: in a project where one document defines one, every other document's build runs MakeIndex on a file it does not have, and fails (`Verif.Tex.C98_counterexample_glossary`).
191. (read) When LaTeX or MakeIndex fails, the action returns without restoring TEXINPUTS and the other variables in env['ENV'], which all documents of the environment share (tex.py:283, 381, 480).
192. A Fortran module whose name begins with function, pure, procedure, … (such as functions) is not seen as defined: its module file is no target, and who uses it does not depend on it (`Verif.Fortran.C99_counterexample_prefix`).
193. A typed function of a submodule, as in module integer function f, is taken for a module, and a module file that nobody makes becomes a target (`Verif.Fortran.C99_counterexample_typed_function`).
194. A comment ending in ; use takes the next line for a module name, so a real use statement there is lost (`Verif.Fortran.C99_counterexample_swallow`).
195. A use statement continued with & is not seen (`Verif.Fortran.C99_counterexample_continuation`), nor is a module statement after a semicolon (`Verif.Fortran.C99_counterexample_second_statement`).
196. If FORTRANMODDIR is not also in FORTRANPATH, no file ever depends on the module files put there, and the warning is off by default (`Verif.Fortran.C99_counterexample_moddir`).
197. Calling a builder through an override (env.Override(...).Object(...)) rebinds the builder in the overridden environment: from then on env.Object(...) uses the variables of the override (`Verif.Methods.C100_lookup_through_override_rebinds`).
198. AddMethod on an override adds the method to the overridden environment, where it acts on the override (`Verif.Methods.C100_method_of_override_leaks`).
199. If a function is added as a method under two names and one of them becomes a builder, a clone's method of the other name acts on the original (`Verif.Methods.C100_function_with_two_names`).
200. A value assigned to an attribute with the name of a builder is lost in a clone (`Verif.Methods.C100_value_over_builder_lost`).
201. After a method was added under the name of a builder and the builder deleted, Clone raises AttributeError; likewise after two methods of one name, a builder of that name and its deletion (`Verif.Methods.C100_method_deleted_with_builder`, `Verif.Methods.C100_replaced_method_stops_clone`).
202. A method that hides a builder of the same name, once called through an override, turns into the builder again in clones (`Verif.Methods.C100_hidden_builder_returns`).
203. A process that dies while it holds the lock file of a cache directory (a reader holds it for a moment too) shuts everybody out for good: each later run waits five seconds and fails (`Verif.Cache.Open.C101_counterexample_dangling_lock`).
204. Two processes that are given the same existing directory without a configuration: the second fails with FileExistsError (`Verif.Cache.Open.C101_counterexample_existing_directory`).
205. A user who may not write into the cache directory cannot use it even with --cache-readonly: the lock file is needed for reading, and being refused counts as locked (`Verif.Cache.Open.C101_counterexample_readonly`).
206. scons-configure-cache, interrupted and run again, stops at os.mkdir of a directory the first run has made; nothing moved is found any more (`Verif.Cache.Convert.C102_counterexample_resume`).
207. A temporary directory left in the cache by an interrupted push makes scons-configure-cache move all files, then fail at os.rmdir before the configuration is written: the whole cache is lost from sight (`Verif.Cache.Convert.C102_counterexample_leftover`).
208. Delete of a directory that cannot be removed reports success: rmtree is called with ignore_errors (`Verif.FileAct.C103_counterexample_delete_denied`).
209. Touch rounds the time down to the second, so that a file written earlier in the same second becomes older (`Verif.FileAct.C103_counterexample_touch_backwards`).
210. Copy(dir, link, symlinks=False) names the copy after what the link leads to, not after the link (`Verif.FileAct.C103_counterexample_copy_name`).
211. Copy(new, link to a directory, symlinks=False) keeps the links in the directory: the flag is not passed on in the second call (`Verif.FileAct.C103_counterexample_copy_flag`).
212. Copy of a list of files with equal names keeps only the last, without a word (`Verif.FileAct.C103_counterexample_copy_same_name`).
213. Execute(Delete(dir)) leaves nodes below dir with the remembered result of stat: exists() still says yes (`Verif.FileAct.C103_counterexample_memory`).
214. Configure: CheckLib(foo) and CheckFunc(libfoo), or CheckHeader(a/b.h) and CheckHeader(a_b.h), write the same macro, so that config.h has it defined although one of the checks failed (`Verif.ConfH.C104_same_macro_counterexample`, `Verif.ConfH.C104_failed_but_defined_counterexample`).
215. Configure: a check that failed after it had succeeded stays defined in config.h (`Verif.ConfH.C104_later_failure_counterexample`).
216. Configure: a/config.h and a_config.h have the same include guard (`Verif.ConfH.C104_same_guard_counterexample`).
217. Define with a comment that contains the end of a comment writes a broken header (`Verif.ConfH.C104_comment_counterexample`); a value with a line break too (`Verif.ConfH.C104_newline_counterexample`).
218. A CheckLib that fails sets LIBS to an empty list if there was none (`Verif.ConfH.C104_unset_counterexample`).
219. A shared library with a version that is taken from CacheDir comes without its links: neither the linker nor the loader finds it (`Verif.ShLib.C105_counterexample_cache`).
220. Changing SHLIBVERSION from 1 to 1.2 makes the build fail, since the old library is where a link is to be (`Verif.ShLib.C105_counterexample_upgrade`).
221. SharedLibrary(libfoo.so, SHLIBVERSION=1.2.3) makes libfoo.so with the links libfoo.so.so and libfoo.so.so.1; a name with a dot gets neither suffix nor version (`Verif.ShLib.C105_counterexample_suffix_given`, `Verif.ShLib.C105_counterexample_dot`).
222. SOVERSION or SONAME without SHLIBVERSION is ignored without a word (`Verif.ShLib.C105_counterexample_soversion_only`).
223. PathList remembers parsed paths by the value only and not by whether strings were split: what LIBS=:libz.a becomes depends on what was expanded before (`Verif.PathL.C106_counterexample_split`).
224. CPPPATH=None makes the scanner look in a directory named None; the compiler is told nothing (`Verif.PathL.C106_counterexample_none`).
225. An empty string in CPPPATH is ignored; in a list that a variable in CPPPATH stands for, it is the current directory (`Verif.PathL.C106_counterexample_empty`).
226. The Python scanner finds nothing for a statement `import a, b` or `import a; import b`, not even the first module (`Verif.PyScan.C107_counterexample_list`, `Verif.PyScan.C107_counterexample_semicolon`).
227. The Python scanner does not find names in parentheses, nor names that are renamed with `as` unless they come last (`Verif.PyScan.C107_counterexample_parentheses`, `Verif.PyScan.C107_counterexample_as`).
228. For `from ..other.d import f` the Python scanner does not name other/__init__.py (`Verif.PyScan.C107_counterexample_relative`).
229. The Python scanner searches PYTHONPATH before the directory of the script, Python the other way round; without PYTHONPATH it searches the current directory first (`Verif.PyScan.C107_counterexample_order`, `Verif.PyScan.C107_counterexample_unset`).
230. Modules of namespace packages named in a from statement are not found (`Verif.PyScan.C107_counterexample_namespace`).
231. An option of usepackage or includegraphics that goes over two lines stays in the type of the command, and the file is not found; nor is it with an empty option, nor with a star (`Verif.TexScan.C108_option_two_lines`, `Verif.TexScan.C108_empty_option`, `Verif.TexScan.C108_star`).
232. A space after a comma in a list of bibliographies stays in the name, and the file is not found (`Verif.TexScan.C108_comma_space`).
233. A group that follows a command is taken for its second argument: commands in it are not seen (`Verif.TexScan.C108_group`).
234. The LaTeX scanner gives no ending to names with a dot, where LaTeX tries it (`Verif.TexScan.C108_dots`).
235. After a line break command, a percent sign is taken for a character: what is commented out there is a dependency (`Verif.TexScan.C108_newline_comment`).
236. The import commands are not searched in TEXINPUTS (`Verif.TexScan.C108_import_path`).
237. What is remembered with a LaTeX file was scanned with the subdirectory of the first document that reads it; for the next document the wrong file is found (`Verif.TexScan.C108_history`).
238. A file outside ZIPROOT is stored with .. in its name, and takes the place of another file when unpacked (`Verif.Zip.C109_outside`).
239. Directories that are links are left out of archives without a word (`Verif.Zip.C109_link_lost`).
240. The order of the members is that in which the file system lists them: archives of the same files differ (`Verif.Zip.C109_order`).
241. A file with a time before 1980 makes Zip() fail even if ZIP_OVERRIDE_TIMESTAMP is set (`Verif.Zip.C109_old`).
242. ZIPROOT is not expanded: variables and # in it are taken literally (`Verif.Zip.C109_root_literal`).
243. The names of the dependencies are not part of the cache signature: after renaming a dependency an action that reads names (ls *.txt) is not executed, the old file is retrieved from the cache; without a cache it is executed (`Verif.CacheSys.Ex.C110_renamed_counterexample`).
244. With --cache-force a target edited by hand in one tree is pushed to the cache and retrieved by all other trees (`Verif.CacheSys.Ex.C110_force_counterexample`).
245. After a killed build and an undone edit the wrong target is up to date, as the records are written at the end (`Verif.CacheSys.Ex.C110_killed_counterexample`).
246. A source in a variant directory with duplicate=0 is shown as the source file by $SOURCE, ${SOURCE.dir} and ${SOURCE.posix}, but ${SOURCE.base}, ${SOURCE.abspath}, ${SOURCE.relpath} and ${SOURCE.windows} name a file in the variant directory, where there is none (`Verif.Attrs.Ex.C111_variant_pieces_disagree`).
247. splitext is said to be the same as os.path.splitext, but a dot file is all suffix, and a number is no suffix; all dot files of a directory get the same target from a builder that replaces suffixes (`Verif.Attrs.Ex.C111_not_os_splitext`, `C111_dotfiles_collide`).
248. The base of the current directory is the empty string (`Verif.Attrs.Ex.C111_cwd_base`).
249. ${SOURCE.srcpath} and $SOURCE have the same signature, although they are different files: changing the command from one to the other rebuilds nothing (`Verif.Attrs.C111_srcpath_signature`).
250. A source whose name begins with a hash sign (found by Glob) gets a target in the top-level directory, without the hash sign (`Verif.Attrs.Ex.C111_hash_target`).
251. --tree=all without prune asks for all children, ignored ones too: a cycle that Ignore breaks for the build ends it in a RecursionError (`Verif.Tree.Ex.C112_ignored_cycle`).
252. With prune, the tree keeps visited nodes by name: an alias and a file of the same name are taken for one, and the children of the second are nowhere shown (`Verif.Tree.Ex.C112_same_name`).
253. FindSourceFiles asks what is built on the way for its sources only: files it depends on by Depends or by a scanner are not found, although those of the node itself are (`Verif.Tree.Ex.C112_depends_not_found`).
254. Build with md5, change a source, build with --hash-format=sha256, change it back, build with md5: nothing is executed and the target stays that of the second source, as each format has its own database and the target itself is never looked at; the same with two names for SConsignFile (`Verif.Hash.Ex.C113_formats_mixed`, `C113_databases_mixed`).
255. A configure check opens the database while the scripts are read, before the hash format is set: with --hash-format=sha256 the signatures go to .sconsign.dblite, and the files the check looked at have md5 signatures in it (`Verif.Hash.Ex.C113_check_first`, `C113_check_format`).
256. SConsignFile() takes its default name before the format is set, even after SetOption('hash_format', ...), although the manual says that this order works (`Verif.Hash.Ex.C113_default_name`).
257. SConsignFile(name) after a configure check is ignored without a word (`Verif.Hash.Ex.C113_named_late`).
258. The default of --hash-chunksize is 65536 and is multiplied by 1024: files below 64 MB, not 64 KB, are read at once (no effect on results: `Verif.Hash.C113_chunks`).
259. The compilation database tool loaded before a compiler's tool, or a compiler's tool loaded again after it, records nothing, without a word (`Verif.CompDb.Ex.C114_tool_order`).
260. Object builders are shared with clones: loading the compilation database tool into a clone records the compilations of the original as well, a second time where it had the tool; loading a compiler's tool into a clone stops the recording for the original (`Verif.CompDb.Ex.C114_clones_interfere`).
261. The same object asked for twice (two programs with a common source) is twice in the database (`Verif.CompDb.Ex.C114_same_object_twice`).
262. The command in the database is not escaped as the executed one is: a name with a dollar sign, a quote or a backslash gives other arguments or no readable command (`Verif.CompDb.Ex.C114_names_not_escaped`, `C114_backslash_lost`).
263. A compile command that begins with @ is an empty text in the database; of a command with several lines only the first is there (`Verif.CompDb.C114_silent_empty`, `Ex.C114_lines_lost`).
264. `Action([f, g], generator=True)`: only the first function is a generator. The keyword is taken out of the dictionary that all actions of the call share; `g` is called as an action and the commands it returns are not run but taken for its status (`Verif.ActMake.C115_second_generator`).
265. `Action(['$F', g], generator=True)`: the variable keeps the same dictionary, from which the keyword disappears when `g` is reached, so what `$F` has is not a generator; without `g` it is (`Verif.ActMake.C115_variable_generator`).
266. `None`, a node and any other object that is no action are left out of a list of actions without a word, so the commands that were meant are not run and the target counts as built (`Verif.ActMake.C115_odd`).
267. A variable that has itself on a line of its own in a text of several lines is carried out without end, until Python's recursion limit (`Verif.ActMake.C115_endless`).
268. A dependency of the second target of a command is missing: the command is not run, but the first target has been removed by then (`Verif.Prep.C116_removed_and_not_built`).
269. A directory SCons has made is never made again in the same process: its executor is nullified. A command that removes it, or `!rm -rf build` between two builds in interactive mode, makes later commands run without the directory (`Verif.Prep.C116_directory_not_made_again`).
270. `smart_link` assigns `DLINKCOM` to `LINKCOM` while a command is expanded: after one program in D, all later programs of the environment, in C or C++ too, are linked with the command of the D tool, and which are later depends on the order of the build (`Verif.Link.C117_after_d`).
271. The command of the first program in D as made for the signature is not the one that is run (`Verif.Link.C117_d_signature`); without a D tool it is a KeyError (`Verif.Link.C117_d_without_tool`).
272. `STATIC_AND_SHARED_OBJECTS_ARE_THE_SAME='no'` or `'false'` counts as true (`Verif.Link.C117_false_is_true`).
273. `UniqueList(['a', 'a'])` keeps the repetition, and so does a copy of a list nobody looked at since something was added (`Verif.Lists.C118_init_keeps`, `C118_copy_keeps`).
274. `UniqueList.remove`, `del`, `pop`, `insert` and item assignment work on the list with repetitions: an element that was added twice is still there after `remove`, and `del l[1]` deletes another element than `l[1]` shows (`Verif.Lists.C118_remove_leaves`, `C118_del_wrong`).
275. `a == b` of two `UniqueList`s can be true while `b == a` is false (`Verif.Lists.C118_eq_not_symmetric`).
276. `unique` keeps equal elements if they can be sorted but not by a total order, such as sets (`Verif.Lists.C118_unique_sets`).
277. A builder with actions by suffix takes `['README', 'a.c']` and refuses `['a.c', 'README']` (`Verif.Select.C119_order_of_sources`).
278. A variable that stands for a suffix with two dots is never matched, though the suffix itself is (`Verif.Select.C119_variable_dots`); an emitter given for such a suffix is never called, though the action is (`Verif.Select.C119_emitter_dots`).
279. A suffix and a variable with the same value make every source with another suffix an error, a bare KeyError from an emitter dictionary even with a default (`Verif.Select.C119_clash_elsewhere`); a default `None` among actions is a TypeError (`Verif.Select.C119_no_default`).
280. A comment that ends with the word import before an import declaration makes one name of the rest of the comment and the module: the module is not a dependency (`Verif.DScan.C120_comment_counterexample`). A comment inside the declaration hides it all (`Verif.DScan.C120_comment_inside_counterexample`).
281. An interface file `.di` in a later directory is taken over the source in an earlier one, which is what the D compiler reads (`Verif.DScan.C120_find_counterexample`); a package, `m/package.d`, is never found (`Verif.DScan.C120_package_counterexample`).
282. Classes that SCons will make in a directory that does not exist yet are not dependencies, though the scanner means to look at the nodes: a clean build may compile before they are there (`Verif.JavaCp.C121_new_directory_counterexample`).
283. Classes below a link to a directory, and jar files named `.JAR`, are read by javac and are not dependencies (`Verif.JavaCp.C121_link_counterexample`, `Verif.JavaCp.C121_capitals_counterexample`); in a list, an element with a separator is one file for the scanner, two for javac (`Verif.JavaCp.C121_list_counterexample`).
284. A link that leads nowhere, where the directory of a target should be: mkdir fails, the failure is passed over, and the command is started without a directory (`Verif.Prep.C116_link_for_directory`).
285. The emitters of yacc and lex put the file of `YACC_HEADER_FILE` (`YACC_GRAPH_FILE`, `LEX_HEADER_FILE`, `LEX_TABLES_FILE`) in place of the text: a name with `$SOURCE` in it, or one in the directory of another SConscript, is expanded for the first grammar and is a target of all later ones (`Verif.Yacc.C122_frozen_counterexample`).
286. `YACCFLAGS=['-dv']` and `['-Hfile.h']` write headers that are not targets (`Verif.Yacc.C122_cluster_counterexample`, `Verif.Yacc.C122_joined_counterexample`); for Objective-C further targets that were given are dropped (`Verif.Yacc.C122_objc_counterexample`).
287. SWIG writes Java files beside the wrapper, SCons expects them in the directory of the SConscript (`Verif.Swig.C123_java_counterexample`).
288. `%module(package=...) geo // (geometry)`: the closing parenthesis of the comment ends the options, and the module is the first word of the next line (`Verif.Swig.C123_comment_counterexample`); `%module geo;` gives `geo;.py` and directives in comments count (`Verif.Swig.C123_semicolon_counterexample`); `-module` is not seen (`Verif.Swig.C123_flag_counterexample`).
289. POTUpdate keeps the old messages when the sources have none left (`Verif.Pot.C124_stale_counterexample`); with carriage returns in the template, as the code itself writes on Windows, it writes the template on every run (`Verif.Pot.C124_crlf_counterexample`).
290. In a list of files for xgettext blanks at the end of a line are removed from the last line only (the expression has no `re.M`): other names with blanks are files that do not exist (`Verif.Pot.C124_blank_counterexample`); comments in a list with carriage returns are names (`Verif.Pot.C124_comment_counterexample`).
291. A node in `XGETTEXTFROM` (or `XGETTEXTPATH`) raises TypeError: `files.extend(xf)` is called with the node itself (`Verif.Pot.C124_node_counterexample`).
292. `JARFLAGS='cf -J-Xmx512m'`: the test for the letter `m` looks at all of the text, and the manifest becomes an ordinary entry (`Verif.Jar.C125_flags_counterexample`); with other options the letter is put at the end of the last one (`Verif.Jar.C125_option_counterexample`); `cmf` overwrites the manifest (`Verif.Jar.C125_order_counterexample`).
293. With `JARCHDIR` a source that is not below it is looked for at its whole path below it (`Verif.Jar.C125_chdir_counterexample`).
294. `Jar(source='foo.class')` without a target makes `f.jar` (`Verif.Jar.C125_letter_counterexample`); with two targets and a text as source only the first is made (`Verif.Jar.C125_text_counterexample`).
295. A `PackageVariable` with the default `Yes` or `No` (the manual says case does not matter) makes `x11=yes` an error: the test of the default is case-sensitive, and the default is returned as if it were a path (`Verif.Vars.C126_case_counterexample`); with the default `False`, `x11=yes` gives `False` (`Verif.Vars.C126_false_counterexample`).
296. The SWIG scanner takes `(module=` for the name in `%import(module=m) b.i` (with quotes), so the real file is not a dependency, and cuts a quoted name at the first blank (`Verif.Iface.C127_swig_counterexample`); the IDL scanner does not see an include without a blank before the name, nor the second of two imports in a line (`Verif.Iface.C127_idl_counterexample`).
297. `EnsureSConsVersion(3,2)` is met by the version `3.2b1`, that is before 3.2: tags are not compared (`Verif.Ver.C128_tag`).
298. `find_program_path` with `add_path` adds nothing when the program is found through `.` (its name then has no directory), so commands do not find it (`Verif.Util.FindProg.C129_current_counterexample`); when it adds a directory, an empty directory (the current one) in `PATH` is lost (`Verif.Util.FindProg.C129_empty_counterexample`).
299. `--install-sandbox` does not hold for directories given as nodes (such as `Dir` of an absolute path), as texts that begin with `#`, or with `..`: these files are installed outside the sandbox (`Verif.InstTo.C130_sandbox_counterexample`); and relative directories of different SConscript files become one directory (`Verif.InstTo.C130_relative_counterexample`).
300. `InstallAs` with more sources than targets, or the other way round, ignores the rest without an error (`Verif.InstTo.C130_as_counterexample`). The list that `FindInstalledFiles` returns is its own memory: a caller that changes it changes what others get (`Verif.InstTo.C130_found_counterexample`).

## Mutation tests

`seeded/run.py` applies one edit at a time to a scratch copy and rebuilds; `seeded/LOG.jsonl` has one line per edit. Survivors led to new theorems
(listed in the log under `theorems_tightened`).
