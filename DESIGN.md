# Formal model of maike: design

## 1. Approach

The C++ in `/repo/core` is transcribed by hand into Lean 4, function by function,
as small total functions (sequential code) or as transition systems (threads).
Each definition cites the file and lines that it models and states what it simplifies.
Throwing is modelled with `Except`, undefined behaviour and assertion failures as a
distinct outcome, and blocking as a step that is not enabled.

Directory layout (`lean/Verif/`), one directory per part of the code:

* `X/Model.lean`: the transcription, nothing else.
* `X/Spec.lean`: independent vocabulary used in statements (reachability, path, stream, ...).
* `X/Lemmas*.lean`: helper lemmas and invariants.
* `X/Theorems.lean`: the property theorems, each with an `example` showing a
  non-trivial instance that satisfies the hypotheses.

## 2. Trusted base

* Lean 4.33.0 kernel. The only axioms used are `propext`, `Classical.choice` and `Quot.sound`; `AXIOMS.md` lists them
  for each theorem in `MANIFEST.json` (written by `tools/axioms.py` from `#print axioms`). There is no `sorry`, no
  `native_decide`, no `bv_decide`; `decide +kernel` is used for concrete examples and counterexamples only.
  Mathlib is not used.
* The hand transcription from C++ to Lean. There is no extraction; the line citations are there to be audited.
* The semantics assumed for what the code calls:
  * containers (`std::vector`, `list`, `map`, `queue`, `stack`, `set`) as lists; `std::map` as a list sorted by key;
    `std::lower_bound` by the result it has on sorted input;
  * `std::filesystem::path` as transcribed in `Fs/Path.lean` and `Paths/*.lean` from the standard and libstdc++
    (`operator/`, `lexically_normal`, `lexically_relative`, `parent_path`, `filename`, `stem`, `extension`, comparison);
  * `std::regex` with the grammar `basic` as transcribed in `Tree/Regex.lean` from libstdc++ (C109);
  * mutex and condition variable: sequentially consistent, spurious wake-ups included, `notify_one` wakes some waiter
    or none if there is none; `std::atomic` as sequentially consistent;
  * `strtol`, `strtoll`, the wait status macros of glibc, `fork`, `execve`, `pipe`, `read`, `write`, `waitpid` as
    transition systems (`Text/Numbers.lean`, `Exec/*.lean`);
  * a file system as a function from paths to "missing" or (kind, time stamp), and a clock that gives
    later writes later or equal stamps;
  * resolution of symbolic links as in path_resolution(7), and `is_directory` throwing for `ELOOP` only (C111);
  * `ar` with the operation `r`, as in GNU binutils: `rcs` in `Recipes/Archive.lean` (C112);
  * `os.path.dirname` and `os.path.relpath` of Python on POSIX, as in `Recipes/Generators.lean` (C114).

## 3. What is modelled

| C++ (below `core/`) | Lean |
|-----|------|
| `utils/graphutils.hpp` | `Graph/*` |
| `db/task_list`, `db/task_result`, with `sched/event`, `sched/thread_pool` as used by it | `TaskList/*` |
| `db/{source_file_list,dependency_graph,dependency,source_file_info,source_file_record,target,target_info,property}`, `source_tree_loader/main` | `Db/*` |
| `db/task`, `db/source_file_record.cpp`, `db/target_info.cpp`, `utils/fs.cpp`, `LocalExecve` of `exec/execve.cpp` | `Build/{Model,Spec,Lemmas,Theorems,History,Load,Dry}` |
| `db/source_tree` | `Build/Several` |
| `db/compilation_log` | `Build/Log` |
| `sched/{event,signaling_counter,thread_pool}` | `Sched/*` |
| `io/{fifo,input_buffer,output_buffer}` | `Io/*` |
| `source_file_info_loaders/{cxx,extension}` (tag filters, include scanner) | `Loaders/*` |
| `build/id`, the enum tables, `sched/thread_count`, `utils/{mem_status,system_time_stamp}`, `exec/command` | `Text/*` |
| `key_value_store/*`, `db/compiler`, `db/dependency.cpp`, `bin/config`, `source_file_info_loaders/config`, `source_tree_loader/{config,input_filter}` | `Kvs/*` |
| `cmd_line_parser/command_line`, `bin/cmd_line_options.hpp` | `Cli/*` |
| `source_file_info_loaders/generic`, `utils/fs.hpp`, `std::filesystem::path` | `Paths/*`, `Fs/Path` |
| `source_tree_loader/{command_dictionary,directory_scanner,source_file_load_ctxt,source_file_loader_delegator}` | `Tree/*` (one operation at a time: `Tree/ScanThread*`; while the file system changes: `Tree/ScanMoving`, `Main/ScanMoving`) |
| `exec/{execve,exit_status,result}` | `Exec/*` |
| `bin/maike.cpp` (`main` without query options: scan, database and build on one file system) | `Main/Run*` with `Build/Origin` |
| `bin/maike.cpp` (`printTargets`, building listed targets) | `Main/Targets` |
| `key_value_store/json_handle.cpp` (`jsonLoad`, with jansson's decoder as a parameter), `BufferReader` of `db/compiler.cpp` | `Kvs/{JsonLoad,RecipeOutput}` |
| `key_value_store/{json_handle,compound,array}.hpp`: ownership of `json_t`, with jansson's reference counts | `Kvs/{Heap,Ownership,OwnershipTheorems}` |
| `key_value_store/json_handle.hpp` (`store`, with what jansson writes), `Compound::set` and `Array::append` with names as bytes | `Kvs/{JsonText,JsonTextUses,Names,JsonDecode,ConfigDump}`, `Main/Dump` |
| `exec/execve` (file descriptors) | `Exec/Descriptors` |
| `from_time_t`, `to_time_t`, `gmtime_r` as used for the start time | `Text/Date` |
| `source_file_info_loaders/*` on the bytes of files, within a whole run | `Main/Source` |
| `bin/maike.cpp`: `printDepGraph` | `Main/DepGraph` |
| `bin/maike.cpp`: `printHelp`; `cmd_line_parser/command_line.hpp`: tables of options and types | `Cli/Help` |
| `bin/maike.cpp`: `main`, `makeBuildInfo`; `bin/config.cpp`: `resolveRecipes` | `Main/Program` |
| `recipes/{cxx_linker,make_lib,pkg_config}.py` | `Recipes/{Model,Link}`, `Main/Linked` |
| `recipes/make_lib.py`: what becomes of the library | `Recipes/Archive`, `Main/Library` |
| `recipes/{cxx_compiler,cxx_linker,make_lib,generic,copy_file,make_directory,sass2css,md2htmlpart,doc2html,vcslog}.py`, as programs that start programs and change files | `Recipes/{Script,Status,Documents}` |
| `recipes/{doc2html,generic}.py`: `get_tags` | `Recipes/Report`, `Main/Reports` |
| `recipes/cxx_compiler.py`: flags, selection of the compiler and of the revision | `Recipes/{Compile,Revision}`, `Main/Compiled` |
| `core/bin/maike.cpp:339-351`, `db/compilation_log` as part of a build | `Build/Logged`, `Build/LogTells`, `Main/Bootstrap`, `Main/LogTells` |
| `std::regex` as used by `source_tree_loader/input_filter` and the C++ loader | `Tree/Regex`, `Main/Filters` |
| `source_tree_loader/{directory_scanner,source_file_loader_delegator}` on a file system with symbolic links | `Tree/Links`, `Main/Links` |
| `sched/thread_pool.cpp` (constructor, destructor) and `exec/execve` (readers) when threads cannot be started | `Sched/ThreadStart`, `Main/ThreadStart` |
| `doc/{cmdlineopts,configdefault,cmdlineopts2xml,configdefault2xml,manpage}.py`, `build.py`, `install.sh`, `execPrefix` of `utils/fs.cpp` | `Recipes/{Generators,OwnScripts}`, `Main/Generators` |
| several processes of `bin/maike.cpp` that share a project | `Build/{Fleet,FleetIdle,FleetExamples,Separate,SeparateExamples,SeparatePieces,SeparatePiecesExamples}`, `Main/{Fleet,Separate,SeparateExamples}` |
| `utils/{unique_function,scope_exit_handler}`, `source_file_info_loaders/loader` | `Utils/*` |

Not modelled: jansson's parser (values are trees; what jansson writes is modelled in `Kvs/JsonText`, for C98, and the parser is assumed to follow the grammar for C100), `std::regex` (filters are predicates; basic expressions without groups, intervals, brackets and references are modelled for C109), the texts of
most error messages (those that reject a project are, for C103), wall clock measurements in the log, allocation failure, signals, files that change while the
directory scan is running (except where a theorem says otherwise), symbolic links where files are
written (the scan is modelled with them, for C111; recipes see the tree that results from following them), other file attributes than kind and modification time.

## 4. Plan per property

| Id | What is modelled | How it is proved |
|----|------------------|------------------|
| C01-C04 | `processGraphNodeRecursive` and `visitNodesInTopoOrder` with explicit stack and marks (`Graph/Model`), fuel-free via a well-founded measure | invariant on (stack, marks, output) preserved by each loop iteration; spec: inductive reachability |
| C05 | `getUseDepsRecursive` on top of C04 | corollary of C04 plus edge bookkeeping |
| C06, C07 | `DependencyGraph` constructor, `resolve`, `find`, `getNode` on sorted association lists | correctness of binary search on a strictly sorted list |
| C08-C10 | `source_file_list.cpp` on sorted maps | induction over the file list |
| C11, C12 | `isOlder`, `isNewer`, `isUpToDate` (3 overloads), `runIfNecessary` over an abstract file system (path -> missing / file with time / directory) | case analysis and induction over target and dependency lists |
| C13, C14 | replay of scheduler traces on a file system with a clock | invariant over the trace; uses C05, C12, C15 |
| C15-C20 | `TaskList::process`, `Event`, `SignalingCounter`, worker bodies, pool queue: one fine-grained transition system (reads of result cells are individual steps) | inductive invariant, termination measure, progress lemma. C18 is false: a stuck reachable state is exhibited |
| C21 | both `TaskList` constructors | from C01-C04 |
| C22-C24 | `ThreadPool` transition system with per-thread program counters | inductive invariant, progress and measure |
| C25 | `Fifo` as a state machine with `write`/`read` operations | refinement to one byte stream with end markers |
| C26, C27 | `InputBuffer`, `OutputBuffer` | refinement to streams |
| C28 | composition of C25-C27 | refinement |
| C29 | `Build::Id` over 32 bytes | round trip by arithmetic on nibbles |
| C30 | the enum tables | case analysis and string inequality |
| C31-C33 | JSON value tree, `operator|=` | structural induction on the tree |
| C34 | `Compiler::operator|` | case analysis |
| C35, C36 | `shell_escape`, `toString`, a POSIX field splitter as spec | decoding function and induction; C36 is false, witness plus `_partial` theorem |
| C37 | wait status decoding | case analysis |
| C38 | `LocalExecve` in dry-run mode within the build model | corollary of C13/C17 machinery |
| C39-C43 | the three filter automata and the include scanner as step functions on characters | induction over the input with the automaton state generalised; C43 is false, witnesses |
| C44, C45 | `getFullExtension`, `matchLongestExtension`, `makeTargetName`, libstdc++ `stem`/`extension` | induction over strings |
| C46, C47 | lexical path model (`operator/`, `lexically_normal`, `parent_path`, `lexically_relative`) | lemmas on component lists |
| C48 | `CommandDictionary::get` | invariant of the cache |
| C49, C50 | `DirectoryScanner` transition system over a finite tree | invariant, confluence to the least closed set, measure |
| C51, C52 | `collect_options`, option table, `next_array_token`, list `fromString` | sortedness of the table and induction over strings |
| C53 | `ThreadCount` parsing | arithmetic |
| C54 | `loadConfig` control flow | induction over the file list |
| C55 | `append_log` | induction over the text |
| C56 | ownership model of the two wrappers | invariant over operation sequences |
| C57 | `get_mem_avail` automaton | induction over the text |
| C58 | `AsyncTaskResult` transition system | invariant, progress |
| C59 | `Compiler`, `loadCompiler`, `makeBuildCommand` | case analysis; false in general, witness plus `_partial` theorem |
| C60, C61 | configuration to JSON and back, loader table | round trip by induction on the members |
| C62 | `strtoll` and the checks after it | arithmetic on digit lists |
| C63-C65 | tags, references, directory dependencies (`Tree/Tags`, `Tree/Names`) | refinement against a small specification of the tag format |
| C66 | dry run against real run of the build model | simulation between two executions |
| C67 | `execve` with pipes, the launch lock and the kernel as one transition system | invariant, measure |
| C68 | ownership of `Loader` | invariant over operation sequences |
| C69 | `SourceTree` compile with a list of names | induction over the list with the invariants of C13 |
| C70, C71 | composition of scanner, loaders, database and build on one file system (`Main/Run`) | C49 gives the files, C06-C10 the graph, C13 and C14 the build; for the second run the two scans are shown to reach the same files |
| C72 | `printTargets` and `getTarget` on the graph of C70 | printed path parses back, and being listed is equivalent to being accepted below the target directory; false in general, witness |
| C73 | `ReadHelper::fetch` and `jsonLoad` with the decoder as a parameter | induction over the blocks |
| C74 | `jsonLoad` on top of `InputBuffer` on any source, `BufferReader` (`Kvs/RecipeOutput`) | simulation with C73 for well-behaved sources; false for `BufferReader`, witnesses |
| C75 | the loaders as functions of the bytes of a file, put into the run of C70 (`Main/Source`) | what the scanner of include directives finds becomes a dependency in the sense of C70; then C70 |
| C76 | `main` from the arguments to the exit status (`Main/Program`): command line, configuration, recipes, scan, queries, builds | case analysis on the ways to end, C51 for the options, C69-C71 and C75 for builds |
| C77 | `printDepGraph` (`Main/DepGraph`) | sorted insertion; needed files are reached by induction over the relation of C70 |
| C78 | `write`, `read`, `communicateWith`, `IOCapture`, `MemRedirector` (`Exec/Transfer`), an arbitrary recipe and finite pipes | invariant over all schedules that relates streams, pipes and buffers to the recipe run alone; a measure that decreases with each step |
| C79 | the whole way from declarations to commands (`Build/Edges`, `Main/Request`) | exact characterisation of the edges of the graph by an inductive relation over declarations; C05, C34 |
| C80 | runs that end or are interrupted anywhere, followed by any number of further runs (`Build/Retry`, `Main/Retry`) | invariant: a target that is out of date stays so until its own command writes it; counterexample for recipes that write before they fail |
| C81 | the dependencies of a command as JSON values, and the recipes that turn them into arguments (`Recipes/*`, `Main/Linked`) | C79 gives what the recipe is told; then induction over the loops of the recipes; counterexample for parts that are also declared otherwise |
| C82 | recipes as trees of actions (start a program, copy, write, make a directory, anything that may raise an exception, exit), executed on a file system with arbitrary outcomes (`Recipes/{Script,Status,Documents}`) | relational semantics, inversion along the recipe, induction over targets; counterexamples |
| C83 | the function from the input of the recipe to the command of the compiler (`Recipes/Compile`), composed with what maike passes (`Main/Compiled`) | induction over the loops of the recipe; C79 for the closure of declarations; counterexample for repeated words |
| C84 | the choice of the compiler, with the answers of the compilers as a parameter (`Recipes/Revision`) | induction over the list of candidates; counterexamples |
| C85 | contents of files in addition to time stamps, recipes as functions, histories of edits and builds (`Build/Content`), what is to be done as a function of contents (`Main/Incremental`) | invariant of histories: everything that a target was made from is gone, newer, or unchanged; simulation between the graphs of two source trees which agree on what is read (`Build/Determined`, `Graph/Sim`) |
| C86 | reasons at the beginning of a build, as an inductive predicate on tasks (`Build/Necessary`) and on files of the project (`Main/Necessary`) | invariants: what differs from the beginning is a target of something there was a reason for; time stamps of what has been written; what nobody has changed has the same task as in the run before (`Build/Determined`) |
| C87 | `Build/Ends.lean`: a measure of what remains to be done (potential of the scheduler, decisions, targets not yet written) decreases with every useful action (`C87_bounded`); unless the build has ended or something has thrown, a useful action that is not a failure is possible (`C87_progress`, from C17), so the build can end (`C87_can_end`). `Main/Ends.lean`: finitely many paths give a tree of finite height, so C49 applies (`C87_scan`); sources of tasks exist because they have been scanned; the number of workers is positive for every command line; composition for builds of everything, of lists of targets, and of the whole program (`C87_all`, `C87_named`, `C87_ends`). `Main/EndsExamples.lean`: a run that hangs because a recipe cannot be launched (`C87_exception_false`). |
| C88 | Recipes as scripts (`Recipes/Script.lean`) executed concurrently, step by step, by the tasks of a build (`Build/Processes.lean`). A refinement: an invariant relates what is left of each script to what has been written, so that a script exits with status zero only if all targets are there; each action then is an action of `Build/Model.lean`. Which recipes keep this promise is proved one by one (`Build/Promises.lean`), and C70 gives the result for whole runs (`Main/Processes.lean`). |
| C89 | `get_tags` of recipes/doc2html.py on trees of XML elements (`Recipes/Report.lean`). An induction on the document shows that the references are exactly those of the specification `Refers`; where they lead to follows from the theorems on paths (C46, C65) and an induction on the names of the reference (`follow`). Whole runs: `Main/Reports.lean`, by C63 and C70. False in general (`C89_false`, `C89_false_fragment`). Reading XML is not modelled. |
| C90 | `get_tags` of recipes/generic.py (`Recipes/Report.lean`); where the target is put follows from C47 (`Main/Reports.lean`). False in general (`C90_false`). |
| C91 | Two runs with configurations that differ in the options of recipes only (`OnlyOptions`, `Main/Settings.lean`): the scan reports the same targets and dependencies, so by C14 the second run executes nothing. For recipes that have been executed, an invariant of builds with contents says that what has been written stays what the recipe computes (`Build/Settings.lean`). False in general (`C91_false`). |
| C92 | `printHelp` with `sort`, `copy_if` and `unique` (`Cli/Help.lean`). Insertion sort permutes and sorts; an induction on the sorted table finds the sections; another one shows that `unique` leaves each name once. What is said about values follows from C51. |
| C93 | Two command lines that differ in the path of a query (`Main/Queries.lean`): an induction on the arguments shows that the collected options differ in one value, and `plan` does not use it. False (`C93_false`). |
| C94 | The builds of C88 with contents of files (`Build/Serial.lean`): a program may write anything to its files while it is running; when it returns, its result is related to what its inputs contained when it was started, if nobody else has written to these in the meantime. Specification: `MakesAlone`, a recipe executed with nothing else going on, and `OneByOne`. An invariant shows that nobody is ever disturbed, and that what each recipe has done so far could have been done alone; the files after a successful build are then rebuilt recipe by recipe. `Build/Reads.lean`: the recipes of maike read what they are told. `Main/Serial.lean`: whole runs. |
| C95 | The histories of C85 with builds as in C94 (`Build/Histories`, `Main/Histories`): a target may contain anything while its recipe is executed, and when it has failed | the invariant of C85, proved for builds that execute processes: what a successful recipe has left is what it makes alone (C94_isolated), files that nobody has written are as before, and spoilt ones are removed |
| C96 | Tables of descriptors, `pipe`, `close`, `dup2`, `FD_CLOEXEC`, `fork` and `execve`; other threads change the table between any two system calls (`Exec/Descriptors`) | invariant: the descriptors that have been opened and not closed are exactly those that refer to the pipes of the call; then evaluation of the part before `execve` in the child |
| C97 | `from_time_t` in nanoseconds, `to_time_t`, `gmtime_r` as a computation with 400-year periods, the conversions of `sprintf` (`Text/Date`) | the calendar is specified by its epoch and the successor of a day, and is unique; the computation satisfies this; texts are split at characters that are not digits |
| C98 | jansson's `json_dump_callback` with the flags of `store`: escapes, indentation, sorted keys (`Kvs/JsonText`) | the grammar of RFC 8259 as an inductive relation; by induction on values, what is written is in the relation; by induction on derivations, a text is related to one value only; values are compared up to the order of members; requests and the dump of the configuration in `Kvs/JsonTextUses` |
| C99 | `json_string` on bytes, `Compound::set` and `Array::append` with null pointers (`Kvs/Names`) | false; equality with the request of C34 if all names are UTF-8, and a description of the request otherwise |
| C100 | `jsonLoad` on bytes in UTF-8, with a decoder that follows the grammar within the limits of jansson (`Kvs/JsonDecode`); `loadConfig`, `dumpConfig` (`Kvs/ConfigDump`, `Main/Dump`) | C73 for the buffers; UTF-8 is prefix-free and the grammar is unambiguous, so there is such a decoder; each field of a configuration that has been loaded is within the limits again, as merging does not increase the depth; equality of what is printed by C98_canonical |
| C101 | `JsonHandle`, `Compound::set`, `Array::append`, `operator\|=` and jansson's reference counts on a memory of cells (`Kvs/Heap`) | `Owned` says that the cells of a value are a tree with counts of one; each function is proved to keep it, to change only the cells of its operands, and to do to the value what the functions on trees do (recursion over the value); then induction over histories with the invariant that the handles own disjoint sets of cells, which together are all cells |
| C102 | `main`, from the scan to the task list: `load`, `collectTargets`, `validate`, `TaskList`, `compile` (`Build/Accept`, `Main/Accept`) | each check is proved equivalent to a condition on what the files declare (targets, references, chains of dependencies); circles by the correctness of the depth-first search (C07, C21) and the exact edges of the graph; then cases over how the program ends |
| C103 | the exceptions that `main` prints: `resolveDependencies`, `insert` of targets, `processGraphNodeRecursive`, `process`, `getTarget` (`Build/Reasons`, `Main/Messages`) | each way in which loading fails is traced back to what the files declare (`Build.load_error`), using the exact conditions of C102; `Explains` is the meaning of the messages; `C103_always`: each failure has a message |
| C104 | `TaskList::process`, the closures it submits, `Event`, `SignalingCounter`, `addTask`, `takeLastException`, `performTasks`, one operation at a time, with owners of mutexes, sleeping threads and lifetimes (`TaskList/Threads`) | forward simulation to the model of C15-C20 (`Rel`), with invariants about owners of mutexes, about who will notify a sleeping thread, and about what is left at the end; `Legal` says what a thread may do; a weighted sum of program counters bounds the operations between two visible actions |
| C105 | `DirectoryScanner`, its tasks, `SignalingCounter`, `addTask`, `performTasks`, one operation at a time, with owners and readers of mutexes, sleeping threads and the lifetime of the scanner (`Tree/ScanThreads`) | forward simulation to the model of C49 and C50 (`Rel` up to a permutation of the tasks), with invariants about owners, readers, and who will notify a sleeping thread; `Legal` and `Race` say what a thread may do; a weighted sum of program counters bounds the operations between two steps of the simulated scan |
| C106 | `CompilationLog::write` in the builds of C13, what it prints, `Command` as text, `store` (`Build/Logged`, `Main/Bootstrap`); one list of tasks after the other with `--targets` (`Main/BootstrapNamed`) | specification: the commands that a POSIX shell reads (`Text/Script`). The messages are in the order of the tasks by an invariant; each message is read as one command; then C94 says what the commands lead to. False for some names, witness |
| C107 | the program of C76, with the threads of C104 and C105 instead of critical sections as single actions; what a task and its recipe do is interleaved with the operations of all threads (`Build/Threads`, `Main/Threads`) | forward simulation for any kind of build in which what a task does depends on the scheduler only in that the task is being executed (`Kind.Lawful`), for the builds of C13, C88 and C94; the converse simulation (`Canon`) schedules the threads such that nobody waits for a mutex; hence equivalence, and all theorems about `Ends` hold for threads; from each state that is reached the build can end: the potential of C104 plus what remains to be decided and written gets smaller (`Build/ThreadsEnd`) |
| C108 | `string.Template` as a state machine with an independent inductive specification (`Text/Template`); core/bin/about.py:15-80, the part of C++ that the header consists of (lexer, concatenation of literals, definitions), and core/bin/maike.cpp:140-187 (`Text/About`) | the substituted templates are equal to a list of definitions (`header_eq`); the lexer is run over it one definition at a time; exactness: from the value of a definition back to its text (`clean_of_body`); witnesses for quotation marks and backslashes |
| C109 | the scanner and compiler of libstdc++ for basic regular expressions and `regex_search` (`Tree/Regex`), the filters of core/source_tree_loader/input_filter.cpp:7-44 in the scan of `Tree/Scanner` and the program of `Main/Program` (`Main/Filters`) | the matcher is equivalent to an inductive relation for texts with three parts; quoted patterns compile to literals; the path relative to the source directory is the list of names below it (`relative_located`), so that the second filter adds nothing; for `./src` it begins with `..` |
| C110 | builds in which somebody edits files between any two actions, with recipes that read their inputs at unknown moments after the comparison of time stamps (`Build/Edits`), for projects loaded from files (`Main/Edits`) | specification: a record of which target was written after which source file had been edited in the same run. The invariant of C85 is weakened by this record; inputs that are targets are still stable, by the order of tasks. A build that nobody disturbs is a special case (`live_of_performs`), so that C85 is one of C110. Two witnesses in which the next build is wrong |
| C111 | path resolution with symbolic links as in path_resolution(7), on a tree of files, directories and links; `is_directory`, `directory_iterator` and the loader on top of it (`Tree/Links`, `Main/Links`) | specification: the relation `Leads` between places, with the number of links on the way. Resolution is shown to be this relation with a limit. The scan ends since names of entries lead deeper except where a link is used up; a way back needs a link, so that after enough rounds the limit is exceeded. The file system as seen through links meets `Disk.Ok` and `Disk.Finite`, and both scans reach the same paths. Examples: a directory with two names, one that contains itself, and `link/../src` |
| C112 | the list of members that `ar` works with, and what each file on the command line does to it (`Recipes/Archive`); the command is that of C81 (`Main/Library`) | invariant: the new entries are a permutation of the files added so far, and for each name the old ones lose one per file of this name. This gives the exact condition under which nothing is left over, for one build and for sequences of builds. Examples: parts with the same base name, a part that is taken away |
| C113 | the loops over the handles of threads in the constructor and the destructor of the pool, with the outcome of each `pthread_create`; the scan of `Tree/ScanThreads` with the workers that could be started (`Sched/ThreadStart`, `Main/ThreadStart`) | the handles are counted; without workers, an invariant keeps the main thread before the end of its wait; with at least one worker, C22 and C105 apply, since they hold for any number of workers |
| C114 | the scripts as programs in the sense of C82; `os.path.dirname`, `abspath` and `relpath` of Python on text (`Recipes/Generators`) | inversion of executions (`Recipes/OwnScripts`); the current directory cancels because `abspath` leads to where the path of C46 leads, and what remains is C47 and C65 (`Main/Generators`) |
| C115 | any number of builds that share files and the clock, with recipes that read their inputs at unknown moments and write whole targets or pieces of them (`Build/Fleet`), for projects loaded from files (`Main/Fleet`) | specification: the value of a target is defined from the source files, by recursion on recipes (`Right`). Invariant: whatever has been written or skipped by anybody has this value, and so has whatever has been read. For that nothing is left to do (`Build/FleetIdle`): a target that is older than an input has still to be looked at by whoever has written the input. Witness with a target that is written in two pieces, and one with runs that make different targets |
| C116 | the scan of `Tree/Scanner` with a version of the tree per step (`Tree/ScanMoving`), within a run on a file system on which another run is building (`Main/ScanMoving`) | every execution on a changing tree is an execution on a tree that does not change: the one in which each directory has the entries that were seen when it was entered, which happens at most once. This tree differs from the first one in what is left out, so C49 and C50 give the result. The bound on the number of steps is that of C49, with the largest number of entries. Examples: target directories that appear during the scan; a scan that finds what was never there if they are not left out |
| C117 | the builds of C115, with different targets, and recipes of other runs that write pieces of their targets (`Build/Separate`), for projects loaded from files with different settings (`Main/Separate`) | simulation: actions of one run are repeated without the other runs, and what others do becomes time that passes, if it takes time at all. The two file systems agree on the files that matter, and on which directories that matter exist; decisions depend on nothing else, because time stamps of directories are never compared with those of files. C115 for a single run gives the rest. If the run itself writes piece by piece (`Build/SeparatePieces`), a second simulation replaces each piece by the whole: the difference is seen by nobody, since tasks that read a target wait for a recipe that has completed it. What matters for a run is a file that it has found, or in the area of its targets (`watches_in`), so runs with target directories of their own are separate (`C117_directories`; `Main/SeparateExamples` has two of them). Examples: another run that is interrupted while it writes its target; a run that succeeds with a wrong program since another run writes one of its objects, or one of its source files; a recipe that ends with success before its target is complete |
| C118 | the builds with a log of C106, whether they succeed or not (`Build/LogTells`), for projects loaded from files (`Main/LogTells`) | invariant over all interleavings: results are recorded after messages, decisions do not change, and nothing is written by a task after its message. Every build can be extended with a log (`C118_all`). What is printed follows from C55, for names without zeros, apostrophes and backslashes; with log level "errors" the line about a task is missing (`C118_level_needed`). A task that throws, or whose call of `write` throws, has no result, and the theorems do not say that there is a message about it |

## 5. Status and findings

`MANIFEST.json` gives the status of each property. "partial" means that the property as stated in `properties.jsonl` is
*false of the code*: then there is a theorem `..._false` with a concrete run, and a `_partial` theorem with the additional
hypothesis under which it holds. Nothing is left out because a proof could not be found.

### 5.1 Properties which are false of the code

* **C18.** If a recipe cannot be launched, its task records no result. If another task needs it, `TaskList::process` waits for
  ever (`C18_false`, `C18_never_ends`; `C87_exception_false` is a run of the whole program that hangs in this way). The same happens if neither a source file nor its target exists, since the comparison of
  time stamps throws.
* **C36.** `shell_escape` escapes `'` and `\` with a backslash between apostrophes, which a POSIX shell does not understand (`C36_false`).
* **C43.** The include scanner misses or invents includes after `**/`, `// ... /*`, `#endif` directly followed by `#include`,
  `#error "..."`, strings with `/*`, and unterminated names (`C43_*`).
* **C47.** If the source directory is given as `./src`, `src/` or `a/../src`, names are not relative to the target directory (`C47_false`).
* **C59.** If the tags of a file change only the configuration of its compiler then the file does not depend on the recipe of its loader,
  so it is not built again when that recipe changes (`C59_false`). In addition `use_get_tags` is reset (`C34_flag_reset`).
* **C72.** Names are looked up as `target_dir / name`, but listed relative to it. The target directory itself is listed as `.`, which is never accepted
  (`C72_dot`), and with `--target-dir=./out` or `.` no listed name is accepted (`C72_false`).
* **C74.** `read(BufferReader&)` does not advance its offset. Output of a recipe that is longer than 4096 bytes is cut there and repeated (`C74_long`, `C74_false`);
  if a recipe prints just a line break, maike loops for ever (`C74_never_ends`).
* **C109.** With `--source-dir=./src` and the filters that are used by default, all files are left out: the directory is entered as `src`, and
  `src/a.cpp` relative to `./src` is `../src/a.cpp`, which begins with a dot (`C109_dot_slash`, `C109_dot_slash_command`, `C109_false`). The run reports success and compiles nothing.
* **C110.** A file that is edited while maike is running may leave a target behind that does not belong to it, and that the next run takes to be up to date: the time stamp of the
  target is that of the moment it is written, not that of the moment its inputs have been read. This happens if the edit comes after the recipe has read the file (`C110_false`), but also if it
  comes after the source tree has been loaded and before the recipe is started, as the recipe is told what the file needed before (`C110_false_scan`). Saving the file once more helps
  (`C110_saved_again`), and so does `--force-rebuild` (`C110_forced`).
* **C112.** `ar rcs` keeps members that are no longer parts, and nobody removes the library before it is made again. An object file that is taken away from a library stays in it with its old content, for ever (`C112_false`, `C112_stays`).
  The library is exact if and only if there were no more members of any name before than there are parts now (`C112_exact_partial`), e. g. if it is made from nothing.
* **C113.** The constructor of the thread pool ignores the result of `pthread_create`. If no worker can be started, then the program waits for ever (`C113_hangs`, `C113_no_workers`). If some of them can be started, then all the work is done, with
  the same result, but the destructor of the pool joins handles that belong to no thread, which is undefined (`C113_false`, `C113_join_undefined`; with glibc this usually is a crash at the end of a successful run). If the second of the two threads that read
  the output of a recipe cannot be started, then the program is terminated by the destructor of the first one (`C113_false_readers`).
* **C114.** `doc/manpage.py` ignores what `pandoc` returns, and so do the converters to HTML: the build succeeds without a manual page (`C114_false`, `C114_false_part`). If the source directory is given as `./src`, then the generators look for
  their input where it belongs, but maike has put it elsewhere (`C114_false_directory`, cf. C47). A generator in the root of a project always fails (`C114_top`). `build.py` and `install.sh` do what they should; without an argument, the
  latter installs to `/bin` and `/lib`.
* **C115.** Nothing keeps two runs of maike from building the same project at the same time: there is no lock, and targets are written in place. So the linker of one run may read an object while the compiler of the other one is
  writing it. Both runs may succeed, the program is wrong, and as it has been written after the object, it is taken to be up to date from then on (`C115_false`, `C115_lasting`). If targets were replaced in one piece, then runs
  could not harm each other (`C115_right_partial`, `C115_project_partial`), and nothing would be left to do afterwards if they make the same targets (`C115_idle_partial`, `C115_unequal`).
- **C80** (failed commands are executed again): what is known about earlier runs is in the time stamps of targets only. A recipe that writes its
  target and then fails is taken to be up to date by the next run, which reports success (`C80_false`). `recipes/cxx_compiler.py` is such a recipe when
  `actions` contains `link` and `run` (it is how `.test.cpp` files are built): the program is linked to the target, and is run afterwards. A test that
  fails makes the first run fail, and is not run again by the next one, which exits with status 0.
- **C81** (programs are made of all of their parts): the properties of a dependency that a recipe is told are those of the declaration by which it was
  reached first. If an object file is declared as an implementation by a header, and without properties by another file, then it may be missing from the
  command of the linker, although it is required (`C81_false`).
- **C82** (recipes that report success have done their work): `generic.py` calls `sys.exit(0)` whatever its command returned (`C82_generic_false`), and
  `md2htmlpart.py` ignores what `pandoc` returned (`C82_markdown_false`). `cxx_linker.py`, `make_lib.py`, `doc2html.py`, `md2htmlpart.py`, `vcslog.py` and `generic.py` only make the first target (`C82_targets_false`). A header with targets is not compiled, and the status is 0
  (`C82_header`). `make_directory.py` ignores `FileExistsError`, also if what exists is a file (`C82_directory_false`). The theorems on builds assume of recipes
  that they have written their targets when they report success; C82 says which of the recipes keep to that, and C88 derives it
  for builds that execute these recipes.
- **C83** (flags): `list(dict.fromkeys(flags))` drops repeated words, so that `-include a.h -include b.h` becomes `-include a.h b.h` (`C83_false`).
- **C84** (revision of the standard): with `max` only, `select_cpp_rev` uses a variable that is not set (`C84_max_only`). Among compilers with experimental
  support the one with the *oldest* revision is taken (`C84_oldest`, `C84_oldest_false`). A compiler given by its path is not found (`C84_absolute`). If a compiler
  does not answer, the whole configuration fails (hence the hypothesis of `C84_found_partial`).
- **C88** (success means that everything has been made): with `cxx_linker.py`, `make_lib.py`, `doc2html.py`, `md2htmlpart.py` or `vcslog.py` and two targets, or with `generic.py`, a whole build succeeds without having made
  a target (`C88_false`).
- **C89** (references of documents): a reference without `./` is looked for in the target directory itself, not where the document is, although browsers would look there (`C89_false`). `#top`, `mailto:x@y`
  and the like become dependencies on files (`C89_false_fragment`).
- **C90** (general commands): `generic.py` reports a name that starts with the directory of the source file, and maike puts this directory in front of it a second time (`C90_false`).
- **C91** (configuration): options of recipes are not part of what decides whether a target is out of date. After a change of `maikeconfig.json` maike does nothing, and old targets stay (`C91_false`, `C91_ignored`). `--force-rebuild` helps.
- **C93** (queries): the path of `--help=path`, `--list-targets=path`, … is never used; output always goes to the standard output (`C93_ignored`).
- **C94** (its hypotheses): a recipe that reads a target of another recipe without depending on it may see it half-written, so that the result is one that no order of the recipes has (`C94_not_declared`); what a failed program has left behind is kept by the next, successful, run, because it is newer than what it is made from (`C94_left_behind`, the counterpart of C80 for contents).
- **C99** (names): `json_string` returns a null pointer for bytes that are not UTF-8, and the results of `json_object_set_new` and `json_array_append_new` are ignored. A file `ü.cpp` whose name is in Latin-1 is compiled by a recipe that is not told its name, and such targets are missing from the list (`C99_false`, `C99_otherwise`).
- **C106** (dry run as a script, `make bootstrap`): the path of a file is printed in a comment as it is, so that what follows a line break in the name of a file is executed as a command (`C106_false`). Apostrophes and backslashes in names or
  in options of compilers do not survive either (C36; `C106_json` says which names lead to them).

### 5.2 Provisions which are necessary

* C13, C14 need that later writes get later time stamps: with coarse stamps two builds in a row may both run, or a target is left out of
  date (`C14_needs_fine_stamps`).
* C58: one waiting thread per `AsyncTaskResult` (`C58_two_waiters`), likewise `SignalingCounter`: `notify_one` is used.
* C69: not forced. With force (or the policy "always") common dependencies are executed again for each target, which leaves the earlier
  targets out of date (`C69_forced`).
* C71: what is made must not be scanned. If the target directory is located inside the source directory and is not filtered out, each run finds the
  directories that the previous one made and makes directories for them inside the target directory, one level deeper each time
  (`C71_hidden_needed`). With the default filters (`^\.`, `^__`) this happens for `--source-dir=./` (the target directory is then
  `_targets`) and for `--target-dir=out`.
* A dependency of the root file with an empty name is not waited for (hypothesis `hne` in the build theorems; the scanner makes no such
  entries, but a directory compiler with an empty recipe does).
* The target of a file must not be a source file of the project, unless it is a directory (`Loadable.separate`).
* C85: an edited file must get a new time stamp (`C85_old_time_stamp`). Not covered, and not noticed by the next build either: changes of the configuration, of recipes and tools outside of the
  project, targets that have been edited by hand, and targets that a recipe has left incomplete (C80).

### 5.3 Further findings

Scheduling and processes

* The standard input of a recipe is closed only after it has ended, so a recipe which reads it to the end hangs
  (`C67_stdin_never_ends`). Pipe ends are inherited by concurrently started processes.
* If maike is started with a closed standard input, then `pipe` returns descriptor 0 for the input of the recipe, and `moveReadEndTo(0)` closes it
  (`C96_exact`).
* A failed launch leaves a zombie. `throw "Failed to create pipe"` throws a `char const*`, which no handler catches.
* Recipes are executed during loading even in a dry run (`core/db/compiler.cpp:55-123`).
* A dry run does not announce commands which become necessary because of announced ones (`C66_not_all_announced`).
* The directory scanner evaluates `std::end(m_source_files)` without the mutex while other threads insert. C105 does not count this as an access, since it is the address
  of a part of the map in the usual implementations.

Build

* A missing source file or dependency counts as older than everything, so it does not cause a failure by itself.
* An unknown name in a list of targets is reported after those before it have been built (`C69_order`).
* `getTarget` looks up `target_dir / name` without normalising it, so that `--targets=./a.o` or `--target-dir=./out` never match.
* Files without loader do not depend on their directory (`C64_no_loader`).
* Replacing extensions can give two sources the same target (`C45_replace_collision`); this is then reported (C08).

Configuration and command line

* Option names may be abbreviated, and ambiguities are resolved silently; `--=foo` sets the first option (`C51_surprises`).
* `true` and `false` are different types for the merge (`C32_flag`). Merging the same file twice duplicates arrays
  (`C33_not_idempotent`). A file in conflict with earlier ones is merged in part (`C54_conflict`).
* `4x` is 4 workers, `4294967297` is 1 (`C53_sloppy`). Build ids may be too short or too long (`C29_short`, `C29_overlong`).
* A trailing comma loses an empty last element (`C52_trailing_comma`).
* An empty start time is accepted as 0, a leading 0 means octal (`C62_surprises`).
* Start times after the year 2262 are accepted, but overflow (`C97_overflow`). Printed start times cannot be sorted as text (`C97_order`).
* Comparison of configurations ignores the directory filter (`core/source_tree_loader/config.hpp`), and that of the loaders' configuration is always
  true.
* An absolute recipe path counts as part of the project (`C48_absolute`).

Main program

* `--print-dep-graph-inv`, `--dump-database` and `--list-external-deps` are accepted, but `main` performs a full build. The path argument of the
  queries is ignored.
* `--print-dep-graph` does not escape quotes in file names.

Recipes

* `recipes/generic.py` ignores the result of `compile`, so a recipe that reports failure by its return value counts as successful.
* `doc2html.py` fails for each document in the root of the project: the name of its directory is empty, for which `os.path.relpath` raises an exception (`C82_doc_top`).
* `cxx_compiler.py` writes the target before it runs a test (`C82_test_program`), which is how C80 fails. It copies `targets[0]` to the other targets even if the compiler
  has failed, so that a stale file is copied (the status is not zero in that case). `get_cflags` splits at single blanks, so that two of them yield an empty argument.
  `selected` in a given configuration is kept (provision `hnew` of `C84_used`).

Files and text

* `get_mem_avail` has undefined behaviour if `/proc/meminfo` cannot be opened (`C57_open_fails`).
* The log stops at a zero byte in the output of a recipe (`C55_zero`), and writes empty lines at level "errors" (`C55_blank_lines`).
* Flushing an empty `OutputBuffer` into a `Fifo` ends the stream (`C28_flush_ends_stream`).
* References ending in `/` and generated references that leave the source directory on their way do not have a unique name
  (`C46_trailing_separator`, `C46_generated_detour`).
* `jsonLoad` discards what follows the last `}`, `]` or blank before the end of the input, so malformed tags without any of these are ignored
  (`C73_ignored`).
* The loader for rule files stops silently at a read error. What has been read until then is taken to be the whole file.
* `--dump-database`, `--list-external-deps` and `--print-dep-graph-inv` are accepted, but not implemented, so a build is made (`C76_unimplemented`).
* `--print-dep-graph` does not escape quotation marks in names (`C77_quotes`).
* "Cyclic dependency detected" does not say which file is concerned; the other messages name it (C103).
* A circle of files that no target depends on is noticed when everything is to be built, but not by `--list-targets`, `--print-dep-graph` and `--targets` (`C102_aside`). With
  several names in `--targets`, a circle or an unknown name is noticed only when its turn has come; until then, other targets have been built (`C102_named`).
* A dependency on something from outside of the project makes its name known everywhere, so that a missing project file of that name is not noticed (constructor `outside` of `Available`, C102).
* With `--source-dir=./`, targets are put into `_targets`, which the default filters do not hide, so that the next scan enters it. Source directories
  with the same last component share their target directory (`C76_slash`).
* Values given to `--list-targets`, `--print-dep-graph`, `--configdump`, `--help`, `--version` and `--about` (names of output files) are ignored.
* Echoing an option with a list of paths passes a null pointer to `fprintf` for `%s` (maike.cpp, `print` for vectors).
* The standard input of a recipe stays open until it has ended, so a recipe that reads its input to the end waits forever (`C78_starved`).
* Recipes are executed (with `configure` and `get_tags`) also for `--list-targets` and `--dry-run`.

C++

* `ScopeExitHandler::operator=` has no return statement and drops the action of its destination (`C56_handler_assignment`).
* Self-move-assignment empties `UniqueFunction` and `Loader`. Copying a `Loader` that was moved from is undefined (`C68_copy_of_moved`).

### 5.4 Wrong programs

`tools/seed.py` applies one edit at a time to a scratch copy of the model, rebuilds, and lists the theorems which no longer prove
(a broken proof is replaced, so that everything after it is tested as well). `seeded/LOG.jsonl` has one line per edit.
