{"id": "C01", "title": "Topological visiting order", "statement": "When visitNodesInTopoOrder returns normally, the callback has been invoked for every dependency of a node before it is invoked for the node itself.", "quantifier": "every finite graph (any number of nodes, any edge lists, dangling edges allowed) and every node of it", "why_tests_cant": "There are infinitely many graph shapes; diamonds, duplicate edges and long chains exercise different stack contents.", "anchors": ["core/utils/graphutils.hpp: visitNodesInTopoOrder, processGraphNodeRecursive"]}
{"id": "C02", "title": "Every node is visited exactly once", "statement": "When visitNodesInTopoOrder returns normally, the callback has been invoked exactly once for each node of the graph, and for nothing else.", "quantifier": "every finite graph", "why_tests_cant": "A node can sit on the work stack many times (once per incoming edge); only a proof covers all interleavings of duplicates.", "anchors": ["core/utils/graphutils.hpp: visitNodesInTopoOrder, processGraphNodeRecursive"]}
{"id": "C03", "title": "Cycles are always and only reported when they exist", "statement": "visitNodesInTopoOrder throws 'Cyclic dependency detected' if and only if the graph has a directed cycle; processGraphNodeRecursive does so if and only if a cycle is reachable from the start node. In every case the traversal stops after finitely many steps, and what was reported before the exception is a duplicate-free prefix in which dependencies precede dependents.", "quantifier": "every finite graph and start node", "why_tests_cant": "False alarms and missed cycles both need arbitrary graph shapes to rule out; termination is not testable.", "anchors": ["core/utils/graphutils.hpp: processGraphNodeRecursive"]}
{"id": "C04", "title": "Visiting from one node covers exactly what it needs", "statement": "processGraphNodeRecursive(cb, graph, node) invokes cb exactly once for each node reachable from `node` (and for no other), dependencies first and `node` itself last; cb receives no incoming edge for `node`, and for every other node an edge that points to it from a visited node.", "quantifier": "every finite graph without a reachable cycle, every start node", "why_tests_cant": "Reachability is a closure over unbounded paths.", "anchors": ["core/utils/graphutils.hpp: processGraphNodeRecursive"]}
{"id": "C05", "title": "Recursive dependency list of a file", "statement": "getUseDepsRecursive(graph, file) lists every file reachable from `file` other than `file` itself exactly once (except entries referred to by an empty name), each after everything it depends on; each listed entry is one of the declared dependencies of a reachable file.", "quantifier": "every acyclic dependency graph and every file", "why_tests_cant": "Link lines are correct only if this holds for every project layout.", "anchors": ["core/db/dependency_graph.cpp: getUseDepsRecursive", "core/utils/graphutils.hpp"]}
{"id": "C06", "title": "Broken references are always rejected", "statement": "Constructing a DependencyGraph fails iff some use- or build-dependency of some source file names a path which is not in the list; on success each dependency refers to the record whose path equals the dependency name. With IgnoreResolveErrors construction never fails, dependencies which can be resolved are, and the others are left without reference.", "quantifier": "every source file list and every dependency in it", "why_tests_cant": "Binary search over arbitrary sorted lists; all sizes and positions must be covered.", "anchors": ["core/db/dependency_graph.cpp: DependencyGraph::DependencyGraph, resolve, find"]}
{"id": "C07", "title": "Record ids and lookup by name", "statement": "The ids of the records of a DependencyGraph are 0..n-1, ascending in path order, so they are valid indices; getNode(graph, name) returns the record with that path if there is one and an invalid record otherwise.", "quantifier": "every source file list and name", "why_tests_cant": "Quantifies over all lists and names.", "anchors": ["core/db/dependency_graph.cpp: DependencyGraph, getNode", "core/db/dependency_graph.hpp: getNodeById"]}
{"id": "C08", "title": "A target has one owner", "statement": "collectTargets fails iff two declared targets have the same name (ignoring targets that carry the name of their own source file); otherwise every declared target is mapped to the source file that declares it and nothing else is in the result.", "quantifier": "every source file list", "why_tests_cant": "Depends on arbitrary numbers and orders of files and targets.", "anchors": ["core/db/source_file_list.cpp: collectTargets, insertUnique"]}
{"id": "C09", "title": "Generated files inherit link dependencies", "statement": "The entry created for a target has its source file as only build dependency, origin Generated, the use dependencies declared for the target, and the 'dependencies_extra' of every file reachable from the source file; nothing else.", "quantifier": "every source tree, target and reachable file", "why_tests_cant": "Reachability over unbounded graphs.", "anchors": ["core/db/source_file_list.cpp: makeSourceFileInfo, makeSourceFileInfos"]}
{"id": "C10", "title": "External references never break the graph", "statement": "After createPlaceholdersForExternalEntries is merged, each dependency with origin system or pkg-config of any source file or target resolves; entries for files which exist in the project are never replaced, and no other entries are added.", "quantifier": "every source file list", "why_tests_cant": "Set-level property for all inputs.", "anchors": ["core/db/source_file_list.cpp: createPlaceholdersForExternalEntries, insertPlaceholderIfExternal"]}
{"id": "C11", "title": "File age comparison", "statement": "isOlder(a,b) and isNewer(a,b) raise an error iff neither file exists; a missing file counts as older than everything that exists; for existing files the comparison is strict, hence irreflexive and asymmetric, isNewer(a,b)=isOlder(b,a), and equal time stamps are neither newer nor older.", "quantifier": "every pair of file states", "why_tests_cant": "All time stamp combinations.", "anchors": ["core/utils/fs.cpp: isOlder, isNewer"]}
{"id": "C12", "title": "Rebuild decision", "statement": "A task runs its command iff the build is forced, or the file's policy is 'always', or some target of it which is not a directory is missing or not strictly newer than the source file or than some recursive dependency that is neither external nor a directory. Otherwise it runs nothing.", "quantifier": "every file system state, task, policy, target list and dependency list", "why_tests_cant": "Combinatorial over file times and dependency sets.", "anchors": ["core/db/task.cpp: Task::runIfNecessary", "core/db/source_file_record.cpp: isUpToDate", "core/db/target_info.cpp: isUpToDate", "core/db/dependency.hpp: isOlder"]}
{"id": "C13", "title": "A successful build leaves everything up to date", "statement": "If a build succeeds, the sources are not modified meanwhile, and each executed recipe writes all its targets, then afterwards every target that is not a directory is strictly newer than its source and than all its recursive dependencies that are neither external nor directories, whatever was stale before and in whatever order the workers ran.", "quantifier": "every acyclic project, every initial set of time stamps, every schedule", "why_tests_cant": "Quantifies over histories and schedules.", "anchors": ["core/db/task_list.cpp: TaskList::process", "core/db/task.cpp: Task::runIfNecessary"]}
{"id": "C14", "title": "A second build does nothing", "statement": "After a successful build, building again without changing anything executes no command, except those of files with rebuild policy 'always' and of whatever recursively depends on them.", "quantifier": "every acyclic project and every schedule of both builds", "why_tests_cant": "Quantifies over histories and schedules.", "anchors": ["core/db/task_list.cpp: TaskList::process", "core/db/task.cpp: Task::runIfNecessary"]}
{"id": "C15", "title": "No task starts before its dependencies have succeeded", "statement": "While a build is being processed, the recipe for a file starts only after the result of each of its build dependencies and recursive dependencies has been recorded as a success.", "quantifier": "every task list produced from an acyclic graph, every number of workers, every interleaving of the main thread and the workers, every combination of outcomes", "why_tests_cant": "Races occur only under particular schedules.", "anchors": ["core/db/task_list.cpp: TaskList::process", "core/db/task.cpp: Task::status"]}
{"id": "C16", "title": "Each task is run at most once", "statement": "During one call to process no task is handed to the workers or executed more than once, and only tasks of the list are executed.", "quantifier": "every schedule, number of workers and outcome", "why_tests_cant": "Duplicated work only shows under particular schedules.", "anchors": ["core/db/task_list.cpp: TaskList::process"]}
{"id": "C17", "title": "process terminates under every schedule", "statement": "If every executed task records a result, TaskList::process returns (or throws) after a number of steps bounded by the task list, under every schedule: there is no deadlock, lost wake-up or livelock.", "quantifier": "every task list in topological order, every schedule, every number of workers >= 1", "why_tests_cant": "Termination and absence of lost wake-ups cannot be established by running.", "anchors": ["core/db/task_list.cpp: TaskList::process", "core/sched/event.hpp: Event", "core/sched/signaling_counter.hpp: SignalingCounter"]}
{"id": "C18", "title": "process reports failure instead of hanging when a recipe cannot be launched", "statement": "If a task ends with an exception without recording a result (e.g. the recipe cannot be executed) process still returns control to the caller with an error.", "quantifier": "every task list and schedule", "why_tests_cant": "Depends on the schedule and on crash points. (Found to be false: the build hangs when another task depends on the one that threw.)", "anchors": ["core/db/task_list.cpp: TaskList::process", "core/exec/execve.cpp: execve"]}
{"id": "C19", "title": "Failures stop dependants and are reported", "statement": "If some task fails, nothing that depends on it, directly or not, is ever started, and process throws the exception of a failed task.", "quantifier": "every schedule, failing set and number of workers", "why_tests_cant": "Schedules.", "anchors": ["core/db/task_list.cpp: TaskList::process", "core/sched/thread_pool.hpp: takeLastException"]}
{"id": "C20", "title": "A successful build runs everything", "statement": "If no task fails or throws, process returns normally, every task in the list has been executed exactly once, and the returned number is the length of the list.", "quantifier": "every task list in topological order and every schedule", "why_tests_cant": "Schedules.", "anchors": ["core/db/task_list.cpp: TaskList::process"]}
{"id": "C21", "title": "Building one target builds exactly what it needs", "statement": "The task list for a target contains the tasks of exactly those files with targets that are reachable from the target's source file, dependencies first; the task list for the whole tree contains those of all files with targets.", "quantifier": "every acyclic graph and target", "why_tests_cant": "Reachability over unbounded graphs.", "anchors": ["core/db/task_list.cpp: TaskList::TaskList"]}
{"id": "C22", "title": "The thread pool runs everything it was given, in FIFO order", "statement": "Every task added to a ThreadPool is started exactly once, in the order of addition, at most `count` run at the same time, and the destructor returns only when all have finished.", "quantifier": "every schedule, number of threads and number of tasks", "why_tests_cant": "Schedules.", "anchors": ["core/sched/thread_pool.cpp: performTasks, ~ThreadPool", "core/sched/thread_pool.hpp: addTask"]}
{"id": "C23", "title": "The thread pool never hangs on shutdown", "statement": "After the destructor of ThreadPool has been entered, the threads exit after finitely many steps provided that tasks terminate; no wake-up is lost.", "quantifier": "every schedule and queue content", "why_tests_cant": "Schedules.", "anchors": ["core/sched/thread_pool.cpp: performTasks, ~ThreadPool"]}
{"id": "C24", "title": "First exception wins and is delivered once", "statement": "takeLastException returns the first exception thrown by a void task since the last call, and clears it; null iff there was none.", "quantifier": "every sequence of task completions and takeLastException calls", "why_tests_cant": "Histories.", "anchors": ["core/sched/thread_pool.hpp: addTask, takeLastException"]}
{"id": "C25", "title": "Byte queue preserves the stream", "statement": "The concatenation of what is read from a Fifo is a prefix of the concatenation of what was written, no matter how writes and reads are sized and interleaved; until a zero-sized write (stop) is reached, nothing is lost, duplicated or reordered, and read returns 0 for a non-empty buffer only when such an end marker is reached.", "quantifier": "every interleaving of writes and reads of every size", "why_tests_cant": "Histories and schedules.", "anchors": ["core/io/fifo.hpp: Fifo::read, write, stop"]}
{"id": "C26", "title": "Buffered input is transparent", "statement": "The sequence of getchar() results of an InputBuffer is the byte stream of the source followed by -1 forever after the source has ended, independently of how the source chops its data.", "quantifier": "every stream and every sequence of short reads", "why_tests_cant": "All chunkings.", "anchors": ["core/io/input_buffer.hpp: InputBuffer::getchar"]}
{"id": "C27", "title": "Buffered output is transparent", "statement": "The bytes received by the sink of an OutputBuffer, after flush or destruction, are exactly the bytes passed to putchar in order; before that they are a prefix, short of at most the buffer size.", "quantifier": "every byte sequence and buffer size", "why_tests_cant": "All lengths relative to the buffer size.", "anchors": ["core/io/output_buffer.hpp: OutputBuffer"]}
{"id": "C28", "title": "Tag stream between filter and parser", "statement": "A byte stream written with OutputBuffer into a Fifo, ended with stop, and consumed with InputBuffer (or any reader), arrives completely and in order, followed by end-of-file, for every schedule of writer and reader.", "quantifier": "every byte stream and every schedule", "why_tests_cant": "Schedules and lengths.", "anchors": ["core/io/fifo.hpp", "core/io/output_buffer.hpp", "core/io/input_buffer.hpp", "core/source_tree_loader/source_file_loader_delegator.cpp"]}
{"id": "C29", "title": "Build ids survive printing", "statement": "A Build::Id constructed from the string representation of an id equals that id; the representation is always 64 lower-case hexadecimal digits and different ids have different representations.", "quantifier": "every 256-bit id", "why_tests_cant": "2^256 ids.", "anchors": ["core/build/id.cpp: Id::Id, toString"]}
{"id": "C30", "title": "Names of enumerated settings", "statement": "For rebuild policies, source file origins, log formats, log levels and extension replacement modes, parsing the printed name gives the value back, different values have different names, and every other string is rejected.", "quantifier": "every value, and every string", "why_tests_cant": "All strings.", "anchors": ["core/db/rebuild_policy.hpp", "core/db/source_file_origin.hpp", "core/db/log_format.hpp", "core/source_file_info_loaders/generic/source_file_loader.cpp"]}
{"id": "C31", "title": "Merging configurations", "statement": "Merging b into a: a key found in only one of them keeps its value, scalars of the same type are taken from b, arrays are concatenated with a's elements first, and compounds are merged recursively by the same rules. Nothing else changes.", "quantifier": "every pair of compounds at every depth", "why_tests_cant": "Unbounded nesting.", "anchors": ["core/key_value_store/compound.cpp: operator|=", "core/key_value_store/array.hpp"]}
{"id": "C32", "title": "Conflicting configurations are rejected", "statement": "Merging fails iff some key path is present on both sides with values of different JSON type.", "quantifier": "every pair of compounds", "why_tests_cant": "Unbounded nesting.", "anchors": ["core/key_value_store/compound.cpp: operator|="]}
{"id": "C33", "title": "Merging is associative", "statement": "When all merges involved succeed, (a|b)|c equals a|(b|c), and the empty compound is neutral; so a stack of configuration files can be grouped freely. Merging success itself does not depend on the grouping.", "quantifier": "every triple of compounds", "why_tests_cant": "Unbounded nesting.", "anchors": ["core/key_value_store/compound.cpp: operator|=", "core/bin/config.cpp: loadConfig"]}
{"id": "C34", "title": "Compiler override", "statement": "default|own for compilers takes recipe and its origin from the right operand iff given there, merges the configurations, and takes use_get_tags from the right operand.", "quantifier": "every pair of compilers", "why_tests_cant": "All inputs.", "anchors": ["core/db/compiler.cpp: operator|", "core/db/source_file_record.cpp: makeBuildCommand"]}
{"id": "C35", "title": "Printed commands are unambiguous", "statement": "toString(Command) is injective on (executable, argument list): each argument can be recovered from the printed string.", "quantifier": "every executable name and argument list", "why_tests_cant": "All strings.", "anchors": ["core/exec/command.cpp: toString"]}
{"id": "C36", "title": "Printed commands can be pasted in a shell", "statement": "A POSIX shell splits toString(Command) into the executable and exactly its arguments.", "quantifier": "every argument list", "why_tests_cant": "All strings. (Found to be false for arguments containing ' or backslash; holds for the others.)", "anchors": ["core/exec/command.cpp: toString"]}
{"id": "C37", "title": "Success and failure of processes", "statement": "failed(result) is true iff the process was terminated by a signal or exited with a nonzero status.", "quantifier": "every wait status", "why_tests_cant": "All statuses.", "anchors": ["core/exec/exit_status.hpp: ExitStatus, failed", "core/exec/execve.cpp"]}
{"id": "C38", "title": "Dry runs do nothing", "statement": "With --dry-run no compilation command is executed and no file or directory is changed by the build, for every project and schedule. The build takes a bounded number of steps, and if all source files exist and the log can be written it succeeds. (Loading the project is not covered: recipes are still executed in order to ask them for tags and their configuration.)", "quantifier": "every project, file system state and schedule", "why_tests_cant": "All projects and schedules.", "anchors": ["core/exec/execve.hpp: LocalExecve", "core/db/task_list.cpp: process"]}
{"id": "C39", "title": "Line numbers survive tag extraction (scripts)", "statement": "The tag stream produced by the extension loader has as many newlines as the input; each line beginning with #@ contributes its text at an unchanged column and every other line is blank. The source stream is an exact copy.", "quantifier": "every byte sequence", "why_tests_cant": "All inputs.", "anchors": ["core/source_file_info_loaders/extension/source_file_loader.cpp: filterInput"]}
{"id": "C40", "title": "Line numbers survive tag extraction (C++)", "statement": "The tag stream produced by the C++ loader has as many newlines as the input (so diagnostics refer to the right line) and the source stream is an exact copy of the input.", "quantifier": "every byte sequence", "why_tests_cant": "All inputs.", "anchors": ["core/source_file_info_loaders/cxx/source_file_loader.cpp: filterInput"]}
{"id": "C41", "title": "Tags are found and nothing else is", "statement": "For a line starting with //@ outside of comments and literals, the tag stream has the text after //@ at an unchanged column; text of other ordinary code lines does not leak into the tag stream.", "quantifier": "every file made of tag lines and ordinary lines", "why_tests_cant": "All inputs.", "anchors": ["core/source_file_info_loaders/cxx/source_file_loader.cpp: filterInput"]}
{"id": "C42", "title": "Includes are found", "statement": "For files whose lines are include directives (with arbitrary blanks) or ordinary lines without quote, comment or preprocessor characters, getDependencies returns exactly the included names in order, quoted ones with origin Project and bracketed ones with origin System.", "quantifier": "every such file", "why_tests_cant": "All inputs.", "anchors": ["core/source_file_info_loaders/cxx/source_file_loader.cpp: getDependencies"]}
{"id": "C43", "title": "No include is missed", "statement": "getDependencies finds each #include line of a file that is not in a comment or literal.", "quantifier": "every file", "why_tests_cant": "All inputs. (Found to be false: an argumentless directive such as #endif hides an include on the next line; #error \"x\" yields a bogus one.)", "anchors": ["core/source_file_info_loaders/cxx/source_file_loader.cpp: getDependencies"]}
{"id": "C44", "title": "Most specific extension wins", "statement": "For a file name with several dots the loader registered for the longest matching suffix that starts at a dot is selected; none iff no such suffix is registered.", "quantifier": "every file name and every set of registered extensions", "why_tests_cant": "All strings.", "anchors": ["core/utils/fs.hpp: matchLongestExtension", "core/utils/fs.cpp: getFullExtension", "core/source_tree_loader/source_file_loader_delegator.cpp: load"]}
{"id": "C45", "title": "Names of converted files", "statement": "makeTargetName in append mode keeps the whole name and appends the new extension; in replace mode it removes exactly the last extension. Distinct sources get distinct target names in append mode.", "quantifier": "every file name and extension", "why_tests_cant": "All strings.", "anchors": ["core/source_file_info_loaders/generic/source_file_loader.cpp: makeTargetName"]}
{"id": "C46", "title": "How references are located", "statement": "A reference starting with ./ is resolved relative to the directory of the referring file, others relative to the source directory; generated ones are moved to the corresponding place in the target directory; external names are left alone. The result is in normal form, so that different spellings of the same place give the same name, except for a separator at the end and, for generated files, references that do not start with ./ and leave the source directory on their way.", "quantifier": "every path", "why_tests_cant": "All paths.", "anchors": ["core/source_tree_loader/source_file_load_ctxt.cpp: prependSearchPath, makeTargetName"]}
{"id": "C47", "title": "Targets stay in the target directory", "statement": "The name of every target of a source file inside of the source directory is the target directory followed by the directory of the source file and the declared name; when the declared name has no .. component it is located inside the target directory.", "quantifier": "every source path and target name", "why_tests_cant": "All paths.", "anchors": ["core/source_tree_loader/source_file_load_ctxt.cpp: makeTargetName, getTarget"]}
{"id": "C48", "title": "Command lookup", "statement": "CommandDictionary::get prefers a recipe in the project directory over a system one, fails iff it is found in neither, leaves an empty name alone, and ends after a bounded number of steps. While the file system does not change, this holds for any number of concurrent calls. If calls for a name are made one after another, those that succeed have the same answer, however the file system changes; if they overlap while the file system changes, they may differ.", "quantifier": "every interleaving of lookups by any number of threads, and every directory content", "why_tests_cant": "Histories.", "anchors": ["core/source_tree_loader/command_dictionary.cpp: get"]}
{"id": "C49", "title": "Directory scan does not depend on the schedule", "statement": "The result of a scan is the set of paths reachable from the start directory through directories that pass the filters, each loaded once; it is the same for every schedule and number of workers, and the scan terminates.", "quantifier": "every finite directory tree, filter and schedule", "why_tests_cant": "Schedules.", "anchors": ["core/source_tree_loader/directory_scanner.cpp", "core/source_tree_loader/directory_scanner.hpp"]}
{"id": "C50", "title": "Scan errors are not lost", "statement": "If loading any path throws then takeResult throws an error that lists every message; otherwise it returns the result.", "quantifier": "every schedule and set of failing paths", "why_tests_cant": "Schedules.", "anchors": ["core/source_tree_loader/directory_scanner.hpp: takeResult"]}
{"id": "C51", "title": "Command line options", "statement": "An option given by its full name is always accepted as that option; an argument which is no prefix of any option name is always rejected; if an option is given twice, the last one wins; options that require a value are rejected without one.", "quantifier": "every argument list", "why_tests_cant": "All strings.", "anchors": ["core/cmd_line_parser/command_line.cpp: collect_options", "core/cmd_line_parser/command_line.hpp"]}
{"id": "C52", "title": "Lists on the command line", "statement": "A list of names in which commas and backslashes are escaped with a backslash is parsed back to the same list.", "quantifier": "every non-empty list of non-empty strings", "why_tests_cant": "All strings.", "anchors": ["core/cmd_line_parser/command_line.cpp: next_array_token", "core/cmd_line_parser/command_line.hpp: fromString"]}
{"id": "C53", "title": "The number of workers is positive", "statement": "A ThreadCount is never zero: parsing yields a value >= 1 or an error.", "quantifier": "every string and number of processors", "why_tests_cant": "All strings.", "anchors": ["core/sched/thread_count.hpp"]}
{"id": "C54", "title": "Configuration fallback", "statement": "A configuration file that cannot be read or parsed does not abort the start: remaining files are still merged, and if the merged configuration is not usable the default configuration is used.", "quantifier": "every list of configuration files and contents", "why_tests_cant": "All inputs.", "anchors": ["core/bin/config.cpp: loadConfig"]}
{"id": "C55", "title": "Log output is attributed line by line", "statement": "When the output of a recipe is written to the compilation log each line of it is preceded by the same prefix exactly once, and the text itself is unchanged (unless it contains a zero byte, after which nothing is printed). Messages written by different threads are not mixed up.", "quantifier": "every byte sequence; every interleaving of calls", "why_tests_cant": "All inputs.", "anchors": ["core/db/compilation_log.cpp: append_log"]}
{"id": "C56", "title": "Cleanup actions run exactly once", "statement": "However UniqueFunction objects are made, moved, assigned and destroyed, each function is owned by exactly one object, is destroyed exactly once when all objects are gone, and is never used afterwards. However a ScopeExitHandler is moved by construction, its action runs exactly once; an action is never executed twice. Assignment to a ScopeExitHandler loses the action of the destination.", "quantifier": "every sequence of moves and destructions", "why_tests_cant": "Histories.", "anchors": ["core/utils/scope_exit_handler.hpp", "core/utils/unique_function.hpp"]}
{"id": "C57", "title": "Available memory", "statement": "get_mem_avail returns 1024 times the number in the MemAvailable line wherever that line is, and 0 if there is none.", "quantifier": "every contents of /proc/meminfo in the documented format", "why_tests_cant": "All inputs.", "anchors": ["core/utils/mem_status.cpp"]}
{"id": "C58", "title": "Asynchronous results", "statement": "AsyncTaskResult::get returns the value which was set, or throws the exception that was set, for each order of setting and waiting; the waiting thread is never left blocked after a set.", "quantifier": "every schedule", "why_tests_cant": "Schedules.", "anchors": ["core/sched/thread_pool.hpp: AsyncTaskResult"]}
{"id": "C59", "title": "Targets depend on their recipe", "statement": "The recipe which is executed in order to compile a source file is among the dependencies of that file, so that targets are built again when the recipe changes.", "quantifier": "every default compiler, every compiler found in the tags of a file, every command dictionary", "why_tests_cant": "Combinations of two sources of configuration; a missing dependency shows only when the recipe changes between two builds.", "anchors": ["core/source_tree_loader/source_file_load_ctxt.cpp: loadSourceFile", "core/db/compiler.hpp: makeDependency", "core/db/source_file_record.cpp: makeBuildCommand"]}
{"id": "C60", "title": "A dumped configuration can be loaded again", "statement": "Loading the configuration printed by --configdump gives the same configuration: same filters, file types, loaders, compilers and compiler options.", "quantifier": "every configuration", "why_tests_cant": "All configurations, of any size.", "anchors": ["core/bin/config.cpp: loadConfig", "core/bin/config.hpp: toJson, fromJson", "core/source_tree_loader/config.cpp", "core/source_file_info_loaders/config.cpp"]}
{"id": "C61", "title": "File types are mapped to the configured loaders", "statement": "Each file name extension in the configuration is mapped to the loader configured under the name given for it; if any of these names has no loader, an error is reported instead.", "quantifier": "every configuration", "why_tests_cant": "All configurations.", "anchors": ["core/bin/config.cpp: mapSourceFileInfoLoaders"]}
{"id": "C62", "title": "Start times", "statement": "A start time given on the command line is either rejected or taken as a number of seconds in the notation of C (blanks, sign, decimal, octal or hexadecimal digits) which is used up entirely and can be represented; a positive decimal number is taken as it is.", "quantifier": "every string", "why_tests_cant": "All strings; limits of the integer type.", "anchors": ["core/utils/system_time_stamp.cpp: SystemTimeStamp"]}
{"id": "C63", "title": "Meaning of tags", "statement": "The tags of a source file are accepted iff they are well-formed. Then every target that is declared is recorded with its references, and the dependencies are, in this order, the built-in ones, those found by the loader, those in the tags, those reported by the recipe, and the recipe itself. References without an origin are to generated files, except in targets, where they are to system files.", "quantifier": "every JSON value used as tags, every loader result and every answer of a recipe", "why_tests_cant": "All JSON values.", "anchors": ["core/source_tree_loader/source_file_load_ctxt.cpp: getDependency, getTarget, getTargets, getUseDeps, getChildTargetUseDeps, loadSourceFile"]}
{"id": "C64", "title": "Directories come first", "statement": "Every directory below the source directory, and every file for which there is a loader, except for the recipe which creates directories, depends on the directory that contains it, under the name which that directory has in the result of the scan.", "quantifier": "every path in the source tree and every configuration", "why_tests_cant": "All paths.", "anchors": ["core/source_tree_loader/source_file_loader_delegator.cpp: load"]}
{"id": "C65", "title": "References find targets", "statement": "A reference to a generated file in any source file, which leads to where the target would be if it were located beside its source file, has the same name as the target.", "quantifier": "every two source files, every target name and every spelling of the reference", "why_tests_cant": "All paths.", "anchors": ["core/source_tree_loader/source_file_load_ctxt.cpp: prependSearchPath, makeTargetName"]}
{"id": "C66", "title": "What a dry run announces", "statement": "Every command a dry run announces is executed by a real, successful build that starts from the same files (unless a target is a directory). The converse does not hold: commands that become necessary only because of an announced command are not announced.", "quantifier": "every project, file system state and pair of schedules with file time stamps that are fine enough", "why_tests_cant": "All projects, states and schedules.", "anchors": ["core/db/task_list.cpp: process", "core/exec/execve.hpp: LocalExecve"]}
{"id": "C67", "title": "Concurrent launches of recipes", "statement": "When any number of threads execute recipes at the same time, no thread waits for ever, provided that recipes end when their output is read and do not wait for the end of their standard input; every call returns after a bounded number of steps. A call returns a status only if its recipe was started and has ended, and throws only if its recipe could not be started. A recipe that reads its standard input to the end never ends.", "quantifier": "every number of concurrent calls and every interleaving of system calls of the calling threads and the child processes", "why_tests_cant": "Inheritance of file descriptors between children depends on rare interleavings.", "anchors": ["core/exec/execve.cpp: execve, communicateWith, exec_mutex"]}
{"id": "C68", "title": "Ownership of loaders", "statement": "However Loader objects are made, copied, moved, assigned and destroyed, no loader object is used or destroyed after it has been destroyed, none leaks, each is treated with the functions of its own type, and copies and moves transport the content, provided that loaders that have been moved from are neither used nor copied.", "quantifier": "every sequence of operations", "why_tests_cant": "Histories.", "anchors": ["core/source_file_info_loaders/loader.hpp: Loader"]}
{"id": "C69", "title": "Building several targets by name", "statement": "When several targets are asked for, they are built one after the other in the order given, up to the first one that is unknown or fails, and no later one is started. If all succeed and the build is not forced, then at the end every named target and everything it needs exists and is up to date, including what the first ones needed, and nothing has been made twice (apart, in both cases, from what has the policy to be made always, and from what depends on it). In any case this holds for the last of the targets. When the build is forced, what earlier targets need can be made again for a later one, which leaves the earlier ones out of date.", "quantifier": "every source tree, list of names, state of the files and schedule of the workers", "why_tests_cant": "It concerns all interleavings of sequences of builds over all dependency graphs.", "anchors": ["core/db/source_tree.cpp: compile", "core/db/source_tree.cpp: getTarget", "core/bin/maike.cpp: compile"]}
{"id": "C70", "title": "A successful run leaves all targets newer than what they need", "statement": "After a run of the program without query options has ended successfully, every target of every file that the directory scan found exists, and every target that is not a directory is strictly newer than its source file and than every file that the source file needs, directly or indirectly, according to tags, contents and recipes, external references excepted.", "quantifier": "all projects on all file systems, filters, loaders, recipes' reports, schedules of the scan and of the build, forced or not", "why_tests_cant": "Involves the scan, the database and the concurrent build together; a test sees one project and one schedule", "anchors": ["core/bin/maike.cpp:main", "core/source_tree_loader/main.cpp:load", "core/source_tree_loader/directory_scanner.cpp:DirectoryScanner", "core/db/source_tree.cpp:compile"]}
{"id": "C71", "title": "Running the program twice does nothing the second time", "statement": "If a successful run is followed by another run without the force option, and nothing has changed in between, then the second scan finds the same files and gives the same source tree, provided that what is made is left out by the filters or is located outside of the source directory. No command is executed but for files that are to be rebuilt always, or that depend on such a file; and no file is changed.", "quantifier": "all projects, filters, loaders, schedules of both scans and both builds, and any number of runs after each other", "why_tests_cant": "The second scan sees what the first run has made, in directories and with time stamps that depend on the schedule", "anchors": ["core/bin/maike.cpp:main", "core/source_tree_loader/directory_scanner.cpp:DirectoryScanner", "core/source_tree_loader/input_filter.hpp:InputFilter", "core/db/source_file_record.cpp:isUpToDate"]}
{"id": "C72", "title": "Listed names of targets can be used to select them", "statement": "Each name that --list-targets prints is accepted by --targets, and selects the target for which it has been printed. (False of the code: it holds exactly for targets whose path begins with the target directory as it has been typed, and continues. It does not hold for the target directory itself, and with a target directory such as ./out no name is accepted at all.)", "quantifier": "all projects, target directories and targets", "why_tests_cant": "Depends on lexical operations on paths that the user chooses freely; tests use simple names", "anchors": ["core/bin/maike.cpp:printTargets", "core/db/source_tree.cpp:getTarget", "core/source_tree_loader/source_file_load_ctxt.cpp:makeTargetName"]}
{"id": "C73", "title": "JSON is read completely, in blocks of any size", "statement": "A document that ends with a closing bracket is decoded to the same value whatever follows it in the stream, and whatever the sizes of the blocks are in which it is passed to the decoder. A document that the decoder rejects, or that breaks off, is reported if a closing bracket or a space follows something that is not blank. A stream of blanks is no error. A stream with neither closing brackets nor spaces that fits into the buffer of the decoder is ignored, whatever it contains.", "quantifier": "all texts, all buffer sizes, all decoders that do not change their mind when more text follows", "why_tests_cant": "The blocks depend on the positions of brackets and spaces and on the size of the buffer", "anchors": ["core/key_value_store/json_handle.cpp:ReadHelper", "core/key_value_store/json_handle.cpp:jsonLoad"]}
{"id": "C74", "title": "What a recipe prints is read completely, once", "statement": "The configuration or the tags that a recipe prints on its standard output are decoded like the same text in a file; a recipe that prints nothing reports no tags. (False of the code: the reader begins again with the first byte each time it is asked for more. A document that ends within the first 4096 bytes is decoded correctly. What follows these bytes has no influence, and if a recipe prints only blanks, such as an empty line, then reading never ends.)", "quantifier": "all outputs of all recipes, all buffer sizes, all decoders that do not change their mind when more text follows", "why_tests_cant": "Tests use recipes with short and well-formed output", "anchors": ["core/db/compiler.cpp:BufferReader", "core/db/compiler.cpp:getTags", "core/db/compiler.cpp:configRecipe", "core/io/input_buffer.hpp:InputBuffer"]}
{"id": "C75", "title": "What includes a file is made again when the file changes", "statement": "After a successful run, each target that is made from a C++ file is newer than every file which that file includes, directly or through other included files, and, if an included file is generated, than what that file is made from. The directives are found in the bytes of the files. If an included file has become newer than the target, the run makes the target again. Tags are decoded from the tag lines of the file only; rule files consist of tags only; the generic loader derives the target from the name of the file.", "quantifier": "all directory trees and contents of files, all chains of include directives, all configurations of loaders, schedules and numbers of workers, for files that are not declared external", "why_tests_cant": "Tests use a few files with a few directives; the property ranges over all texts and all chains of files", "anchors": ["core/source_file_info_loaders/cxx/source_file_loader.cpp", "core/source_file_info_loaders/generic/source_file_loader.cpp", "core/source_file_info_loaders/maikerule/source_file_loader.cpp", "core/source_tree_loader/source_file_loader_delegator.cpp", "core/db/task.cpp:Task"]}
{"id": "C76", "title": "The exit status of the program can be trusted", "statement": "If maike returns 0 after a build, then every target of every file found below the source directory exists, and is newer than the file that it is made from and everything which that file needs or includes. If it returns 0 after --targets, what is needed for these targets is up to date. Every other end has exit status -1. Queries (--help, --version, --about, --configdump, --list-targets, --print-dep-graph) and --dry-run change no file. A command line with an argument that is not understood is rejected before anything is done. Directories, configuration and number of workers are the ones that the last option of each kind asks for, or the documented defaults. A second run with the same arguments changes no file. What a query prints does not depend on the schedule. (As a finding: three query options are accepted without effect, so that a build is made; the default target directory for --source-dir=./ is not hidden by the default filters.)", "quantifier": "all command lines, all file systems, all contents of configuration and source files, all schedules and numbers of workers, all ends of the program", "why_tests_cant": "Tests run the program on a few command lines and directories; the property ranges over all of them, and over all schedules", "anchors": ["core/bin/maike.cpp:main", "core/bin/maike.cpp:makeBuildInfo", "core/bin/config.cpp:resolveRecipes", "core/bin/config.cpp:loadConfig", "core/build/info.cpp:Info", "core/source_tree_loader/command_dictionary.cpp:get"]}
{"id": "C77", "title": "The printed dependency graph shows what is needed", "statement": "--print-dep-graph prints each edge of the dependency graph once, in the order of the names, between the names of the files. Two different edges never give the same line, as long as names do not contain quotation marks. Whatever a file needs, directly or through other files, can be reached in the printed graph by following arrows; in particular files that are included. The output does not depend on the schedule. (False for names with quotation marks, which are not escaped.)", "quantifier": "all source trees, all files, all chains of dependencies, all schedules", "why_tests_cant": "Tests print the graph of a few fixed trees; the property ranges over all graphs and chains", "anchors": ["core/bin/maike.cpp:printDepGraph", "core/db/dependency_graph.hpp:visitNodes", "core/db/source_file_record.hpp:visitEdges"]}
{"id": "C78", "title": "Output of recipes is captured completely, and recipes and maike never block each other", "statement": "When maike executes a recipe, what it gets as the standard output, the standard error and the exit code of the recipe is exactly what the recipe produces on its own when it reads some beginning of the data that are sent to it: no byte is lost, repeated, changed or moved between the streams. The result depends neither on how threads are scheduled, nor on the capacity of pipes, nor on how output is cut into pieces. Although pipes are finite, the recipe and maike never wait for each other in a circle: if the recipe ends when given the data, then the call returns. A recipe that reads more than what is sent to it is the exception: its standard input stays open, so it waits forever.", "quantifier": "all programs used as recipes, all data sent to them, all pipe capacities, all schedules of the threads and the recipe", "why_tests_cant": "A test executes one recipe under one schedule; deadlocks and lost output depend on the amounts of data, pipe sizes and timing.", "anchors": ["core/exec/execve.cpp: write, read, communicateWith, Exec::execve, IOCapture", "core/io/mem_io_redirector.hpp: MemRedirector"]}
{"id": "C79", "title": "What recipes are told follows exactly from what files declare", "statement": "For each file with targets there is one command, and its recipe is told the name of the file, the names of all of its targets, and all files that it depends on, directly or through other files, including what headers declare for everything that is made from files that use them. Each dependency is passed once, after those that it depends on itself, with the origin and the properties from one of the declarations that led to it. Nothing else is passed as a dependency. The graph has exactly the dependencies that files declare. After a successful run each target is newer than everything its recipe has been told about (apart from directories and external dependencies).", "quantifier": "all source trees, contents of files, schedules of the scan and of the build", "why_tests_cant": "The command depends on the declarations of every file that can be reached; a test has one small project.", "anchors": ["core/db/task.cpp: Task::Task", "core/db/source_file_record.cpp: makeBuildCommand", "core/db/source_file_list.cpp: makeSourceFileInfo, addTargetDepsToSourceFiles", "core/db/dependency_graph.cpp: getUseDepsRecursive"]}
{"id": "C80", "title": "A command that has failed is executed again", "statement": "If the command for a file has failed, or was interrupted with the run, then no later run reports success unless it, or a run before it, has executed the command again.", "quantifier": "all source trees, schedules, points of interruption, and sequences of later runs", "why_tests_cant": "Needs a failure or interruption at each possible point, and sequences of runs after it.", "anchors": ["core/db/task.cpp: runIfNecessary", "core/db/target_info.cpp: isUpToDate", "core/db/task_list.cpp: TaskList::process", "recipes/cxx_compiler.py: compile"]}
{"id": "C81", "title": "Programs and libraries are made of all of their parts", "statement": "A program or a static library is linked or archived from everything that the file from which it is made requires, directly or through other files, and that is declared to be an implementation; each of them is passed once. Nothing else is passed, except system libraries that are declared, and what pkg-config prints for declared libraries. A part precedes the parts that it requires. (It is false of the code if the same file is also required by a declaration that does not call it an implementation: the properties of the declaration that is reached first win, so that the part may be missing.)", "quantifier": "All projects, files with targets, declarations, outputs of pkg-config", "why_tests_cant": "The set of parts is a closure over declarations in arbitrarily many files; a missing or misplaced object appears only with certain shapes of the graph.", "anchors": ["recipes/cxx_linker.py: collect_deps, filter_deps, compile", "recipes/make_lib.py: collect_deps, filter_deps, compile", "recipes/pkg_config.py: get_libs, get_libdirs", "core/db/dependency.cpp: toJson", "core/db/source_file_record.cpp: makeBuildCommand"]}
{"id": "C82", "title": "A recipe that reports success has done its work", "statement": "When one of the recipes of maike exits with status zero, every program that it was to start has been started and has reported success, nothing that it did failed, and each of its targets has been written in this execution. When something went wrong, the status is not zero. (It is false of the code: generic.py reports success whatever its command did, and md2htmlpart.py whatever pandoc did; the recipes for linking, archiving, documents, text, revision logs and generic commands only make the first of several targets; headers with targets are not compiled; make_directory.py accepts an existing file in place of the directory.)", "quantifier": "All inputs of the recipes, contents of the file system, results of the programs that are started, including failure to start and termination by signals", "why_tests_cant": "Failures of compilers, copies and test programs at each possible point, with any number of targets, would have to be provoked.", "anchors": ["recipes/cxx_compiler.py: compile", "recipes/cxx_linker.py: compile", "recipes/make_lib.py: compile", "recipes/generic.py: compile", "recipes/copy_file.py", "recipes/make_directory.py", "recipes/sass2css.py", "recipes/md2htmlpart.py", "recipes/doc2html.py: compile", "recipes/vcslog.py"]}
{"id": "C83", "title": "The compiler gets the flags that are configured and what dependencies ask for", "statement": "The command that compiles a file starts with the configured compiler, and passes all flags that are configured, in their order, the directories for quoted includes, what each dependency of the file asks for (headers to be included first, flags printed by pkg-config), for dependencies that the file requires directly or through other files; then the source file, and the first target as the output file. Nothing else is passed. (It is false of the code for flags that consist of several words if one of the words is repeated: only the first occurrence is passed.)", "quantifier": "All configurations, projects, declarations, outputs of pkg-config", "why_tests_cant": "The flags depend on the closure of declarations in arbitrarily many files and on arbitrary configurations.", "anchors": ["recipes/cxx_compiler.py: collect_cflags, format_iquote, compile", "recipes/pkg_config.py: get_cflags", "core/db/source_file_record.cpp: makeBuildCommand"]}
{"id": "C84", "title": "The compiler and the revision of the standard suit the bounds", "statement": "If bounds on the revision of the language are configured, then the compiler that is selected, with the revision that is passed to it, provides a revision within the bounds. It is the first installed compiler that does. If any of the installed compilers suits, one is selected. The selected compiler and revision are those used for compiling. (It is false of the code: with an upper bound only, configuration always fails; if the compilers support the revision only experimentally, the one that reports the oldest revision is taken; a compiler given by its path is not found.)", "quantifier": "All bounds, sets of installed compilers, and answers of these compilers", "why_tests_cant": "The combinations of installed compilers, their answers and the bounds cannot be installed on a test machine.", "anchors": ["recipes/cxx_compiler.py: select_cpp_rev, select_compiler, configure, get_cpp_revision_tag, get_compiler_alternatives"]}
{"id": "C85", "title": "Incremental builds give the results of builds from scratch", "statement": "Let a project begin without any targets, and let anything happen to it: source files are written (getting a new time stamp), source files or targets are removed, directories are made, and there are builds, of everything or of single targets, forced or not, which may succeed, fail, or be interrupted anywhere. What the loaders find out about files follows from their contents at the time. When a build succeeds after that, then each target it is responsible for exists, and contains exactly what its recipe computes from what it is told now and from what its declared inputs contain now, whether the recipe has been executed or not. In particular, all targets have the same contents as after a build of the same source files from scratch, whatever the histories. Provided that: recipes compute contents only from what they are told about the source file, the targets, the compiler and the dependencies, and from the source file and declared dependencies of the project; they write their targets completely or not at all; the settings of the run and tools outside of the project stay the same; only builds write into the area for targets; a name is declared as external by all files or by none; and no file depends on a directory that is a target. A file replaced by one with an old time stamp is not noticed.", "quantifier": "All histories of edits, removals and builds, all schedules and interruptions of each build, all contents, all projects and recipes that satisfy the provisions", "why_tests_cant": "Histories, contents and interruption points are unbounded; tests try a few sequences", "anchors": ["core/db/source_file_record.cpp: isUpToDate", "core/db/source_tree.cpp: compile", "core/source_tree_loader/main.cpp: load", "core/db/dependency_graph.cpp: getUseDepsRecursive", "core/bin/maike.cpp: main"]}
{"id": "C86", "title": "Builds execute exactly what is necessary", "statement": "A build that is not forced executes the command of a file only if the file is outdated when the build starts: it is marked to be rebuilt always; or one of its targets does not exist; or one of its targets is not newer than the file or something that it depends on, directly or through other files; or something it depends on is a target of another file that is outdated. This holds at any moment, also for builds that fail or are interrupted. When the build succeeds, and targets that are directories existed when it started, the commands that have been executed are exactly those of outdated files. After a successful build of everything, the next build (of everything or of one target) executes the command of a file only if somebody has changed, removed or added, since then, that file, a file it depends on, or a target of one of these, or if one of these is marked to be rebuilt always.", "quantifier": "All projects, all states of the file system, all schedules, all moments of a build, all changes between two builds", "why_tests_cant": "Which commands are executed depends on the whole dependency graph, on all time stamps and on the schedule", "anchors": ["core/db/task.cpp: runIfNecessary", "core/db/source_file_record.cpp: isUpToDate", "core/db/task_list.cpp: process", "core/bin/maike.cpp: main"]}
{"id": "C87", "title": "The program ends", "statement": "For every command line and every file system in which directories are nested to a finite depth, maike cannot go on forever by itself: the number of steps of the scan of the source directory has a bound, and so has the number of things that the threads do during a build, together with the number of targets that are written for the first time. The bounds depend neither on the schedule nor on the outcome of recipes. Unless an exception other than the one for failed recipes has been thrown (the recipe cannot be launched, the log cannot be written), the program does not get stuck either: at every moment that is not the end, some thread can proceed or some recipe has a target to write; from there the program can end, with status 0 if no recipe has failed so far. This holds for builds of everything and for lists of targets. The exception to this is real: a recipe that cannot be launched can make the program hang.", "quantifier": "All command lines, configurations, file systems and projects, all schedules, all outcomes of recipes, all moments of a run", "why_tests_cant": "A test that terminates says nothing about other schedules and projects, and one that hangs cannot be told from a slow one", "anchors": ["core/bin/maike.cpp: main", "core/db/task_list.cpp: process", "core/db/source_tree.cpp: compile", "core/source_tree_loader/directory_scanner.cpp", "core/sched/thread_pool.hpp"]}
{"id": "C88", "title": "Success means that the tools have made everything", "statement": "When maike, together with the recipes that come with it, reports success, every target of every file of the project exists and is strictly newer than the file it is made from and than what that file needs, no matter how the recipes are interleaved. All that has to be assumed about recipes is that compilers, linkers, archivers and converters that return zero have written the file they have been asked to write, and no other file of the project.", "quantifier": "for every project, every file system state, every schedule of workers and every interleaving of the steps of recipes and of the programs they start, with arbitrary return codes and with failing copies", "why_tests_cant": "Recipes run concurrently and each of them starts further programs that may fail at any point; tests see a few of the interleavings and failures only", "anchors": ["recipes/cxx_compiler.py:compile", "recipes/cxx_linker.py", "recipes/make_lib.py", "recipes/copy_file.py", "recipes/make_directory.py", "recipes/sass2css.py", "recipes/md2htmlpart.py", "recipes/doc2html.py", "recipes/vcslog.py", "core/db/task.cpp:runIfNecessary", "core/db/task_list.cpp:process"]}
{"id": "C89", "title": "A document depends on the files that it refers to", "statement": "If a document is converted by doc2html.py, then it depends on exactly the files that some element of it refers to with src or href, except for those on servers (a scheme followed by ://); each reference stands for the file in the target directory that it leads to from the place of the result; and so after a successful run the result is newer than these files, also if they are made by the same run. (False for references that do not start with ./, which are looked for in the target directory itself, and for references such as #top and mailto:, which are taken for files.)", "quantifier": "all documents, references, source trees, target directories, file systems and runs", "why_tests_cant": "Documents, references and trees are unbounded, and the dependency takes effect through the schedule of a whole run.", "anchors": ["recipes/doc2html.py:get_tags", "core/db/compiler.cpp:getTags", "core/source_tree_loader/source_file_load_ctxt.cpp:prependSearchPath"]}
{"id": "C90", "title": "The target of a file with a general command is put where the file is", "statement": "A file that is compiled with a general command (generic.py) has one target, which is located in the target directory where the file is located in the source directory, and whose name is the name of the file followed by the extension; and it depends on the executable of the command. (False for files in directories inside of a source directory with a relative name: d/x.y leads to d/d/x.y.ext.)", "quantifier": "all files, extensions, commands, source trees and target directories", "why_tests_cant": "Names, depths of directories and both directories are arbitrary.", "anchors": ["recipes/generic.py:get_tags", "core/db/compiler.cpp:getTags", "core/source_tree_loader/source_file_load_ctxt.cpp:makeTargetName"]}
{"id": "C91", "title": "A change of the configuration takes effect", "statement": "When the options of a recipe have been changed in the configuration and maike is run again successfully, the targets are what the recipes compute with the options as they are now. (This is FALSE of the code: whether a target is out of date is decided by time stamps of sources, dependencies and targets only. After a successful run, changing options alone leads to a run that executes nothing and changes no file, unless it is forced. What holds: in a forced run, all recipes are executed, and whenever a recipe has been executed in a run that succeeds, its targets are made according to the settings of this run.)", "quantifier": "all source trees, configurations that differ in options, schedules and numbers of workers, and all ways in which the targets have come about before", "why_tests_cant": "The statement is about pairs of runs with different configurations, for every project and every schedule.", "anchors": ["core/db/task.cpp:isUpToDate", "core/db/compiler.cpp:Compiler", "core/bin/config.cpp:loadConfig", "core/source_tree_loader/source_file_load_ctxt.cpp", "core/bin/maike.cpp:main"]}
{"id": "C92", "title": "The help text is complete and true", "statement": "--help lists each option that maike accepts exactly once, with its summary, below the heading of its category. Each category has one heading; headings, and options below a heading, are in alphabetical order. Each type of parameter is explained exactly once. An option listed without a value is accepted alone and rejected with a value; one listed with a value is rejected without one; one whose value is in brackets is accepted alone and with any value.", "quantifier": "all tables of options with different names; all values of options", "why_tests_cant": "The text is computed from tables by sorting and removal of duplicates; that nothing is lost or repeated has to hold for every table, and what is said about values for every value.", "anchors": ["core/bin/maike.cpp:printHelp", "core/cmd_line_parser/command_line.hpp:get_type_info", "core/cmd_line_parser/command_line.hpp:sort", "core/cmd_line_parser/command_line.hpp:unique", "core/bin/cmd_line_options.hpp"]}
{"id": "C93", "title": "A query writes to the file that it is given", "statement": "When --help, --version, --about, --configdump, --list-targets or --print-dep-graph is given with a path, the output is written to this file, as documented. (This is FALSE of the code: the path is ignored. Exit status, standard output and effect on files are the same as without the path, for all other arguments, machines and file systems.)", "quantifier": "all paths, other arguments, file systems and schedules", "why_tests_cant": "That the path never makes a difference is a statement about all command lines.", "anchors": ["core/bin/maike.cpp:main", "core/bin/maike.cpp:printVersion", "core/bin/maike.cpp:dumpConfig", "core/bin/cmd_line_options.hpp"]}
{"id": "C94", "title": "Building in parallel gives the same files as building one by one", "statement": "When a run succeeds, what is in all files is what results from executing the recipes that the run has executed one after the other, each with nothing else going on, in any order in which each comes after those it depends on. This holds although recipes and the programs that they start are executed at the same time, and write their files bit by bit, provided that no recipe reads a target of another recipe without depending on it. So, if what a program writes is determined by what it reads, then the contents of files do not depend on the number of workers or on the schedule. (A recipe that reads a target of another one without depending on it may see it half-written; and what a program has left behind when it failed may be kept by the next run, see C80.)", "quantifier": "all source trees, file contents, recipes of maike, programs, schedules and numbers of workers", "why_tests_cant": "Serializability is a statement about all interleavings of all steps of all recipes; a test sees a few of them.", "anchors": ["core/db/task_list.cpp:process", "core/db/task.cpp:runIfNecessary", "core/exec/execve.cpp", "recipes/cxx_compiler.py", "recipes/cxx_linker.py", "recipes/make_lib.py", "recipes/sass2css.py"]}
{"id": "C95", "title": "Incremental builds that really execute recipes give the results of builds from scratch", "statement": "Let a project begin without any targets, and let anything happen to it: source files are written, files are removed, directories are made, and there are builds of everything or of single targets, forced or not, with any number of workers. Builds execute recipes as processes at the same time; these start programs, which write their files bit by bit, may write anything before they end, and may fail or be killed. Builds may succeed, fail, or be interrupted anywhere. When a build succeeds after that, each target it is responsible for exists, and contains what its recipe computes, when executed alone, from what it is told now and from what its declared inputs contain now; so all targets have the same contents as after a build of the same source files from scratch. Provided that: after a build that has not succeeded, somebody removes the targets that have been written by recipes which have not ended with success (otherwise the claim is false, see C94); recipes read nothing of the project but what is declared; and the other provisos of C85.", "quantifier": "All histories of edits, removals, and builds; all schedules of workers, recipes and programs, all failures and points of interruption; all source trees and contents", "why_tests_cant": "The claim is about arbitrarily long histories and about all interleavings in each of the builds.", "anchors": ["core/db/task_list.cpp:process", "core/db/task.cpp:runIfNecessary", "core/db/task.cpp:isUpToDate", "core/exec/execve.cpp", "recipes/cxx_compiler.py"]}
{"id": "C96", "title": "Recipes get their standard streams, and maike keeps no descriptors", "statement": "If maike has been started with open standard streams, then each recipe starts with its standard input, output and error connected to maike, and without any other descriptor for the pipes that connect them. When the execution of a recipe is over, or has failed at any point, each of the descriptors that were opened for it has been closed exactly once, and no other descriptor has been closed, whatever other threads open and close at the same time. (If maike has been started without a standard input, then recipes have none either, even though their input is to be connected; it does not matter if the other streams are closed.)", "quantifier": "all tables of open descriptors, all choices of the kernel, all interleavings with other threads, and failures of pipe, fork and execve", "why_tests_cant": "Descriptors that are closed twice do harm only if another thread happens to open a file in between; test programs run with open standard streams.", "anchors": ["core/exec/execve.cpp: Pipe, execve"]}
{"id": "C97", "title": "The start time is printed as the date that it is", "statement": "The text that is printed for the start time is the day in the Gregorian calendar and the time on this day (UTC) that belong to the number of seconds given on the command line, and this number is what recipes are told. Different start times are printed differently, and the text fits into its buffer. (Numbers beyond the years 1677 to 2262 are accepted, but have undefined behaviour. Sorting the texts does not sort by time, since hours are not padded.)", "quantifier": "all strings given as a start time, and all values of the clock", "why_tests_cant": "Calendars have exceptions every 4, 100 and 400 years; overflow happens at values no test would try.", "anchors": ["core/utils/system_time_stamp.cpp: format, SystemTimeStamp", "core/build/info.hpp: toJson", "core/bin/maike.cpp: print"]}
{"id": "C98", "title": "What recipes are told, and what --configdump writes, is JSON that stands for exactly one value", "statement": "The text that is passed to a recipe as its second argument, or written by --configdump, is a JSON text (RFC 8259), whatever characters are in the names and strings. Every reader that follows the standard gets the value which maike intended and no other: the name of the file, the names of the targets, the dependencies in their order, the task, the build information, and the configuration of the compiler. Different values lead to different texts, the text does not depend on the order in which members have been added, and without layout it has no control characters, so it is neither cut off as an argument nor spread over lines. A configuration that has been dumped is the same after it has been read as a configuration file.", "quantifier": "all JSON values of any size and depth, all strings, with and without layout; all texts and all values that these may stand for", "why_tests_cant": "The text of a few requests can be compared with expected texts, but whether each string is escaped so that no other value can be read needs an argument about all strings and about the grammar.", "anchors": ["core/key_value_store/json_handle.hpp:store", "core/db/source_file_record.cpp:makeBuildCommand", "core/db/compiler.cpp:getTags", "core/bin/maike.cpp:dumpConfig", "core/key_value_store/compound.hpp:Compound::set"]}
{"id": "C99", "title": "Recipes are told all names", "statement": "A recipe is told the name of its source file, the names of all targets and of all dependencies, whatever bytes these consist of; if a name cannot be passed, this is reported. (This is not true: names which are not UTF-8 are left out silently.)", "quantifier": "all names of files, targets and dependencies, as sequences of bytes", "why_tests_cant": "Tests use names in ASCII; which names are lost depends on the validity of arbitrary sequences of bytes.", "anchors": ["core/key_value_store/json_handle.hpp:JsonHandle", "core/key_value_store/compound.hpp:Compound::set", "core/key_value_store/array.hpp:Array::append", "core/db/source_file_record.cpp:makeBuildCommand", "core/db/dependency.cpp:toJson"]}
{"id": "C100", "title": "JSON documents are read by the standard, and a dumped configuration is a fixed point", "statement": "A configuration file, a rule file or the output of a recipe (up to 4096 bytes) that begins with a JSON object or array in UTF-8, possibly after blanks, is read as the value that it stands for by RFC 8259, whatever follows the document, and however the bytes are distributed over buffers. What maike has written is read as the same value. If --configdump is used, and what it prints is used as the only configuration file in another run, then this run has the same configuration, and prints exactly the same bytes with --configdump, whatever the configuration files of the first run have been.", "quantifier": "all documents of any size within the limits of jansson (depth, range of integers, no zero bytes, different keys), all texts after the document, all sizes of buffers, all sets of configuration files, all command lines of both runs", "why_tests_cant": "Documents that end at a boundary of a buffer, or are followed by other text, and configurations that are merged from several files, are too many to be enumerated; that a dump can always be read again needs an argument about each field, and about the depth of the values.", "anchors": ["core/key_value_store/json_handle.cpp:jsonLoad", "core/key_value_store/compound.hpp:Compound", "core/bin/config.cpp:loadConfig", "core/bin/maike.cpp:dumpConfig", "core/bin/config.hpp:toJson"]}
{"id": "C101", "title": "JSON handles behave as values: nothing is shared, nothing is used after deletion, nothing leaks", "statement": "However a program creates, copies, moves, stores, appends, merges, looks up and drops JsonHandles, Compounds and Arrays: no JSON object that has been deleted is used; no JSON object is deleted twice; each handle holds the value it would hold if handles were ordinary variables, so that a change of a copy is not seen in the original; each operation throws exactly when it does for values; and when all handles are gone, all JSON objects have been deleted, also those that operator|= had made when it threw an exception.", "quantifier": "all histories of operations on any number of handles, of any length, with values of any size, including merges that throw; a compound is not merged with itself", "why_tests_cant": "Reference counts depend on the whole history. A test only sees the histories it contains, and a leak or an early deletion does not make an assertion fail.", "anchors": ["core/key_value_store/json_handle.hpp:JsonHandle", "core/key_value_store/compound.hpp:Compound::set", "core/key_value_store/array.hpp:Array::append", "core/key_value_store/compound.cpp:operator|=", "core/key_value_store/array.cpp:operator|="]}
{"id": "C102", "title": "A project is rejected before anything is executed exactly if it cannot be built", "statement": "If a file or directory of the project cannot be read, a target has two sources, a dependency names nothing that exists (no file, no target, nothing from outside of the project), or a file that leads to a target leads to a circle of files, then the program returns -1, prints no result and changes no file, whatever it has been asked to do. If everything is to be built, the same holds for every file that depends on itself, directly or not. Conversely, if nothing of that kind is the case, then the project is not rejected: the program returns 0 after a task has succeeded for every file that something is made from, or it returns -1 because a command has failed. With --targets, status 0 implies that each target that has been named is made from some file which does not lead to a circle; if the first one is not, nothing is changed. If there is only a circle that nothing depends on, targets can be listed, and other targets can be named.", "quantifier": "all projects (any number of files and directories, any dependencies, any graph), command lines, schedules of the threads, and outcomes of the commands", "why_tests_cant": "Whether a project is accepted depends on the whole dependency graph: graphs cannot be enumerated, and a circle may be of any length and go through any kind of dependency.", "anchors": ["core/bin/maike.cpp:main", "core/source_tree_loader/main.cpp:load", "core/db/dependency_graph.cpp:DependencyGraph::DependencyGraph", "core/db/source_file_list.cpp:collectTargets", "core/db/task_list.cpp:TaskList", "core/db/source_tree.cpp:compile"]}
{"id": "C103", "title": "What the program says when it fails is true", "statement": "If the arguments have been accepted and the program returns -1, then (unless a task was given up because of an exception in the program or in a recipe) it has printed a message, and the message is true of the project: a list of messages from files and directories names all that could not be read, and only these; \"A: error: Failed to resolve B\" means that A depends on B and that there is no B; \"Target has B has already been defined in A\" means that the file A makes B and that another file makes it, too, or A lists it twice; \"Cyclic dependency detected\" means that some file depends on itself; \"A: Compilation failed\" means that something is made from the file A and that a command for it has failed; \"Unkonwn target `B`\" means that no file of the project makes B.", "quantifier": "all projects, command lines, schedules of the threads, and outcomes of the commands", "why_tests_cant": "The message is chosen by the first check that fails, on a graph that has been changed by the previous ones; for each of the messages there are infinitely many projects that lead to it, and its truth is a statement about all files of the project.", "anchors": ["core/bin/maike.cpp:main", "core/db/dependency_graph.cpp:resolve", "core/db/source_file_list.cpp:insertUnique", "core/utils/graphutils.hpp:processGraphNodeRecursive", "core/db/task_list.cpp:process", "core/db/source_tree.cpp:getTarget"]}
{"id": "C104", "title": "The threads that execute tasks use mutexes, notifications and local objects correctly", "statement": "Consider executing a list of tasks as what the single threads do one operation at a time: locking and unlocking each mutex, using what it protects, notifying, falling asleep, waking up with or without a notification, and destroying the local event and counter. Then (1) nothing is used after it has been destroyed, nothing is destroyed while its mutex is locked, nothing that a mutex protects is used without having locked it, and no thread locks a mutex twice; (2) no wake-up is lost: if no task ends without recording its result, then until the call has ended some thread can proceed without any spurious wake-up; (3) there is a bound on the number of operations in terms of the tasks and the number of spurious wake-ups; (4) what can be observed is the same as if critical sections were single actions: no task starts before its dependencies have succeeded, or twice; (5) when the call has ended, the pool is idle, with an empty queue and no exception left, so that it can be used again.", "quantifier": "all lists of tasks in topological order, all numbers of workers, all interleavings of the single operations, all choices of the thread that is woken up, all spurious wake-ups, and all outcomes of the tasks", "why_tests_cant": "Data races, uses after destruction and lost wake-ups depend on the interleaving of single operations; a test sees a few of the interleavings, and those that the scheduler prefers.", "anchors": ["core/db/task_list.cpp:process", "core/sched/event.hpp:waitAndReset", "core/sched/event.hpp:set", "core/sched/signaling_counter.hpp:SignalingCounter", "core/sched/thread_pool.hpp:addTask", "core/sched/thread_pool.hpp:takeLastException", "core/sched/thread_pool.cpp:performTasks"]}
{"id": "C105", "title": "The threads that scan the source tree use mutexes, notifications and the scanner correctly", "statement": "Consider scanning the source tree as what the single threads do one operation at a time: locking (alone or together with others) and unlocking each mutex, using what it protects, notifying, falling asleep, waking up with or without a notification, reading a directory, calling a loader, and destroying the scanner. Then (1) the scanner is not used after it has been destroyed, no mutex is destroyed while it is locked, no thread locks a mutex twice or unlocks one that it has not locked; (2) there is no data race: two threads never access the same data at the same time unless both only read them, also where the result and the errors are taken without locking; (3) no wake-up is lost: until the scan has ended some thread can proceed without any spurious wake-up; (4) in a tree of finite height there is a bound on the number of operations in terms of the tree, the number of workers and the number of spurious wake-ups, and each scan can be completed; (5) if the scan succeeds, its result is what the loaders have said about the paths that are reached and pass the filters; it fails exactly if some path could not be handled, with all the messages; neither the schedule nor the number of workers matters, and each file is loaded once; (6) when the scan has ended, the pool is idle with an empty queue, so that it can be used again.", "quantifier": "all source trees, filters and loaders, all numbers of workers except 0, all interleavings of the single operations, all choices of the thread that is woken up, and all spurious wake-ups", "why_tests_cant": "Data races, uses after destruction and lost wake-ups depend on the interleaving of single operations; a test sees a few of the interleavings, and those that the scheduler prefers.", "anchors": ["core/source_tree_loader/directory_scanner.cpp:DirectoryScanner", "core/source_tree_loader/directory_scanner.hpp:DirectoryScanner", "core/source_tree_loader/directory_scanner.hpp:takeResult", "core/sched/signaling_counter.hpp:SignalingCounter", "core/sched/thread_pool.hpp:addTask", "core/sched/thread_pool.cpp:performTasks", "core/source_tree_loader/main.hpp:load"]}
{"id": "C106", "title": "The output of a dry run is a shell script that does what the build does", "statement": "Let a dry run with the log level compilation_command succeed. A POSIX shell that reads what has been printed executes the commands of all tasks of the project, each of them exactly once, each of them after the commands of the tasks it depends on, with exactly the words that maike would execute them with, and nothing else. Executing these commands one after the other, starting from the same files as a forced build that succeeds, leads to the same contents of all files as this build. With --targets, the same holds for each of the targets in turn and the tasks that it needs, and for a forced build of the same targets.", "quantifier": "all projects, file systems, configurations, lists of targets, times, build ids, numbers of workers and schedules of the dry run and of the build; all programs that the recipes start", "why_tests_cant": "The script of one project shows nothing about other names, other options and other orders of the tasks; the order in the log depends on the schedule.", "anchors": ["core/db/compilation_log.cpp:write", "core/db/task_list.cpp:Task", "core/exec/command.cpp:toString", "core/exec/execve.cpp:execve", "core/bin/maike.cpp:main", "core/db/source_file_record.cpp:compile", "core/key_value_store/json_handle.hpp:store", "core/db/source_tree.cpp:compile"]}
{"id": "C107", "title": "The whole program, at the level of single operations of its threads, does what it does when its critical sections are single actions", "statement": "Consider a run of the program in which the scan of the source tree and the builds are performed by the threads of the pool one operation at a time, while recipes run and files change in between, in any order. Then (1) the program ends with the same exit status, the same output and the same files as some run in which each critical section is one action, and, on a file system in which directories are nested to a finite depth, conversely: the two sets of possible results are the same; (2) in particular, if everything is to be built and the program returns zero, each target of each file of the project exists and is, unless it is a directory, strictly newer than the file it is made from and than everything that this file needs; (3) builds that succeed leave the same contents in all files, whatever the number of workers and the schedule; (4) there is a bound on the number of operations of the threads of a build, not counting those after spurious wake-ups, and a build that has not ended can go on, unless a task has thrown an exception other than the one for recipes that fail: from wherever the threads are, the program can end, and it can return zero if no recipe has failed so far; (5) the scan leaves the pool as a build needs it.", "quantifier": "all command lines, file systems, configurations, times, numbers of workers, schedules of all threads, spurious wake-ups, and all behaviours of recipes", "why_tests_cant": "A test sees a few interleavings of whole runs; results that differ between the real interleavings and those at the level of critical sections would need a schedule that a test never meets.", "anchors": ["core/bin/maike.cpp:main", "core/source_tree_loader/directory_scanner.cpp:processPath", "core/db/task_list.cpp:process", "core/sched/thread_pool.cpp:performTasks", "core/sched/thread_pool.hpp:addTask", "core/db/source_tree.cpp:compile", "core/db/task.cpp:runIfNecessary"]}
{"id": "C108", "title": "What --version and --about print is what was known when the program was built", "statement": "The header that is generated when the program is built can be compiled, and the program then prints, for --version, the tag and the revision of its source, the start time, the identity and the host of the build, and, for --about, also the description from projinfo.json, one line per holder of the copyright with the years in ascending order, and the license, each of them verbatim.", "quantifier": "all texts for the tag, the revision, the build, the description, the license and the authors, and all lists of years", "why_tests_cant": "Tests compile the program with the texts of one project, on one host, at one revision; a text that ends the string literal it is pasted into does not occur among them.", "anchors": ["core/bin/about.py:compile", "core/bin/about.py:get_copyright", "core/bin/about.hpp:Self", "core/bin/maike.cpp:printVersion", "core/bin/maike.cpp:printAbout"]}
{"id": "C109", "title": "By default the project consists of what has no name that begins with a dot or two underscores", "statement": "With the configuration that is used by default, a path is part of the project exactly if it can be reached from the source directory through directories, and neither its name nor the name of any of these directories (below the source directory) begins with a dot or with two underscores; without recursion, only files in the source directory itself. An included file is taken for a generated one exactly if its name ends with .gen.hpp. In a configuration file, a pattern without special characters leaves out the names that contain it; ^ before it restricts this to the names that begin with it, and $ after it to the ones that end with it.", "quantifier": "all directory trees, all names of source directories, all patterns with quoted special characters, all texts that are searched", "why_tests_cant": "Tests of the filter try four names. They neither see how filters, relative paths and normal forms work together for every way to write the source directory, nor all names.", "anchors": ["core/source_tree_loader/input_filter.cpp:match", "core/source_tree_loader/input_filter.cpp:InputFilter", "core/source_tree_loader/directory_scanner.cpp:processPath", "core/source_file_info_loaders/cxx/source_file_loader.cpp:get_origin", "core/source_file_info_loaders/cxx/source_file_loader.hpp:SourceFileLoader"]}
{"id": "C110", "title": "Editing files while maike is running does no lasting harm", "statement": "Files may be edited, created and removed at any moment, also while the source tree is loaded, while tasks wait, and while recipes are running. After that, when a run that nobody disturbs reports success, every target contains what its recipe computes from the files as they are now.", "quantifier": "all projects, all histories of edits, removals and runs, all moments at which a file can be edited during a run, all moments at which a recipe can read its inputs, all schedules, all ends of runs (success, failure, interruption)", "why_tests_cant": "The moment of the edit relative to reading and writing decides; a test cannot place an edit between any two steps of maike and of the programs it starts.", "anchors": ["core/db/task.cpp:runIfNecessary", "core/db/target_info.cpp:isUpToDate", "core/db/dependency.hpp:isOlder", "core/bin/maike.cpp:main", "core/db/source_tree.cpp:compile"]}
{"id": "C111", "title": "Symbolic links in the source directory", "statement": "Symbolic links are followed: what a scan without errors finds in a directory are the entries of the directory that the path leads to, and a path leads to where the kernel says, along at most 40 links. Whatever links there are, the scan ends, even if links lead to directories they are in, as long as directories are nested to a finite depth. When links lead from a scanned directory back to it, and the names on the way are not left out by the filters, the scan fails with an error; it neither goes on forever nor is something left out silently. Other than that, it fails only for files the loader rejects. When each entry leads somewhere, which is the case if links lead to something and not in circles, and the source directory is in normal form, the result is the same as for a tree where directories and files are in place of the links to them, so that what is said elsewhere about a run of maike applies.", "quantifier": "all file systems of files, directories and symbolic links with any targets, working directories, source directories, filters, loaders and schedules", "why_tests_cant": "Trees with links are infinite in principle: which paths are visited depends on the nesting of links and on the limit of the kernel, and a test has one tree and one schedule.", "anchors": ["core/source_tree_loader/directory_scanner.cpp:processPath", "core/source_tree_loader/source_file_loader_delegator.cpp:load", "core/source_tree_loader/main.cpp:load", "core/bin/maike.cpp:main"]}
{"id": "C112", "title": "Static libraries consist of their parts", "statement": "When recipes/make_lib.py has made a static library, the members of the library are the present contents of its parts, each of them once, and nothing else: what is required by the file from which the library is made and declared to be an implementation. This also holds when the library is made again, after parts have been changed, added or taken away.", "quantifier": "All projects, all parts and contents, all libraries that are left from previous builds, and all sequences of builds", "why_tests_cant": "The result depends on the sequence of builds that led to the library, and on base names of parts in different directories; a test starts from a clean directory, where the library is right.", "anchors": ["recipes/make_lib.py:32-37", "recipes/make_lib.py:13-19", "recipes/make_lib.py:21-29"]}
{"id": "C113", "title": "Threads that cannot be started", "statement": "If the operating system refuses to start a thread, then maike either does its work with the threads that it has, or ends with an error message. It never hangs, is never terminated by the runtime system, and never does anything undefined, and the result does not depend on how many of the threads could be started.", "quantifier": "All numbers of threads, all combinations of threads that can and cannot be started, all projects, all schedules", "why_tests_cant": "Creation of threads fails only under a shortage of resources, which a test cannot bring about for one particular thread; the result would depend on the schedule as well.", "anchors": ["core/sched/thread_pool.cpp:8-24", "core/sched/thread_pool.cpp:26-38", "core/exec/execve.cpp:134-146"]}
{"id": "C114", "title": "The scripts of the project itself", "statement": "A generator of documents in doc reports success only if nothing went wrong and its target has been written, reads exactly the files that its declaration refers to, and starts the program that it refers to, whatever the names of the directories and wherever maike has been started. The list of options is shown in the documents as it is printed. build.py reports success if and only if both builds have succeeded, and does not start the second one otherwise. install.sh stops at the first failure, and the program that has been installed looks for recipes where they have been put.", "quantifier": "All options of tasks, all source and target directories, all current directories, all outcomes of all programs, all directories to install to", "why_tests_cant": "Failures of the programs that are started are not among the tests, and names depend on the combination of two directories with a third one; the scripts are not tested at all", "anchors": ["doc/cmdlineopts.py:15-26", "doc/configdefault.py:15-26", "doc/cmdlineopts2xml.py:16-23", "doc/configdefault2xml.py:16-23", "doc/manpage.py:73-91", "build.py:9-35", "install.sh:6-13", "recipes/md2htmlpart.py:17-34", "core/utils/fs.cpp:20-23", "core/bin/maike.cpp:332"]}
{"id": "C115", "title": "Several runs of maike at the same time do no harm", "statement": "When several runs of maike build the same project at the same time, and the source files do not change, then as soon as one of them has succeeded all of its targets exist and contain what their recipes compute from the source files, whatever the other runs do, and whether they succeed, fail or are interrupted; a run afterwards that is alone, and succeeds, leaves everything as it should be; and if the runs make the same targets and all runs that have written anything have succeeded, then the next run executes nothing but what is always executed.", "quantifier": "All projects, all histories, any number of runs, all selections of targets, all interleavings of the actions of all runs, all moments at which recipes read their inputs", "why_tests_cant": "What happens depends on the interleaving of several processes with several threads each, and on the moments at which compilers open, read and close their files; no test starts maike twice", "anchors": ["core/db/task.cpp:15-29", "core/db/task_list.cpp:97-114", "core/bin/maike.cpp:328-404", "core/exec/execve.cpp:262-268", "recipes/cxx_compiler.py:56-110"]}
{"id": "C116", "title": "The source tree can be loaded while others are building", "statement": "While the source directory is scanned, anybody may make, change and remove things whose names are left out by the filters, such as the target directory of another run of maike: the scan still ends, loads no file twice, fails if and only if it would have failed otherwise (provided that directories can be listed), and finds exactly the files that it would have found otherwise; so a run that loads the project while another run is building it gets the same source files and the same dependency graph as that one.", "quantifier": "All source trees, all filters, all versions of what is left out, changing between any two steps of the scan, all schedules of the tasks of the scan", "why_tests_cant": "The result depends on when another process makes its directories relative to the iteration over directories in several threads; the scanner is tested with one thread pool, and with a directory in which nothing changes", "anchors": ["core/source_tree_loader/directory_scanner.cpp:37-94", "core/source_tree_loader/directory_scanner.hpp:74-79", "core/source_tree_loader/main.cpp:7-22", "core/bin/maike.cpp:328-404"]}
{"id": "C117", "title": "Runs with different targets do not disturb each other", "statement": "Runs of maike at the same time, such as runs with different target directories, may write their targets piece by piece, fail or be interrupted: if none of the others writes a file that matters for a run, then that run does exactly what it could have done alone (it starts and ends tasks in the same order, executes the same tasks, and leaves the same contents and time stamps); so if it succeeds, its targets exist, contain what their recipes make of their inputs, and nothing is left to do.", "quantifier": "All numbers of runs, all builds, all interleavings of all actions of all runs, all recipes, all contents that others leave in their targets, all histories of the project", "why_tests_cant": "It is a statement about all interleavings of processes that share a clock and directories; directories that are shared change their time stamps, and one can not see from a test that this never matters", "anchors": ["core/db/task.cpp:15-29", "core/db/task_list.cpp:97-114", "core/source_tree_loader/source_file_load_ctxt.cpp:22-34", "core/source_tree_loader/source_file_load_ctxt.cpp:80-92", "core/bin/maike.cpp:328-404"]}
{"id": "C118", "title": "The compilation log tells what has happened", "statement": "At all times, whether the build succeeds or not: a task that has ended with success or with a failure has exactly one message in the compilation log, and the message says which of them; a task is reported as executed if its recipe was to be executed, and as not executed (and not failed) if it was up to date; a message is printed when the task has written everything that it writes, and never changes. Unless only errors are logged, a line with the number of the task, a cross, and the path of the file is printed for each task that has failed, whatever its command has printed. With every log level, what a command that has failed has printed on stderr is printed on stderr, up to the first zero byte. What is printed about a failure comes from the report of a command. There is never a message about a task that waits, in one or several steps, for a task that has failed.", "quantifier": "All builds, all interleavings of all workers, all outcomes of commands, all outputs of commands, all log levels other than errors (for the line that is printed)", "why_tests_cant": "Tasks end in any order on any number of threads, and builds that fail stop in any state; a test sees the log of one of them", "anchors": ["core/db/task_list.cpp:97-114", "core/db/compilation_log.cpp:44-81", "core/db/compilation_log.cpp:83-110", "core/db/task.cpp:15-29"]}
