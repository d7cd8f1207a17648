{"id": "C01", "title": "Dependency database round trip", "statement": "Whatever a rule does with a dependency database (reading lines, stating expectations, writing lines) before closing it, a later run that opens the database reads back exactly the lines that were accepted or written, in order, and then is told there are no more and that the database is complete; reading does not modify the file. This holds for a new file, for a file with a valid older database (a write replaces the line read last and all that follow it), and for a file with arbitrary garbage.", "quantifier": "every sequence of operations with lines of any length (any bytes except newline and a leading NUL), every previous file content", "why_tests_cant": "the previous content and the line list are unbounded; tests only try a few files", "anchors": ["libbuild2/depdb.cxx: depdb::depdb, read_, write, close, change"]}
{"id": "C02", "title": "Dependency database expectation protocol", "statement": "If a rule validates a database by stating the lines it expects, then after close the file contains exactly the expected lines (with the version line and the end marker), no matter what it contained before; the stored lines are reported as matching up to the first difference and never after it; and if every expected line matches and none is left the file is not modified at all.", "quantifier": "every previous content, every list of expected lines", "why_tests_cant": "needs all pairs of old/new line lists, including prefixes, extensions and corrupt files", "anchors": ["libbuild2/depdb.cxx: change, close", "libbuild2/depdb.hxx: expect", "libbuild2/depdb.ixx: read, writing"]}
{"id": "C03", "title": "A crash never leaves a database that looks complete but is not", "statement": "If the process dies at any byte written (or right after a truncation) while updating a dependency database, a later run that reads the file either finds the untouched old database or is told that the database is incomplete; it is never told that a mixture of old and new lines is a properly closed database, and every line it does read is a line that was really written in full.", "quantifier": "every old content, every list of operations, every crash point (any prefix of the bytes that reached the file)", "why_tests_cant": "crash points cannot be enumerated by a unit test", "anchors": ["libbuild2/depdb.cxx: change (comment lines 153-160), read_, close"]}
{"id": "C04", "title": "An interrupted update is redone", "statement": "With the protocol used by rules (validate/write database, close it, then produce the target, then compare modification times) and a filesystem clock that never goes backwards, whenever a later run concludes that nothing has changed, the target on disk was produced completely from the inputs recorded in the database; an update interrupted at any point is always redone.", "quantifier": "every interleaving of runs and crashes, every sequence of input changes, every clock behaviour that is monotone", "why_tests_cant": "a history and crash-point property", "anchors": ["libbuild2/depdb.hxx: comment on interrupted updates, check_mtime", "libbuild2/algorithm.cxx: execute_prerequisites", "libbuild2/cc/compile-rule.cxx: apply/perform_update"]}
{"id": "C05", "title": "Skipping the rest of a database agrees with reading it", "statement": "Asking a database to skip to its end reports a valid end exactly when reading all remaining lines would, and leaves the database in a state from which closing does not change it.", "quantifier": "every file content and read position", "why_tests_cant": "quantifies over all contents; the code uses a different scanning loop from read", "anchors": ["libbuild2/depdb.cxx: skip"]}
{"id": "C06", "title": "Closing a database to reopen it later appends", "statement": "If a database is closed for reopening, reopened and more lines are written, then after the final close a reader sees the lines accepted before followed by the new lines; while it is closed in between it reads as complete with the lines so far.", "quantifier": "every previous content, every split into first and second batch of lines", "why_tests_cant": "needs all contents and positions", "anchors": ["libbuild2/depdb.cxx: close_to_reopen, depdb (reopen_state)"]}
{"id": "C07", "title": "Cached intermediate file content is preserved", "statement": "For any sequence of pin, unpin, preempt, open and close operations on a cache entry, reading the entry returns exactly the content that was written when the entry was created, whether it is currently stored compressed or not, and the entry's files on disk are those its state says.", "quantifier": "every sequence of operations, every content", "why_tests_cant": "operation histories", "anchors": ["libbuild2/file-cache.cxx", "libbuild2/file-cache.ixx"]}
{"id": "C08", "title": "Crash safety of the file cache", "statement": "If the process dies at any point while the cache is compressing or removing files, a later run that picks up the existing entry obtains the full content. (Dying while decompressing may leave a truncated uncompressed file that a later run trusts.)", "quantifier": "every state of the entry, every crash point inside preempt/open", "why_tests_cant": "crash points", "anchors": ["libbuild2/file-cache.cxx: init_existing, compress, decompress", "libbuild2/file-cache.ixx: preempt"]}
{"id": "C09", "title": "Target states merge by severity", "statement": "The combined state of a set of targets or steps does not depend on the order in which they complete or on how they are grouped, is failed as soon as one is failed, and is changed if none failed and one changed.", "quantifier": "every list of states, every permutation and grouping", "why_tests_cant": "all orders in which parallel work may complete", "anchors": ["libbuild2/target-state.hxx: operator|="]}
{"id": "C10", "title": "Action identifiers decode to what was encoded", "statement": "An action built from a meta-operation, an operation and an optional outer operation gives back exactly those when queried, distinct actions compare different, and the unqualified/inner/outer views are consistent.", "quantifier": "all meta-operation ids and operation ids below 16", "why_tests_cant": "all triples; shows that the != overload for a raw action id is inverted", "anchors": ["libbuild2/action.hxx"]}
{"id": "C11", "title": "No task is lost or run twice", "statement": "Every task started asynchronously is executed exactly once: taken by the starting thread, by a helper, or run synchronously when the queue is full, for every schedule of queue operations.", "quantifier": "every interleaving of push, pop from front, pop from back and mark changes, every queue depth", "why_tests_cant": "all schedules of the circular queue with wrap-around", "anchors": ["libbuild2/scheduler.hxx: task_queue, push, pop_front, pop_back", "libbuild2/scheduler.txx: async"]}
{"id": "C12", "title": "Waiting thread only runs tasks it may run", "statement": "A thread that waits on its own task count takes back only tasks pushed since the mark, most recent first, never a task that was pushed before the mark; helpers take the oldest first.", "quantifier": "every history of marks and pops, every queue depth", "why_tests_cant": "all histories with wrap-around and nested marks", "anchors": ["libbuild2/scheduler.hxx: pop_back, empty_back, queue_mark"]}
{"id": "C13", "title": "Waiting for a task group is correct", "statement": "A wait on a task count returns only when the count has dropped to the start count, it cannot miss the notification that the last task finished, and no thread stays asleep after the count has dropped.", "quantifier": "every interleaving of suspend, resume and task completion steps, any number of waiters and tasks", "why_tests_cant": "lost wake-ups are schedule properties", "anchors": ["libbuild2/scheduler.cxx: suspend, resume, wait_impl", "libbuild2/scheduler.hxx: task_thunk", "libbuild2/scheduler.txx: task_thunk"]}
{"id": "C14", "title": "Active threads never exceed the limit", "statement": "The number of active threads, together with the slots allocated explicitly and those accounted to the jobserver, never exceeds the maximum; every thread is counted as active, waiting, ready, idle or starting exactly once; a slot released while some thread is ready is offered to a ready thread rather than to a helper or the jobserver; a ready thread is never left asleep while a slot is free; and if tasks are queued while nobody is active then some thread is on its way to become active.", "quantifier": "every limit and every interleaving of activate, deactivate, helper creation, allocate, deallocate, serialize, phase push/pop and jobserver operations, with spurious wakeups and any choice of the thread notified", "why_tests_cant": "all schedules and thread numbers", "anchors": ["libbuild2/scheduler.cxx: activate_impl, deactivate_impl, allocate, deallocate, activate_helper, helper"]}
{"id": "C15", "title": "Jobserver tokens are conserved", "statement": "Tokens the scheduler has issued are in the pipe or with the clients; at most one of those is not accounted for as active, so that running threads, allocated slots and tokens held by clients together exceed the limit by at most one; and once the clients have returned their tokens the slots accounted for them are recovered.", "quantifier": "every interleaving of the threads, the jobserver monitor and the clients, up to shutdown", "why_tests_cant": "all schedules", "anchors": ["libbuild2/scheduler.cxx: jobserver_monitor, deactivate_impl, deallocate"]}
{"id": "C16", "title": "Phases exclude each other", "statement": "At no time do threads run in two different build phases (load, match, execute), and the load phase is held by at most one thread that is running in it.", "quantifier": "every number of threads and every interleaving of lock, unlock and relock", "why_tests_cant": "schedule property", "anchors": ["libbuild2/context.cxx: run_phase_mutex::lock, unlock, relock"]}
{"id": "C17", "title": "Phase switching wakes the waiters", "statement": "Whenever no thread runs in the current phase and some thread waits for another phase, the mutex has switched to a phase that somebody waits for, so a waiter can always proceed; load has priority over match and match over execute.", "quantifier": "every number of threads and every interleaving", "why_tests_cant": "schedule property (absence of stuck states)", "anchors": ["libbuild2/context.cxx: run_phase_mutex"]}
{"id": "C18", "title": "A failed load is sticky", "statement": "Once a thread fails in the load phase, every later attempt by any thread to lock or switch phase reports failure.", "quantifier": "every history after the failure", "why_tests_cant": "history property", "anchors": ["libbuild2/context.cxx: run_phase_mutex, phase_switch"]}
{"id": "C19", "title": "A target is matched once and executed once per operation", "statement": "However many threads ask for the same target and in whatever order, its rule is applied once and its recipe is executed at most once per operation and, unless matching it again with more match options fails, everybody sees the same resulting state, and nobody proceeds before that state is final.", "quantifier": "every number of threads, every interleaving of lock, unlock, wait, compare-and-swap and completion", "why_tests_cant": "schedule property over an atomic state machine", "anchors": ["libbuild2/algorithm.cxx: lock_impl, unlock_impl, match_impl, execute_impl", "libbuild2/target.hxx: opstate::task_count", "libbuild2/context.hxx: count_*"]}
{"id": "C20", "title": "Stale per-operation state is never mistaken for current", "statement": "State left in a target by an earlier operation of the same run is never read as the state of the current operation, for any number of operations.", "quantifier": "every sequence of operations and every state they leave", "why_tests_cant": "unbounded operation sequences", "anchors": ["libbuild2/context.hxx: count_base, count_executed, count_busy", "libbuild2/algorithm.cxx: lock_impl"]}
{"id": "C21", "title": "Reverse execution waits for the last dependent", "statement": "In an operation that executes in reverse (for example clean), a target's recipe is run only once all targets that depend on it and were matched have asked for its execution; with straight execution the first request runs it.", "quantifier": "every order in which dependents request execution, any number of dependents", "why_tests_cant": "all orders", "anchors": ["libbuild2/algorithm.cxx: execute_impl (dependents countdown)", "libbuild2/algorithm.ixx: match_inc_dependents"]}
{"id": "C22", "title": "The operation knows when it is finished", "statement": "The number of targets still to execute and the number of outstanding dependency requests are zero at the end of an operation in which no match failed exactly when every matched target has been executed.", "quantifier": "every order of matching and execution", "why_tests_cant": "history property", "anchors": ["libbuild2/context.hxx: target_count, dependency_count", "libbuild2/algorithm.ixx: set_recipe, match_inc_dependents", "libbuild2/algorithm.cxx: execute_impl"]}
{"id": "C23", "title": "Dependency cycles are detected instead of deadlocking", "statement": "When a thread needs a target that is being matched, the chain of targets the thread itself has locked is checked and a cycle through this chain is reported instead of waiting forever; a target outside the chain is never reported as a cycle.", "quantifier": "every chain of locked targets", "why_tests_cant": "unbounded chain length", "anchors": ["libbuild2/algorithm.ixx: dependency_cycle", "libbuild2/algorithm.cxx: lock_impl"]}
{"id": "C24", "title": "Out-of-date decision", "statement": "A target is rebuilt exactly if it does not exist or one of the prerequisites that count (executed, and ad hoc or accepted by the caller) is newer: it has a later time stamp, or the same time stamp and was changed in this run, or has no time stamp and was changed in this run. Otherwise it is left alone and reported as changed, postponed or unchanged according to its prerequisites. It fails exactly if a prerequisite failed. The order of the prerequisites does not matter.", "quantifier": "every list of prerequisites, modification times and states", "why_tests_cant": "all combinations and orders", "anchors": ["libbuild2/algorithm.cxx: execute_prerequisites", "libbuild2/target.ixx: mtime_target::newer"]}
{"id": "C25", "title": "Group members share the state of the group", "statement": "The state and modification time reported for a group member whose recipe is the group recipe are those of the group, they do not change once reported, and the group recipe runs exactly once for all members and other dependents of the group. If the operation executes dependents before dependencies (clean), then only the last to ask for the group executes it and the others, which are not told to wait, report unchanged without looking at the group.", "quantifier": "every number of members and request order", "why_tests_cant": "all orders", "anchors": ["libbuild2/algorithm.cxx: group_action, execute_recipe", "libbuild2/target.ixx: group_state"]}
{"id": "C26", "title": "Target names with extensions round trip", "statement": "Printing a target name and extension and parsing the result gives back the same name and the same extension, for every name and extension that can be represented (extension not starting with a dot, name not consisting only of dots), including any number of dots anywhere.", "quantifier": "all strings", "why_tests_cant": "all dot patterns; the code is a right-to-left scanner with escapes", "anchors": ["libbuild2/target.cxx: target::split_name, target::combine_name"]}
{"id": "C27", "title": "Dot escape errors are reported, never silently misread", "statement": "Parsing a target name fails exactly for dot-only names, odd dot sequences longer than three, repeated triple dots and leading triple dots; otherwise it succeeds.", "quantifier": "all strings", "why_tests_cant": "all dot patterns", "anchors": ["libbuild2/target.cxx: target::split_name"]}
{"id": "C28", "title": "Printed names read back as themselves", "statement": "Printing a list of names (without a project qualification) with quoting enabled and reading the text as a value in a buildfile gives back the same words, braces and pairs with the same content, so that a saved value can be read again; a name that is not a pattern is never read back as one.", "quantifier": "all strings", "why_tests_cant": "all characters and quoting combinations", "anchors": ["libbuild2/name.cxx: to_stream", "libbuild2/lexer.cxx: word, single_quoted, double_quoted"]}
{"id": "C29", "title": "Make dependency output is parsed faithfully", "statement": "For every list of targets and prerequisites written in make syntax with the usual escapes and any placement of line continuations, the parser returns exactly these targets and prerequisites, in order, and detects the end of the declaration at the right line.", "quantifier": "all lists of paths, all characters, all line splits", "why_tests_cant": "all inputs", "anchors": ["libbuild2/make-parser.cxx"]}
{"id": "C30", "title": "Scope nesting is independent of the order of creation", "statement": "After creating scopes for any directories in any order, every scope's parent is the scope of the nearest enclosing directory that has one, and its project is the nearest enclosing project root; looking up the scope of a directory gives the innermost enclosing scope.", "quantifier": "every sequence of insertions, every directory tree", "why_tests_cant": "all insertion orders", "anchors": ["libbuild2/scope.cxx: scope_map::insert_out, find_out"]}
{"id": "C31", "title": "Variable lookup finds the innermost visible value", "statement": "Looking up a variable returns the value set in the innermost enclosing scope within its visibility (scope, project, or everything), with target-type/pattern-specific values taking precedence over the plain value of the same scope, and never a value from outside its visibility.", "quantifier": "every scope chain, every placement of values and visibility", "why_tests_cant": "all configurations", "anchors": ["libbuild2/scope.cxx: scope::lookup_original"]}
{"id": "C32", "title": "Command-line overrides apply as documented", "statement": "A command line override replaces (or is prepended/appended to) the value a buildfile assigns exactly in the scopes it applies to; with several overrides later ones win and prefixes/suffixes are applied in command line order; if no override applies the original value is returned unchanged.", "quantifier": "every scope chain, original placement and override list", "why_tests_cant": "all configurations", "anchors": ["libbuild2/scope.cxx: scope::lookup_override_info"]}
{"id": "C33", "title": "Append and prepend preserve elements and order", "statement": "Appending (prepending) to a list-like variable concatenates, is associative, NULL behaves as the empty starting point, and never drops or reorders elements.", "quantifier": "all values", "why_tests_cant": "all sequences of operations", "anchors": ["libbuild2/variable.cxx: value::append, value::prepend", "libbuild2/variable.txx: vector_append, vector_prepend"]}
{"id": "C34", "title": "Pattern-specific variables use the most specific pattern", "statement": "When several variable name patterns match, the attributes come from the one that is most specific in the documented order, independently of the order in which patterns and variables were entered.", "quantifier": "all pattern sets and names, all orders", "why_tests_cant": "all insertion orders", "anchors": ["libbuild2/variable.cxx: match_pattern, variable_pool::insert, variable_patterns::insert", "libbuild2/variable.hxx: variable_patterns::pattern"]}
{"id": "C35", "title": "Function overload resolution", "statement": "A call is resolved to the unique best matching overload (exact types before derived-to-base before reversal to untyped); two equally good candidates are always reported as ambiguous and no candidate as unmatched, independently of the order of registration.", "quantifier": "all overload sets and argument lists", "why_tests_cant": "all overload sets", "anchors": ["libbuild2/function.cxx: function_map::call"]}
{"id": "C36", "title": "JSON values are totally ordered", "statement": "Comparing JSON values is a total order: reflexive, antisymmetric, transitive; numbers compare by numeric value irrespective of signedness or notation; objects compare irrespective of member order.", "quantifier": "all JSON values of any depth", "why_tests_cant": "recursive unbounded values", "anchors": ["libbuild2/json.cxx: json_value::compare"]}
{"id": "C37", "title": "JSON append adds numbers correctly", "statement": "Appending one JSON number to another yields their arithmetic sum when it is representable, whatever combination of signed, unsigned, decimal and hexadecimal notations is used.", "quantifier": "all 64-bit values and notations", "why_tests_cant": "2^128 combinations", "anchors": ["libbuild2/json.cxx: append_numbers"]}
{"id": "C38", "title": "JSON append and prepend merge", "statement": "Appending arrays concatenates, appending objects keeps existing members in order and adds or overrides by name without creating duplicates, and incompatible types are rejected without modifying the value.", "quantifier": "all JSON values", "why_tests_cant": "unbounded values", "anchors": ["libbuild2/json.cxx: json_value::append, prepend"]}
{"id": "C39", "title": "Integer values round trip", "statement": "Converting a 64-bit signed or unsigned integer value to text and back gives the same integer; text that is not entirely a number in range is rejected and never silently truncated.", "quantifier": "all 64-bit integers, all strings", "why_tests_cant": "2^64 values and all strings", "anchors": ["libbuild2/variable.cxx: value_traits<int64_t>::convert, value_traits<uint64_t>::convert"]}
{"id": "C40", "title": "Target identity", "statement": "Two references to a target with the same type, directory and name (and the same or unspecified extension) denote the same target object, whatever the order of find and insert calls and whatever threads make them; once an extension is set it never changes.", "quantifier": "every history of find/insert/set-extension calls", "why_tests_cant": "all histories and interleavings", "anchors": ["libbuild2/target.cxx: target_set::find, insert_locked, target::ext", "libbuild2/target.hxx: target_key"]}
{"id": "C41", "title": "Test selection", "statement": "The tests run for a list of requested targets (with the type or ending with a directory separator), test ids, and pairs of the two are exactly those of the targets that are under a requested directory or equal to a requested target (any if none are requested) and whose id leads to or is led to by an id requested for this or any target (any if none are); no selected test is missed because of an alias, testscript or group on the way to it.", "quantifier": "all selections, targets and ids", "why_tests_cant": "all combinations", "anchors": ["libbuild2/test/common.cxx"]}
{"id": "C42", "title": "Rule hints and operation fallbacks", "statement": "Rules are tried from the most derived target type to the base, from the inner scope to the outer, for the exact operation before the wildcard, a rule hint restricts to rules whose dot-separated name starts with the hint, and two equally good matching rules are reported as ambiguous rather than chosen by registration order.", "quantifier": "all rule maps", "why_tests_cant": "all configurations", "anchors": ["libbuild2/algorithm.cxx: match_rule_impl", "libbuild2/rule-map.hxx"]}
{"id": "C43", "title": "What the scheduler concludes from the jobserver counters is true", "statement": "The consistency check of the jobserver monitor never fails, and a leak of jobserver tokens is reported only if some client holds a token it has not returned.", "quantifier": "every interleaving of the threads, the jobserver monitor and well-behaved clients", "why_tests_cant": "depends on when the monitor polls the pipe relative to the threads", "anchors": ["libbuild2/scheduler.cxx: jobserver_monitor, wait_idle"]}
{"id": "C44", "title": "Scheduler sub-phases are balanced", "statement": "As long as threads lock and unlock only the match phase and switch to load or execute from it and back, the scheduler's sub-phase (which sets the queued tasks aside) is entered exactly when the build goes from match to execute and left when it goes back; it is never left without having been entered.", "quantifier": "every number of threads and every interleaving that keeps to this discipline", "why_tests_cant": "schedule property; a wrong order trips an assertion or runs the wrong tasks only in rare interleavings", "anchors": ["libbuild2/context.cxx: run_phase_mutex::unlock, relock", "libbuild2/scheduler.cxx: push_phase, pop_phase", "libbuild2/target.cxx: dir_search"]}
{"id": "C45", "title": "Integer sequences", "statement": "$integer_sequence(begin, end, step) gives begin, begin plus step and so on, all those and only those that are less than end, for every step other than zero, and always ends.", "quantifier": "all triples of 64-bit unsigned integers", "why_tests_cant": "2^192 triples; wraparound happens only near 2^64", "anchors": ["libbuild2/functions-integer.cxx: integer_sequence"]}
{"id": "C46", "title": "A saved configuration is the one that was configured", "statement": "After configuring a project and its amalgamations, loading them again without the command line overrides gives each configuration variable that a project uses the value it had when configuring, no matter whether it came from the project's or an amalgamation's configuration file, a default or an override, and no matter which of the projects wrote it. Unused variables are dropped, unless config.config.persist says otherwise, with the last entry about the variable winning.", "quantifier": "every number of nested projects, every combination of values in their configuration files, defaults, save flags, overrides on the command line, and every subset of projects being configured", "why_tests_cant": "the value may be inherited across any number of projects, each of which decides for itself whether another one writes it; tests cover a few combinations with two projects", "anchors": ["libbuild2/config/operation.cxx: save_config_variable, save_config, configure_project", "libbuild2/config/utility.txx: lookup_config_impl", "libbuild2/config/utility.cxx: lookup_config, unconfigured", "libbuild2/config/module.cxx: save_variable"]}
{"id": "C47", "title": "Script flow control", "statement": "A recipe, test or shell script with if-elif-else (also ifn and ife), while, for, break, continue and exit, nested in any way, runs exactly the commands that its structure says, in that order and with the iteration numbers that say which iterations they belong to: one branch of each if, the body of a loop as long as the condition holds or once for each element, break and continue for the innermost loop, nothing after exit or a failure. A recipe's source is accepted only if all the constructs are closed and break and continue are inside loops, an else belongs to the nearest if, and a source has only one reading.", "quantifier": "all scripts of any nesting depth, all behaviors of the commands and conditions, any number of iterations, all sources", "why_tests_cant": "unbounded nesting and iteration; the executor works on a flat list of lines and searches for the ends of the constructs", "anchors": ["libbuild2/script/parser.cxx: exec_lines, pre_parse_line_start", "libbuild2/build/script/parser.cxx: pre_parse_script, pre_parse_line, pre_parse_block, pre_parse_if_else, pre_parse_loop and their _v1 versions"]}
{"id": "C48", "title": "Script commands do not overwrite each other's output files", "statement": "The files that the standard streams of the commands of a script are saved to have different names for different commands, and for executions of the same command in different iterations, whatever path the execution takes.", "quantifier": "all scripts, all behaviors of the commands and conditions, any number of iterations", "why_tests_cant": "the names are made of indexes that are recalculated on each path through nested constructs", "anchors": ["libbuild2/script/parser.cxx: exec_lines (line index), fcend", "libbuild2/script/run.cxx: std_path in run_pipe", "libbuild2/build/script/parser.cxx: exec_cmd callback"]}
{"id": "C49", "title": "Command expressions", "statement": "In a script line, `&&` and `||` have the same precedence, associate to the left, and run the right-hand side only if the left-hand side was respectively successful or not. If the line fails, then exactly one failed pipeline is diagnosed, and if it does not, then none is; a failing condition is never diagnosed. The commands of a line have different numbers.", "quantifier": "all expressions of any length, all results of the pipelines", "why_tests_cant": "unbounded expressions and all combinations of results", "anchors": ["libbuild2/script/run.cxx: run_expr, run, run_cond"]}
{"id": "C50", "title": "Evaluation contexts: precedence, associativity and short circuit", "statement": "What is written in an evaluation context up to its closing parenthesis has one reading: the ternary operator (right-associative), then `||`, `&&` and the comparisons (left-associative), then `!`, nested contexts and function calls. The parser accepts exactly the sources that have a reading and that evaluate, and its values, its effects and the place it continues from are those of the reading: operands from the left to the right, the right-hand side of `||` only if the left one is false and of `&&` only if it is true, and one alternative of the ternary operator. What is not evaluated has no effects and cannot fail, but must be an expression, and the parser continues after it from the same place as if it was evaluated.", "quantifier": "all token sequences, all values, functions (that fail or have effects), all nesting depths", "why_tests_cant": "unbounded expressions and functions", "anchors": ["libbuild2/parser.cxx: parse_eval, parse_eval_comma, parse_eval_ternary, parse_eval_or, parse_eval_and, parse_eval_comp, parse_eval_value"]}
{"id": "C51", "title": "Conditions, switches and loops in buildfiles", "statement": "Loading a buildfile with if-else chains, switches, for and while loops, break and continue, nested in any way, executes exactly the lines that its structure says: one branch of a chain (and only the conditions up to it are evaluated), the first arm with a case that matches or the default, the body of a loop once for each element or as long as the condition holds; break and continue apply to the innermost loop and are errors outside of loops; what is not taken has no effect whatever it contains.", "quantifier": "all nestings of statements, all behaviors of lines, conditions, expressions and patterns, any number of iterations", "why_tests_cant": "unbounded nesting and iteration; blocks are skipped by counting braces and the bodies of loops are saved and parsed again for each iteration", "anchors": ["libbuild2/parser.cxx: parse_clause, parse_clause_block, parse_if_else, parse_switch, parse_for, parse_while, skip_line, skip_block"]}
{"id": "C52", "title": "Name patterns: inclusions and exclusions", "statement": "A name pattern in a group, for example `cxx{f* +b* -foo}`, gives exactly the entries that some of its patterns include and no later one excludes, each of them once. Each is given as a name that in the target type denotes the entry that was found (with the default extension added if the name has none, and with escaped dots). Expansion fails only if the group is not made of inclusions and exclusions, an extension has wildcards, a name is invalid, or files and directories are mixed.", "quantifier": "all groups with any number of inclusions and exclusions, all contents of the filesystem and all wildcard patterns, all target types with and without default extensions", "why_tests_cant": "unbounded groups and directory contents; names with any placement of dots", "anchors": ["libbuild2/parser.cxx: expand_name_pattern", "libbuild2/target.txx: target_pattern_fix, target_pattern_var", "libbuild2/target.cxx: dir_pattern, target::split_name, target::combine_name"]}
{"id": "C53", "title": "Libraries on the link command line", "statement": "When an executable or a shared library is linked, the command line has everything that its libraries need, directly or through other libraries, and nothing else: for a static library what it exports for static linking or, by default, its prerequisites and what it is linked with, for a shared library what it exports. Everything is passed once, unless it is to be linked whole, and everything that has something to link is after all that depend on it. A utility library is left out only if it is a part of another library. Libraries are passed again after an object file that follows them. A dependency cycle, and nothing else, is an error.", "quantifier": "all dependency graphs of libraries of any size and depth, all exported options, libraries and words, all sequences of object files and libraries", "why_tests_cant": "unbounded graphs; the same library is reached by many paths and its part of the command line is moved to the end each time, which shifts those of all the others", "anchors": ["libbuild2/cc/common.cxx: process_libraries_impl", "libbuild2/cc/link-rule.cxx: append_libraries, perform_update", "libbuild2/cc/link-rule.hxx: appended_libraries::append, hoist"]}
{"id": "C54", "title": "Checksum of a preprocessed source", "statement": "The checksum that decides whether a recompilation can be skipped does not change if only spacing and comments change and the tokens stay on their lines, and changes if any token, directive, line or file (as given by line directives) changes. The lexer reads every source to the end or fails, and what it reads are the tokens of the longest-match grammar of C and C++ including literals with prefixes and suffixes, raw strings and line directives.", "quantifier": "all sources of any length, all layouts of tokens", "why_tests_cant": "unbounded sources; injectivity of the hashed bytes, which are not delimited, is a statement about all pairs of sources", "anchors": ["libbuild2/cc/lexer.cxx: lexer::next, number_literal, char_literal, string_literal, raw_string_literal, line_directive, skip_spaces", "libbuild2/cc/lexer.hxx: lexer"]}
{"id": "C55", "title": "Substitutions in .in files", "statement": "The output of the in rule is the .in file with each substitution replaced by the current value of its variable and with line endings kept. Whatever has happened before (edits of the file, changes of values, symbol, mode or file, failed updates, crashes, removal of the output or of the database), after a successful update this is what is in place, an update fails only if the file is malformed or some name has no value, and an update does nothing if and only if what was substituted last time has not changed. Text can be escaped by doubling of the symbol.", "quantifier": "all .in files, all symbols, modes and values, all histories of edits, updates, failures and crashes", "why_tests_cant": "unbounded files and histories; the rule edits the line in place while it scans it and keeps a partial list of hashes that is continued by later updates", "anchors": ["libbuild2/in/rule.cxx: perform_update, process, substitute, lookup", "libbuild2/in/rule.hxx: replace_newlines"]}
{"id": "C56", "title": "Sequences of names", "statement": "A sequence of names gives exactly the names that its structure says, in order: every name of a group is qualified with the project, directory and type of its prefix (directories accumulate, and a second project or type is an error), adjacent groups are crossed (each name on the left qualifies each name on the right), a name forms a pair with each name of a group on the right of @ and a missing side is the empty name, an expansion in a group is qualified like what is written there, and parts of a word that are not separated, literal or not, are the word that they spell together. It is an error only if it stands for nothing. Parsing ends for every sequence of tokens, and no pair is left without its second half.", "quantifier": "all sequences of any length and nesting of groups, crosses, pairs, expansions and concatenations, all paths, projects and qualifications", "why_tests_cant": "unbounded nesting, and crosses parse their right-hand side again for every name on the left", "anchors": ["libbuild2/parser.cxx: parse_names, parse_names_trailer, splice_names, append_name"]}
{"id": "C57", "title": "Uninstalling is the inverse of installing", "statement": "If nothing is in the way, installing any set of targets succeeds, after which every file and link is in its place with its content, with all the directories it is in, and nothing else has changed. Uninstalling them, from whatever the filesystem has become and in any order, removes exactly those files and links and the leading installation directories that have nothing else at any depth, and never anything that these targets did not install. So installing and then uninstalling leaves the filesystem as it was.", "quantifier": "all filesystems, all sets and orders of targets, any depth of installation directories, all filters", "why_tests_cant": "unbounded trees and orders; removal of a directory depends on what all the targets before and after leave in it", "anchors": ["libbuild2/install/rule.cxx: resolve, install_d, install_f, install_l, perform_install, uninstall_d, uninstall_f, uninstall_l, perform_uninstall", "libbuild2/install/utility.cxx: filter_entry", "libbuild2/cc/install-rule.cxx: install_extra, uninstall_extra"]}
{"id": "C58", "title": "A build specification means what it spells", "statement": "A build specification is accepted exactly if it is a sequence of targets, of operations and meta-operations with parentheses, where there are no meta-operations inside of parentheses. Words in front of parentheses are meta-operations if there are operations inside and operations otherwise, everything inside and every parameter is for each of them, adjacent targets are for one default operation, and adjacent operations and targets are for one default meta-operation. Meta-operations are executed in order, each in its own context, and an operation that is itself a meta-operation is executed on its own. The build fails exactly if some name is unknown or a meta-operation is nested, in which case everything before has been executed and what comes after makes no difference.", "quantifier": "all sequences of tokens of any length and nesting, all sets of known operations and meta-operations", "why_tests_cant": "unbounded nesting and sequences; the driver repeats an iteration with a different meaning (lifting) and skips what has been done", "anchors": ["libbuild2/parser.cxx: parse_buildspec, parse_buildspec_clause", "b/b.cxx: main (loop over meta-operations and operations)"]}
{"id": "C59", "title": "Timeouts of scripts", "statement": "The deadline of a command of a test is the nearest of all that apply to it: of the test operation, of every test group it is in, of all the timeouts of tests counted from when the test started, the last one set for the rest of the test, its own, and those of the commands on its left in the pipeline; of two at the same time the failing one counts. A pipeline that is done by its deadline has the same outcome as without timeouts. One that is not is done within four seconds of it, whatever its commands do. A command that is terminated because it is late fails the script unless its timeout was specified with --success, in which case it counts as successful; one that has to be killed always fails it.", "quantifier": "all histories of timeout commands in nested groups and tests, all pipelines of any length, with any finish times, reactions to termination and deadlines", "why_tests_cant": "depends on the time at which everything happens, on processes that do not cooperate, and on unbounded nesting and pipelines", "anchors": ["libbuild2/script/timeout.cxx: parse_timeout", "libbuild2/script/timeout.ixx: parse_deadline, earlier", "libbuild2/test/script/script.cxx: set_timeout, effective_deadline", "libbuild2/script/run.cxx: term_pipe, wait_pipe, read_pipe, complete_pipe, run_pipe"]}
{"id": "C60", "title": "The compilation database is current", "statement": "After every update, the compilation database has exactly one entry for every output that has been checked in it, with the command line that it is compiled with now; of outputs that have not been checked it has what it had before or, if all of their directory was updated, nothing. It is not written if nothing has changed, is only written at the end of the outermost update, is read back as just what was written, and a truncated one is rejected instead of being taken for a smaller one. No sequence of builds makes its bookkeeping fail an assertion.", "quantifier": "all sequences of builds, of nested updates in them, of checks and compilations of any outputs, of changes to command lines and of removals between builds; all truncations of the file", "why_tests_cant": "depends on unbounded histories of builds, on nested contexts and batches of operations, on failures and crash points", "anchors": ["libbuild2/cc/compiledb.cxx: compiledb_file::pre, match, execute, post", "libbuild2/cc/compiledb.hxx: compiledb_file", "libbuild2/cc/compile-rule.cxx: apply (depdb and compiledb::match), perform_update (compiledb::execute)"]}
{"id": "C61", "title": "Cleaning up after scripts", "statement": "Whether or not it succeeds, cleaning up after a test removes only what has been registered for it, explicitly or by the commands that create it, and nothing outside of the sandbox of the tests, whatever the test does. If it succeeds then nothing is left in the working directory of the test, nor the directory itself. It succeeds exactly if everything registered is there (unless registered with &?) and is of the kind it was registered as and everything that is in the registered directories and in the working directory is registered. After a test that creates everything with builtins and redirects, and moves what it has created around, it succeeds and everything is as it was before the test.", "quantifier": "all filesystems, all sequences of registrations, redirects, builtins and programs with arbitrary effects, all registered paths including patterns", "why_tests_cant": "depends on unbounded histories of commands and on what every one of them leaves in the filesystem", "anchors": ["libbuild2/script/run.cxx: clean, run_pipe (cleanups, redirects, builtin callbacks)", "libbuild2/script/script.cxx: environment::clean", "libbuild2/test/script/runner.cxx: default_runner::leave"]}
{"id": "C62", "title": "Header dependencies are complete, also of generated headers", "statement": "If the headers of a source file are extracted successfully, then what is recorded in the dependency database and added as prerequisites is exactly the headers that the source file includes when everything is up to date, in order, and all of them are up to date, whatever other targets that are built in parallel update at whatever time. A header that is said to be not found is included and neither exists nor can be generated. The extraction succeeds exactly if the source can be preprocessed with everything up to date, in a bounded number of runs of the preprocessor. Over any sequence of builds and edits, a target that is not recompiled was compiled with exactly these headers and none of them has changed since, and if none has changed it is not recompiled and the preprocessor is not run.", "quantifier": "all source files (any dependence of what is included on the contents of the headers before), all sets of generated, missing and outdated headers, all interleavings with updates by others, all cached lists, all sequences of builds", "why_tests_cant": "depends on unbounded chains of generated headers, on interleavings with other threads in the middle of a run of the preprocessor and on histories of builds", "anchors": ["libbuild2/cc/compile-rule.cxx: extract_headers, apply", "libbuild2/dyndep.cxx: inject_file", "libbuild2/algorithm.cxx: update_during_match"]}
{"id": "C63", "title": "Cached variable values are never stale", "statement": "Caching of computed values (target type/pattern-specific prepend/append, command line overrides) is invisible: whatever has been assigned and looked up before, from wherever, a lookup does not fail and yields the value that it would yield if nothing had been cached. As long as nothing is assigned, what a lookup has returned a reference to stays as it is, whatever else is looked up.", "quantifier": "all trees of scopes, all target types/patterns and what they match, all command lines, all sequences of assignments and lookups of any length", "why_tests_cant": "depends on unbounded histories of assignments interleaved with lookups from different places, where an entry that is shared between targets is found valid or not by comparing versions", "anchors": ["libbuild2/variable.txx: variable_cache::insert", "libbuild2/scope.cxx: lookup_original, lookup_override_info", "libbuild2/variable.cxx: variable_map::insert, lookup_to_modify"]}
{"id": "C64", "title": "An ad hoc recipe is executed again whenever what it depends on changes", "statement": "Whatever the history of edits, of changes to prerequisites, to the environment and to programs, and of builds, successful or not: after a build that succeeds, a target with an ad hoc recipe (buildscript) has the content that the recipe as it is now makes of its prerequisites as they are now. If nothing has changed since then the recipe is not executed. In particular, it is executed if its text has changed, or the value of a variable that it expands, its targets, its prerequisites, or the checksum or environment of a program among them. Recipes for which this cannot be tracked (impure functions and computed variable names outside of the depdb preamble) are rejected, and no other recipe fails because of an untracked variable.", "quantifier": "all recipes (with nested conditions and loops), all meanings of functions, operators and programs, all histories of edits and builds of any length", "why_tests_cant": "depends on what every expression in a script can depend on, on collisions of what is hashed, and on unbounded histories", "anchors": ["libbuild2/adhoc-rule-buildscript.cxx: hash_script_vars, hash_target, hash_prerequisite_target, perform_update_file_or_group, execute_update_file", "libbuild2/build/script/parser.cxx: pre_parse, lookup_variable, lookup_function, exec_depdb_preamble", "libbuild2/name.hxx: to_checksum"]}
{"id": "C65", "title": "An ad hoc pattern rule applies exactly to the declarations it looks like", "statement": "An ad hoc pattern rule with regular expressions for its target, members of the group and prerequisites matches a target exactly if, for what is captured in one being available in those after it, every regular expression matches all of the name of what it is for: the target itself, and the first member and the first (normal) prerequisite of the respective type. What recipes and substitutions get as captured is a way in which it does so, the one found by matching the names one by one. Rules with inconsistent flags are rejected.", "quantifier": "all patterns with any number of elements and any regular expressions with groups, alternatives, repetitions and back references; all declarations with names without directory separators", "why_tests_cant": "regular expressions with back references have unboundedly many matches, and the names are concatenated, so a part of the expression could match across names", "anchors": ["libbuild2/adhoc-rule-regex-pattern.cxx: adhoc_rule_regex_pattern (constructor), match", "libbuild2/algorithm.ixx: find_adhoc_member"]}
{"id": "C66", "title": "What module a translation unit belongs to and what it imports", "statement": "The scan of a preprocessed C++ translation unit accepts it exactly if the declarations written in it, at the beginning of a line and outside of braces, make a unit: there is at most one module declaration, there is one if there is a global module fragment, and it is before any import of a partition. The result is the kind of the unit, its name with the partition, and every imported module or partition once, in the order in which they are first mentioned, as re-exported if any of its imports is. What is inside of braces has no effect. What is written to the dependency database is read back the same.", "quantifier": "all preprocessed sources of any length, all spellings of the keywords by the supported compilers, all nesting of braces", "why_tests_cant": "sources and their nesting are unbounded, and whether something is a declaration depends on everything before it", "anchors": ["libbuild2/cc/parser.cxx: parser::parse, parse_module, parse_import, parse_module_name, parse_module_part, parse_header_name", "libbuild2/cc/compile-rule.cxx: to_string(unit_type, module_info), to_module_info", "libbuild2/cc/lexer.cxx: lexer::next"]}
{"id": "C67", "title": "Every imported module is resolved to the interface of that name, and the compiler gets all that is needed", "statement": "An import is resolved to the first available module that is known by this name (of the standard library, from a library or with an explicitly specified name) and, only if there is none, to the first of those the names of whose files look most like the name of the module: no file is better than one that spells it (with separators, changes of case and directories in place of dots and colons), then come those that end with it, better separated and shorter ones first, then the others; a file the end of which does not look like the end of the name is not considered. A module that cannot be resolved is diagnosed, and so is a guess that turns out to be of another module. The compiler is given, under their names, exactly the binary interfaces of the modules that the unit imports, directly or not, including the interface of its own module for an implementation unit, each once.", "quantifier": "all names of files and modules, all sets of available modules in any order, all graphs of translation units and imports of any depth", "why_tests_cant": "names and graphs of imports are unbounded, and an interface is found to be needed only by following interfaces that have been resolved elsewhere", "anchors": ["libbuild2/cc/compile-rule.cxx: search_modules, extract_modules, append_module_options, std_module_name"]}
{"id": "C68", "title": "Cleaning removes exactly what updating has made", "statement": "Cleaning targets removes the files that belong to them and to everything that they are made from in the same project (targets, ad hoc members, extra files and directories such as dependency databases), and then the directories that they are in if nothing is left there. Nothing else is removed, created or changed, whatever fails and whenever it is looked at; neither is the working directory or what it is in. Each target is cleaned once, after everything that is made from it or in it, and unless there is a failure all of them are. What is left does not depend on the order in which threads do this, and is what was there before updating.", "quantifier": "all acyclic graphs of targets of any size, all filesystems, all interleavings of matching and of executing recipes, failures at any point", "why_tests_cant": "the number of schedules and of graphs is unbounded, and whether a directory is empty when it is removed depends on the order of everything else", "anchors": ["libbuild2/algorithm.cxx: perform_clean_extra, perform_clean_group_extra, execute_impl, match_prerequisite_range, inject_fsdir, reverse_execute_members", "libbuild2/rule.cxx: fsdir_rule, alias_rule, file_rule", "libbuild2/filesystem.txx: rmfile, rmdir", "libbuild2/filesystem.cxx: rmdir_r"]}
{"id": "C69", "title": "Flow control together with directory scopes and recipes in buildfiles", "statement": "As C51 but also with what takes more than one line without being flow control, namely blocks of directory scopes and recipes. Loading a buildfile executes exactly the lines that its conditions, switches and loops select, in order. Of an if-else chain it is the first branch whose condition holds, or else if none does, and conditions after it are not evaluated; of a switch it is the first case all of whose patterns have an alternative that matches, or the default; the body of a loop is executed for each element or while the condition holds, until break, which with continue concerns the innermost loop and is an error outside of loops. What is in branches that are not selected makes no difference, whatever is nested in it. A directory scope is left however its block ends. If the execution ends, loading does with the same result, and there is one result.", "quantifier": "all buildfiles with any nesting of blocks, switches, loops, scopes and recipes, any meaning of their expressions, including loops that go on forever", "why_tests_cant": "nesting and the number of iterations are unbounded, and what is skipped is skipped by counting braces", "anchors": ["libbuild2/parser.cxx: parse_clause, parse_clause_block, parse_if_else, parse_switch, parse_for, parse_while, skip_line, skip_block"]}
{"id": "C70", "title": "What set and for read from a command is what its output is split into, however it arrives", "statement": "The set builtin and a for loop that reads from a command get the words of its output, its lines (-n) or all of it (neither option for set), in order, each once: carriage returns before newlines are removed, the end of the output is an element if it is not blank or with -e, and one trailing newline is removed without it. This does not depend on how the output arrives: in what portions it is written and how much of it is available at a time. What has been read when the loop ends early is the beginning of this, and the output is then read to the end so that the command is not blocked.", "quantifier": "all outputs of any length, all portions in which they arrive, all delays between them, all points at which the loop ends", "why_tests_cant": "where a portion ends depends on the size of pipes, on buffering in the command and on the schedule, so a test gets it all in one portion nearly always", "anchors": ["libbuild2/script/run.cxx: stream_reader, read, set_builtin", "libbuild2/script/parser.cxx: exec_lines (for)", "doc/testscript.cli: set builtin"]}
{"id": "C71", "title": "The target that a prerequisite refers to does not depend on the order in which threads search", "statement": "A prerequisite refers to the declared target in the output directory if there is one, otherwise to the declared one in the corresponding source directory, otherwise to the file that exists there (with the specified or the default extension), and otherwise to a new target in the output directory; with the output directory specified or an absolute source directory it is the source target, and it is an error if there is none. This is what is found by any number of threads that search at the same time in any order, all references to the same target get the same object, and no new targets come into existence in the source tree. Searching does not wait.", "quantifier": "all sets of declared targets, source trees, prerequisites (relative, absolute, with or without the output directory and extension), numbers of threads and interleavings of the operations on the set of targets", "why_tests_cant": "whether a search finds something in the set depends on what other threads have put there in the meantime", "anchors": ["libbuild2/search.cxx: search_existing_target, search_existing_file, create_new_target", "libbuild2/target.cxx: target_search, file_search, target_set::find, insert_locked", "libbuild2/algorithm.cxx: search"]}
{"id": "C72", "title": "Tests of a testscript run in parallel with a result that doesn't depend on the schedule", "statement": "Executing a testscript executes the commands of every scope at most once: those of an inner scope after the setup of its group and before its teardown, which is only executed if everything in the group passes (or the setup exits it). Of each if-else chain the first scope whose condition holds is executed, what is deselected is not, and a successful exit in a condition ends starting of scopes. When the execution ends, no scope is still being executed; it does end. Whether the script passes, and with what variables what scopes are executed, is the same for every order in which inner scopes are executed in parallel; without keeping going fewer may be executed but the result is the same.", "quantifier": "all trees of scopes, behaviours of the commands, selections, variables and interleavings of the threads that execute the scopes, with and without keeping going", "why_tests_cant": "inner scopes are executed by any number of threads while the group is still evaluating conditions of the following ones; only some schedules would be seen", "anchors": ["libbuild2/test/script/parser.cxx: execute_impl, exec_scope_body", "doc/testscript.cli: Model and Execution"]}
{"id": "C73", "title": "A header that has yet to be generated is looked for where the compiler will find it", "statement": "An included header that the compiler doesn't find (it is reported as a relative path) is mapped to a target in one of the include directories: with the longest prefix of its directory that leads to (or above) the directory of the target for which an include directory is specified, the one that is closest to it, and without a prefix, the closest where the header is declared. Once this header is generated, the compiler finds it and not another one. The path that is mapped refers to the same file as the one that is written. A header that is found in a source directory is remapped to the corresponding output directory right before it if it is declared there, and the compiler will then find that.", "quantifier": "all lists of include directories of the target and of libraries, target directories, paths of headers, sets of declared targets and of existing files", "why_tests_cant": "it is a property of all directory layouts and orders of options; tests have a few", "anchors": ["libbuild2/dyndep.cxx: append_prefix, srcout_builder::next, enter_file_impl", "libbuild2/cc/compile-rule.cxx: append_prefixes, build_prefix_map"]}
{"id": "C74", "title": "The generated check accepts exactly the versions that satisfy the constraint", "statement": "For a dependency with a version constraint, the condition that is substituted for $libfoo.condition(VER[,SNAP])$ is a C preprocessor expression that is true if and only if the version that the macros are set to satisfies the constraint: pre-releases are before the release, snapshots after the pre-release they follow, X.Y.Z- is before all the pre-releases. With $libfoo.check(VER[,SNAP])$ in a header the preprocessor stops with an error if and only if the version macro is defined and the version does not satisfy the constraint. The condition can be used as an operand in a larger one. If the constraint is about snapshots and there is no snapshot macro, then this is diagnosed. The macros are taken from between the parentheses, with blanks around them.", "quantifier": "all version constraints, versions and names of macros", "why_tests_cant": "the space of versions and constraints is not finite (for practical purposes), and what is tested is text", "anchors": ["libbuild2/version/rule.cxx: in_rule::lookup", "doc/manual.cli: version Module"]}
{"id": "C75", "title": "Diagnostics of commands that run in parallel is not mixed", "statement": "In a parallel build everything that a process writes to its stderr, with the diagnostics that the build system adds before it and the report of its unsuccessful exit, is in the diagnostics stream once, complete, in order and contiguous: nothing of other processes gets into it, whatever the schedule and in whatever portions it arrives. In a serial build the stream is the diagnostics of the commands one after the other. With --no-diag-buffer what is read from a process gets into the stream by line, where the last line is completed with a newline if need be. Nobody waits forever: neither for the stream, nor a process for its pipe to be read, and executions end.", "quantifier": "all numbers of jobs, sequences of commands in each, texts that processes write, portions in which these arrive, capacities of pipes and interleavings, with and without --no-diag-buffer", "why_tests_cant": "how output of processes is interleaved depends on the schedule and the size of pipes; a test sees one interleaving", "anchors": ["libbuild2/diagnostics.cxx: diag_buffer::open, read, write, close", "libbuild2/diagnostics.ixx: diag_buffer::pipe", "libbuild2/diagnostics.hxx: diag_stream_lock"]}
{"id": "C76", "title": "The type and visibility of a variable follow from its name, whatever the order", "statement": "A variable with a qualified name gets the type, visibility and overridability of the most specific pattern that matches its name ([<prefix>.](*|**)[.<suffix>]; greater sum of lengths, * before **, then the last inserted): config.import.<project>, for example, is always an absolute directory. Its type never changes once it has one and its visibility only gets more restricted. It does not matter in what order variables are entered, attributes are specified and patterns are inserted, provided that patterns are applied retrospectively with more specific ones first: what the variable ends up with is what is specified for it, by whoever specifies it. A variable that is overridden but cannot be is diagnosed when it is entered.", "quantifier": "all names, patterns, attributes and histories of operations", "why_tests_cant": "buildfiles and modules enter variables and patterns in any order, depending on the project", "anchors": ["libbuild2/variable.cxx: variable_pool::insert, update, variable_patterns::insert, match_pattern, merge_pattern", "libbuild2/variable.hxx: variable_patterns::pattern", "libbuild2/parser.cxx: apply_variable_attributes", "libbuild2/context.cxx: built-in patterns"]}
{"id": "C77", "title": "Buildfiles that source, include and import one another", "statement": "A buildfile that is sourced is executed as if its text were in place of the directive (every time; break and continue in it apply to the loop around the directive, its targets count for the default one unless no_default_target is specified). One that is included is executed at most once per project, in the scope of its own directory, and one that is imported with once likewise not again; both are independent of loops and conditions around the directive. The default target of a directory is the first one that its buildfile declares unless there is an explicit one. A directive that would execute a file that is being executed is diagnosed unless one of the directives of the cycle is marked with allow_cycle, and only then; loading always ends.", "quantifier": "all sets of buildfiles with directives nested in conditions and loops in any way, with conditions that depend on anything that has happened before", "why_tests_cant": "buildfiles refer to one another in arbitrary graphs, and what is executed depends on conditions", "anchors": ["libbuild2/parser.cxx: detect_include_cycle, source_buildfile, parse_source, parse_include, parse_import, parse_clause, process_default_target", "libbuild2/scope.hxx: insert_buildfile", "libbuild2/file.cxx: source_once"]}
{"id": "C78", "title": "Build system modules are booted and initialized once and in order", "statement": "A module that a project's bootstrap file names is booted once, even if other modules boot it too, and is initialized for the root scope while the project is loaded: in the first or second batch or after these, before root.build, or after root.build, as it asks for, and within each in the order in which modules were booted. Any other module is initialized when it is used. A module is told that an initialization is its first in the project exactly if it is. It is initialized at most once for a scope, however often and by whomever it is used; each further use reports the same result, or fails if the module is required and was not configured. A module that must be booted cannot be used otherwise. Loading always ends without an assertion.", "quantifier": "all modules, whatever modules they boot and use for whatever scopes depending on what they find, all bootstrap files and buildfiles", "why_tests_cant": "modules use one another in arbitrary graphs, directly or from buildfiles, in any order and for any scopes", "anchors": ["libbuild2/module.cxx: boot_module, init_module, load_module", "libbuild2/module.hxx: module_boot_init, module_state_map", "libbuild2/file.cxx: load_root"]}
{"id": "C79", "title": "Where an imported target comes from", "statement": "What a user says takes precedence over what is discovered: if a configuration variable is defined for the target that is imported (config.<project> for a tool, config.import.<project>.<name>.<type>, config.import.<project>.<name>, in this order) then it alone determines the target, and null means none (an error unless importation is optional); else if config.import.<project> is then the target is imported from this project, else build2 from itself, else from the nearest of: a subproject of the importing project, its amalgamation, a subproject of that and so on outwards; otherwise from nowhere, and it is up to rules. A target without a project is the importing project's own, and a directory is where it is. Variables of other projects and targets don't matter. The subprojects of a project are exactly the project directories in its output and source directories; two with the same name are diagnosed; the order in which directories are listed does not matter.", "quantifier": "all targets, configurations, nested projects, directories and orders of their entries", "why_tests_cant": "what is imported depends on the combination of variables, the amalgamation and what there happens to be in directories, listed in any order", "anchors": ["libbuild2/file.cxx: import_search, find_subprojects, bootstrap_src"]}
{"id": "C80", "title": "Projects that amalgamate one another", "statement": "What amalgamates a project is what its bootstrap.build specifies (nothing if that is empty), or else the nearest project outside of its output directory (home and beyond are not considered), no matter what else is loaded and in which order. Each project is loaded once and its directories and amalgamation never change. With a project, everything that amalgamates it is loaded: what amalgamates it, what amalgamates that and so on up to a project that isn't amalgamated; this always ends. A project is strongly amalgamated by the outermost of these such that each on the way has its sources within those of the next. A specified amalgamation that is absolute or not within the projects outside is diagnosed.", "quantifier": "all trees of directories with projects and configured projects, all values of the variable amalgamation, and all histories of loading projects and what amalgamates them", "why_tests_cant": "what is loaded first depends on the command line, imports and subprojects; a test has one tree and one order", "anchors": ["libbuild2/file.cxx: find_out_root, bootstrap_src, create_bootstrap_outer, create_root", "libbuild2/scope.ixx: scope::strong_scope, parent_scope"]}
{"id": "C81", "title": "A distribution has exactly the files of the project, each in its place", "statement": "The directory of a distributed package has exactly the files of the project's source directory that are known to it and not excluded with dist=false and the generated ones that are included explicitly; each is where it is in the project, or where the dist variable moves it, and never outside of the directory of the package. Two files with the same destination are an error, the order in which targets are gone through makes no difference, and what was in the directory before is of no consequence; if copying fails then no directory is left. When a project is distributed without being loaded (bootstrap), the package has exactly the files under the source directory, following symlinks, except .git*, .bdep, .bpkg and .build2; a symlink that leads back to a directory it is in is skipped.", "quantifier": "all sets of targets in all orders, with all values of the dist variable and all source and output directories; all directory trees with symlinks, in all orders of listing", "why_tests_cant": "tests distribute a few small projects; the outcome depends on the order of a hash table, on where output directories are, and on the order in which the file system lists entries", "anchors": ["libbuild2/dist/operation.cxx: dist_project, install, add_subdir"]}
{"id": "C82", "title": "Backlinks in the source directory show what has been built", "statement": "When a configuration is forwarded, after a successful update each file target that is to be linked, and each member of its group unless excluded, is available in the source directory, where it corresponds to its place in the output directory, with the same contents; a file that doesn't exist has no link, not even an old one. If the update or linking fails then none of the links is left. Clean removes exactly the links, so that update followed by clean leaves the source directory as it was. Nothing else in the source directory is changed, in particular no file of the user's. Only targets of forwarded configurations that aren't in source are linked, and an invalid value of the backlink variable is diagnosed.", "quantifier": "all file systems, sets of links in all modes, recipes with any effects and outcomes, and values of the backlink variable", "why_tests_cant": "tests link one executable into a clean source directory; failures of recipes, files in the way, links to links and groups are not tried in combination", "anchors": ["libbuild2/algorithm.cxx: try_rmbacklink, update_backlink, clean_backlink, backlink_test, backlink_collect, backlink_update_post, backlink_clean_pre, execute_impl"]}
{"id": "C83", "title": "Disfiguring a forward removes exactly the links into the output directory", "statement": "When forwarding of a source directory to an output directory is disfigured, all symbolic links in the source directory, at any depth, that have the form of those made to built files (absolute, normalized, and leading into the output directory) are removed; no other entry is touched, in particular nothing in .git*, .bdep, .bpkg and .build2, and nothing in the output directory itself; doing it again changes nothing; and nothing is removed if the project is configured in its source directory.", "quantifier": "all directory trees with links of all kinds, and all source and output directories", "why_tests_cant": "tests have a few links in a clean source directory; names and places of entries are arbitrary", "anchors": ["libbuild2/config/operation.cxx: disfigure_forward"]}
{"id": "C84", "title": "Disfiguring undoes configuring and removes nothing else", "statement": "After configure, the configuration of the project and of each of its subprojects that is loaded is in its config.build file, and src-root.build has the source directory if that isn't the output directory; nothing outside of the output directory is changed, except that the directories it is in are made. Disfigure removes the config.build and src-root.build files of the project and all its subprojects, at any depth, so that none of them is configured, and directories that are left empty, except those the current directory is in; no other file or non-empty directory is ever removed and nothing is changed. It reports to have done something exactly if it has. If a project is configured in a directory that doesn't exist and is then disfigured, the directory is gone and everything else is as it was, apart from directories that had to be made for it to be in, which are kept.", "quantifier": "all file systems, all output, source and current directories, and all projects with any tree of subprojects in any directories and with either naming of build files", "why_tests_cant": "tests configure one project with at most one level of subprojects; the order in which directories become empty depends on the tree of subprojects and on what else is there", "anchors": ["libbuild2/config/operation.cxx: configure_project, disfigure_project, save_src_root", "libbuild2/filesystem.txx: rmfile, rmdir", "libbuild2/config/module.hxx: config_file"]}
{"id": "C85", "title": "String functions find and replace exactly the occurrences that are there", "statement": "$string.contains() is true exactly if the substring occurs, and with once exactly if it occurs at one position only (also counting overlapping ones); $starts_with() and $ends_with() exactly if it is how the string starts or ends, even if it also occurs elsewhere; with icase up to case. $compare(), $find_index() and $filter() take an element exactly if all that the flags say is so, $find_index() gives the first such position or the size, and $filter() and $filter_out() split the list in order. $replace() always ends, also if the replacement contains the substring; the result is the string with the leftmost occurrence replaced, then the leftmost in what follows it, and so on; with first_only or last_only the first or last one, and with both the only one, or else the string is unchanged. An unknown flag or an empty substring is an error.", "quantifier": "all strings, substrings, replacements, lists and sets of flags, and all mappings to lower case", "why_tests_cant": "tests have a dozen strings; overlapping occurrences, replacements containing the substring and combinations of flags are endless", "anchors": ["libbuild2/functions-string.cxx: find, rfind, contains, starts_with, ends_with, compare, replace, find_index, filter"]}
{"id": "C86", "title": "Integer sequences and sorted lists have the elements they should", "statement": "$integer_sequence() ends and gives the numbers from the first in steps that are less than the end, each once and ascending, for all values of the arguments. $sort() gives all elements of the list in ascending order, and with dedup exactly one of each group of equal ones (for strings with icase: equal up to case) and nothing that isn't in the list; unknown flags are errors.", "quantifier": "all 64-bit integers as begin, end and step; all lists, all total orders of their elements and all results the sorting algorithm may give for equivalent elements", "why_tests_cant": "tests have a few small numbers and short lists; what goes wrong here is at the end of the range of integers", "anchors": ["libbuild2/functions-integer.cxx: integer_sequence, sort", "libbuild2/functions-string.cxx: sort", "libbuild2/functions-path.cxx: sort", "libbuild2/functions-name.cxx: sort", "libbuild2/functions-builtin.cxx: functions_sort_flags"]}
{"id": "C87", "title": "Names are filtered by target type, and no name is lost or torn from its pair", "statement": "$name.filter() gives exactly the names whose target type is one of those given or derived from one, directly or not, and $name.filter_out() exactly the others, in order and with the two halves of a pair kept together; an imported name whose type is unknown is among the others. $is_a() agrees with it. Either fails, and then both do, exactly if a target type is not the simple name of a known one or the type of some name can't be told.", "quantifier": "all lists of names and pairs, all lists of target types and all hierarchies of types of any depth", "why_tests_cant": "tests have three names and no hierarchy of more than one level; pairs and imported names in any position are endless", "anchors": ["libbuild2/functions-name.cxx: to_target_type, is_a, filter", "libbuild2/target-type.hxx: target_type::is_a", "libbuild2/scope.cxx: scope::find_target_type"]}
{"id": "C88", "title": "Replacement in lines loses no line and no newline", "statement": "$regex.replace_lines() handles every line of the text once and in order: a line is replaced, copied, or dropped if it doesn't match and is not to be copied, or if it matches, there is no format and nothing is left of it. The result is the list of what is left or, with return_lines, a text in which every line left ends with a newline exactly if it did; if nothing matches this is the very text, with or without a newline at the end. $regex.apply() gives the replacements of all elements in order without empty ones, unless these are to be copied, and $regex.merge() the same with the delimiter between any two of them, never at an end. Unknown flags are errors.", "quantifier": "all texts, lists, delimiters, sets of flags and all functions that may give the replacement of a line", "why_tests_cant": "tests have a few lines; empty lines, a missing last newline and dropped lines in any combination are endless", "anchors": ["libbuild2/functions-regex.cxx: parse_replacement_flags, replace_lines, apply, merge"]}
