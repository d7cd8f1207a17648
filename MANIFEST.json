{
 "claims": [
  {
   "property": "C01",
   "status": "proved",
   "theorems": [
    "Verif.Depdb.depdb_round_trip",
    "Verif.Depdb.depdb_round_trip_new",
    "Verif.Depdb.depdb_session_content",
    "Verif.Depdb.depdb_session_read",
    "Verif.Depdb.depdb_version_kept",
    "Verif.Depdb.depdb_write_first_loses_version"
   ],
   "note": "The lines are those of the specification `View` (Spec.lean). The version line survives every session that starts with a read or an expectation; depdb_write_first_loses_version documents that a write directly after opening a valid database overwrites the version line (the last line read)."
  },
  {
   "property": "C02",
   "status": "proved",
   "theorems": [
    "Verif.Depdb.depdb_expect_content",
    "Verif.Depdb.depdb_expect_writing_iff",
    "Verif.Depdb.depdb_expect_report",
    "Verif.Depdb.depdb_expect_unmodified"
   ],
   "note": ""
  },
  {
   "property": "C03",
   "status": "proved",
   "theorems": [
    "Verif.Depdb.depdb_crash_safe"
   ],
   "note": "All contents the file has between two byte-sized writes or truncations are covered."
  },
  {
   "property": "C04",
   "status": "partial",
   "theorems": [
    "Verif.Update.interrupted_update_redone_partial",
    "Verif.Update.unchanged_is_up_to_date_partial",
    "Verif.Update.same_tick_not_redone",
    "Verif.Update.partial_target_not_redone",
    "Verif.Update.fewer_lines_not_noticed"
   ],
   "note": "Proved under three hypotheses: the clock ticks at least once between two external events (runs, edits), the tool does not leave a partial target behind, and a rule always states the same number of lines. Each of them is shown to be necessary by a witness."
  },
  {
   "property": "C05",
   "status": "partial",
   "theorems": [
    "Verif.Depdb.depdb_skip_sound",
    "Verif.Depdb.depdb_skip_complete_partial",
    "Verif.Depdb.depdb_skip_misses_empty_line"
   ],
   "note": "The equivalence is false for databases that contain empty lines (witness: depdb_skip_misses_empty_line): the loop in skip consumes the character after a newline without checking whether it is itself a newline. Soundness is proved in full, completeness for databases whose remaining lines are non-empty."
  },
  {
   "property": "C06",
   "status": "proved",
   "theorems": [
    "Verif.Depdb.depdb_reopen"
   ],
   "note": ""
  },
  {
   "property": "C07",
   "status": "proved",
   "theorems": [
    "Verif.FileCache.cache_content",
    "Verif.FileCache.cache_compressed"
   ],
   "note": "The codec is abstract: decompressing what was compressed gives the original."
  },
  {
   "property": "C08",
   "status": "partial",
   "theorems": [
    "Verif.FileCache.cache_crash_safe_partial",
    "Verif.FileCache.cache_crash_decompress"
   ],
   "note": "False for a crash during decompression (cache_crash_decompress, for every codec and every non-empty content): init_existing trusts the truncated uncompressed file and removes the valid compressed one. Proved for all other operations and at rest."
  },
  {
   "property": "C09",
   "status": "proved",
   "theorems": [
    "Verif.TargetState.merge_order_independent",
    "Verif.TargetState.merge_grouping_independent",
    "Verif.TargetState.merge_failed_iff",
    "Verif.TargetState.merge_changed_iff",
    "Verif.TargetState.execute_members_state",
    "Verif.TargetState.execute_recipe_state"
   ],
   "note": ""
  },
  {
   "property": "C10",
   "status": "partial",
   "theorems": [
    "Verif.Action.action_decode",
    "Verif.Action.action_eq_iff",
    "Verif.Action.action_inner_outer",
    "Verif.Action.action_state_get_set",
    "Verif.Action.action_id_round_trip",
    "Verif.Action.action_compare_id",
    "Verif.Action.action_id_ne_action_inverted",
    "Verif.Action.action_id_ne_action_violated"
   ],
   "note": "All but one claim hold: `operator!= (action_id, action)` (action.hxx:112) is inverted, which is proved (action_id_ne_action_inverted) together with a witness."
  },
  {
   "property": "C11",
   "status": "proved",
   "theorems": [
    "Verif.TaskQueue.tasks_conserved",
    "Verif.TaskQueue.tasks_at_most_once",
    "Verif.TaskQueue.count_zero_all_run",
    "Verif.TaskQueue.helper_gets_task"
   ],
   "note": "Queue operations run under the queue mutex and are atomic steps; execution of a task is the interval between two of them."
  },
  {
   "property": "C12",
   "status": "proved",
   "theorems": [
    "Verif.TaskQueue.queue_meets_spec",
    "Verif.TaskQueue.own_take_exact_alone",
    "Verif.TaskQueue.own_take_not_exact"
   ],
   "note": "own_take_not_exact shows that the converse (the owner gets all of its tasks) fails after helpers overtake a saved mark and the queue wraps."
  },
  {
   "property": "C13",
   "status": "proved",
   "theorems": [
    "Verif.WaitSlot.wait_returns_only_done",
    "Verif.WaitSlot.wait_returns_current",
    "Verif.WaitSlot.no_lost_wakeup",
    "Verif.WaitSlot.count_is_unfinished",
    "Verif.WaitSlot.no_deadlock",
    "Verif.WaitSlot.waits_terminate"
   ],
   "note": "Shutdown is not modelled; every task count has one start count. Termination is under the assumption that no new tasks and waits are started (any schedule)."
  },
  {
   "property": "C14",
   "status": "proved",
   "theorems": [
    "Verif.Active.active_limit",
    "Verif.Active.counted_once",
    "Verif.Active.ready_not_stranded",
    "Verif.Active.no_stall",
    "Verif.Active.released_to_ready"
   ],
   "note": "Interleaving model with every counter of the scheduler, the threads and their states; the limit and the thread limits are parameters. Shutdown (where the limit may be exceeded) and tune are not modelled."
  },
  {
   "property": "C15",
   "status": "proved",
   "theorems": [
    "Verif.Active.tokens_conserved",
    "Verif.Active.clients_limit",
    "Verif.Active.advance_one",
    "Verif.Active.debt_is_one",
    "Verif.Active.tokens_recovered"
   ],
   "note": "Clients are assumed to return only tokens they took and to do it while the thread that started them waits for them."
  },
  {
   "property": "C16",
   "status": "proved",
   "theorems": [
    "Verif.PhaseMutex.phases_exclusive"
   ],
   "note": "A thread has a phase from the return of lock/relock until it calls unlock/relock."
  },
  {
   "property": "C17",
   "status": "proved",
   "theorems": [
    "Verif.PhaseMutex.unlock_priority",
    "Verif.PhaseMutex.no_deadlock",
    "Verif.PhaseMutex.waiters_finish"
   ],
   "note": "Termination is for any schedule in which threads finish and release what they have (spurious wakeups excluded)."
  },
  {
   "property": "C18",
   "status": "proved",
   "theorems": [
    "Verif.PhaseMutex.fail_reported",
    "Verif.PhaseMutex.fail_sticky",
    "Verif.PhaseMutex.no_false_failure"
   ],
   "note": ""
  },
  {
   "property": "C19",
   "status": "proved",
   "theorems": [
    "Verif.OpState.applied_once",
    "Verif.OpState.executed_once",
    "Verif.OpState.same_result",
    "Verif.OpState.result_final",
    "Verif.OpState.no_assert",
    "Verif.OpState.rematch_failure_asserts"
   ],
   "note": "rematch_failure_asserts: if matching an already applied target again, with more options, fails during update during match, then a dependent that executes it hits an assertion."
  },
  {
   "property": "C20",
   "status": "partial",
   "theorems": [
    "Verif.OpState.state_current",
    "Verif.OpState.read_current",
    "Verif.OpState.dependents_current",
    "Verif.OpState.looks_matched_partial",
    "Verif.OpState.looks_matched_stale",
    "Verif.OpState.looks_matched_state_stale"
   ],
   "note": "What lock_impl(), match and execute read is always current. target::matched() is not exact: between the compare-and-swap and the reset of the options in lock_impl() it is true for a target left by the previous operation (looks_matched_stale)."
  },
  {
   "property": "C21",
   "status": "proved",
   "theorems": [
    "Verif.OpState.last_waits",
    "Verif.OpState.first_runs",
    "Verif.OpState.last_turns_away",
    "Verif.OpState.all_asked_executed"
   ],
   "note": ""
  },
  {
   "property": "C22",
   "status": "proved",
   "theorems": [
    "Verif.OpState.dependency_share",
    "Verif.OpState.target_share",
    "Verif.OpState.counts_zero_iff"
   ],
   "note": "No match failed (phfail, refail): then target_count is left non-zero, but the operation is not executed."
  },
  {
   "property": "C23",
   "status": "proved",
   "theorems": [
    "Verif.Cycle.reported_is_cycle",
    "Verif.Cycle.own_chain_reported",
    "Verif.Cycle.deadlock_only_if_cycle",
    "Verif.Cycle.acyclic_completes",
    "Verif.Cycle.cyclic_never_matched",
    "Verif.Cycle.matching_stops",
    "Verif.Cycle.serial_progress",
    "Verif.Cycle.serial_reports",
    "Verif.Cycle.parallel_deadlock"
   ],
   "note": "A cycle that spans several tasks that run in parallel is not on the chain of any one of them and then nobody can continue (parallel_deadlock): such a cycle is left to the deadlock detection of the scheduler. In serial execution every cycle is reported (serial_reports)."
  },
  {
   "property": "C24",
   "status": "proved",
   "theorems": [
    "Verif.OutOfDate.rebuild_iff",
    "Verif.OutOfDate.fails_iff",
    "Verif.OutOfDate.left_alone_state",
    "Verif.OutOfDate.found_first",
    "Verif.OutOfDate.blanked",
    "Verif.OutOfDate.reverse_same",
    "Verif.OutOfDate.reverse_fails_iff",
    "Verif.OutOfDate.order_irrelevant",
    "Verif.OutOfDate.changed_but_older_left_alone"
   ],
   "note": "changed_but_older_left_alone: a prerequisite changed in this run whose time stamp is older than the target's does not cause a rebuild."
  },
  {
   "property": "C25",
   "status": "proved",
   "theorems": [
    "Verif.Group.recipe_at_most_once",
    "Verif.Group.recipe_exactly_once",
    "Verif.Group.member_shares",
    "Verif.Group.first_mode",
    "Verif.Group.last_mode",
    "Verif.Group.last_mode_waits",
    "Verif.Group.turned_away_reports",
    "Verif.Group.not_executed_reports",
    "Verif.Group.report_final",
    "Verif.Group.always_completes"
   ],
   "note": ""
  },
  {
   "property": "C26",
   "status": "partial",
   "theorems": [
    "Verif.Name.round_trip_partial",
    "Verif.Name.split_representable",
    "Verif.Name.reparse_partial",
    "Verif.Name.trailing_dot_not_round_trip",
    "Verif.Name.unmarked_not_round_trip"
   ],
   "note": "Missing, and false of the code: names that end with a dot and have another single dot that is not leading. 'a..b..' is the name 'a.b.' without an extension, it is printed as 'a.b..' and that reads as the name 'a' with the extension 'b.' (trailing_dot_not_round_trip). Proved for all other names and extensions."
  },
  {
   "property": "C27",
   "status": "proved",
   "theorems": [
    "Verif.Name.error_iff_bad",
    "Verif.Name.bad_is_error",
    "Verif.Name.good_is_split",
    "Verif.Name.split_iff_reads"
   ],
   "note": ""
  },
  {
   "property": "C28",
   "status": "proved",
   "theorems": [
    "Verif.Quote.printed_names_read_back",
    "Verif.Quote.printed_string_reads_back",
    "Verif.Quote.line_unique",
    "Verif.Quote.class_pattern_lost",
    "Verif.Quote.untyped_regex_lost"
   ],
   "note": "For names without a project, up to the tokens and what the parser takes for a pattern. Patterns themselves do not always survive: a path pattern with a character class is printed in quotes and reads back as a plain name (class_pattern_lost), an untyped regular expression in a directory is printed without its braces (untyped_regex_lost)."
  },
  {
   "property": "C29",
   "status": "proved",
   "theorems": [
    "Verif.Make.declaration_parsed",
    "Verif.Make.every_path_written",
    "Verif.Make.written_unique",
    "Verif.Make.only_declarations_parsed",
    "Verif.Make.always_ends",
    "Verif.Make.nul_is_escapable"
   ],
   "note": "POSIX branch; the conversion of the text to a path, which can fail, is not modelled. A backslash before a NUL character is dropped (nul_is_escapable), so the converse is for text without NUL characters."
  },
  {
   "property": "C30",
   "status": "proved",
   "theorems": [
    "Verif.ScopeMap.nesting",
    "Verif.ScopeMap.lookup_out",
    "Verif.ScopeMap.lookup_all",
    "Verif.ScopeMap.order_irrelevant"
   ],
   "note": "The container (dir_path_map of libbutl) is not part of the repository and is modelled by its documented behaviour. As the code states, the global scope is created first."
  },
  {
   "property": "C31",
   "status": "proved",
   "theorems": [
    "Verif.Lookup.lookup_spec",
    "Verif.Lookup.lookup_assigned",
    "Verif.Lookup.plain_hides",
    "Verif.Lookup.lookup_noninterference",
    "Verif.Lookup.lookup_limit",
    "Verif.Lookup.lookup_depth",
    "Verif.Lookup.visible_iff",
    "Verif.Lookup.lookup_layers",
    "Verif.Lookup.target_null_transparent",
    "Verif.Lookup.target_depth",
    "Verif.Lookup.rule_depth",
    "Verif.Lookup.null_depth_not_offset"
   ],
   "note": "Scope, target and rule lookups of untyped values. Two observations about the code are recorded as theorems: a target-, group- or rule-specific NULL does not hide an outer value (unlike a scope's), and the depth of a NULL value found in a scope by a target lookup is not offset."
  },
  {
   "property": "C32",
   "status": "partial",
   "theorems": [
    "Verif.Override.lookup_overridden_partial",
    "Verif.Override.unchanged",
    "Verif.Override.command_line_order",
    "Verif.Override.single_replacement_partial",
    "Verif.Override.null_dereference",
    "Verif.Override.scope_override_leaks",
    "Verif.Override.pattern_original_lost"
   ],
   "note": "Full for scope lookups and for target lookups without `/` overrides, except where the code dereferences a null pointer. The full claim is false of the code: null_dereference (`!x=1 %x+=2`), scope_override_leaks (`x+=1 /x+=2` looked up for a target in a subdirectory) and pattern_original_lost (scope::lookup with a target key) are concrete counterexamples. The override cache is not modelled."
  },
  {
   "property": "C33",
   "status": "partial",
   "theorems": [
    "Verif.Value.untyped_history",
    "Verif.Value.vector_history",
    "Verif.Value.vector_fails",
    "Verif.Value.vector_append_assoc",
    "Verif.Value.typify_append",
    "Verif.Value.pair_vector_append",
    "Verif.Value.pair_vector_prepend_appends",
    "Verif.Value.optional_first_null_dereference",
    "Verif.Value.set_union",
    "Verif.Value.set_assign",
    "Verif.Value.map_append",
    "Verif.Value.map_prepend_partial",
    "Verif.Value.map_prepend_repeated",
    "Verif.Value.simple_append",
    "Verif.Value.path_append",
    "Verif.Value.int_append_overflow",
    "Verif.Value.simple_multiple",
    "Verif.Value.null_append",
    "Verif.Value.inherited",
    "Verif.Value.assigned_not_inherited",
    "Verif.Value.import_order_partial",
    "Verif.Value.import_prepend_reverses"
   ],
   "note": "Full for untyped values, vectors and sets, over all histories. False of the code for vectors of pairs (=+ appends: pair_vector_prepend_appends), for maps with repeated keys (=+ keeps the first, contrary to the documentation: map_prepend_repeated) and for import with =+ (the order is reversed: import_prepend_reverses). A vector of pairs with an optional first half dereferences a null pointer while diagnosing a bad value (optional_first_null_dereference). Conversion of a single element is a parameter."
  },
  {
   "property": "C34",
   "status": "partial",
   "theorems": [
    "Verif.VarPattern.matches_iff",
    "Verif.VarPattern.parse_spec",
    "Verif.VarPattern.longest",
    "Verif.VarPattern.most_specific_partial",
    "Verif.VarPattern.best_unique",
    "Verif.VarPattern.builtin_separated",
    "Verif.VarPattern.not_weak_order",
    "Verif.VarPattern.less_specific_wins",
    "Verif.VarPattern.documented_order_is_cyclic",
    "Verif.VarPattern.attributes_partial",
    "Verif.VarPattern.order_irrelevant_partial",
    "Verif.VarPattern.entry_order_matters",
    "Verif.VarPattern.unqualified_retro",
    "Verif.VarPattern.explicit_attributes",
    "Verif.VarPattern.not_overridable"
   ],
   "note": "The full claim is false of the code. The comparison of patterns is not a strict weak order (not_weak_order), so with `a.*`, `b.*`, `c.*` and `a.**` the less specific one can win (less_specific_wins), and the documented order does not always determine a choice (documented_order_is_cyclic). Proved: the longest pattern always wins; the documented choice for sets without such a combination, which includes the built-in patterns; independence of when variables are entered if more specific patterns are entered first or cover the less specific ones (entry_order_matters shows this is necessary)."
  },
  {
   "property": "C35",
   "status": "proved",
   "theorems": [
    "Verif.Function.called_best",
    "Verif.Function.best_called",
    "Verif.Function.unmatched_iff",
    "Verif.Function.ambiguous_iff",
    "Verif.Function.order_irrelevant",
    "Verif.Function.passed_types",
    "Verif.Function.found",
    "Verif.Function.defined_function",
    "Verif.Function.defined_family",
    "Verif.Function.variadic_assertion"
   ],
   "note": "Overload resolution, conversion of arguments and naming. A call that resolves can still fail an assertion: a variadic function with an untyped parameter (variadic_assertion); no built-in function is variadic."
  },
  {
   "property": "C36",
   "status": "proved",
   "theorems": [
    "Verif.Json.compare_defined",
    "Verif.Json.compare_refl",
    "Verif.Json.compare_antisymm",
    "Verif.Json.compare_trans",
    "Verif.Json.compare_congr",
    "Verif.Json.compare_numbers",
    "Verif.Json.compare_kinds",
    "Verif.Json.compare_strings",
    "Verif.Json.compare_booleans",
    "Verif.Json.compare_arrays_eq",
    "Verif.Json.compare_arrays_first",
    "Verif.Json.compare_arrays_prefix",
    "Verif.Json.compare_objects_eq",
    "Verif.Json.compare_objects_perm",
    "Verif.Json.compare_objects_first",
    "Verif.Json.compare_objects_absent_last",
    "Verif.Json.compare_objects_absent_inverted",
    "Verif.Json.absent_member_greater"
   ],
   "note": "Proved for all values without duplicate names. Apart from the claim, the documented rule that an absent member is less than a present one holds only if the other object has no greater names (compare_objects_absent_last); otherwise the result is inverted (compare_objects_absent_inverted, with {\"a\":1} and {\"b\":1} as a witness)."
  },
  {
   "property": "C37",
   "status": "partial",
   "theorems": [
    "Verif.Json.append_sum_partial",
    "Verif.Json.prepend_sum",
    "Verif.Json.hex_negative_wrong",
    "Verif.Json.hex_negative_unsigned",
    "Verif.Json.min_undefined",
    "Verif.Json.representable_iff"
   ],
   "note": "False for a negative hexadecimal right operand (1 + -0x2 gives 2^64-1) and undefined behavior for zero and the least signed number; proved for everything else with a representable sum."
  },
  {
   "property": "C38",
   "status": "proved",
   "theorems": [
    "Verif.Json.throws_iff",
    "Verif.Json.undefined_only_numbers",
    "Verif.Json.add_null",
    "Verif.Json.add_array",
    "Verif.Json.add_scalars",
    "Verif.Json.merge_members",
    "Verif.Json.merge_default",
    "Verif.Json.merge_positions",
    "Verif.Json.add_wf",
    "Verif.Json.prepend_reverses"
   ],
   "note": "New members are added by prepend in the reverse order, unless the object was empty (prepend_reverses)."
  },
  {
   "property": "C39",
   "status": "proved",
   "theorems": [
    "Verif.Integer.int_accepts",
    "Verif.Integer.uint_accepts",
    "Verif.Integer.rejects",
    "Verif.Integer.rejects_names",
    "Verif.Integer.int_round_trip",
    "Verif.Integer.uint_round_trip",
    "Verif.Integer.base_round_trip",
    "Verif.Integer.base_supported",
    "Verif.Integer.width_respected",
    "Verif.Integer.base_truncated",
    "Verif.Integer.wspace_must_cover"
   ],
   "note": "std::stoll and stoull are modelled as specified by the standard and butl::wspace is assumed to be isspace in the C locale (wspace_must_cover shows why this matters). The base of $string() is truncated to 32 bits, so 4294967306 is accepted as 10 (base_truncated)."
  },
  {
   "property": "C40",
   "status": "partial",
   "theorems": [
    "Verif.TargetSet.same_extension_same_target",
    "Verif.TargetSet.different_extension_different_target",
    "Verif.TargetSet.different_name_different_target",
    "Verif.TargetSet.fixed_extension_same_target",
    "Verif.TargetSet.extension_immutable",
    "Verif.TargetSet.result_matches",
    "Verif.TargetSet.no_lost_target",
    "Verif.TargetSet.insert_resolves",
    "Verif.TargetSet.request_progress",
    "Verif.TargetSet.restarts_once",
    "Verif.TargetSet.unspecified_same_target_partial",
    "Verif.TargetSet.unspecified_may_differ"
   ],
   "note": "Any number of threads and any interleaving of the lock sections. Full for references with the extension specified or fixed. For the unspecified extension the full claim is false of the code: if several extensions are in use with the same name, then references without the extension may resolve to different objects (unspecified_may_differ); proved if only one is. A failing fixed extension callback is not modelled."
  },
  {
   "property": "C41",
   "status": "proved",
   "theorems": [
    "Verif.TestSel.target_tested_iff",
    "Verif.TestSel.test_run_iff",
    "Verif.TestSel.alias_passes_iff",
    "Verif.TestSel.tests_run",
    "Verif.TestSel.tests_run_all",
    "Verif.TestSel.targets_tested",
    "Verif.TestSel.value_ignored",
    "Verif.TestSel.left_value_ignored",
    "Verif.TestSel.whole_target_narrowed"
   ],
   "note": "The value is as the manual describes it (Denotes). For other values: the value of an untyped name with a directory is ignored, so basics/{foo bar} selects everything in basics/ (value_ignored), as it is in foo@bar (left_value_ignored). A target that is requested both as a whole and with an id is tested with the id only (whole_target_narrowed). The search for an existing target is given."
  },
  {
   "property": "C42",
   "status": "proved",
   "theorems": [
    "Verif.RuleMatch.registered_first",
    "Verif.RuleMatch.register_duplicate",
    "Verif.RuleMatch.registered_unique",
    "Verif.RuleMatch.resolve_spec",
    "Verif.RuleMatch.search_none",
    "Verif.RuleMatch.search_matched",
    "Verif.RuleMatch.search_ambiguous",
    "Verif.RuleMatch.order_irrelevant",
    "Verif.RuleMatch.walk_spec",
    "Verif.RuleMatch.walk_spec_noroot",
    "Verif.RuleMatch.walk_retry",
    "Verif.RuleMatch.hint_binding",
    "Verif.RuleMatch.hint_retry",
    "Verif.RuleMatch.recipe_wins",
    "Verif.RuleMatch.recipe_found_not_matching",
    "Verif.RuleMatch.recipe_perform_fallback",
    "Verif.RuleMatch.recipe_reverse",
    "Verif.RuleMatch.no_recipes",
    "Verif.RuleMatch.hint_exact",
    "Verif.RuleMatch.hint_default",
    "Verif.RuleMatch.hint_none",
    "Verif.RuleMatch.hint_replaced",
    "Verif.RuleMatch.hints_unique",
    "Verif.RuleMatch.hint_own_first",
    "Verif.RuleMatch.hint_of_group",
    "Verif.RuleMatch.matched_group_rule",
    "Verif.RuleMatch.group_rule_for_members",
    "Verif.RuleMatch.group_nothing",
    "Verif.RuleMatch.group_adhoc_same",
    "Verif.RuleMatch.member_before_group_differs",
    "Verif.RuleMatch.member_after_group_same",
    "Verif.RuleMatch.skip_ambiguous"
   ],
   "note": "Whether a rule matches is a given function without effects. Names are lists of their components. For ordinary matching. When delegating (match with a rule to skip) the skipped rule still counts for ambiguity: skip_ambiguous. Members of a group{} that is matched with an ad hoc rule get the same rule (group_adhoc_same), but a member matched before a group that is matched with another rule may get a different one: member_before_group_differs."
  },
  {
   "property": "C43",
   "status": "partial",
   "theorems": [
    "Verif.Active.monitor_assert_partial",
    "Verif.Active.client_keeps_active",
    "Verif.Active.monitor_assert_fails",
    "Verif.Active.leak_report_partial",
    "Verif.Active.leak_report_false"
   ],
   "note": "Refuted: if a client returns its token and the thread that waited for it deactivates (or wait_idle is called) before the monitor polls the pipe, then the first assertion of the monitor fails (or a leak of tokens is reported though no client holds one). Proved when some thread is active and when the monitor is up to date, respectively."
  },
  {
   "property": "C44",
   "status": "proved",
   "theorems": [
    "Verif.PhaseMutex.sub_phases_balanced",
    "Verif.PhaseMutex.unlock_load_unbalanced"
   ],
   "note": "unlock_load_unbalanced shows that unlocking the load phase directly (rather than switching to match first) breaks the balance, which is why the code has a workaround in target.cxx."
  },
  {
   "property": "C45",
   "status": "partial",
   "theorems": [
    "Verif.Integer.sequence_partial",
    "Verif.Integer.sequence_empty",
    "Verif.Integer.sequence_zero_step",
    "Verif.Integer.sequence_does_not_end"
   ],
   "note": "Missing, and false of the code: if end plus step is greater than 2^64, the loop may never end (sequence_does_not_end). A zero step is a division by zero (sequence_zero_step)."
  },
  {
   "property": "C46",
   "status": "partial",
   "theorems": [
    "Verif.ConfigSave.save_reload_partial",
    "Verif.ConfigSave.used_is_saved",
    "Verif.ConfigSave.persisted_is_saved",
    "Verif.ConfigSave.unused_is_dropped",
    "Verif.ConfigSave.coherent_no_overrides",
    "Verif.ConfigSave.coherent_ordinary",
    "Verif.ConfigSave.standalone_partial",
    "Verif.ConfigSave.cond_applies",
    "Verif.ConfigSave.persist_last",
    "Verif.ConfigSave.persist_default",
    "Verif.ConfigSave.global_persist_lost",
    "Verif.ConfigSave.special_persist_lost",
    "Verif.ConfigSave.unsaved_lost",
    "Verif.ConfigSave.omitted_lost",
    "Verif.ConfigSave.default_override_wins",
    "Verif.ConfigSave.project_override_inherited",
    "Verif.ConfigSave.standalone_default"
   ],
   "note": "Any number of nested projects. Missing, and false of the code: a global override that an outer project with config.config.persist is taken to save (global_persist_lost), a special variable (special_persist_lost), a value that the outer project marks as unsaved (unsaved_lost) or omits (omitted_lost), a default that overrides inherited values (default_override_wins), a project override of an amalgamation next to a default that is not written (project_override_inherited), and an inherited default saved with config.config.save (standalone_default). Custom save functions and writing of values (see C28) are not part of this model."
  },
  {
   "property": "C47",
   "status": "proved",
   "theorems": [
    "Verif.ScriptFlow.lines_run",
    "Verif.ScriptFlow.run_unique",
    "Verif.ScriptFlow.no_assert",
    "Verif.ScriptFlow.no_stray",
    "Verif.ScriptFlow.parse2_iff",
    "Verif.ScriptFlow.parse1_iff",
    "Verif.ScriptFlow.lines_inj",
    "Verif.ScriptFlow.written_unique",
    "Verif.ScriptFlow.source_run"
   ],
   "note": "What the lines do is arbitrary. The elements that a for-loop reads from its stdin are taken to be known when the loop starts. The pre-parser is the one of recipes (for the other scripts only the execution of the lines is covered)."
  },
  {
   "property": "C48",
   "status": "partial",
   "theorems": [
    "Verif.ScriptFlow.index_static_partial",
    "Verif.ScriptFlow.files_unique_partial",
    "Verif.ScriptFlow.file_names_unique_partial",
    "Verif.ScriptFlow.file_name_inj",
    "Verif.ScriptFlow.single_first",
    "Verif.ScriptFlow.elif_shifts",
    "Verif.ScriptFlow.ife_shifts",
    "Verif.ScriptFlow.single_in_branch",
    "Verif.ScriptFlow.index_collision"
   ],
   "note": "Full for scripts without elif, ifn and ife. Missing, and false of the code: an elif that follows a taken branch is not counted (elif_shifts) and an ife or ifn is counted only if it is skipped (ife_shifts), so the index of a later command depends on the path taken, and two different commands of one script can get the same file (index_collision)."
  },
  {
   "property": "C49",
   "status": "proved",
   "theorems": [
    "Verif.ScriptExpr.expr_eval",
    "Verif.ScriptExpr.cmd_eval",
    "Verif.ScriptExpr.failure_diagnosed",
    "Verif.ScriptExpr.result_of_last",
    "Verif.ScriptExpr.condition_silent",
    "Verif.ScriptExpr.numbers_unique"
   ],
   "note": "What a pipeline does is given. That a pipeline prints diagnostics exactly if it fails and is told to is not part of the model."
  },
  {
   "property": "C50",
   "status": "proved",
   "theorems": [
    "Verif.Eval.reading_unique",
    "Verif.Eval.eval_iff",
    "Verif.Eval.written_evaluates",
    "Verif.Eval.fuel_irrelevant",
    "Verif.Eval.preparse_iff",
    "Verif.Eval.skip_same_place",
    "Verif.Eval.or_short",
    "Verif.Eval.and_short",
    "Verif.Eval.tern_one",
    "Verif.Eval.or_truth",
    "Verif.Eval.and_truth",
    "Verif.Eval.and_before_or",
    "Verif.Eval.and_before_or'",
    "Verif.Eval.not_before_cmp",
    "Verif.Eval.cmp_left",
    "Verif.Eval.tern_right",
    "Verif.Eval.short_circuit_unconverted"
   ],
   "note": "A value is a token whose evaluation is given: names, concatenation, expansion and subscripts inside it are not part of this model; attributes and target-qualified names are left out. Noted: a short-circuited `||` or `&&` gives its left-hand side unconverted (short_circuit_unconverted)."
  },
  {
   "property": "C51",
   "status": "proved",
   "theorems": [
    "Verif.BuildFlow.parse_iff",
    "Verif.BuildFlow.fuel_irrelevant",
    "Verif.BuildFlow.exec_unique",
    "Verif.BuildFlow.untaken_if",
    "Verif.BuildFlow.rest_of_chain",
    "Verif.BuildFlow.rest_of_switch",
    "Verif.BuildFlow.no_stray_break",
    "Verif.BuildFlow.iter_append",
    "Verif.BuildFlow.stray_brace",
    "Verif.BuildFlow.unclosed_block",
    "Verif.BuildFlow.brace_not_body",
    "Verif.BuildFlow.nested_line_escapes",
    "Verif.BuildFlow.nested_else_escapes",
    "Verif.BuildFlow.failed_case_typifies",
    "Verif.BuildFlow.extra_pattern_unnoticed"
   ],
   "note": "What lines, conditions, expressions and patterns do is arbitrary; the single line of a branch is a line without flow control. Directory scopes, target blocks and recipes (multi-curly blocks) are left out. Noted: a directive as the single line of a branch is executed whole but only its first line is skipped, so its own line or else is executed or misread if the branch is not taken (nested_line_escapes, nested_else_escapes); a case with a typed pattern that does not match changes the type of the switch value for those after it (failed_case_typifies); too many patterns are diagnosed only if those before match (extra_pattern_unnoticed)."
  },
  {
   "property": "C52",
   "status": "partial",
   "theorems": [
    "Verif.NamePat.expand_lists",
    "Verif.NamePat.expand_succeeds_iff",
    "Verif.NamePat.names_distinct",
    "Verif.NamePat.tidy_nameable",
    "Verif.NamePat.double_dot_misnamed",
    "Verif.NamePat.double_dot_assert",
    "Verif.NamePat.exclude_extension"
   ],
   "note": "Searching and matching are given functions. Missing, and false of the code: for a file with a dot before its extension dot (foo..cxx) the name denotes another file (double_dot_misnamed) or an assertion fails (double_dot_assert), so the naming part is for the files that can be named (Nameable; tidy_nameable covers all names without a leading dot and without adjacent dots). Noted: an exclusion of names without extensions (-*.) also excludes those with extensions (exclude_extension)."
  },
  {
   "property": "C53",
   "status": "partial",
   "theorems": [
    "Verif.LinkOrder.link_order_partial",
    "Verif.LinkOrder.link_cycle_partial",
    "Verif.LinkOrder.link_succeeds_partial",
    "Verif.LinkOrder.link_order_indirect",
    "Verif.LinkOrder.whole_not_closed",
    "Verif.LinkOrder.whole_order_wrong",
    "Verif.LinkOrder.order_not_hashed",
    "Verif.LinkOrder.utility_lost"
   ],
   "note": "Linking an executable or a shared library; resolution of names to targets is given. Missing, and false of the code: libraries that are linked whole and that export options (for example, imported ones), which leave behind a range that is never closed: later an invalid range is rotated (whole_not_closed) or a library ends up before what depends on it (whole_order_wrong). Noted: the order is not hashed, so a change that only moves libraries does not cause relinking (order_not_hashed), and a utility library that is first seen as a part of another library is not linked even if it is needed directly (utility_lost)."
  },
  {
   "property": "C54",
   "status": "partial",
   "theorems": [
    "Verif.CcLex.lex_iff",
    "Verif.CcLex.lex_ends",
    "Verif.CcLex.checksum_iff",
    "Verif.CcLex.checksum_tokens",
    "Verif.CcLex.layout_lexed",
    "Verif.CcLex.spacing_checksum",
    "Verif.CcLex.define_missed",
    "Verif.CcLex.spaceship_missed",
    "Verif.CcLex.identifier_missed",
    "Verif.CcLex.first_missed",
    "Verif.CcLex.directory_missed"
   ],
   "note": "Line continuations are left out; the parser on top of the lexer is not modelled. Lines are below 2^24 and there are no zero bytes for the bytes to determine what is hashed. Missing, and false of the code: changes that the tokens of the lexer do not show. The space before the parentheses of a macro with arguments (define_missed), which matters if the source is partially preprocessed; splitting `<=>` (spaceship_missed) and identifiers with non-ASCII characters (identifier_missed), which for the lexer are several tokens; whether an import is at the beginning of a line (first_missed); the name of a directory in a line directive (directory_missed)."
  },
  {
   "property": "C55",
   "status": "partial",
   "theorems": [
    "Verif.InSubst.read_unique",
    "Verif.InSubst.correct_unique",
    "Verif.InSubst.lax_reads",
    "Verif.InSubst.stale_iff",
    "Verif.InSubst.update_correct",
    "Verif.InSubst.output_current",
    "Verif.InSubst.no_assertion",
    "Verif.InSubst.unchanged_iff",
    "Verif.InSubst.copied",
    "Verif.InSubst.escaped_partial",
    "Verif.InSubst.adjacent_not_escaped",
    "Verif.InSubst.escape_then_substitution",
    "Verif.InSubst.adjacent_substitutions",
    "Verif.InSubst.stray_symbol",
    "Verif.InSubst.leading_dot",
    "Verif.InSubst.newline_added",
    "Verif.InSubst.strict_ignored"
   ],
   "note": "Hashes are assumed not to collide (where the output is concerned) and to be printed without spaces and slashes; values are given; a file is assumed not to change while it is read and timestamps to be distinct. Missing, and false of the code: text with adjacent symbols cannot be escaped (adjacent_not_escaped), nor can an escape or a substitution be followed by a substitution in the strict mode (escape_then_substitution, adjacent_substitutions). Noted: in the lax mode a stray symbol hides the next substitution (stray_symbol) and a leading dot is allowed (leading_dot); a missing last newline is added (newline_added); in.mode=strict has no effect if the rule is lax by default (strict_ignored)."
  },
  {
   "property": "C56",
   "status": "partial",
   "theorems": [
    "Verif.NameGroup.parse_names_partial",
    "Verif.NameGroup.parse_stops",
    "Verif.NameGroup.no_half_pair",
    "Verif.NameGroup.words",
    "Verif.NameGroup.group_qualifies",
    "Verif.NameGroup.double_pair_rejected",
    "Verif.NameGroup.typed_concat_qualified",
    "Verif.NameGroup.cross_product",
    "Verif.NameGroup.pair_distributes",
    "Verif.NameGroup.concat_is_word",
    "Verif.NameGroup.pair_chain",
    "Verif.NameGroup.empty_rhs_takes_next",
    "Verif.NameGroup.empty_lhs_takes_previous",
    "Verif.NameGroup.list_rhs_not_distributed",
    "Verif.NameGroup.typed_lhs_lost",
    "Verif.NameGroup.project_group_rejects_types",
    "Verif.NameGroup.cross_loses_pair",
    "Verif.NameGroup.nested_cross_not_crossed",
    "Verif.NameGroup.quoted_percent_is_separator"
   ],
   "note": "Name patterns, chunking, attributes and how expansions are evaluated are not part of this model; path operations are arbitrary functions. Missing: typed concatenation, and, where the code does something else, pairs of pairs (pair_chain: a@b@c is accepted), expansions of other than one name as sides of a pair (list_rhs_not_distributed; an empty one makes the pair of a name and its neighbor: empty_rhs_takes_next, empty_lhs_takes_previous), a typed concatenation on the left of a pair (typed_lhs_lost), a prefix that is only a project (project_group_rejects_types), crosses of pairs (cross_loses_pair), crosses inside of groups (nested_cross_not_crossed). Noted: an invalid project in a quoted prefix becomes a directory (quoted_percent_is_separator)."
  },
  {
   "property": "C57",
   "status": "partial",
   "theorems": [
    "Verif.Install.install_result",
    "Verif.Install.install_success_dirs",
    "Verif.Install.uninstall_result",
    "Verif.Install.foreign_untouched",
    "Verif.Install.uninstall_order",
    "Verif.Install.install_uninstall_partial",
    "Verif.Install.same_roots_of_one",
    "Verif.Install.resolve_nested",
    "Verif.Install.resolve_last",
    "Verif.Install.resolve_root",
    "Verif.Install.filter_outcome",
    "Verif.Install.root_parents_left",
    "Verif.Install.order_matters",
    "Verif.Install.name_is_directory",
    "Verif.Install.empty_directory_removed",
    "Verif.Install.filter_leaves_directory",
    "Verif.Install.filter_file_for_directory",
    "Verif.Install.resolve_cycle"
   ],
   "note": "The install, ln and rmdir commands are modelled after their documentation. Missing, and false of the code: directories above the installation root are created but not removed (root_parents_left); with a location given as an absolute path inside of another one what is removed depends on the order (order_matters); a file that is installed under the name of an existing directory goes inside and is not uninstalled (name_is_directory); empty directories that were there are removed (empty_directory_removed); with a filter that lets through an inner directory but not the outer one, as in the manual, the outer one is left behind (filter_leaves_directory), and one that lets through a file but not its directory, also as in the manual, makes a file with the name of the directory (filter_file_for_directory); there is no detection of cycles between the install.* variables (resolve_cycle)."
  },
  {
   "property": "C58",
   "status": "proved",
   "theorems": [
    "Verif.BuildSpec.operation_shape",
    "Verif.BuildSpec.parse_iff",
    "Verif.BuildSpec.parse_no_assert",
    "Verif.BuildSpec.drive_valid",
    "Verif.BuildSpec.drive_invalid",
    "Verif.BuildSpec.drive_ok_iff",
    "Verif.BuildSpec.word_is_operation"
   ],
   "note": "Names and parameters are tokens (see C01 and C56 for these); an unmatched half of a pair, which the parser of names does not produce, is an error. In the driver all targets of an operation are taken to be of projects that know the same names, what an operation does is one event (with its pre-operation and post-operation), and pre-processing by meta-operations (create) is left out. Noted: a bare word in parentheses is always an operation, so update(foo) is an operation foo of an unknown meta-operation (word_is_operation)."
  },
  {
   "property": "C59",
   "status": "partial",
   "theorems": [
    "Verif.Timeout.setting_forms",
    "Verif.Timeout.timeout_rejected",
    "Verif.Timeout.timeout_accepted",
    "Verif.Timeout.effective_nearest",
    "Verif.Timeout.first_effective_nearest",
    "Verif.Timeout.pipeline_deadlines",
    "Verif.Timeout.on_time",
    "Verif.Timeout.timeout_bound",
    "Verif.Timeout.timeout_no_abort",
    "Verif.Timeout.timeout_fails",
    "Verif.Timeout.killed_fails",
    "Verif.Timeout.timeout_success_partial",
    "Verif.Timeout.timeout_overflows",
    "Verif.Timeout.expired_succeeds",
    "Verif.Timeout.success_left_fails",
    "Verif.Timeout.builtin_failure_masked"
   ],
   "note": "Time is discrete, only waiting takes any, and a stream that is kept open by a process outside of the pipeline is left out, as is the sleep builtin (which is terminated on its own). Missing, and false of the code: a large timeout overflows (timeout_overflows); a process that exits with the expected code when it is told to terminate is not a failure although its timeout has expired (expired_succeeds); commands on the left of the one whose timeout is with --success have no deadline of their own and fail the script when they are terminated because of it (success_left_fails); a builtin that has failed before the deadline counts as successful when the rest is terminated with --success (builtin_failure_masked)."
  },
  {
   "property": "C60",
   "status": "partial",
   "theorems": [
    "Verif.CompileDb.builds_complete",
    "Verif.CompileDb.database_current_partial",
    "Verif.CompileDb.only_end_writes",
    "Verif.CompileDb.not_rewritten",
    "Verif.CompileDb.file_reads_back",
    "Verif.CompileDb.truncated_rejected",
    "Verif.CompileDb.stale_after_failure",
    "Verif.CompileDb.stale_after_crash",
    "Verif.CompileDb.match_only_asserts"
   ],
   "note": "Failing to read or write the file, the name and type filters and the database that is written to standard output are left out; entries are in the order of insertion rather than sorted. Missing, and false of the code: if an update fails after an output is found to have changed but before it is compiled, or if the process is killed before the end of the update, then the dependency database says that nothing has changed and the old command line stays in the file even though the output is compiled with the new one (stale_after_failure, stale_after_crash). In the match-only mode a missing entry stays missing and matching it again in a batch fails an assertion (match_only_asserts)."
  },
  {
   "property": "C61",
   "status": "partial",
   "theorems": [
    "Verif.Cleanup.clean_only_registered",
    "Verif.Cleanup.clean_inside_sandbox_partial",
    "Verif.Cleanup.leave_leaves_nothing",
    "Verif.Cleanup.leave_iff",
    "Verif.Cleanup.tidy_leaves_nothing_partial",
    "Verif.Cleanup.move_over_directory_fails",
    "Verif.Cleanup.recreated_fails",
    "Verif.Cleanup.removed_fails",
    "Verif.Cleanup.redirect_takes_over",
    "Verif.Cleanup.registered_in_removed_fails",
    "Verif.Cleanup.wildcard_gets_out"
   ],
   "note": "Matching of patterns and their search are given; the .buildignore file, special files and buildscripts (which drop the cleanups of the target) are left out. The exact condition is for plain paths of which none is registered twice or after something inside of it. Missing, and false of the code: if the path of the sandbox itself has wildcard characters, a registered path is taken for a pattern and what it matches outside of the sandbox is removed (wildcard_gets_out); moving a directory over an empty one cancels the cleanups inside (move_over_directory_fails); a file that is created again as a directory is still removed as a file (recreated_fails); removing with rm does not cancel the cleanup (removed_fails); a redirect to a file of an outer scope makes the inner scope remove it (redirect_takes_over); a directory registered with *** after what is in it is removed first, after which the latter does not exist (registered_in_removed_fails)."
  },
  {
   "property": "C62",
   "status": "partial",
   "theorems": [
    "Verif.Headers.extract_complete",
    "Verif.Headers.extract_deferred",
    "Verif.Headers.extract_ends",
    "Verif.Headers.extract_iff_partial",
    "Verif.Headers.not_updated",
    "Verif.Headers.current_not_updated",
    "Verif.Headers.builds_complete",
    "Verif.Headers.builds_current",
    "Verif.Headers.outdated_fails",
    "Verif.Headers.shadowed_missed",
    "Verif.Headers.added_missed"
   ],
   "note": "For the compilers of the GCC class, without header units, the module mapper, remapping of headers between src and out, and prefixes of generated headers; updating a header changes this header only, and its timestamp is precise. Missing, and false of the code: if the compiler does not report headers in case of an error, then an outdated generated header that causes one is not updated and the build fails (outdated_fails); so success is characterized if it does report them or if there are no errors other than missing headers. Everything is for sources that do not check the existence of files that come into existence, which includes directories that are searched earlier: a header that appears there is not noticed (shadowed_missed, added_missed)."
  },
  {
   "property": "C63",
   "status": "partial",
   "theorems": [
    "Verif.VarCache.current_partial",
    "Verif.VarCache.reference_kept_partial",
    "Verif.VarCache.overridden_current_partial",
    "Verif.VarCache.overridden_reference_kept_partial",
    "Verif.VarCache.group_stale",
    "Verif.VarCache.reassigned_stale",
    "Verif.VarCache.overridden_pattern_stale",
    "Verif.VarCache.member_stale",
    "Verif.VarCache.project_stale",
    "Verif.VarCache.scope_stale",
    "Verif.VarCache.reference_lost"
   ],
   "note": "One variable of global visibility with untyped values; variables are not undefined. Missing, and false of the code: targets of the same type and name with different groups (group_stale); a pattern-specific value changed from += to = (reassigned_stale: old value or a failed assertion); with overrides: pattern-specific prepend/append (overridden_pattern_stale: a target gets the value of another), a group with members in different directories (member_stale), overrides of project and scope visibility (project_stale, scope_stale), and references to overridden pattern-specific values (reference_lost: changed by looking up for another target)."
  },
  {
   "property": "C64",
   "status": "partial",
   "theorems": [
    "Verif.Recipe.up_to_date_partial",
    "Verif.Recipe.not_rerun",
    "Verif.Recipe.text_change_rerun",
    "Verif.Recipe.change_rerun_partial",
    "Verif.Recipe.never_untracked",
    "Verif.Recipe.impure_rejected",
    "Verif.Recipe.recorded_enough",
    "Verif.Recipe.adhoc_change_missed",
    "Verif.Recipe.unmatch_change_missed",
    "Verif.Recipe.same_path_missed",
    "Verif.Recipe.type_change_missed",
    "Verif.Recipe.syntax_change_missed",
    "Verif.Recipe.computed_function_missed",
    "Verif.Recipe.program_change_missed",
    "Verif.Recipe.environment_change_missed",
    "Verif.Recipe.project_change_missed",
    "Verif.Recipe.null_change_missed",
    "Verif.Recipe.depdb_argument_rejected"
   ],
   "note": "For update of files, without depdb dyndep, qualified variables and explicit groups; checksums do not collide. With a depdb preamble (or depdb clear) that what is recorded determines what the rest of the script uses is a hypothesis (Recorded), for which recorded_enough gives a form that meets it. Missing, and false of the code: a prerequisite that becomes ad hoc (adhoc_change_missed) or one with update=unmatch (unmatch_change_missed) changes $< but not the checksum; so does another target with the same path (same_path_missed); the types of variables (type_change_missed) and the version of the syntax (syntax_change_missed) are not hashed; an impure function with a computed name is accepted (computed_function_missed); a checksum that moves to another program (program_change_missed), an environment variable being set instead of another (environment_change_missed) and project-qualified names (project_change_missed) are ambiguous in what is hashed, as are NULL and empty in depdb hash (null_change_missed). Noted: the argument of the last depdb line cannot use impure functions or computed variable names (depdb_argument_rejected)."
  },
  {
   "property": "C65",
   "status": "partial",
   "theorems": [
    "Verif.RulePat.matches_iff_partial",
    "Verif.RulePat.captured_partial",
    "Verif.RulePat.preferred_partial",
    "Verif.RulePat.engine_exact",
    "Verif.RulePat.flags_rejected",
    "Verif.RulePat.alternatives_misread",
    "Verif.RulePat.same_type_never"
   ],
   "note": "Regular expressions without anchors and assertions; names as they are after target_key::effective_name. Substitutions (regex_replace_match_results is in libbutl) and injection of prerequisites are left out. Missing, and false of the code: alternatives that are not in a group (alternatives_misread: exe{~'/a|b/'}: cxx{~'/c/'} becomes a|b/c). Noted: only the first prerequisite of a type is considered, so a rule with two different ones of a type never matches (same_type_never)."
  },
  {
   "property": "C66",
   "status": "proved",
   "theorems": [
    "Verif.ModScan.parse_iff",
    "Verif.ModScan.source_iff",
    "Verif.ModScan.body_ignored",
    "Verif.ModScan.text_roundtrip",
    "Verif.ModScan.parsed_roundtrip",
    "Verif.ModScan.text_injective",
    "Verif.ModScan.quote_missed"
   ],
   "note": "Header units do not take part in what is found (as in the code), and the name of a header unit does not come from the scan; its path is read back if it has no quote in it (quote_missed otherwise). Handling of conditional imports by the preprocessor and resolution of names are not part of this. Noted, as specified: the closing bracket of a header can be on the next line, and everything after an extraneous closing brace is ignored."
  },
  {
   "property": "C67",
   "status": "partial",
   "theorems": [
    "Verif.ModMap.best_iff",
    "Verif.ModMap.candidate_iff",
    "Verif.ModMap.separation_preferred",
    "Verif.ModMap.all_preferred",
    "Verif.ModMap.resolve_iff",
    "Verif.ModMap.chosen_once",
    "Verif.ModMap.missing_diagnosed",
    "Verif.ModMap.map_iff",
    "Verif.ModMap.map_sound",
    "Verif.ModMap.map_succeeds",
    "Verif.ModMap.dot_missed",
    "Verif.ModMap.own_import_asserts",
    "Verif.ModMap.wrong_name_believed",
    "Verif.ModMap.wrong_guess_diagnosed",
    "Verif.ModMap.other_interface_used"
   ],
   "note": "ASCII names shorter than 9998 characters and / as the separator; libraries are given by the modules in them, in the order in which they are searched; header units and where interfaces are built for installed libraries are left out. The order among files that spell only a part of the name is as computed and not specified. Missing, and false of the code: an explicitly specified wrong name is believed (wrong_name_believed); if there are several interfaces for the same module, an interface that has been built with one can be used with another (other_interface_used), so that the list is complete is for unique ones; a dot in the name of a file where the module has a dot as well does not separate (dot_missed); an implementation unit that (incorrectly) imports its own module fails an assertion (own_import_asserts)."
  },
  {
   "property": "C68",
   "status": "partial",
   "theorems": [
    "Verif.Clean.clean_never_asserts",
    "Verif.Clean.clean_order",
    "Verif.Clean.clean_once",
    "Verif.Clean.clean_all",
    "Verif.Clean.clean_ends",
    "Verif.Clean.clean_proceeds",
    "Verif.Clean.clean_safe",
    "Verif.Clean.clean_files",
    "Verif.Clean.clean_dirs",
    "Verif.Clean.clean_deterministic",
    "Verif.Clean.clean_undoes",
    "Verif.Clean.empty_dir_removed",
    "Verif.Clean.member_elsewhere_races"
   ],
   "note": "Dry runs, backlinks, ad hoc recipes and what is derived from the path of a target for extra files are left out; filesystem operations are as documented. The directories are for targets all of whose files are in the directory of the target (Placed). Missing, and false of the code: an empty directory that was there before updating is removed (empty_dir_removed; so undoing is for directories with files in them); if an ad hoc member is in another directory, whether this directory is removed depends on the order (member_elsewhere_races)."
  },
  {
   "property": "C69",
   "status": "partial",
   "theorems": [
    "Verif.Flow.file_iff",
    "Verif.Flow.file_unique",
    "Verif.Flow.no_escape",
    "Verif.Flow.if_taken",
    "Verif.Flow.if_else",
    "Verif.Flow.if_untaken",
    "Verif.Flow.if_elif",
    "Verif.Flow.while_ends",
    "Verif.Flow.for_empty",
    "Verif.Flow.nested_executed",
    "Verif.Flow.nested_loop_fails",
    "Verif.Flow.recipe_brace_executed",
    "Verif.Flow.stray_end_accepted"
   ],
   "note": "Lines are taken as a whole: tokens, attributes, recipes with headers and multi-curly conditions (for recipes) are left out; the value of a switch is not converted by a pattern. Missing, and false of the code: where a branch that is not selected is a line (rather than a block) with a condition or a loop of its own, only its first line is skipped and the rest is executed (nested_executed), and such a line is rejected as the body of a loop (nested_loop_fails); a recipe in a skipped block (or in the body of a loop) has to have balanced braces (recipe_brace_executed), so the equivalence is for buildfiles without these (Ok). Noted: }} is accepted at the end of the body of a loop, and what is after it is ignored (stray_end_accepted)."
  },
  {
   "property": "C70",
   "status": "partial",
   "theorems": [
    "Verif.SetRead.read_elements",
    "Verif.SetRead.read_words_partial",
    "Verif.SetRead.read_words_glued",
    "Verif.SetRead.elements_unique",
    "Verif.SetRead.lines_roundtrip",
    "Verif.SetRead.whole_roundtrip",
    "Verif.SetRead.words_roundtrip_partial",
    "Verif.SetRead.words_glued",
    "Verif.SetRead.words_depend",
    "Verif.SetRead.blank_lost"
   ],
   "note": "Deadlines, reading of diagnostics at the same time and errors of the operating system are left out, as are attributes of the variable. Proved for lines and for all of the output. Missing, and false of the code: when splitting at whitespaces, those at the beginning of a portion are skipped even if the previous one has ended in the middle of a word, so two words are glued (words_glued, words_depend: ab, then cd after a space, are read as abcd) and the final blank is lost (blank_lost); exactly what is read instead is read_words_glued, and without such portions it is as specified (read_words_partial). Noted, as specified: the character 0 is a whitespace."
  },
  {
   "property": "C71",
   "status": "partial",
   "theorems": [
    "Verif.Search.refers_unique",
    "Verif.Search.search_partial",
    "Verif.Search.search_same_partial",
    "Verif.Search.search_object_partial",
    "Verif.Search.nothing_else",
    "Verif.Search.search_ends",
    "Verif.Search.tidy_consistent",
    "Verif.Search.out_races",
    "Verif.Search.extension_races"
   ],
   "note": "Operations on the set of targets are atomic (C40 is about these); types with fixed extensions, the special search of dir{} and the like, project-qualified prerequisites and rules that search on their own are left out; files in the source tree do not change during matching. Missing, and false of the code: if a prerequisite names a target in the output tree explicitly by an absolute directory and a file with this name exists in the source tree, then it depends on the order what a relative prerequisite refers to (out_races); so it does if the same name is used with another extension than the default one (extension_races). Without these (Consistent, which tidy_consistent shows for prerequisites of a project that are relative or in the source tree) the order does not matter."
  },
  {
   "property": "C72",
   "status": "partial",
   "theorems": [
    "Verif.TestExec.nested",
    "Verif.TestExec.progress",
    "Verif.TestExec.ends",
    "Verif.TestExec.all_ended",
    "Verif.TestExec.one_result",
    "Verif.TestExec.result_partial",
    "Verif.TestExec.keep_going_partial",
    "Verif.TestExec.selected_partial",
    "Verif.TestExec.complete_partial",
    "Verif.TestExec.teardown_partial",
    "Verif.TestExec.torn_down_partial",
    "Verif.TestExec.set_races"
   ],
   "note": "A sequence of commands is one step (C47 is about flow control in these); working directories (C61), timeouts and the line index are left out. Nesting, progress and termination hold for all scripts. Missing, and false of the code: a condition of a scope may set a variable of the group (if echo 1 | set x) while the scopes that have been started before are being executed, so it depends on the schedule what they see and whether they pass (set_races); the other theorems are for conditions that don't (Pure)."
  },
  {
   "property": "C73",
   "status": "partial",
   "theorems": [
    "Verif.PrefixMap.mapped_iff",
    "Verif.PrefixMap.finds_unique",
    "Verif.PrefixMap.mapped_included",
    "Verif.PrefixMap.mapped_found",
    "Verif.PrefixMap.relative_same",
    "Verif.PrefixMap.any_order",
    "Verif.PrefixMap.remap_pair",
    "Verif.PrefixMap.remap_found_partial",
    "Verif.PrefixMap.other_project_missed",
    "Verif.PrefixMap.other_found",
    "Verif.PrefixMap.other_directory_remapped",
    "Verif.PrefixMap.duplicate_remapped"
   ],
   "note": "Whether a target is declared or may be entered is a parameter (C71 is about searching); extraction of the directories from options is left out, and so is that -isystem directories are searched after the others; directories are canonical. Missing, and false of the code: if a library has a header to be generated with the same prefix as the project, then it is mapped to the directory of the project even if it is only declared in that of the library (other_project_missed); if headers of the same name are declared in two of the directories, then the one that is found in the end may be another (other_found); a header in a subdirectory of the source directory is remapped to one of the same name in the output directory no matter how it was included (other_directory_remapped); and if the source directory is also before that, then the remapped one is not found (duplicate_remapped, thus Nodup in remap_found_partial)."
  },
  {
   "property": "C74",
   "status": "partial",
   "theorems": [
    "Verif.VersionCond.macros_one",
    "Verif.VersionCond.macros_two",
    "Verif.VersionCond.macros_missing",
    "Verif.VersionCond.trailing_dropped",
    "Verif.VersionCond.kinds",
    "Verif.VersionCond.number_order",
    "Verif.VersionCond.number_order_final",
    "Verif.VersionCond.condition_partial",
    "Verif.VersionCond.check_partial",
    "Verif.VersionCond.check_undefined",
    "Verif.VersionCond.snapshot_macro",
    "Verif.VersionCond.operand_partial",
    "Verif.VersionCond.one_sided_operand",
    "Verif.VersionCond.revision_ignored"
   ],
   "note": "Tokens stand for text; parsing of constraints (libbutl), epochs and the lookup of other names are left out; the number of X.Y.Z- is that of X.Y.Z-a.0 with the snapshot digit. Missing, and false of the code: revisions in constraints are not looked at (revision_ignored, thus NoRevision); if the only endpoint is a snapshot then the condition is not in parentheses and changes its meaning in a larger one (one_sided_operand, thus operand_partial); text after the closing parenthesis is silently dropped (trailing_dropped)."
  },
  {
   "property": "C75",
   "status": "proved",
   "theorems": [
    "Verif.DiagBuf.in_pieces",
    "Verif.DiagBuf.all_pieces",
    "Verif.DiagBuf.contiguous",
    "Verif.DiagBuf.contiguous_always",
    "Verif.DiagBuf.serial_order",
    "Verif.DiagBuf.lines_end",
    "Verif.DiagBuf.lines_text",
    "Verif.DiagBuf.by_line",
    "Verif.DiagBuf.asserts",
    "Verif.DiagBuf.progress",
    "Verif.DiagBuf.ends",
    "Verif.DiagBuf.direct_mixed",
    "Verif.DiagBuf.newline_added"
   ],
   "note": "Custom processing of what is read, errors of reading, open_eof and the progress line are left out; what is buffered is lost if the buffer is destroyed before it is closed (on an exception), which is left out, too. As documented, with --no-diag-buffer processes for which no pipe is asked for write to stderr directly and may be mixed (direct_mixed), so the lines are for those for which it is (by_line). The last line is completed with a newline (newline_added) in this mode."
  },
  {
   "property": "C76",
   "status": "partial",
   "theorems": [
    "Verif.VarPool.parse_iff",
    "Verif.VarPool.matches_iff",
    "Verif.VarPool.selected_partial",
    "Verif.VarPool.one_preferred",
    "Verif.VarPool.entered_partial",
    "Verif.VarPool.entered_plain",
    "Verif.VarPool.entered_fallback",
    "Verif.VarPool.kept",
    "Verif.VarPool.overridden_partial",
    "Verif.VarPool.specified_partial",
    "Verif.VarPool.any_order_partial",
    "Verif.VarPool.builtin_regular",
    "Verif.VarPool.import_project",
    "Verif.VarPool.wildcard_preferred",
    "Verif.VarPool.preferred_cyclic",
    "Verif.VarPool.attribute_asserts",
    "Verif.VarPool.unqualified_applied",
    "Verif.VarPool.general_first"
   ],
   "note": "The public pool; pools of projects and aliases are left out. Missing, and false of the code: the order of patterns is not a strict weak one, so with * and ** for the same prefix and suffix and others of the same length, ** may be used instead of * (wildcard_preferred; the documented preference can even be cyclic, preferred_cyclic), thus Regular, which the built-in patterns are (builtin_regular). The order is for patterns that are applied retrospectively, most specific first, as documented (general_first is what happens otherwise), and for strict ones. If the visibility of a variable with a strict pattern is restricted in a buildfile, then entering it again fails an assertion (attribute_asserts). Retrospectively, patterns apply to names without a dot, too (unqualified_applied)."
  },
  {
   "property": "C77",
   "status": "partial",
   "theorems": [
    "Verif.Include.load_meaning",
    "Verif.Include.load_failure",
    "Verif.Include.load_no_assert",
    "Verif.Include.load_terminates_partial",
    "Verif.Include.load_fuel_irrelevant",
    "Verif.Include.included_once",
    "Verif.Include.no_false_cycle",
    "Verif.Include.default_target_partial",
    "Verif.Include.default_taken_over",
    "Verif.Include.marked_source_never_ends",
    "Verif.Include.old_project_never_ends"
   ],
   "note": "One project; a file is a number and a condition or the number of elements of a loop any function of what has been done so far; while loops, run, export stubs, directory blocks and exported buildfiles are left out. Missing, and false of the code: a file that is included from the buildfile of the same directory takes over the default target of the directory even if the buildfile has declared others before (default_taken_over), so the default target is for files of different directories; loading need not end with a source directive that is marked with allow_cycle (marked_source_never_ends), as documented, or in a project that does not require build2 0.18 (old_project_never_ends), so termination is without these."
  },
  {
   "property": "C78",
   "status": "partial",
   "theorems": [
    "Verif.Modules.first_exact",
    "Verif.Modules.boot_once",
    "Verif.Modules.load_root_complete",
    "Verif.Modules.load_root_order",
    "Verif.Modules.once_per_scope_partial",
    "Verif.Modules.use_again",
    "Verif.Modules.load_outer",
    "Verif.Modules.load_new",
    "Verif.Modules.required_configured_partial",
    "Verif.Modules.not_loaded",
    "Verif.Modules.depth_irrelevant",
    "Verif.Modules.terminates_partial",
    "Verif.Modules.no_assert_partial",
    "Verif.Modules.cyclic_use_never_ends",
    "Verif.Modules.cyclic_boot_asserts",
    "Verif.Modules.load_ignores_configured",
    "Verif.Modules.unconfigured_required"
   ],
   "note": "One project; whether a module is found is fixed; post-boot functions, module objects, hints, hooks and skipped external modules are left out. load_root_order is for modules that are not also used explicitly (otherwise load_root_complete applies). Missing, and false of the code: modules that use one another in a cycle are initialized again and again without end (cyclic_use_never_ends), so single initialization per scope and ending are for modules without cycles; modules that boot one another in a cycle fail an assertion (cyclic_boot_asserts). The load_module that requires a module succeeds for one that was used optionally before and could not be configured (load_ignores_configured, a TODO in the code), and dereferences null for one that chooses to remain unconfigured; a required use of such a module succeeds the first time and fails afterwards (unconfigured_required), so these are for modules that are configured or fail when required."
  },
  {
   "property": "C79",
   "status": "partial",
   "theorems": [
    "Verif.Import.local_own",
    "Verif.Import.local_fails",
    "Verif.Import.adhoc_dir",
    "Verif.Import.adhoc_absolute",
    "Verif.Import.explicit_null",
    "Verif.Import.explicit_empty",
    "Verif.Import.explicit_path",
    "Verif.Import.project_wins",
    "Verif.Import.discovered_nearest",
    "Verif.Import.nearest_unique",
    "Verif.Import.build2_own",
    "Verif.Import.not_searched",
    "Verif.Import.own_variables_only",
    "Verif.Import.other_project_variables",
    "Verif.Import.other_target_variables",
    "Verif.Import.subprojects_complete",
    "Verif.Import.subprojects_fail",
    "Verif.Import.subprojects_order",
    "Verif.Import.specified_first",
    "Verif.Import.own_name_not_found",
    "Verif.Import.sanitized_collision",
    "Verif.Import.false_untyped",
    "Verif.Import.specified_duplicate_ignored",
    "Verif.Import.tool_hides_target"
   ],
   "note": "The lookup of variables is a function from names (C31 is about it); metadata, export stubs and what rules find in the second phase are left out; directories are taken as normalized; comparison of project names and replacement of characters (libbutl and libbuild2 helpers) are parameters with stated assumptions. Missing, and false of the code: names that only differ in characters which cannot be part of the name of a variable share the variable (sanitized_collision), so that variables of others don't matter is for names that differ after replacement; a target qualified with the name of the importing project is not found there, contrary to the comment (own_name_not_found); false means none only in the variable with the type (false_untyped); of specified subprojects with the same name all but the first are silently ignored (specified_duplicate_ignored, specified_first). config.<project> hides the more specific variable (tool_hides_target)."
  },
  {
   "property": "C80",
   "status": "partial",
   "theorems": [
    "Verif.Amalgam.wanted_partial",
    "Verif.Amalgam.any_order_partial",
    "Verif.Amalgam.fails_iff",
    "Verif.Amalgam.loaded_once",
    "Verif.Amalgam.loaded_kept",
    "Verif.Amalgam.outer_complete",
    "Verif.Amalgam.outer_remains",
    "Verif.Amalgam.outer_sources",
    "Verif.Amalgam.strong_unique",
    "Verif.Amalgam.inner_strong_partial",
    "Verif.Amalgam.outer_ends_partial",
    "Verif.Amalgam.chain_outwards_partial",
    "Verif.Amalgam.self_never_ends",
    "Verif.Amalgam.unconfigured_depends",
    "Verif.Amalgam.home_depends",
    "Verif.Amalgam.check_depends",
    "Verif.Amalgam.inner_gap"
   ],
   "note": "What bootstrap.build does other than specify the variable is left out, and so are the alternative naming scheme, hooks, forwarding, remapping of source directories and exemplar contexts; subprojects (inner_strong_partial) are loaded one at a time and apart from the histories. Missing, and false of the code: while a project is not configured, so that it cannot be told from what is on disk, it depends on the order what amalgamates its subprojects (unconfigured_depends), so it does with a project in the home directory (home_depends), thus Proper; a specified amalgamation is checked only against projects that happen to be loaded (check_depends; fails_iff says exactly when it is diagnosed); a subproject that another project amalgamates is recorded as strongly amalgamated by the project that it is a subproject of, even if its sources are apart (inner_gap, thus the hypothesis of inner_strong_partial). If the specified amalgamation is the project itself (./) then loading never ends (self_never_ends), so ending is for those outside (Upward)."
  },
  {
   "property": "C81",
   "status": "partial",
   "theorems": [
    "Verif.Dist.dist_contents",
    "Verif.Dist.dist_places",
    "Verif.Dist.dist_fails",
    "Verif.Dist.dist_order",
    "Verif.Dist.dist_inside",
    "Verif.Dist.directory_left",
    "Verif.Dist.custom_command_loses",
    "Verif.Dist.custom_command_partial",
    "Verif.Dist.nested_output_included",
    "Verif.Dist.output_excluded_partial",
    "Verif.Dist.bootstrap_only",
    "Verif.Dist.bootstrap_all_partial",
    "Verif.Dist.bootstrap_ends",
    "Verif.Dist.bootstrap_ignores",
    "Verif.Dist.back_link_loses",
    "Verif.Dist.back_link_missed"
   ],
   "note": "False of the code in four ways: with a custom command (config.dist.cmd) a second file with the same destination silently replaces the first (custom_command_loses; without collisions the outcome is the same, custom_command_partial); if the output directory is inside the source directory then generated files are distributed unless excluded (nested_output_included; output_excluded_partial otherwise); a symlink that leads back ends the loop over its directory instead of being skipped, so that files listed after it are lost (back_link_loses); and it isn't recognized if it is reached through another link, so that the traversal doesn't end (back_link_missed). bootstrap_all_partial is complete provided that no link leads back. Not modelled: how targets get entered and matched (dist rule), updating, callbacks, archives, checksums, permissions."
  },
  {
   "property": "C82",
   "status": "partial",
   "theorems": [
    "Verif.Backlink.update_links_partial",
    "Verif.Backlink.update_frame_partial",
    "Verif.Backlink.failed_unlinked",
    "Verif.Backlink.dry_run_partial",
    "Verif.Backlink.clean_removes",
    "Verif.Backlink.clean_fails",
    "Verif.Backlink.update_clean_partial",
    "Verif.Backlink.updates_succeed_partial",
    "Verif.Backlink.value_means",
    "Verif.Backlink.test_iff",
    "Verif.Backlink.test_error",
    "Verif.Backlink.collect_mem",
    "Verif.Backlink.collect_error",
    "Verif.Backlink.place_inj",
    "Verif.Backlink.source_file_lost",
    "Verif.Backlink.linked_source_lost",
    "Verif.Backlink.group_directories",
    "Verif.Backlink.overwritten_stays"
   ],
   "note": "False of the code: a file of the user's in the source directory with the name of a target is lost on update, failed update and clean (source_file_lost), and so is one that the target is a link to, with success reported (linked_source_lost); only the directory of the first link of a group is made, so that linking of a group with members in other directories fails (group_directories); what is overwritten isn't removed (overwritten_stays). The _partial theorems assume that files aren't read through where links are to be (Apart), that files to be overwritten aren't links (Plain), and for update_clean_partial that nothing was there before. A dry run makes directories, as documented in filesystem.hxx. Not modelled: fsdir members, sharing of hard links, diagnostics; functions of libbutl are taken to behave as in POSIX."
  },
  {
   "property": "C83",
   "status": "partial",
   "theorems": [
    "Verif.Disfigure.removed_exactly",
    "Verif.Disfigure.in_source_kept",
    "Verif.Disfigure.remove_again",
    "Verif.Disfigure.ignored_kept_partial",
    "Verif.Disfigure.skip_never",
    "Verif.Disfigure.ignored_lost",
    "Verif.Disfigure.output_links_lost",
    "Verif.Disfigure.skip_agrees_partial"
   ],
   "note": "False of the code: the condition for skipping .git*, .bdep, .bpkg and .build2 is a conjunction that no name satisfies (skip_never), so that links into the output directory are removed from these as well (ignored_lost; ignored_kept_partial if there are none), and if the output directory is inside the source directory then links of the output directory to its own files are removed (output_links_lost). Not modelled: removal of out-root.build, subprojects, failures of the file system."
  },
  {
   "property": "C84",
   "status": "proved",
   "theorems": [
    "Verif.Configure.disfigure_adds_nothing",
    "Verif.Configure.disfigure_removes_only",
    "Verif.Configure.disfigure_keeps",
    "Verif.Configure.disfigure_unconfigures",
    "Verif.Configure.disfigure_reports",
    "Verif.Configure.configure_disfigure",
    "Verif.Configure.configure_outside",
    "Verif.Configure.configure_saves"
   ],
   "note": "configure_disfigure assumes that everything is configured out of source, that the current directory isn't in the output directory, that no subproject is in the very directory of its project (Proper) or where a file that configuring makes is (Apart); configure_saves that output directories of projects differ. Not modelled: hooks of modules, config.config.save, hard links to src-root.build, skipping of projects that have been handled, dry runs, failures of the file system; what is in config.build is the subject of another property."
  },
  {
   "property": "C85",
   "status": "proved",
   "theorems": [
    "Verif.StrFn.contains_iff",
    "Verif.StrFn.startsWith_iff",
    "Verif.StrFn.endsWith_iff",
    "Verif.StrFn.compare_iff",
    "Verif.StrFn.compare_whole",
    "Verif.StrFn.compare_empty",
    "Verif.StrFn.replace_all",
    "Verif.StrFn.replace_one",
    "Verif.StrFn.findIndex_spec",
    "Verif.StrFn.filter_spec",
    "Verif.StrFn.errors",
    "Verif.StrFn.errors_list",
    "Verif.StrFn.filter_empty_list"
   ],
   "note": "Of $compare() whether it is 0, not the order. In an empty list nothing is compared, so that there an empty substring isn't an error (filter_empty_list). Not modelled: conversion of arguments to strings; icasecmp of libbutl is equality after an arbitrary mapping of characters."
  },
  {
   "property": "C86",
   "status": "partial",
   "theorems": [
    "Verif.ListFn.sequence_partial",
    "Verif.ListFn.sequence_usual",
    "Verif.ListFn.sequence_unique",
    "Verif.ListFn.sequence_endless",
    "Verif.ListFn.sequence_wrong",
    "Verif.ListFn.step_zero",
    "Verif.ListFn.sort_dedup",
    "Verif.ListFn.sort_plain",
    "Verif.ListFn.sort_flag",
    "Verif.ListFn.sort_strings"
   ],
   "note": "False of the code for sequences: sequence_partial says exactly for which arguments the result is right, namely if the addition doesn't wrap around; otherwise the call may never end (sequence_endless) or give wrong numbers (sequence_wrong), and a step of 0 is a division by 0 (step_zero). The part about sorting is proved in full, given what std::sort guarantees (Sorts). Not modelled: conversion of arguments, failure to allocate memory; lists of names are sorted as if there were no pairs, as in the code."
  },
  {
   "property": "C87",
   "status": "partial",
   "theorems": [
    "Verif.NameFilter.filter_spec",
    "Verif.NameFilter.filter_fails",
    "Verif.NameFilter.isA_spec",
    "Verif.NameFilter.filter_isA_partial",
    "Verif.NameFilter.pair_unchecked",
    "Verif.NameFilter.invalid_unchecked"
   ],
   "note": "What filter gives and when it fails is proved in full. That is_a agrees holds if is_a doesn't fail; false of the code otherwise: of typed names filter looks at the type only, so that a pair whose second half isn't a directory (pair_unchecked) and an invalid name (invalid_unchecked) are let through, which are errors in is_a. Not modelled: calls out of scope; how the type of an untyped name is found."
  },
  {
   "property": "C88",
   "status": "proved",
   "theorems": [
    "Verif.RegexFn.replaceLines_spec",
    "Verif.RegexFn.replaceLines_same",
    "Verif.RegexFn.replaceLines_error",
    "Verif.RegexFn.apply_spec",
    "Verif.RegexFn.merge_spec",
    "Verif.RegexFn.merge_error"
   ],
   "note": "Search and replacement in one line (regex_replace_search of libbutl and std::regex) is an arbitrary function of the line and the flags. Not modelled: errors in regular expressions, conversion of values to strings and of results to names."
  }
 ]
}
