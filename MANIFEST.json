{
 "claims": [
  {
   "property": "C01",
   "status": "proved",
   "theorems": [
    "Verif.Props.C01_memoization_transparent"
   ],
   "note": "the plain program and the storage program agree on every value; a storage error ends the comparison"
  },
  {
   "property": "C02",
   "status": "proved",
   "theorems": [
    "Verif.Props.C02_recorded_call_not_executed_again"
   ],
   "note": ""
  },
  {
   "property": "C03",
   "status": "partial",
   "theorems": [
    "Verif.Props.C03_equal_content_partial",
    "Verif.Props.C03_refuted_cold_cache"
   ],
   "note": "Proved while the earlier call is in the cache, and after preloading; false for calls that are only in the database (the content lookup asks the cache only): witness proved."
  },
  {
   "property": "C04",
   "status": "partial",
   "theorems": [
    "Verif.Props.C04_distinct_calls_partial",
    "Verif.Props.C04_refuted_star_names",
    "Verif.Props.C04_refuted_positional_only"
   ],
   "note": "All signatures and bindings, provided that the generated names args_0, args_1, ... and the names of positional-only parameters are not used as **kwargs keys or parameter names; refuted without this by f(1, 2) and f(1, args_0=2), and by f(1, a=2) and f(3, a=2)."
  },
  {
   "property": "C05",
   "status": "partial",
   "theorems": [
    "Verif.Props.C05_one_creator_partial",
    "Verif.Props.C05_refuted"
   ],
   "note": "holds unless ops return value pointers; refuted for two ops returning the same pointer"
  },
  {
   "property": "C06",
   "status": "partial",
   "theorems": [
    "Verif.Props.C06_recording_twice_partial",
    "Verif.Props.C06_refuted_dropped_builder"
   ],
   "note": "Proved: repeating a call leaves the observable storage unchanged as long as the calls that build its collections are recorded; false after one of these has been dropped: witness proved."
  },
  {
   "property": "C07",
   "status": "partial",
   "theorems": [
    "Verif.Props.C07_results_load_partial",
    "Verif.Props.C07_stored_values_load_partial",
    "Verif.Props.C07_results_load_upkeep_partial",
    "Verif.Props.C07_refuted"
   ],
   "note": "Results of calls and explicitly stored values load back to the same value at any point of any later process after a successful commit, for all values other than lists of collections, nesting below the recursion limit; also with preload and cleanup_refs in the sessions when nothing is uncommitted and the ref is used. False for lists of collections (C07_refuted). Failed commits are not covered."
  },
  {
   "property": "C08",
   "status": "partial",
   "theorems": [
    "Verif.Props.C08_nothing_dangling_partial",
    "Verif.Props.C08_nothing_dangling_upkeep_partial",
    "Verif.Props.C08_refuted",
    "Verif.Props.C08_refuted_cleanup"
   ],
   "note": "All sequences of processes, each killed between statements or inside a commit: records of refs, ops, atoms and elements are all there, with matching ids; also with preload and cleanup_refs when nothing is uncommitted and nothing needed counts as garbage. False when a process goes on after a failed commit, and with cleanup_refs while calls are uncommitted."
  },
  {
   "property": "C09",
   "status": "partial",
   "theorems": [
    "Verif.Props.C09_tables_atomic_partial",
    "Verif.Props.C09_atomic_without_overflow_partial",
    "Verif.Props.C09_torn_file_stays",
    "Verif.Props.C09_refuted"
   ],
   "note": "tables atomic; overflow files are not part of the transaction"
  },
  {
   "property": "C10",
   "status": "partial",
   "theorems": [
    "Verif.Props.C10_calls_persisted_partial",
    "Verif.Props.C10_too_large_value_partial",
    "Verif.Props.C10_refuted"
   ],
   "note": "Call rows are always written by the next successful commit; a commit failing on a too large value changes nothing; refs and values can be lost after a commit that failed later (C10_refuted)."
  },
  {
   "property": "C11",
   "status": "partial",
   "theorems": [
    "Verif.Props.C11_clear_cache_partial",
    "Verif.Props.C11_refuted_after_failed_commit"
   ],
   "note": "After every program whose commits went through, clear_cache() succeeds just if nothing is uncommitted, and whether or not it refuses every read, load, unwrap and the next commit are as without it. False after a failed commit (witness): values rolled back from the database count as committed, and a refused clear_cache() throws them away."
  },
  {
   "property": "C12",
   "status": "proved",
   "theorems": [
    "Verif.Props.C12_cached_store_is_map"
   ],
   "note": ""
  },
  {
   "property": "C13",
   "status": "partial",
   "theorems": [
    "Verif.Props.C13_overflow_invisible_partial",
    "Verif.Props.C13_listing_agrees_partial",
    "Verif.Props.C13_overflow_refuted"
   ],
   "note": "write-once large values; re-written large values are refuted"
  },
  {
   "property": "C14",
   "status": "partial",
   "theorems": [
    "Verif.Props.C14_drops_exactly_dependents_partial",
    "Verif.Props.C78_drop_calls_partial",
    "Verif.Props.C14_refuted"
   ],
   "note": "Proved for committed calls in processes whose cache was not cleared (in any sequence of processes, with success: C78_drop_calls_partial); false for uncommitted dependents (C14_refuted)."
  },
  {
   "property": "C15",
   "status": "partial",
   "theorems": [
    "Verif.Props.C15_commit_after_drop_partial",
    "Verif.Props.C15_refuted"
   ],
   "note": "Proved when only committed calls are dropped; false for uncommitted calls (C15_refuted: ValueError on commit)."
  },
  {
   "property": "C16",
   "status": "partial",
   "theorems": [
    "Verif.Props.C16_deletes_garbage_partial",
    "Verif.Props.C16_used_refs_load_partial",
    "Verif.Props.C16_refuted"
   ],
   "note": "Exactly the unused refs and values are deleted, for all programs; used refs load as before if elements of used collections are used; refuted with shared elements (content hit + drop) and uncommitted calls (C08_refuted_cleanup)"
  },
  {
   "property": "C17",
   "status": "proved",
   "theorems": [
    "Verif.Props.C17_dependents",
    "Verif.Props.C17_dependencies",
    "Verif.Props.C17_converse",
    "Verif.Props.C17_converse_refs"
   ],
   "note": ""
  },
  {
   "property": "C18",
   "status": "proved",
   "theorems": [
    "Verif.Props.C18_batch_is_pointwise",
    "Verif.Props.C18_single"
   ],
   "note": ""
  },
  {
   "property": "C19",
   "status": "partial",
   "theorems": [
    "Verif.Props.C19_blocks_scope_modes_partial",
    "Verif.Props.C19_inner_blocks_restore",
    "Verif.Props.C19_one_commit_per_outermost_block_partial",
    "Verif.Props.C19_refuted_context",
    "Verif.Props.C19_refuted_commit"
   ],
   "note": "for blocks of one storage (any nesting); false when blocks of different storages are nested"
  },
  {
   "property": "C20",
   "status": "partial",
   "theorems": [
    "Verif.Props.C20_noop_partial",
    "Verif.Props.C20_noop_records_nothing",
    "Verif.Props.C25_body_receives_arguments_noop",
    "Verif.Props.C20_outside_context_partial",
    "Verif.Props.C20_refuted_pointer",
    "Verif.Props.C20_refuted_outside_context"
   ],
   "note": "noop mode: all programs mixing run and noop statements, no calls recorded; false for value pointers (passed as pointer objects) and, outside contexts, for NewArgDefault/Ignore wrappers"
  },
  {
   "property": "C21",
   "status": "partial",
   "theorems": [
    "Verif.Props.C21_no_execution",
    "Verif.Props.C21_recorded_answered_partial",
    "Verif.Props.C21_records_known_contents_partial",
    "Verif.Props.C21_recording_refuted"
   ],
   "note": "No body is ever executed; calls on record are answered, in every reachable state (C62: in every later process); but a call with known contents and new history is recorded (refuted)."
  },
  {
   "property": "C22",
   "status": "partial",
   "theorems": [
    "Verif.Props.C22_ignored_arguments_not_seen",
    "Verif.Props.C22_answer_ignores_ignored",
    "Verif.Props.C22_run_ignores_ignored",
    "Verif.Props.C22_body_receives_ignored",
    "Verif.Props.C25_body_receives_arguments_partial"
   ],
   "note": "First half proved for all signatures, bindings and storages. Second half: an executed body receives all bound arguments including ignored ones; that these are the caller's is C25, which needs conditions on keyword names."
  },
  {
   "property": "C23",
   "status": "proved",
   "theorems": [
    "Verif.Props.C23_default_keeps_inputs",
    "Verif.Props.C23_other_value_is_new",
    "Verif.Props.C23_old_calls_still_bind"
   ],
   "note": "For all signatures, with the parameter added keyword-only at any place or after the last ordinary one."
  },
  {
   "property": "C24",
   "status": "partial",
   "theorems": [
    "Verif.Props.C24_identified_by_id",
    "Verif.Props.C24_object_not_stored",
    "Verif.Props.C24_distinct_partial",
    "Verif.Props.C24_refuted"
   ],
   "note": "Identified by id, object leaves no trace: proved. Never confused with another value: false for the string equal to the id (C24_refuted), true for all other values and ids."
  },
  {
   "property": "C25",
   "status": "partial",
   "theorems": [
    "Verif.Props.C25_body_receives_arguments_partial",
    "Verif.Props.C25_body_receives_arguments_noop",
    "Verif.Props.C25_refuted_keyword_before_star",
    "Verif.Props.C25_refuted_keyword_named_kwargs"
   ],
   "note": "All signatures and call expressions, under conditions on the names used (no parameter before *args passed by keyword, no **kwargs key equal to a parameter name, at most one Ignore wrapper). Refuted without them by two concrete calls: the body then gets a TypeError or other arguments."
  },
  {
   "property": "C26",
   "status": "partial",
   "theorems": [
    "Verif.Props.C26_outputs_in_order_partial",
    "Verif.Props.C26_refuted"
   ],
   "note": "holds when output names, if given, match the number of outputs"
  },
  {
   "property": "C27",
   "status": "partial",
   "theorems": [
    "Verif.Props.C27_file_all_or_nothing_partial",
    "Verif.Props.C27_memory_without_operational_errors_partial",
    "Verif.Props.C27_refuted_in_memory"
   ],
   "note": "file-backed: proved; in-memory: false after an OperationalError"
  },
  {
   "property": "C28",
   "status": "partial",
   "theorems": [
    "Verif.Props.C28_distinct_calls_partial",
    "Verif.Props.C28_same_call_refuted"
   ],
   "note": "holds for different calls; the same call committed by two processes raises"
  },
  {
   "property": "C29",
   "status": "proved",
   "theorems": [
    "Verif.Props.C29_commits_immutable",
    "Verif.Props.C29_content_was_committed",
    "Verif.Props.C29_committed_content_read_back",
    "Verif.Props.C29_initial_content_read_back",
    "Verif.Props.C29_synced_content_is_current"
   ],
   "note": "all sequences of init/checkout/commit/sync with any answers; content type and hash are parameters"
  },
  {
   "property": "C30",
   "status": "proved",
   "theorems": [
    "Verif.Props.C30_tree",
    "Verif.Props.C30_semantic_iff_declared",
    "Verif.Props.C30_commit_succeeds",
    "Verif.Props.C30_abort_changes_nothing"
   ],
   "note": ""
  },
  {
   "property": "C31",
   "status": "proved",
   "theorems": [
    "Verif.Props.C31_revert_restores_version",
    "Verif.Props.C31_unchanged_code"
   ],
   "note": ""
  },
  {
   "property": "C32",
   "status": "proved",
   "theorems": [
    "Verif.Props.C32_hit_means_dependencies_match"
   ],
   "note": "for all sequences of entering code states, registering executions and dropping versions"
  },
  {
   "property": "C33",
   "status": "proved",
   "theorems": [
    "Verif.Props.C33_unchanged_code_hits",
    "Verif.Props.C33_found_right_after"
   ],
   "note": "non-semantic changes share a semantic hash, so they are covered by equality of current semantic hashes"
  },
  {
   "property": "C34",
   "status": "proved",
   "theorems": [
    "Verif.Props.C34_matching_version_unique",
    "Verif.Props.C34_rows_nodup",
    "Verif.Props.C34_order_independent"
   ],
   "note": ""
  },
  {
   "property": "C35",
   "status": "proved",
   "theorems": [
    "Verif.Props.C35_failed_sync_changes_nothing",
    "Verif.Props.C35_sync_all_or_nothing",
    "Verif.Props.C35_rejected_trace_changes_nothing"
   ],
   "note": ""
  },
  {
   "property": "C36",
   "status": "partial",
   "theorems": [
    "Verif.Props.C36_refuted",
    "Verif.Props.C36_dropped_call_not_recomputable",
    "Verif.Props.C36_recomputable_after_drop_version_partial"
   ],
   "note": "false for drop_calls (witness and general theorem); true after drop_version"
  },
  {
   "property": "C37",
   "status": "partial",
   "theorems": [
    "Verif.Props.C37_lookups_after_drop_version_partial",
    "Verif.Props.C37_drop_version_calls_partial",
    "Verif.Props.C37_dropped_for_all_processes_partial",
    "Verif.Props.C37_executed_call_has_version",
    "Verif.Props.C37_known_call_has_version",
    "Verif.Props.C37_committed_versions",
    "Verif.Props.C37_committed_for_all_processes",
    "Verif.Props.C37_refuted_uncommitted",
    "Verif.Props.C37_refuted_dependents"
   ],
   "note": "Every executed call is recorded with the version it was executed with and keeps it; after a commit dropping removes exactly the calls of the version and what was computed from their results, for later processes too; lookups of other versions are unchanged. False for uncommitted calls; deleted dependents of other versions cannot be recomputed (witnesses)."
  },
  {
   "property": "C38",
   "status": "partial",
   "theorems": [
    "Verif.Props.C38_trace_exact_partial",
    "Verif.Props.C38_traced_until_nested_op",
    "Verif.Props.C38_refuted_nested",
    "Verif.Props.C38_refuted_exception"
   ],
   "note": "exact without nested ops and exceptions; exactly characterised up to the first nested op; false with nested ops or caught exceptions"
  },
  {
   "property": "C39",
   "status": "partial",
   "theorems": [
    "Verif.Props.C39_operations_keep_consistency_partial",
    "Verif.Props.C39_operations_keep_wellformed_partial",
    "Verif.Props.C39_refuted_drop_call",
    "Verif.Props.C39_refuted_drop_ref",
    "Verif.Props.C39_refuted_rename",
    "Verif.Props.C39_refuted_stale_label"
   ],
   "note": "False in general (four witnesses: drop_call leaves the call in its node; drop_ref of a used value; rename_var onto an existing name; add_call after drop_var). Proved for all finite sequences of operations meeting FOp.Fit, which excludes exactly these situations and requires fresh names, edges before calls and closed, uniform subsets."
  },
  {
   "property": "C40",
   "status": "proved",
   "theorems": [
    "Verif.Props.C40_select_nodes",
    "Verif.Props.C40_select_all"
   ],
   "note": ""
  },
  {
   "property": "C41",
   "status": "partial",
   "theorems": [
    "Verif.Props.C41_select_subsets_partial",
    "Verif.Props.C41_select_subsets_further_partial",
    "Verif.Props.C41_refuted_open_subset",
    "Verif.Props.C41_refuted_stale_inverse"
   ],
   "note": "select_subsets always succeeds on well-formed frames and has exactly the given elements; the result is consistent iff the subset is closed (proved as an equivalence; witness for an open subset). Later operations stay valid if kept elements are kept everywhere; the witness shows that otherwise drop_var leaves an inconsistent frame."
  },
  {
   "property": "C42",
   "status": "partial",
   "theorems": [
    "Verif.Props.C42_union_nodewise",
    "Verif.Props.C42_union_comm",
    "Verif.Props.C42_union_assoc_partial",
    "Verif.Props.C42_union_idempotent",
    "Verif.Props.C42_union_defined_iff",
    "Verif.Props.C42_intersection_nodewise",
    "Verif.Props.C42_intersection_laws",
    "Verif.Props.C42_intersection_consistent_partial",
    "Verif.Props.C42_refuted_union_total",
    "Verif.Props.C42_refuted_union_assoc",
    "Verif.Props.C42_refuted_intersection_consistent"
   ],
   "note": "All laws hold for the results, but a union can raise (exact condition proved), hence associativity only when both inner unions exist, and an intersection can be inconsistent (exact condition proved, for frames without a name that is a variable in one and a function in the other)."
  },
  {
   "property": "C43",
   "status": "proved",
   "theorems": [
    "Verif.Props.C43_least_closed",
    "Verif.Props.C43_strong_within_weak",
    "Verif.Props.C43_order_independent",
    "Verif.Props.C43_monotone_idempotent"
   ],
   "note": "For frames well formed over the recorded calls (C39), the search ends and yields the least closed set; strong within weak; independent of listing order; monotone and idempotent. Hypothesis LabelsOk: edges at a function of list-building calls carry the projected label, as every operation of the library creates them."
  },
  {
   "property": "C44",
   "status": "proved",
   "theorems": [
    "Verif.Props.C44_reachable_nodes",
    "Verif.Props.C44_upstream_downstream"
   ],
   "note": "Exactly the nodes at the end of a path, both directions, converse to each other; the search terminates."
  },
  {
   "property": "C45",
   "status": "proved",
   "theorems": [
    "Verif.Props.C45_total_history",
    "Verif.Props.C45_terminates",
    "Verif.Props.C45_creator"
   ],
   "note": "For well-formed frames (the invariant proved in C39 for building operations, edges recorded at both ends) over recorded calls in which no value is made from itself; python's iteration order over set-built dictionaries is a parameter."
  },
  {
   "property": "C46",
   "status": "proved",
   "theorems": [
    "Verif.Props.C46_node_order",
    "Verif.Props.C46_acyclic_topological",
    "Verif.Props.C46_sort_nodes"
   ],
   "note": "all graphs given by the out-adjacency of a frame whose edges end in nodes; Tarjan and Kahn modelled line by line"
  },
  {
   "property": "C47",
   "status": "partial",
   "theorems": [
    "Verif.Props.C47_edges_on_simple_paths_partial",
    "Verif.Props.C47_edges_on_walks_partial",
    "Verif.Props.C47_refuted",
    "Verif.Props.C47_diverges"
   ],
   "note": "exact and terminating on acyclic graphs; on cyclic graphs the code is wrong: extra edges (C47_refuted) and endless search (C47_diverges); what is returned always lies on walks"
  },
  {
   "property": "C48",
   "status": "partial",
   "theorems": [
    "Verif.Props.C48_only_adds_partial",
    "Verif.Props.C48_reaches_partial",
    "Verif.Props.C48_recursive_partial",
    "Verif.Props.C48_expand_all_partial",
    "Verif.Props.C48_reuse_terminates",
    "Verif.Props.C48_refuted_reuse_stops",
    "Verif.Props.C48_refuted_hollow",
    "Verif.Props.C48_refuted_other_consumers",
    "Verif.Props.C48_refuted_list_elements",
    "Verif.Props.C48_refuted_empty"
   ],
   "note": "In all modes expansion only adds recorded calls with their inputs and outputs, and one round attaches every recorded creator/consumer of the values that had none in the frame. With reuse_existing=False the recursive expansions and expand_all terminate, give a consistent frame and miss nothing. With reuse_existing=True (the default) they terminate and do not fail if every function has calls, of one op. Refuted: with reuse the recursive expansion stops early and leaves an inconsistent frame; functions without calls make it raise; going forward, further consumers of values that already have one are not found; elements of lists share a label and are lost; a frame without variables raises TypeError."
  },
  {
   "property": "C49",
   "status": "partial",
   "theorems": [
    "Verif.Props.C49_removes_nothing_else_partial",
    "Verif.Props.C49_refuted_keeps_empty",
    "Verif.Props.C49_drop_empty_partial"
   ],
   "note": "cleanup removes nothing it should not; the claim that it removes the empty nodes is refuted: it throws away the answer of drop_node, so no empty node is ever removed. Dropping an empty node by hand is proved to do what cleanup should."
  },
  {
   "property": "C50",
   "status": "partial",
   "theorems": [
    "Verif.Props.C50_not_in_place_partial",
    "Verif.Props.C50_in_place",
    "Verif.Props.C50_refuted_move_ref",
    "Verif.Props.C50_refuted_merge_into"
   ],
   "note": "Operations called with inplace=False leave every existing frame object unchanged and return a new one, with inplace=True change exactly their own object; refuted for move_ref and merge_into, which write to the original."
  },
  {
   "property": "C51",
   "status": "partial",
   "theorems": [
    "Verif.Props.C51_new_variable_partial",
    "Verif.Props.C51_new_function_partial",
    "Verif.Props.C51_name_kept",
    "Verif.Props.C51_fresh_when_apart",
    "Verif.Props.C51_refuted"
   ],
   "note": "Generation terminates and the name is new among the nodes of its own kind; refuted across kinds: a variable can be given the name of a function (and vice versa), destroying its edges."
  },
  {
   "property": "C52",
   "status": "partial",
   "theorems": [
    "Verif.Props.C52_edges_both_ways_partial",
    "Verif.Props.C52_neighbors_partial",
    "Verif.Props.C52_refuted_rename"
   ],
   "note": "Holds in every frame made by operations that create nodes under new names, by dropping edges, union and intersection. Renaming a variable onto another node breaks it (refutation)."
  },
  {
   "property": "C53",
   "status": "partial",
   "theorems": [
    "Verif.Props.C53_elements_recorded_partial",
    "Verif.Props.C53_refuted"
   ],
   "note": "All processes, all nestings: elements of returned collections are outputs of recorded access calls with their inputs, when the call executed; refuted for calls answered by content"
  },
  {
   "property": "C54",
   "status": "partial",
   "theorems": [
    "Verif.Props.C54_rows_complete_partial",
    "Verif.Props.C54_refuted"
   ],
   "note": "holds when input and output names differ; refuted on a name clash"
  },
  {
   "property": "C55",
   "status": "proved",
   "theorems": [
    "Verif.Props.C55_setdict_union_intersection",
    "Verif.Props.C55_adjacency_union_intersection",
    "Verif.Props.C55_dict_union_intersection",
    "Verif.Props.C55_adjacency_from_edges",
    "Verif.Props.C55_invert_groups_keys",
    "Verif.Props.C55_invert_recovers",
    "Verif.Props.C55_is_subdict"
   ],
   "note": "All helpers, all inputs."
  },
  {
   "property": "C56",
   "status": "partial",
   "theorems": [
    "Verif.Props.C56_dropped_calls_forgotten_partial",
    "Verif.Props.C56_dropped_calls_forgotten_sessions_partial",
    "Verif.Props.C56_refuted"
   ],
   "note": "Proved in any process whose cache was not cleared; false after clear_cache (C56_refuted)."
  },
  {
   "property": "C57",
   "status": "partial",
   "theorems": [
    "Verif.Props.C57_drop_variable",
    "Verif.Props.C57_drop_function_partial",
    "Verif.Props.C57_refuted_after_output",
    "Verif.Props.C57_refuted_double_use"
   ],
   "note": "Variables can always be dropped. Functions: KeyError after an output variable was dropped, or for a call using one value twice; proved when all inputs and outputs are tracked and distinct."
  },
  {
   "property": "C58",
   "status": "partial",
   "theorems": [
    "Verif.Props.C58_stream_content",
    "Verif.Props.C58_stream_consistent_partial",
    "Verif.Props.C58_drop_unreachable_partial",
    "Verif.Props.C58_refuted_weak",
    "Verif.Props.C58_refuted_two_entries",
    "Verif.Props.C58_refuted_difference"
   ],
   "note": "Success and exact content proved for all frames; consistency proved for how='strong' from variables with a single variable per argument; refuted for how='weak', for several variables per argument, and for differences."
  },
  {
   "property": "C59",
   "status": "partial",
   "theorems": [
    "Verif.Props.C59_merge_into",
    "Verif.Props.C59_merge_vars_partial",
    "Verif.Props.C59_refuted_intersections"
   ],
   "note": "merge_into in place proved in full; merge_vars proved to terminate and to keep exactly the variables not strictly contained in another; the documented absence of intersections is refuted."
  },
  {
   "property": "C60",
   "status": "partial",
   "theorems": [
    "Verif.Props.C60_from_op_partial",
    "Verif.Props.C60_from_vars_partial",
    "Verif.Props.C60_from_refs_partial",
    "Verif.Props.C60_refuted_op_named_like_parameter",
    "Verif.Props.C60_refuted_duplicate_values"
   ],
   "note": "Proved for every set of calls of an op whose name is not that of a generated variable, and for values without repetition; refuted otherwise."
  },
  {
   "property": "C61",
   "status": "partial",
   "theorems": [
    "Verif.Props.C61_answered_within_limits_partial",
    "Verif.Props.C61_answered_with_upkeep_partial",
    "Verif.Props.C61_refuted_preload",
    "Verif.Props.C61_refuted_cleanup"
   ],
   "note": "For all programs of sessions and all earlier sessions killed anywhere; preload and cleanup_refs included when nothing is uncommitted and (cleanup_refs) nothing needed counts as garbage; without these conditions it is false (C61_refuted_preload, C61_refuted_cleanup). Not covered: failed commits."
  },
  {
   "property": "C62",
   "status": "partial",
   "theorems": [
    "Verif.Props.C62_replay_partial",
    "Verif.Props.C62_replay_upkeep_partial",
    "Verif.Props.C07_refuted",
    "Verif.Props.replay_study"
   ],
   "note": "For every program whose calls all returned and were committed, after any later processes (killed anywhere) without drop_calls, also if processes before and after run preload and cleanup_refs orderly. Not covered: ops that return lists of collections (refuted: they cannot be unwrapped in later processes); failed commits."
  },
  {
   "property": "C63",
   "status": "partial",
   "theorems": [
    "Verif.Props.C63_records_true_partial",
    "Verif.Props.C63_records_agree_partial",
    "Verif.Props.C63_refuted"
   ],
   "note": "Invariant over all programs: every row belongs to a truthful record; inputs named like an output lose their row (C63_refuted); value pointers excluded"
  },
  {
   "property": "C64",
   "status": "partial",
   "theorems": [
    "Verif.Props.C64_no_cycles_partial",
    "Verif.Props.C64_refuted"
   ],
   "note": "Well-foundedness of the ancestor relation over all programs; false with value pointers (C64_refuted)"
  },
  {
   "property": "C65",
   "status": "proved",
   "theorems": [
    "Verif.Props.C65_history_table"
   ],
   "note": "For all consistent frames over acyclic histories, variables, and orders in which python visits sets."
  },
  {
   "property": "C66",
   "status": "partial",
   "theorems": [
    "Verif.Props.C66_joint_history",
    "Verif.Props.C66_unrelated_values_in_one_row"
   ],
   "note": "Proved: completeness, soundness, no duplicates, success with a common node, for both joins. False: that values in one row have something to do with each other; null cells match null cells, so values without history are paired."
  },
  {
   "property": "C67",
   "status": "partial",
   "theorems": [
    "Verif.Props.C67_inner_rows_order_free_partial",
    "Verif.Props.C67_result_depends_on_set_order",
    "Verif.Props.C67_outer_rows_depend_on_set_order"
   ],
   "note": "Proved for the rows of inner joins. False for outer joins (different numbers of rows) and for whether there is a result (the joins may meet tables without a common column first)."
  },
  {
   "property": "C68",
   "status": "partial",
   "theorems": [
    "Verif.Props.C68_midstream_partial",
    "Verif.Props.C68_consistent_partial",
    "Verif.Props.C68_all_nodes_partial",
    "Verif.Props.C68_never_ends"
   ],
   "note": "Content and consistency of midstream for frames whose node graph has no cycle (with one variable per argument for consistency). With cycles the path search exceeds any recursion depth."
  },
  {
   "property": "C69",
   "status": "partial",
   "theorems": [
    "Verif.Props.C69_df_partial",
    "Verif.Props.C69_refuted_siblings",
    "Verif.Props.C69_refuted_single_node",
    "Verif.Props.C69_refuted_isolated",
    "Verif.Props.C69_refuted_one_variable",
    "Verif.Props.C69_refuted_no_outputs"
   ],
   "note": "df() is complete and sound for frames without cycles, isolated nodes and calls without tracked outputs; success if the final values have a node of their histories in common. Refuted otherwise: silent omission of isolated variables, IndexError for single variables, siblings and functions without outputs, refs instead of values for a single node."
  },
  {
   "property": "C70",
   "status": "partial",
   "theorems": [
    "Verif.Props.C70_never_stale_partial",
    "Verif.Props.C70_transparent_partial",
    "Verif.Props.C70_second_call_partial",
    "Verif.Props.C70_no_recompute_partial",
    "Verif.Props.C70_refuted_nested",
    "Verif.Props.C70_refuted_change_inside",
    "Verif.Props.C70_refuted_exception",
    "Verif.Props.C70_refuted_failed_enter",
    "Verif.Props.C70_refuted_dropped"
   ],
   "note": "Proved for all programs whose behaviour is determined by the meaning of what they use (shown for a small language) and all sessions with honest answers, in which ops call no other ops and catch no exceptions, code changes outside of contexts, and every enter succeeds. Refuted without each of these."
  },
  {
   "property": "C71",
   "status": "partial",
   "theorems": [
    "Verif.Props.C71_never_stale_partial",
    "Verif.Props.C71_transparent_partial",
    "Verif.Props.C71_commits_partial",
    "Verif.Props.C71_same_process_partial",
    "Verif.Props.C71_no_recompute_partial",
    "Verif.Props.C71_refuted_lost_update",
    "Verif.Props.C71_refuted_same_call",
    "Verif.Props.C71_refuted_dropped",
    "Verif.Props.C71_refuted_dropped_early"
   ],
   "note": "Results are right under all interleavings; no call fails unless versions are dropped carelessly; commits and reuse for one process at a time. False for processes at the same time (lost versions, integrity errors) and for dropped versions, with witnesses."
  },
  {
   "property": "C72",
   "status": "partial",
   "theorems": [
    "Verif.Props.C72_every_commit_shown",
    "Verif.Props.C72_every_version_shown_partial",
    "Verif.Props.C72_all_versions_shown_partial",
    "Verif.Props.C72_unknown_rejected",
    "Verif.Props.C72_refuted_text",
    "Verif.Props.C72_refuted_semantic_id",
    "Verif.Props.C72_refuted_diff_globals"
   ],
   "note": "Commits: every recorded commit is printed with the content that hashes to it; unknown ids are rejected. Versions: each dependency is listed exactly once with a text recorded in its history whose semantic version is that of what the calls have used. Refuted: the text need not be what was executed (a version recorded after a comment-only change is printed with the old text); semantic version ids printed by versions() are not accepted by get_code; diff of two values of a global raises AttributeError. Assumes recursion depth covers the number of commits."
  },
  {
   "property": "C73",
   "status": "partial",
   "theorems": [
    "Verif.Props.C73_known_function",
    "Verif.Props.C73_known_variable",
    "Verif.Props.C73_new_function_partial",
    "Verif.Props.C73_nothing_else",
    "Verif.Props.C73_found_partial",
    "Verif.Props.C73_code_partial",
    "Verif.Props.C73_refuted_alias",
    "Verif.Props.C73_refuted_unhashable",
    "Verif.Props.C73_refuted_dataclass",
    "Verif.Props.C73_refuted_cycle",
    "Verif.Props.C73_refuted_getter",
    "Verif.Props.C73_refuted_inherited"
   ],
   "note": "Known functions and variables are taken as what their names now stand for, decorators removed; nothing else than functions that name themselves so (or the placeholder) is recorded. New functions: found, with the code their name stands for, if no function of the module is kept under a foreign name. Entering succeeds if all that is known is present, variables hashable, functions have sources and classes are not cyclic. Together: the hypothesis Crawled of C70. Refuted with concrete programs: aliases of older functions, unhashable globals, dataclasses, cyclic classes, getters and class methods (stale result end to end), classes inheriting a constructor from another module."
  },
  {
   "property": "C74",
   "status": "partial",
   "theorems": [
    "Verif.Props.C74_transparent_partial",
    "Verif.Props.C74_no_objection_partial",
    "Verif.Props.C74_determined_partial",
    "Verif.Props.C74_refuted_rebinding",
    "Verif.Props.C74_refuted_attribute",
    "Verif.Props.C74_refuted_foreign",
    "Verif.Props.C74_refuted_write",
    "Verif.Props.C74_refuted_class",
    "Verif.Props.C74_refuted_untracked",
    "Verif.Props.C74_refuted_unhashable"
   ],
   "note": "Transparent if tracked functions write no names of their modules; determined by what is recorded plus a list of what the tracer does not see, each entry of which is refuted by a concrete program."
  },
  {
   "property": "C75",
   "status": "partial",
   "theorems": [
    "Verif.Props.C75_filter_partial",
    "Verif.Props.C75_lone_function",
    "Verif.Props.C75_all_tested",
    "Verif.Props.C75_isin_arguments",
    "Verif.Props.C75_refuted_two_edges",
    "Verif.Props.C75_refuted_lone_function",
    "Verif.Props.C75_refuted_consistent"
   ],
   "note": "Filtering keeps exactly the matching values; kept calls have a matching value, and all such calls are kept if a variable and a function share at most one edge. Refuted: with several edges the last one visited wins; functions without edges make it fail; the result need not be consistent."
  },
  {
   "property": "C76",
   "status": "partial",
   "theorems": [
    "Verif.Props.C76_attach_partial",
    "Verif.Props.C76_refuted_list",
    "Verif.Props.C76_refuted_frame"
   ],
   "note": "Proved for results of ops whose outputs are flat collections, in any orderly session; what attach returns for a collection is not a ref (refuted), and cf.attach() attaches nothing (refuted)."
  },
  {
   "property": "C77",
   "status": "partial",
   "theorems": [
    "Verif.Props.C77_taken_apart_partial",
    "Verif.Props.C77_annotated_calls_partial",
    "Verif.Props.C77_tuples_need_types",
    "Verif.Props.C77_refuted_tuple",
    "Verif.Props.C77_refuted_set",
    "Verif.Props.C77_refuted_nout"
   ],
   "note": "For all functions that hold to their annotations: outputs are parsed without error and taken apart exactly as annotated, and calls at any point of any orderly session show what the function does. Not for MSet/MTuple, several outputs under another annotation than Tuple[...], nout given for a non-tuple (all refuted), and MLists of collections (C07_refuted)."
  },
  {
   "property": "C78",
   "status": "partial",
   "theorems": [
    "Verif.Props.C78_delete_calls_partial",
    "Verif.Props.C78_drop_calls_partial",
    "Verif.Props.C78_delete_calls_from_df_partial",
    "Verif.Props.C78_refuted_generator",
    "Verif.Props.C78_refuted_table"
   ],
   "note": "Success and exact effect in any process without uncommitted calls and without clear_cache, for collections (not generators) and for tables with at most one call per cell; refuted for generators and for cells with several calls."
  },
  {
   "property": "C79",
   "status": "partial",
   "theorems": [
    "Verif.Props.C79_values_shown_partial",
    "Verif.Props.C79_df_partial",
    "Verif.Props.C79_refuted_skip_calls",
    "Verif.Props.C79_refuted_sets",
    "Verif.Props.C79_refuted_generator"
   ],
   "note": "eval_df shows the recorded values for any storage after orderly sessions and any table with uniform cells, in particular for df of a whole frame; refuted for skip_calls with a null in the first row, tables with sets, and generators of columns"
  },
  {
   "property": "C80",
   "status": "partial",
   "theorems": [
    "Verif.Props.C80_sys_tracer_partial",
    "Verif.Props.C80_active",
    "Verif.Props.C80_refuted_storage",
    "Verif.Props.C80_refuted_lambda",
    "Verif.Props.C80_refuted_swallowed",
    "Verif.Props.C80_refuted_name"
   ],
   "note": "Proved for every tree of frames that no code on the way catches exceptions of the tracer; whether the tracer is still active tells completeness in general. Refuted: use in a storage (TypeError), lambdas, caught exceptions, functions named leaf_signal."
  },
  {
   "property": "C81",
   "status": "partial",
   "theorems": [
    "Verif.Props.C81_graph_partial",
    "Verif.Props.C81_refuted_empty",
    "Verif.Props.C81_refuted_filtered",
    "Verif.Props.C81_refuted_names",
    "Verif.Props.C81_refuted_unnamed"
   ],
   "note": "Needs that every function of the frame has a call and that output labels are outputs of the stored ops; otherwise printing raises (refutations proved)."
  },
  {
   "property": "C82",
   "status": "partial",
   "theorems": [
    "Verif.Props.C82_queries_exact_partial",
    "Verif.Props.C82_frames_see_partial",
    "Verif.Props.C82_refuted_uncommitted"
   ],
   "note": "Proved for committed calls outside of a context, after any orderly processes; the answers satisfy the assumptions of the frame theorems. Refuted for calls that are not committed; inside of a context the queries raise."
  },
  {
   "property": "C83",
   "status": "partial",
   "theorems": [
    "Verif.Props.C83_cf_op_partial",
    "Verif.Props.C83_history_partial",
    "Verif.Props.C83_op_history_partial",
    "Verif.Props.C83_refuted_column",
    "Verif.Props.C83_refuted_op_op",
    "Verif.Props.C83_refuted_generator",
    "Verif.Props.C83_refuted_dict",
    "Verif.Props.C83_refuted_context"
   ],
   "note": "cf(op) exact; recursive expand_back without reuse of cf(refs) and cf(op) yields exactly the recorded history, for all orderly processes. Refuted for ops named like a column, generators, dictionaries given (changed in place), inside a context."
  },
  {
   "property": "C84",
   "status": "partial",
   "theorems": [
    "Verif.Props.C84_values",
    "Verif.Props.C84_func_table_partial",
    "Verif.Props.C84_var_info",
    "Verif.Props.C84_stats",
    "Verif.Props.C84_recorded_table_partial",
    "Verif.Props.C84_refuted_same_name"
   ],
   "note": "values(), var_info and the statistics for every well-formed frame; get_func_table for functions whose calls have no input and output of the same name (refuted otherwise), and end to end against the table of calls for cf(op)."
  },
  {
   "property": "C85",
   "status": "partial",
   "theorems": [
    "Verif.Props.C85_later_partial",
    "Verif.Props.C85_refuted_elements",
    "Verif.Props.C85_refuted_op"
   ],
   "note": "From cf(refs) without reuse, unless something downstream is an element of a list with several elements; false then, and false from cf(op) (refutations)."
  },
  {
   "property": "C86",
   "status": "partial",
   "theorems": [
    "Verif.Props.C86_history_table_partial",
    "Verif.Props.C86_op_history_table_partial"
   ],
   "note": "under the conditions of C83: reuse_existing=False, outside of a context, names of ops and arguments apart, op names that are not columns of the calls table"
  },
  {
   "property": "C87",
   "status": "proved",
   "theorems": [
    "Verif.Props.C87_every_commit_printed",
    "Verif.Props.C87_source_history",
    "Verif.Props.C87_marked_is_current"
   ],
   "note": "Entries of the printed tree instead of the text; the graphical tree has the same entries."
  },
  {
   "property": "C88",
   "status": "partial",
   "theorems": [
    "Verif.Props.C88_nothing_made_up",
    "Verif.Props.C88_whole_change_partial",
    "Verif.Props.C88_every_changed_line_partial",
    "Verif.Props.C88_text",
    "Verif.Props.C88_prompt_partial",
    "Verif.Props.C88_colored_prompt_partial",
    "Verif.Props.C88_refuted_removed",
    "Verif.Props.C88_refuted_added",
    "Verif.Props.C88_refuted_line_end"
   ],
   "note": "Refuted for removed lines that start with -- and added lines that start with ++ (taken for headers); proved for all other texts. Without the condition: nothing is made up."
  },
  {
   "property": "C89",
   "status": "partial",
   "theorems": [
    "Verif.Props.C89_open_rejects_iff",
    "Verif.Props.C89_options_in_use",
    "Verif.Props.C89_config_partial",
    "Verif.Props.C89_first_wins_partial",
    "Verif.Props.C89_sync_component",
    "Verif.Props.C89_sync_component_told",
    "Verif.Props.C89_sync_then_enter",
    "Verif.Props.C89_sync_durable_partial",
    "Verif.Props.C89_refuted_options",
    "Verif.Props.C89_refuted_race",
    "Verif.Props.C89_refuted_sync_lost"
   ],
   "note": "Opening is refused exactly for other paths; a running process keeps the options that were recorded when it opened the database, or its own if there were none; sync_component in full. Missing: dump_config tells the options in use only if the database had none or the same; the first options stay only if nobody else opens the database before they are written; a synced component is kept only with a commit of a versioned storage. Each is refuted without its condition."
  },
  {
   "property": "C90",
   "status": "partial",
   "theorems": [
    "Verif.Props.C90_draw_partial",
    "Verif.Props.C90_numbers",
    "Verif.Props.C90_dot_partial",
    "Verif.Props.C90_dot_edges_partial",
    "Verif.Props.C90_refuted_empty",
    "Verif.Props.C90_refuted_filtered",
    "Verif.Props.C90_refuted_names",
    "Verif.Props.C90_refuted_path"
   ],
   "note": "Boxes, arrows and all counts are those of the frame, and the dot text reads back as the drawing, for frames whose functions all have calls and whose names are plain. Without calls draw fails; other names break the dot text; the extension of the path is ignored (witnesses)."
  },
  {
   "property": "C91",
   "status": "partial",
   "theorems": [
    "Verif.Props.C91_union_nodewise",
    "Verif.Props.C91_union_order",
    "Verif.Props.C91_union_every_order_iff",
    "Verif.Props.C91_intersection_nodewise",
    "Verif.Props.C91_intersection_order",
    "Verif.Props.C91_refuted_union_order",
    "Verif.Props.C91_refuted_none"
   ],
   "note": "Contents of unions and intersections of any number of frames, independence of order and repetition of the result when defined, and exactly when every order is defined (every two can be united). Missing, because false: that definedness of a union is independent of the order (witness C91_refuted_union_order); no frames is a TypeError (C91_refuted_none)."
  },
  {
   "property": "C92",
   "status": "partial",
   "theorems": [
    "Verif.Props.C92_announced_iff",
    "Verif.Props.C92_announced_once",
    "Verif.Props.C92_listed_partial",
    "Verif.Props.C92_answers_decide_partial",
    "Verif.Props.C92_valid_iff_partial",
    "Verif.Props.C92_refuted_component",
    "Verif.Props.C92_refuted_back"
   ],
   "note": "What is announced and listed on entering a context with changed code, after any history, and what the answers decide: with no component going back to earlier code, the valid versions afterwards are exactly those valid before and listed only under changes answered no. Missing, because false: that every dependent version is listed under its op (C92_refuted_component: versions of different ops can share a content id), and that every change that invalidates versions is announced (C92_refuted_back: going back to earlier code is silent)."
  },
  {
   "property": "C93",
   "status": "proved",
   "theorems": [
    "Verif.Props.C93_current_iff",
    "Verif.Props.C93_code_at_hand",
    "Verif.Props.C93_unknown_empty",
    "Verif.Props.C93_queries_agree",
    "Verif.Props.C93_found_iff_current"
   ],
   "note": "Both queries for the versions of an op that are good for given code, after any history, their agreement with the lookup of memoized calls, and that for the code of the open context they never fail."
  },
  {
   "property": "C94",
   "status": "partial",
   "theorems": [
    "Verif.Props.C94_selects",
    "Verif.Props.C94_order",
    "Verif.Props.C94_repeated",
    "Verif.Props.C94_single",
    "Verif.Props.C94_nested",
    "Verif.Props.C94_refuted_not_names"
   ],
   "note": "Selection by index, independent of order and repetition, and composition of selections. Missing, because false: that every index gives a frame or raises (C94_refuted_not_names: with an element that is not a string None is returned)."
  },
  {
   "property": "C95",
   "status": "proved",
   "theorems": [
    "Verif.Props.C95_each_meaning_once"
   ],
   "note": "One entry per semantic version, faithful to every recorded version with it, after any history."
  }
 ]
}
