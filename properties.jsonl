{"id": "C01", "title": "Memoization is transparent", "statement": "For deterministic ops, every value a program gets by running @op calls inside `with storage:` and unwrapping the results equals the value the same program computes with the plain functions, whatever was computed, committed, evicted from the cache or re-opened before.", "quantifier": "all finite programs of op calls over raw values and earlier results, from every storage state reachable by earlier calls, commits, cache clears and re-opens", "why_tests_cant": "a wrong hit needs a particular earlier history; tests only exercise a few histories and a few values", "anchors": ["mandala/storage.py: Storage.call, call_internal, lookup_call, save_call, unwrap", "mandala/model.py: wrap_atom, Op"]}
{"id": "C02", "title": "A recorded call is never executed again", "statement": "Once a call to an op on given inputs has completed in a storage, repeating the call on the same inputs (same values with same history) returns the recorded outputs and does not run the function body, both before and after a commit, cache clear or re-open.", "quantifier": "all ops, inputs and reachable storage states, all interleavings of other calls, commits, cache clears and re-opens in between", "why_tests_cant": "the number of interleavings between the first and the second call is unbounded", "anchors": ["mandala/storage.py: lookup_call, call_internal", "mandala/storage_utils.py: CachedCallStorage.exists, CachedCallStorage.get_data"]}
{"id": "C03", "title": "Equal content is not recomputed", "statement": "Calling an op on inputs whose contents equal those of an already recorded call (but produced by a different history) reuses the recorded outputs instead of running the function body.", "quantifier": "all ops, content-equal inputs and reachable storage states, in particular those whose in-memory cache is cold", "why_tests_cant": "the failing states need a re-open or cache clear between the two calls, which no test does for content hits", "anchors": ["mandala/storage.py: lookup_call", "mandala/storage_utils.py: CachedCallStorage.exists_content, SQLiteCallStorage.exists_content"]}
{"id": "C04", "title": "Distinct calls are not conflated", "statement": "Two calls of an op whose non-ignored bound arguments differ get different call identifiers, so neither can be answered with the other's result.", "quantifier": "all signatures (with *args, **kwargs, defaults) and all pairs of argument bindings", "why_tests_cant": "needs quantification over all pairs of argument bindings; clashes only appear for unusual signatures", "anchors": ["mandala/storage.py: parse_args", "mandala/model.py: Op.get_call_history_id, Op.get_call_content_id"]}
{"id": "C05", "title": "Every ref has at most one creator", "statement": "In every storage reachable through the API, no history id is recorded as the output of two different calls, so asking for a ref's creator never fails with 'multiple creators'.", "quantifier": "all reachable storages and all refs in them", "why_tests_cant": "an invariant over all histories", "anchors": ["mandala/storage.py: get_ref_creator, call_internal", "mandala/model.py: Op.get_output_history_ids, wrap_atom"]}
{"id": "C06", "title": "Recording a call twice changes nothing", "statement": "Re-running or re-saving a call that is already recorded leaves the set of recorded calls, refs and atoms as it was.", "quantifier": "all storage states and all recorded calls", "why_tests_cant": "idempotence must hold from every state", "anchors": ["mandala/storage.py: save_call, save_ref"]}
{"id": "C07", "title": "Saved values are read back unchanged", "statement": "A value that was constructed into a ref (atoms, lists, dicts, nested) and saved can be loaded from the storage and unwrapped to exactly the same value, also after commit and re-open.", "quantifier": "all nested values and all storage states", "why_tests_cant": "values are nested to arbitrary depth and states are arbitrary; tests use flat lists", "anchors": ["mandala/storage.py: construct, save_ref, load_ref, unwrap, attach", "mandala/model.py: ListRef, DictRef, recurse_on_ref_collections"]}
{"id": "C08", "title": "Referential integrity of the database", "statement": "In every committed database state every input and output of every recorded call, and every element of every recorded collection, has its own record, and every atom among them has its value stored.", "quantifier": "all reachable databases, including those found after a crash at any point", "why_tests_cant": "an invariant over all histories and crash points", "anchors": ["mandala/storage.py: save_call, save_ref, commit"]}
{"id": "C09", "title": "Commit is atomic", "statement": "If the process dies or an exception is raised at any point while a file-backed storage commits, the database holds either everything from before the commit or everything from after it.", "quantifier": "all cache contents and all failure points inside the commit", "why_tests_cant": "needs a failure at every single write", "anchors": ["mandala/storage.py: commit, __exit__", "mandala/storage_utils.py: CachedDictStorage.commit, CachedCallStorage.commit, DBAdapter.conn"]}
{"id": "C10", "title": "A failed commit can be retried", "statement": "If a commit fails and is rolled back, a later successful commit still persists all data that had not been persisted.", "quantifier": "all cache contents and all failure points", "why_tests_cant": "needs a failed commit followed by a successful one", "anchors": ["mandala/storage.py: commit", "mandala/storage_utils.py: CachedDictStorage.commit, CachedCallStorage.commit"]}
{"id": "C11", "title": "Clearing the cache never loses uncommitted data", "statement": "clear_cache() without allow_uncommitted either refuses or leaves every stored value readable exactly as before.", "quantifier": "all cache/database states", "why_tests_cant": "all combinations of dirty and clean tables", "anchors": ["mandala/storage.py: clear_cache", "mandala/storage_utils.py: CachedDictStorage.clear, CachedCallStorage.clear"]}
{"id": "C12", "title": "The cached store behaves like one map", "statement": "For any sequence of reads, writes, existence checks, deletes, commits and cache clears, the two-level key/value store answers exactly as a single in-memory dictionary would.", "quantifier": "all finite operation sequences", "why_tests_cant": "refinement over unbounded operation sequences", "anchors": ["mandala/storage_utils.py: CachedDictStorage, SQLiteDictStorage"]}
{"id": "C13", "title": "Overflow storage is invisible", "statement": "Whether a value is stored in the database row or in an overflow file does not affect what is read, listed or deleted.", "quantifier": "all thresholds, values and operation sequences", "why_tests_cant": "depends on sizes and on sequences that re-use a key", "anchors": ["mandala/storage_utils.py: SQLiteDictStorage, JoblibDictStorage"]}
{"id": "C14", "title": "Dropping calls drops exactly the dependents", "statement": "drop_calls(calls, delete_dependents=True) deletes the given recorded calls and every call that transitively consumes one of their outputs, and nothing else; no surviving call consumes an output of a deleted one.", "quantifier": "all call databases and all sets of calls", "why_tests_cant": "closure over arbitrary call graphs", "anchors": ["mandala/storage.py: drop_calls", "mandala/storage_utils.py: InMemCallStorage.get_dependents, SQLiteCallStorage.get_dependents"]}
{"id": "C15", "title": "Uncommitted calls can be dropped", "statement": "After drop_calls on calls made in the current, not yet committed context, the context can still be committed.", "quantifier": "all cache contents and all sets of calls dropped", "why_tests_cant": "needs drop inside a context followed by commit", "anchors": ["mandala/storage.py: drop_calls, commit", "mandala/storage_utils.py: CachedCallStorage.drop, CachedCallStorage.commit"]}
{"id": "C16", "title": "Cleaning up refs only removes garbage", "statement": "cleanup_refs() deletes precisely the refs and atoms that no recorded call refers to; every ref of every recorded call stays loadable and unwraps to the same value.", "quantifier": "all reachable databases", "why_tests_cant": "garbage is a global property of the database", "anchors": ["mandala/storage.py: cleanup_refs, get_orphans, get_unreferenced_cids"]}
{"id": "C17", "title": "Dependents and dependencies are the reachability closure", "statement": "The dependents (dependencies) of a set of refs and calls are exactly the refs and calls reachable along (against) the data flow, the computation terminates, and the two are converses of each other.", "quantifier": "all call databases and all starting sets", "why_tests_cant": "closure over arbitrary call graphs", "anchors": ["mandala/storage_utils.py: InMemCallStorage.get_dependents, InMemCallStorage.get_dependencies"]}
{"id": "C18", "title": "Batch lookups preserve order", "statement": "Loading several calls at once returns, in the order requested, exactly what loading each one separately returns, regardless of which of them are cached.", "quantifier": "all request lists and all splits between cache and database", "why_tests_cant": "the split/merge depends on an arbitrary mask", "anchors": ["mandala/storage.py: mget_call", "mandala/storage_utils.py: CachedCallStorage.mget_data, InMemCallStorage.mget_data, SQLiteCallStorage.mget_data"]}
{"id": "C19", "title": "Contexts nest and restore", "statement": "For any well-nested use of `with storage(mode=...)` blocks (also left by exceptions), the mode after a block equals the mode before it, a commit happens exactly when an outermost block is left, and ops outside all blocks run as plain functions.", "quantifier": "all well-nested block structures, several storages", "why_tests_cant": "unbounded nesting depth and arbitrary exits", "anchors": ["mandala/storage.py: __call__, __enter__, __exit__, mode, noop", "mandala/model.py: Context, Op.__call__"]}
{"id": "C20", "title": "No-op mode only runs the function", "statement": "In noop mode, or outside any context, an op call returns exactly what the plain function returns on the unwrapped arguments and records no call.", "quantifier": "all ops, arguments and storage states", "why_tests_cant": "must hold for every state", "anchors": ["mandala/storage.py: call, parse_args", "mandala/model.py: Op.__call__"]}
{"id": "C21", "title": "Forbidding new calls forbids execution", "statement": "With allow_new_calls=False no op body is ever executed and no call is recorded for an op call that was not recorded before; recorded calls are still answered.", "quantifier": "all op calls and storage states", "why_tests_cant": "must hold for every state", "anchors": ["mandala/storage.py: call_internal, construct"]}
{"id": "C22", "title": "Ignored arguments do not affect identity", "statement": "Changing the value of arguments marked to be ignored never changes which recorded call is found, while the function body still receives their actual values.", "quantifier": "all signatures and argument bindings", "why_tests_cant": "quantifies over pairs of bindings", "anchors": ["mandala/storage.py: parse_args", "mandala/model.py: _Ignore, unwrap_special_value"]}
{"id": "C23", "title": "Adding an argument with NewArgDefault keeps old results", "statement": "If a parameter with a NewArgDefault default is added to an op, calls that omit it or pass the default value find the results recorded before the parameter existed, and calls with any other value do not.", "quantifier": "all signatures, added parameters and argument bindings", "why_tests_cant": "quantifies over pairs of signatures and bindings", "anchors": ["mandala/storage.py: parse_args", "mandala/utils.py: _conservative_equality_check", "mandala/model.py: _NewArgDefault"]}
{"id": "C24", "title": "Value pointers are identified by their id", "statement": "A value wrapped in a ValuePointer is identified by its id alone, is never written to the storage, and is never confused with an ordinary value.", "quantifier": "all pointers and ordinary values", "why_tests_cant": "quantifies over pairs of values", "anchors": ["mandala/model.py: ValuePointer, wrap_atom", "mandala/storage.py: call_internal"]}
{"id": "C25", "title": "The function body receives the caller's arguments", "statement": "In any mode the function body is invoked with exactly the positional and keyword arguments Python would bind for the caller's expression (refs replaced by their values).", "quantifier": "all signatures and all ways to pass arguments", "why_tests_cant": "the combination of parameter kinds and passing styles is unbounded", "anchors": ["mandala/storage.py: call_internal, parse_args", "mandala/utils.py: boundargs_to_args_kwargs"]}
{"id": "C26", "title": "Outputs come back in order", "statement": "The refs returned by an op call are, position by position, the values the function returned; nothing is dropped, duplicated or reordered.", "quantifier": "all numbers of outputs and output names, all returned tuples", "why_tests_cant": "depends on the number and names of outputs", "anchors": ["mandala/utils.py: parse_returns, dump_output_name, parse_output_name", "mandala/model.py: Op.get_ordered_outputs"]}
{"id": "C27", "title": "A failing database operation leaves no partial effect", "statement": "A storage operation run in its own transaction either takes full effect exactly once or no effect at all, and is attempted at most a fixed number of times.", "quantifier": "all operations, failure kinds and failure points, file-backed and in-memory databases", "why_tests_cant": "needs a failure at each attempt", "anchors": ["mandala/storage_utils.py: transaction, DBAdapter"]}
{"id": "C28", "title": "Concurrent writers of the same call", "statement": "Two processes that compute and commit the same call into one database file both succeed and leave one copy of the call.", "quantifier": "all interleavings of two commits", "why_tests_cant": "a race between processes", "anchors": ["mandala/storage_utils.py: SQLiteCallStorage.save", "mandala/storage.py: commit"]}
{"id": "C29", "title": "Code history returns committed code", "statement": "For every history of commits, checkouts and initialisations of one dependency, the content stored for a commit id is the content that was committed, and commits are never altered.", "quantifier": "all histories of a code component", "why_tests_cant": "invariant over unbounded histories", "anchors": ["mandala/deps/shallow_versions.py: DAG.get_content, DAG.commit, DAG.init, DAG.checkout, get_diff, apply_diff"]}
{"id": "C30", "title": "Code history is well formed", "statement": "For every history, the commit graph has a single root, every other commit has exactly one existing parent, it is acyclic, its head exists, and a commit is equivalent to its parent exactly when the change was declared non-semantic.", "quantifier": "all histories of a code component", "why_tests_cant": "invariant over unbounded histories", "anchors": ["mandala/deps/shallow_versions.py: DAG.check_invariants, DAG.commit, DAG.sync, Commit"]}
{"id": "C31", "title": "Reverting code restores its version", "statement": "Syncing to unchanged or previously seen code creates no new commit and brings back the semantic version that code had.", "quantifier": "all histories of a code component", "why_tests_cant": "must hold after any history", "anchors": ["mandala/deps/shallow_versions.py: DAG.sync, DAG.commit"]}
{"id": "C32", "title": "A versioned hit means all dependencies match", "statement": "In a versioned storage a recorded result is reused only if the semantic version of every dependency recorded for it equals that dependency's current semantic version.", "quantifier": "all versioner states, code states and calls", "why_tests_cant": "quantifies over all recorded versions and code states", "anchors": ["mandala/deps/versioner.py: lookup_call, get_codestate_semantic_hashes", "mandala/deps/deep_versions.py: Version"]}
{"id": "C33", "title": "Unchanged code always hits", "statement": "In a versioned storage, a call recorded under the current code (up to changes declared non-semantic) is found again.", "quantifier": "all versioner states, code states and calls", "why_tests_cant": "quantifies over all recorded versions and code states", "anchors": ["mandala/deps/versioner.py: lookup_call, process_trace"]}
{"id": "C34", "title": "The matching version is unique", "statement": "At most one recorded semantic version of a call is compatible with any given code state, whatever traces were recorded, so the answer does not depend on iteration order.", "quantifier": "all sequences of recorded traces and all code states", "why_tests_cant": "invariant over unbounded histories", "anchors": ["mandala/deps/versioner.py: process_trace, _check_semantic_distinguishability, lookup_call"]}
{"id": "C35", "title": "Aborted code sync changes nothing", "statement": "If syncing the code with the stored history is aborted by the user or fails for one component, no component's history and no global topology changes; otherwise all changes take effect.", "quantifier": "all answers given at each prompt and all code states", "why_tests_cant": "depends on the point of the abort", "anchors": ["mandala/deps/versioner.py: sync_codebase, sync_component, apply_state_hypothesis"]}
{"id": "C36", "title": "Dropped versioned calls can be recomputed", "statement": "After deleting a recorded call from a versioned storage the op can be called on the same inputs again and is recomputed.", "quantifier": "all versioned storages and recorded calls", "why_tests_cant": "needs deletion followed by recomputation", "anchors": ["mandala/storage.py: drop_calls", "mandala/deps/versioner.py: process_trace, _check_semantic_distinguishability"]}
{"id": "C37", "title": "Dropping a version only removes that version", "statement": "drop_version removes the calls of that semantic version (and their dependents) and no results of other versions.", "quantifier": "all versioned storages", "why_tests_cant": "quantifies over all recorded versions", "anchors": ["mandala/storage.py: drop_version", "mandala/deps/versioner.py: drop_semantic_version"]}
{"id": "C38", "title": "All executed dependencies are tracked", "statement": "The dependency trace of an op call contains every tracked function that executed and every tracked global read during the call, with an edge from each caller.", "quantifier": "all call trees of tracked functions and ops", "why_tests_cant": "arbitrary call trees", "anchors": ["mandala/deps/tracers/dec_impl.py: DecTracer.register_call, register_return, register_global_access, track", "mandala/storage.py: call_internal"]}
{"id": "C39", "title": "Computation frames stay consistent", "statement": "Every computation frame obtained by the frame-building operations (from op/refs/vars, adding and removing variables, functions, refs, calls and edges, renaming, copying, selecting) satisfies the documented consistency check.", "quantifier": "all finite sequences of frame operations", "why_tests_cant": "invariant over unbounded operation sequences", "anchors": ["mandala/cf.py: ComputationFrame._check and mutators"]}
{"id": "C40", "title": "Selecting nodes keeps exactly those nodes", "statement": "Selecting a set of nodes gives a consistent frame with exactly those nodes, their values and calls, and the edges between them.", "quantifier": "all frames and node sets", "why_tests_cant": "quantifies over all frames", "anchors": ["mandala/cf.py: select_nodes, __getitem__"]}
{"id": "C41", "title": "Selecting subsets keeps exactly those elements", "statement": "Restricting a frame to given values and calls per node yields a consistent frame on which all further operations remain valid.", "quantifier": "all frames and subsets", "why_tests_cant": "quantifies over all frames and subsets", "anchors": ["mandala/cf.py: select_subsets"]}
{"id": "C42", "title": "Frame union and intersection are set operations", "statement": "Union and intersection of frames are node-wise set union/intersection, commutative, associative and idempotent, and yield consistent frames.", "quantifier": "all pairs and triples of frames", "why_tests_cant": "algebraic laws over all frames", "anchors": ["mandala/cf.py: _binary_union, _binary_intersection, union, intersection", "mandala/utils.py: adjacency_union, setdict_union"]}
{"id": "C43", "title": "Element reachability is the least closed set", "statement": "Forward/backward weak/strong reachability of elements yields exactly the least closed set containing the start elements, independent of processing order, always terminates, and strong is contained in weak.", "quantifier": "all frames, start sets, directions and modes", "why_tests_cant": "fixpoint over arbitrary graphs", "anchors": ["mandala/cf.py: get_reachable_elts, get_adj_elts_edge"]}
{"id": "C44", "title": "Node reachability is graph reachability", "statement": "Upstream/downstream of nodes returns exactly the nodes reachable against/along edges.", "quantifier": "all frames and start nodes", "why_tests_cant": "arbitrary graphs", "anchors": ["mandala/cf.py: get_reachable_nodes, upstream, downstream, midstream"]}
{"id": "C45", "title": "Value history is complete and sound", "statement": "The total history of a set of values in a frame consists of exactly the values and calls they were (transitively) computed from within the frame.", "quantifier": "all frames and value sets", "why_tests_cant": "arbitrary graphs", "anchors": ["mandala/cf.py: get_direct_history, get_total_history"]}
{"id": "C46", "title": "Node order is topological", "statement": "On an acyclic frame the node order lists every node once with sources before targets; on a cyclic frame every node is still listed exactly once and strongly connected components are contiguous and ordered.", "quantifier": "all directed graphs", "why_tests_cant": "arbitrary graphs", "anchors": ["mandala/cf.py: topsort_modulo_sccs, sort_nodes", "mandala/utils.py: find_strongly_connected_components, create_super_graph, topological_sort, almost_topological_sort"]}
{"id": "C47", "title": "Edges on paths between nodes", "statement": "The edges between a start and an end node returned for building a table are exactly those lying on a simple path, and the search terminates.", "quantifier": "all directed graphs and node pairs", "why_tests_cant": "arbitrary graphs with cycles", "anchors": ["mandala/utils.py: get_edges_in_paths", "mandala/cf.py: get_all_edges_on_paths_between"]}
{"id": "C48", "title": "Expansion only adds recorded computation", "statement": "Expanding a frame backwards/forwards never removes anything, adds only calls recorded in the storage together with their inputs/outputs, reaches every creator/consumer of the expanded values, and terminates.", "quantifier": "all frames and storages", "why_tests_cant": "arbitrary call graphs", "anchors": ["mandala/cf.py: expand_back, expand_forward, _expand_unidirectional, _group_calls, _expand_from_call_groups"]}
{"id": "C49", "title": "Cleanup removes empty nodes", "statement": "cleanup() of a frame removes every variable and function without elements and nothing else.", "quantifier": "all frames", "why_tests_cant": "quantifies over all frames", "anchors": ["mandala/cf.py: cleanup, drop_node"]}
{"id": "C50", "title": "Non in-place operations leave the original alone", "statement": "A frame operation called with inplace=False returns a new frame and leaves the original as it was.", "quantifier": "all frames and operations", "why_tests_cant": "aliasing depends on the operation and its arguments", "anchors": ["mandala/cf.py: merge_into, move_ref, drop_node, rename"]}
{"id": "C51", "title": "Generated names are fresh", "statement": "A name generated for a new variable or function node does not clash with any existing node of the frame, and generation terminates.", "quantifier": "all frames and name hints", "why_tests_cant": "depends on the set of existing names", "anchors": ["mandala/cf.py: get_new_vname, get_new_fname, _add_var, _add_func"]}
{"id": "C52", "title": "Edges are recorded in both directions", "statement": "In every reachable frame an edge is listed among the outgoing edges of its source iff it is listed among the incoming edges of its target.", "quantifier": "all finite sequences of frame operations", "why_tests_cant": "invariant over unbounded sequences", "anchors": ["mandala/cf.py: _add_edge, _drop_edge, rename_var"]}
{"id": "C53", "title": "Nested collections round-trip through structural calls", "statement": "An op output of collection type is recorded together with element-access calls so that each element's creator is the access call on the collection and the collection's elements are exactly those outputs.", "quantifier": "all nested output values and types", "why_tests_cant": "arbitrary nesting", "anchors": ["mandala/storage.py: destruct, construct, get_struct_builder", "mandala/model.py: __make_list__, __list_getitem__"]}
{"id": "C54", "title": "Clashing names do not lose data", "statement": "The rows recorded for a call contain every input and every output of the call.", "quantifier": "all calls", "why_tests_cant": "depends on name clashes between inputs and outputs", "anchors": ["mandala/storage_utils.py: InMemCallStorage.save, SQLiteCallStorage.save", "mandala/model.py: Op.__init__"]}
{"id": "C55", "title": "Dictionary-of-sets helpers are lawful", "statement": "Union/intersection of set-valued and adjacency dictionaries are key- and value-wise union/intersection; adjacency dictionaries built from edges hold exactly these edges, in both directions; inverting a dictionary lists every key exactly once, under its value.", "quantifier": "all finite dictionaries and edge lists", "why_tests_cant": "algebraic laws over all mappings", "anchors": ["mandala/utils.py: get_setdict_union, get_setdict_intersection, get_adjacency_union, get_adjacency_intersection, get_adj_from_edges, invert_dict, is_subdict"]}
{"id": "C56", "title": "Dropped calls are forgotten", "statement": "After drop_calls on given calls, none of them is considered recorded any more: calling the op again on the same inputs computes and records it anew.", "quantifier": "all reachable storages, all sets of calls", "why_tests_cant": "needs drops interleaved with commits, cache clears and further calls", "anchors": ["mandala/storage.py: drop_calls, clear_cache", "mandala/storage_utils.py: CachedCallStorage"]}
{"id": "C57", "title": "Any node of a frame can be dropped", "statement": "Dropping a variable or function of a consistent frame succeeds, removes exactly that node with its elements and its edges, and leaves a consistent frame.", "quantifier": "all reachable frames, all of their nodes", "why_tests_cant": "needs every combination of earlier drops, shared values and repeated arguments", "anchors": ["mandala/cf.py: drop, drop_node, drop_var, drop_func, drop_call, drop_ref"]}
{"id": "C58", "title": "Upstream, downstream and differences are consistent frames", "statement": "downstream(*nodes), upstream(*nodes), drop_unreachable() and the difference of frames succeed, contain exactly what is computationally reachable (respectively what is left) and pass the consistency check.", "quantifier": "all reachable frames, all sets of nodes, both directions and both notions of reachability", "why_tests_cant": "needs cyclic graphs, several variables for the same argument and shared values", "anchors": ["mandala/cf.py: downstream, upstream, drop_unreachable, _binary_setwise_difference, get_source_elts, get_sink_elts"]}
{"id": "C59", "title": "Merging variables keeps the data and the graph", "statement": "Merging one variable of a frame into another (in place) keeps all values and calls, moves the edges over and leaves a consistent frame; merge_vars terminates for every frame and leaves no two variables with common values.", "quantifier": "all reachable frames, all pairs of variables", "why_tests_cant": "needs every overlap pattern of variables and all edge configurations, including self loops through a function", "anchors": ["mandala/cf.py: merge_into, merge_vars, move_ref"]}
{"id": "C60", "title": "Frames made from ops and values contain exactly what was asked for", "statement": "cf(op) is a consistent frame whose only function is the op with exactly its recorded calls, with one variable per input and output holding exactly the values the calls have there; cf(values) and cf({name: values}) are consistent frames with exactly the given values in the given variables.", "quantifier": "all ops, all sets of recorded calls, all collections of values", "why_tests_cant": "needs every combination of op and parameter names, variable numbers of list elements and repeated values", "anchors": ["mandala/cf.py: from_op, from_refs, from_vars", "mandala/storage.py: cf"]}
{"id": "C61", "title": "Calls within the limits never fail because of the storage", "statement": "A call whose arguments and results are within what the storage supports is always answered with the value the function returns or the exception it raises, and its results can be unwrapped, whatever was recorded, dropped, committed or cleared before.", "quantifier": "all programs, all sequences of earlier processes killed at any point, all calls", "why_tests_cant": "needs every reachable state of the two-level storage in every combination of cached, dirty and persisted records", "anchors": ["mandala/storage.py: call_internal, lookup_call, mget_call, load_ref, unwrap, construct, destruct", "mandala/storage_utils.py: CachedDictStorage, CachedCallStorage"]}
{"id": "C62", "title": "A finished computation can be replayed", "statement": "If all calls of a program returned and were committed, then running the program again in any later process with allow_new_calls=False answers all its calls and unwraps with the same values, without executing any function, as long as no calls were dropped.", "quantifier": "all programs, all earlier and later processes killed at any point", "why_tests_cant": "needs all programs, all states of the database and all interruptions in between", "anchors": ["mandala/storage.py: call_internal, lookup_call, commit, unwrap, __init__", "mandala/storage_utils.py: CachedCallStorage, SQLiteCallStorage"]}
{"id": "C63", "title": "Recorded provenance is truthful", "statement": "Every call on record is recorded as it was made: its history id is the one computed from its op, its version and precisely the history ids of its recorded inputs, its recorded outputs have the history ids computed from it, and records under one call id agree whichever program wrote them.", "quantifier": "all programs with calls, commits, drops, cleanups and reopened databases", "why_tests_cant": "an invariant of every reachable database", "anchors": ["mandala/storage.py: save_call, call_internal, lookup_call", "mandala/storage_utils.py: InMemCallStorage.save, SQLiteCallStorage.save", "mandala/model.py: Op.get_call_history_id, Op.get_output_history_ids"]}
{"id": "C64", "title": "The recorded computation graph has no cycles", "statement": "In every reachable database no ref is among its own recorded ancestors and no call is computed, however indirectly, from its own outputs.", "quantifier": "all programs with calls, commits, drops, cleanups and reopened databases", "why_tests_cant": "an invariant of every reachable database, over chains of any length", "anchors": ["mandala/storage.py: save_call, call_internal", "mandala/model.py: Op.get_call_history_id, Op.get_output_history_ids, wrap_atom"]}
{"id": "C65", "title": "The history of a variable is one exact row per value", "statement": "get_history_df(v) returns a table with exactly one row for each value of the variable; the row has, for each node of the frame, exactly the values (and calls) the value was made from, and the columns are exactly the nodes where there are any.", "quantifier": "all consistent frames over an acyclic history, all variables, all orders in which python visits sets", "why_tests_cant": "needs frames of every shape, including functions whose outputs go to the variable of their input", "anchors": ["mandala/cf.py: get_history_df, get_total_history, _sort_df"]}
{"id": "C66", "title": "Joint histories neither lose nor make up histories", "statement": "get_joint_history_df(vars) returns a table in which no row is there twice and every row consists of the complete histories of some values of the variables; with how='outer' every value is in some row with its whole history; with how='inner' the rows are the combinations of one value of each variable that agree where their histories meet; values in one row have something to do with each other; there is a result whenever some node is in all histories.", "quantifier": "all consistent frames over an acyclic history, all sets of variables, both joins", "why_tests_cant": "needs joins of tables of any size with missing cells", "anchors": ["mandala/cf.py: get_joint_history_df, get_history_df"]}
{"id": "C67", "title": "Tables do not depend on the order of sets", "statement": "The rows of joint histories, and whether there is a result, do not depend on the order of the variables or on the order in which python visits its sets (which differs between processes).", "quantifier": "all consistent frames, all orders", "why_tests_cant": "the order depends on the hash seed of the process", "anchors": ["mandala/cf.py: get_joint_history_df, sort_nodes, topsort_modulo_sccs"]}
{"id": "C68", "title": "midstream is the part of the frame between the nodes", "statement": "midstream(*nodes) ends, has exactly the nodes on paths between two of the given nodes and the edges between them, the elements computed from the sources of this part, and passes the consistency check; between all nodes it is the whole frame.", "quantifier": "all consistent frames, all sets of nodes, both notions of reachability", "why_tests_cant": "needs arbitrary graphs, cycles, values in several variables", "anchors": ["mandala/cf.py: midstream, get_edges_in_paths", "mandala/utils.py: get_edges_in_paths"]}
{"id": "C69", "title": "df() shows everything that is in the frame", "statement": "cf.df() succeeds; it has a column for each node that is not empty, each value and call is in some row, each row consists of complete histories, and values are loaded in the columns of all variables that are not lazy; df(a, b) succeeds whenever a and b have a joint history.", "quantifier": "all consistent frames without empty history, all options", "why_tests_cant": "needs arbitrary frames: isolated variables, functions without outputs, results with a common ancestor", "anchors": ["mandala/cf.py: df, eval_df, midstream, get_sink_elts, get_joint_history_df"]}
{"id": "C70", "title": "A versioned storage is transparent while the code is being changed", "statement": "With Storage(deps_path=...), every op call inside a with block returns what the present code of the op and of its dependencies computes, whatever was computed, changed, reverted, dropped and answered before; no call fails; a call repeated in the same context executes nothing.", "quantifier": "all programs of functions and globals, all sessions of code changes, answers, contexts, calls and drops", "why_tests_cant": "needs all interleavings of code changes with calls, and all programs; a wrong hit is silent", "anchors": ["mandala/storage.py: Storage.call_internal, __enter__, __exit__, sync_code, drop_calls, drop_version", "mandala/deps/versioner.py: Versioner", "mandala/deps/tracers/dec_impl.py: DecTracer"]}
{"id": "C71", "title": "Several processes share one versioned database", "statement": "Processes that open the same database file, one after the other or at the same time, each with its own code: every op call returns what the code of its own process computes and does not fail; leaving the outermost with block writes all recorded calls; a call that was written is not executed again by a later process whose code agrees in all that the call uses.", "quantifier": "all interleavings of any number of processes, code, contexts, calls, kills and dropped versions", "why_tests_cant": "needs interleavings of several processes and kills at any point; lost versions only show as recomputation much later", "anchors": ["mandala/storage.py: Storage.__init__, commit, __enter__, __exit__, call_internal, save_call, drop_version, drop_calls", "mandala/storage_utils.py: CachedCallStorage, SQLiteCallStorage.save"]}
{"id": "C72", "title": "Recorded versions can be looked at", "statement": "After any sequence of code changes, calls and version drops on a versioned storage, every commit id and every content version id that the storage has recorded is accepted by storage.get_code; a commit id yields the source with that hash; a content version id (and each entry printed by storage.versions(f)) yields a listing that contains every dependency of the version exactly once, with a text that is recorded in this dependency's history and is what the calls of the version have executed. Any other id raises ValueError, and storage.diff works for any two recorded ids of the same kind.", "quantifier": "all histories of entering contexts with arbitrary code states and answers, executing ops with arbitrary traces and dropping versions; all commits, versions and groupings of dependencies into modules and classes", "why_tests_cant": "The listing is assembled from the semantic expansion, the commit histories, the node table and two sorts; whether each dependency survives exactly once, and whether its content can still be reconstructed, depends on the whole history.", "anchors": ["mandala/storage.py: Storage.get_code, Storage.diff, Storage.versions", "mandala/deps/versioner.py: Versioner.present_dependencies, Versioner.get_canonical_groups, Versioner.get_flat_versions, Versioner.show_versions", "mandala/deps/shallow_versions.py: ContentDAG.get_content, ContentDAG.get_presentable_content"]}
{"id": "C73", "title": "What a versioned storage takes for the current code is the current code", "statement": "On entering `with storage:` of a versioned storage, every component that the storage knows is taken with the source (or value) of the object that its name stands for at this time, decorators removed; every function and method of the searched modules that it does not know yet is found, with the source of what its name stands for; nothing else is recorded, and entering does not fail because of the shape of the modules.", "quantifier": "all object graphs of the process (functions, ops, decorators, classes, static and class methods, properties, aliases, nesting), all sets of modules, strict and non-strict storages, all sets of known components", "why_tests_cant": "The result depends on aliasing, wrapping, nesting and the order in which modules and classes are visited; each test fixes one module.", "anchors": ["mandala/deps/versioner.py: Versioner.guess_code_state", "mandala/deps/crawler.py: crawl_obj, crawl_static", "mandala/deps/utils.py: is_callable_obj, extract_func_obj, extract_code, load_obj, unknown_function", "mandala/deps/model.py: CallableNode.from_obj, GlobalVarNode.from_obj, Node.load_obj"]}
{"id": "C74", "title": "Tracking does not change what functions do, and sees what their results depend on", "statement": "An op run under the dependency tracer returns or raises exactly what its function does without the tracer and has the same effects on the names of the modules; and if later every function the tracer recorded is unchanged and every variable it recorded has the recorded value, running it again gives the same, whatever else changed.", "quantifier": "all programs of functions that read and write names and module attributes and call each other, all mixtures of tracked, untracked, foreign and nested functions, all settings of the tracer", "why_tests_cant": "What the tracer misses only shows when exactly that is changed between two runs; tests change what was recorded.", "anchors": ["mandala/deps/tracers/dec_impl.py: TrackedDict.__getitem__, track, make_tracked_copy, TracerState.is_tracked, DecTracer.register_global_access, DecTracer.register_call", "mandala/deps/utils.py: is_global_val, unwrap_decorators", "mandala/deps/model.py: GlobalVarNode.from_obj"]}
{"id": "C75", "title": "Filtering a frame by value keeps exactly the matching values and the calls connected to them", "statement": "`cf.isin(values)` and `cf < x` give a frame with the same nodes and edges, in which each variable holds exactly its values that match, and each function exactly its calls that have a matching value among the inputs and outputs tracked by the frame; the result is a consistent frame.", "quantifier": "all well-formed computation frames, all tests on values (including ones that raise), all orders in which python goes through a set of edges", "why_tests_cant": "Which calls survive depends on the multiplicity of edges between a variable and a function and on the iteration order of a set of tuples of strings, which differs from process to process.", "anchors": ["mandala/cf.py: ComputationFrame.isin, ComputationFrame.__lt__, ComputationFrame._add_adj_calls, ComputationFrame.get_adj_elts, ComputationFrame.get_adj_elts_edge, ComputationFrame.select_subsets"]}
{"id": "C76", "title": "attach puts the values into the refs", "statement": "For a result of a call, at any later point, storage.attach(ref) succeeds, writes nothing to the storage, and gives a ref with the same ids that holds what storage.unwrap(ref) gives; with inplace=True the ref itself holds it from then on and can be unwrapped whatever becomes of the storage; cf.attach() does so for all refs of a frame.", "quantifier": "all sessions of contexts, calls, commits, kills, drops, preloads and clean-ups, all results including nested collections", "why_tests_cant": "Whether a value is still there depends on the whole history of caches, commits and drops; what is already in memory hides a failed load.", "anchors": ["mandala/storage.py: Storage.attach, Storage._attach_atom", "mandala/model.py: recurse_on_ref_collections, AtomRef.attached", "mandala/cf.py: ComputationFrame.attach"]}
{"id": "C77", "title": "Annotations decide how values are stored, and never make a call fail", "statement": "If a function returns what its annotations say (and is called with what they say), then as an op it can be called with any annotations: the call shows what the function does, the elements of what is annotated as MList or MDict (nested as annotated) get refs of their own, each component of a returned tuple is an output, and anything else is one ref.", "quantifier": "all annotations (absent, None, Any, Tuple, MList, MDict, MSet, MTuple, classes and strings, arbitrarily nested), all functions and values, at any point of any session", "why_tests_cant": "There are infinitely many nested annotations; and a failure comes after the body has been executed, so it shows only with the particular combination of annotation, number of outputs and value.", "anchors": ["mandala/tps.py: Type.from_annotation", "mandala/utils.py: parse_returns", "mandala/storage.py: Storage.construct, Storage.destruct, Storage.get_struct_builder, Storage.call_internal"]}
{"id": "C78", "title": "Deleting calls deletes exactly these calls and everything computed from them", "statement": "storage.drop_calls(calls, delete_dependents=True), with any iterable of calls or of history ids, cf.delete_calls(), and cf.delete_calls_from_df(df) succeed and delete exactly the given calls (those of the frame, those in the table) and the calls that use, directly or not, what they returned: no deleted call is found again, neither in memory nor in the database, all other calls stay as they are, no remaining call uses an output of a deleted one, and no values are lost.", "quantifier": "all sequences of processes (calls, commits, kills, drops, preloads, clean-ups), all frames and tables of frames, all iterables", "why_tests_cant": "What has to go depends on the whole graph of recorded calls, and what is in memory on the history of the process; that calls are left behind shows only when they are looked for later.", "anchors": ["mandala/storage.py: Storage.drop_calls", "mandala/cf.py: ComputationFrame.delete_calls, ComputationFrame.delete_calls_from_df", "mandala/storage_utils.py: CachedCallStorage, SQLiteCallStorage.get_dependents"]}
{"id": "C79", "title": "The values in a table of a frame are the recorded values", "statement": "cf.eval_df(df, skip_cols, skip_calls) and cf.df(..., values='objs', lazy_vars=...) replace every ref in the table by the value recorded for it (the value that loading the ref from the storage gives), a collection of refs by the values of all of them in the same order, and leave calls, nulls and the columns to skip as they are; rows and columns stay in place, skip_calls removes exactly the columns of calls, and it makes no difference whether the refs were loaded into memory before, in this or another process.", "quantifier": "all sequences of processes (calls, commits, kills, drops, preloads, clean-ups), all frames of recorded calls, all tables of their refs and calls, all sets of skipped columns", "why_tests_cant": "The table joins data from the graph of calls, from the caches and from the database of any number of processes; a value that is missing, repeated or in the wrong cell looks like data.", "anchors": ["mandala/cf.py: ComputationFrame.eval_df, ComputationFrame.df, ComputationFrame.get_history_df", "mandala/model.py: recurse_on_ref_collections, RefCollection, ValueCollection", "mandala/storage.py: Storage.unwrap, Storage.load_ref"]}
{"id": "C80", "title": "The tracer based on sys.settrace records exactly what was run", "statement": "A block traced by SysTracer that ends without an error of the tracer leaves a graph with exactly the functions of the user that were run, an edge from one to another just if the one called the other (at once, through libraries or comprehensions), and edges to the global variables and ops each of them used, with the code and values seen; the roots are the functions called from outside. What the tracer does not support (closures, methods unless allowed, global variables that cannot be hashed) raises, wherever it is run. A versioned storage can use it in the place of DecTracer.", "quantifier": "all trees of calls, of any depth and width, of functions, methods, comprehensions and lambdas in code of the user, of mandala and of libraries, both settings of strict and allow_methods", "why_tests_cant": "The graph depends on the interleaving of calls and returns of all frames python runs; a dependency missed somewhere shows only when exactly that is changed later.", "anchors": ["mandala/deps/tracers/sys_impl.py: SysTracer.__enter__, SysTracer.find_most_recent_call, SysTracer._process_failure", "mandala/deps/tracers/tracer_base.py: get_module_flow, get_closure_names", "mandala/deps/model.py: DependencyGraph.add_node, DependencyGraph.add_edge, GlobalVarNode.from_obj", "mandala/deps/versioner.py: Versioner.make_tracer"]}
{"id": "C81", "title": "The printed graph of a frame is its graph", "statement": "For every well-formed ComputationFrame cf, cf.get_graph_desc() (and so print_graph, repr(cf), info, df and eval, which print it) returns; its text has exactly one line for each function of the frame, the lines name exactly the edges of the frame (output label and variable on the left, input label and variable on the right), the variables listed on their own are exactly those without an edge, a function comes before every function that (directly or indirectly) uses its outputs unless they are on a cycle, and the outputs of a function come in the order in which it returns them.", "quantifier": "for all well-formed frames, all orders of sets, all names of outputs", "why_tests_cant": "Tests print a few frames made by cf(op).expand(); frames from filtering (functions without calls), cyclic frames, several variables per input and functions whose output names changed since they were first called are not among them.", "anchors": ["mandala/cf.py: ComputationFrame.get_graph_desc", "mandala/cf.py: ComputationFrame.ops", "mandala/cf.py: ComputationFrame.sort_nodes", "mandala/cf.py: ComputationFrame.__repr__"]}
{"id": "C82", "title": "Provenance queries return exactly the calls that made or used the values", "statement": "storage.get_creators(refs) and storage.get_consumers(refs) return one Call for each recorded call with one of the refs among its outputs (inputs) and no other; each returned Call has the inputs, outputs, op and ids that were recorded, whether the call is in the cache or only in the database; get_ref_creator returns the only creator or None and never raises; the queries change no recorded call. What they answer is consistent: a call is determined by its history id, a value has one creator, no value comes from itself, so that computation frames built from them are well-formed. A computed call is found at once, also inside of a context and before a commit.", "quantifier": "all sequences of processes with calls, commits, drops, cleaning up refs and preloading; all sets of refs; all orders in which python iterates sets", "why_tests_cant": "Tests ask for the creator of one value right after a call; consistency of cache and database answers for every history, and agreement with what frames assume, are statements about all executions.", "anchors": ["mandala/storage.py: Storage.get_creators", "mandala/storage.py: Storage.get_consumers", "mandala/storage.py: Storage.get_ref_creator", "mandala/storage.py: Storage.mget_call", "mandala/storage_utils.py: CachedCallStorage.mget_data", "mandala/storage_utils.py: SQLiteCallStorage.get_creator_hids"]}
{"id": "C83", "title": "Frames made from a storage show exactly the recorded calls and history", "statement": "storage.cf(op) returns a consistent frame with exactly the recorded calls of the op and exactly their inputs and outputs, each in a variable joined with the function under the name of the input or output; storage.cf(refs).expand_back(recursive=True) returns a consistent frame with exactly the values from which the given ones were computed, directly or not, exactly the calls that took part in computing them, and every value joined with the call that created it; likewise storage.cf(op).expand_back(recursive=True). storage.cf accepts every iterable of refs or history ids and every dictionary of variables, loses none of their elements and does not change them. Nothing that is recorded is changed.", "quantifier": "all sequences of processes with calls, commits, drops, cleaning up refs and preloading; all ops; all sets of refs; all orders in which python iterates sets", "why_tests_cant": "Tests expand frames of a few fixed pipelines; that nothing is missing and nothing foreign is in the frame is a statement about the whole graph of recorded calls, of any depth, read through cache and database in many queries.", "anchors": ["mandala/storage.py: Storage.cf", "mandala/cf.py: ComputationFrame.from_op, ComputationFrame.from_refs, ComputationFrame.from_vars", "mandala/cf.py: ComputationFrame._expand_unidirectional, ComputationFrame.expand_back", "mandala/storage.py: Storage.get_creators, Storage.mget_call"]}
{"id": "C84", "title": "What a frame shows is what is in it", "statement": "For every well-formed ComputationFrame cf: cf.values() has one entry for each variable with exactly its refs and one for each function with exactly its calls (cf.get_var_values(v) and cf.get(v) the same for one variable); cf.get_func_table(f) has one row for each call of f with every input and output under its name, null just if the ref is not in the frame; the numbers of cf.var_info(v), get_var_stats and get_func_stats are the numbers of values, of calls, of calls that use values of v under the label of the edge, and of calls that created values of v. So storage.cf(op).get_func_table(op.name) is the table of the recorded calls of the op with the recorded inputs and outputs, none missing and none null.", "quantifier": "all well-formed frames, all functions and variables; all sequences of processes with calls, commits, drops, cleaning up refs and preloading", "why_tests_cant": "Tests look at the size of a table of a few calls; that no call, input or output is dropped, repeated or shown for another is a statement about every frame, and about everything ever recorded.", "anchors": ["mandala/cf.py: ComputationFrame.values, ComputationFrame.get_var_values, ComputationFrame.get", "mandala/cf.py: ComputationFrame.get_func_table", "mandala/cf.py: ComputationFrame.var_info, ComputationFrame.get_var_stats, ComputationFrame.get_func_stats", "mandala/storage.py: Storage.cf"]}
{"id": "C85", "title": "Forward expansion from a storage shows exactly what was computed from the values", "statement": "After any sequence of processes that call ops, commit, drop calls, clean up refs and preload, storage.cf(refs).expand_forward(recursive=True, reuse_existing=False) terminates, whatever the order in which python iterates its sets, with a frame that contains exactly the values computed, directly or through further calls, from the given refs, and exactly the recorded calls that used any of these; every value is joined with every call that used it, the given refs stay in their variable, and the frame passes its consistency check. The recorded calls are left as they were.", "quantifier": "all sequences of processes, all collections of refs, all orders of iteration", "why_tests_cant": "Tests expand a chain of a few calls; that no consumer anywhere downstream is missed and nothing else appears, for every record and every order of the queries, is a statement about all runs.", "anchors": ["mandala/cf.py: ComputationFrame.expand_forward, ComputationFrame._expand_unidirectional, ComputationFrame._expand_from_call_groups, ComputationFrame._group_calls", "mandala/storage.py: Storage.cf, Storage.get_consumers", "mandala/storage_utils.py: CallStorage.get_consumer_hids"]}
{"id": "C86", "title": "The history table of stored values is their history", "statement": "After any sequence of processes that call ops, commit, drop calls, clean up refs and preload, storage.cf(refs).expand_back(recursive=True, reuse_existing=False).get_history_df('v') returns a table with exactly one row for each of the given refs; the cells of the row of a ref, taken together, hold exactly the values from which this ref (and not another one of the table) was computed, directly or not, the ref itself, and exactly the recorded calls that took part in computing it; without include_calls no calls. The same holds for any other variable of the frame, and for storage.cf(op).expand_back(...).", "quantifier": "all sequences of processes with calls, commits, drops, cleaning up refs and preloading; all sets of refs; all ops; all variables; all orders in which python iterates sets", "why_tests_cant": "The table goes through the database, the caches, several rounds of queries, grouping of calls into nodes and a recursive search per row; values that share nodes with those of other rows must not leak into them. Tests look at the shape of the table of one pipeline.", "anchors": ["mandala/cf.py: ComputationFrame.get_history_df, ComputationFrame.get_total_history, ComputationFrame.get_direct_history", "mandala/cf.py: ComputationFrame._expand_unidirectional, ComputationFrame.expand_back", "mandala/storage.py: Storage.cf, Storage.get_creators"]}
{"id": "C87", "title": "The printed source history is the history of the code", "statement": "After any sequence of entering contexts with any code, executing ops and dropping versions, storage.source_history(f) prints, for every function that was executed so far as an op or dependency, every code it was ever committed with, exactly once each, as an outline in which the parent of an entry is the last entry above it that is less indented; each entry shows the code stored under its id (with compact=True: the difference to the code of the parent), and exactly one entry is marked as HEAD. Right after a context was entered the marked entry is the code the function has now, and every entry printed before is still printed with the same ids and code. A function never executed is rejected with KeyError.", "quantifier": "all sequences of sessions; all code; all answers to whether a change is semantic; all orders in which python iterates sets of commits; compact or not, with or without ids", "why_tests_cant": "The shape of the tree depends on which code was gone back to between edits and on hash order; code is stored as a chain of differences that is replayed for each entry. Tests call source_history only for its output not to fail.", "anchors": ["mandala/deps/shallow_versions.py: DAG.show, DAG.get_commit_presentation, DAG._get_tree_neighbors_representation", "mandala/storage.py: Storage.source_history"]}
{"id": "C88", "title": "The change shown before asking is the whole change", "statement": "When code has changed since it was last committed, what mandala prints before asking whether the change requires recomputation (and what source_history prints with compact=True) shows every line of the old code that is gone with a minus and every line of the new code that was not there with a plus, in order; lines without mark are in both. So a line whose number of occurrences changed is shown, and if nothing is shown then no line has changed.", "quantifier": "all texts of old and new code; any number of context lines; with rich and on a plain terminal", "why_tests_cant": "The lines are found by difflib (longest matches, grouping with context), filtered by their first characters, colored and joined; a lost line misleads the user into answering 'no', after which stale results are reused silently. There is no test of the printed diff.", "anchors": ["mandala/viz.py: _get_diff, _get_colorized_diff, _colorize", "mandala/deps/shallow_versions.py: DAG.commit, DAG.get_commit_presentation"]}
{"id": "C89", "title": "Opening a storage with versions, and a component brought up to date by hand", "statement": "Opening a database with `deps_path` is refused with ValueError exactly if a versioner for other paths is in it, and writes nothing. The options in use (paths, tracer, strictness, what is skipped, package) are those of the process that first opened the database with versions; every later process uses them as long as it runs, whatever it and others do, and `dump_config` tells the options in use. `sync_component` succeeds exactly if the component is known, the code has it and the user does not abort; it asks only if it was not told what the change is and the code is new; afterwards the current commit of the component is the code, all commits made before are as they were, other components are untouched, and nobody is asked about it again, in this process or in a later one.", "quantifier": "for all sequences of commands of any number of processes (open, end, enter, execute, leave, commit, sync a component, drop a version), all options, all code states and answers", "why_tests_cant": "A test opens a database once or twice with the same options in one process; that recorded options win over given ones, that a race replaces them, and that a synced component is lost without a commit shows only over sequences of commands of several processes.", "anchors": ["mandala/storage.py: Storage.__init__, Storage.dump_config, Storage.get_versioner, Storage.save_versioner, Storage.sync_component, Storage.commit", "mandala/deps/versioner.py: Versioner.__init__, Versioner.sync_component"]}
{"id": "C90", "title": "The drawing of a frame shows the frame", "statement": "`cf.draw()` draws exactly one box for each variable and each function and one arrow for each edge. The numbers in the boxes are the numbers of values of the variable and of calls of the function; with `verbose=True` the sources and sinks are the values that no call of the frame is known to have made or to use, several versions of a function are counted, and the number at an arrow is the number of values of the variable that the calls of the function took (or made) under that name. The dot program has exactly these boxes and arrows with these texts, whatever the order of python's sets.", "quantifier": "all well-formed frames, all orders of sets, verbose or not, all names without quotes, brackets, ampersands, backslashes and line breaks", "why_tests_cant": "A test draws one frame and looks at the picture; that no box or arrow is ever missing, doubled or wrongly counted, and that the dot text always says the same, is about all frames and names.", "anchors": ["mandala/cf.py: ComputationFrame.draw, ComputationFrame.get_source_elts, ComputationFrame.get_sink_elts, ComputationFrame.get_adj_elts_edge, ComputationFrame.edges", "mandala/viz.py: Node.to_dot_string, Edge.to_dot_string, to_dot_string, write_output"]}
{"id": "C91", "title": "Uniting and intersecting any number of frames", "statement": "`ComputationFrame.union(*cfs)` has exactly the variables, functions, edges, values and calls that some of the frames has, `ComputationFrame.intersection(*cfs)` exactly those that all of them have; which frames are given matters, but not their order nor how often one is given. A union that is given frames every two of which can be united succeeds in whatever order they come.", "quantifier": "all lists of frames of any length over the same storage, all orders and repetitions", "why_tests_cant": "The code folds a binary operation with a consistency check after each step; a test unites two frames, in one order. That no order of any number of frames fails or gives another result is about all lists and permutations.", "anchors": ["mandala/cf.py: ComputationFrame.union, ComputationFrame.intersection, ComputationFrame._binary_union, ComputationFrame._binary_intersection, ComputationFrame._check"]}
{"id": "C92", "title": "What is said about a change before the user is asked", "statement": "On entering a context, 'CHANGE DETECTED' is printed for exactly the known functions and globals whose code was never seen, once each, and under 'Dependent components' exactly the recorded versions of ops that depend on the changed component with the meaning of its code seen last. So the answers decide what is kept: a version that was valid before is valid for the new code exactly if every change it is listed under was answered with 'no'; the calls of all other listed versions will be recomputed.", "quantifier": "all sequences of entering contexts with any code and answers, executing ops and dropping versions; all code entered next", "why_tests_cant": "What is listed is found through content ids of versions over all ops, and what it means for later lookups depends on the whole history of commits and versions. Tests mock the answers and do not read what is printed.", "anchors": ["mandala/deps/versioner.py: Versioner.sync_codebase, Versioner.get_dependent_versions, Versioner.get_flat_versions", "mandala/deps/deep_versions.py: Version.presentation, Version.semantic_expansion", "mandala/deps/shallow_versions.py: DAG.sync, DAG.commit"]}
{"id": "C93", "title": "The versions reported as current are the ones whose calls are found", "statement": "After any history of code changes and executions, for any code of the dependencies: if the code of every dependency met so far is in its history, get_current_versions(op, code) returns exactly the recorded versions of the op all of whose dependencies have, in this code, the meaning they had when the version was recorded, each once; if some dependency has code that was never committed and no error is raised, it returns none. get_semantically_compatible_versions(op, code) has the same outcome, errors included. A memoized call is found by lookup_call under a version exactly when this version is among those returned and the call is recorded under it.", "quantifier": "all histories of entered contexts and executions, all codes of the dependencies, all ops, calls and versions", "why_tests_cant": "The two queries and the lookup are three separate computations over the same histories (a test of inclusion, a list of comparisons that raises on a missing key, a hash of a restriction); that they agree rests on an invariant of all reachable versioners, which no finite set of histories shows.", "anchors": ["mandala/deps/versioner.py:Versioner.get_current_versions", "mandala/deps/versioner.py:Versioner.get_semantically_compatible_versions", "mandala/deps/versioner.py:Versioner.lookup_call", "mandala/utils.py:is_subdict"]}
{"id": "C94", "title": "Indexing a frame with names of nodes", "statement": "cf[nodes] succeeds exactly when all of the given names are nodes of the frame, and the result passes the consistency check, has exactly these nodes, the edges between them and in each node what it had; the order in which the names are given and repetitions do not matter, and cf[name] is cf[[name]]. Indexing the result again with some of these nodes gives the same nodes, elements, edges, calls and creators as indexing the frame itself, and with any other name raises ValueError. Any index gives a frame or raises.", "quantifier": "all frames (consistent, with edges recorded at both ends, for the result of the check), all lists of names, all nested selections", "why_tests_cant": "Which part of a frame is selected must not depend on the path of selections or on the order of names, for frames of any shape; tests index a few frames once.", "anchors": ["mandala/cf.py:ComputationFrame.__getitem__", "mandala/cf.py:ComputationFrame.select_nodes"]}
{"id": "C95", "title": "Showing the versions of an op once for each meaning", "statement": "After any history of code changes, executions and dropped versions, show_versions(op, only_semantic=True) shows each semantic version the op has recorded versions of, exactly once, under the content id of one of them; what is shown is faithful to every recorded version of the op with this semantic version, not only to the one chosen: each of its dependencies is listed once, with a text of its history that has the same semantic version as whatever the calls of that version have used.", "quantifier": "all histories of entered contexts, executions and dropped versions, all ops, all recorded versions", "why_tests_cant": "That the choice of the representative does not matter rests on the semantic version determining the meanings of all dependencies, for all recorded versions; tests show one or two versions.", "anchors": ["mandala/deps/versioner.py:Versioner.show_versions", "mandala/deps/versioner.py:Versioner.present_dependencies", "mandala/deps/deep_versions.py:Version.semantic_version"]}
