# Formal model of mandala: design

The model is written in Lean 4 (core plus a few single Mathlib modules where useful), under
`lean/Verif`. The Python source in `/repo/mandala` is read as text; every modelled definition cites
file and lines. The style is *shallow*: one total Lean function per Python function, mirroring it branch
by branch, with exceptions as values and mutable objects as explicit state (state survives an
exception, as in Python).

## Layout

* `Verif/Basic/*` – python-like dictionaries (association lists), lists as sets, closure computations.
* `Verif/Model/*` – the model of the code, one file per group of functions.
* `Verif/Spec/*` – small specifications that do not mention the helpers of the model.
* `Verif/Proofs/*` – invariants and lemmas.
* `Verif/Props/*` – the property theorems, one section per property, each with a concrete,
  non-trivial instance (`example`) which meets the hypotheses.

## Trusted base

* The Lean kernel. Theorems may use `propext`, `Classical.choice`, `Quot.sound` and nothing else
  (`#print axioms`); no own axioms, no `sorry`, no `native_decide`.
* The reading of the Python code: the definitions in `Verif/Model` are a hand translation.
* What is assumed about the outside world, always as explicit hypotheses or explicit model parameters:
  * **Hashing.** `get_content_hash` (joblib/MD5, `utils.py:71`) is a parameter `H`. Where collision
    freedom matters it is the hypothesis that `H` is injective. This is satisfiable (it is shown by
    instances), and it says exactly "no hash collision occurs".
  * **Serialization.** `serialize`/`deserialize` (joblib, `utils.py`) are inverse to each other; modelled as the identity.
  * **SQLite.** One table = a finite map; a transaction is applied at COMMIT and discarded by
    ROLLBACK/connection close/process death; in-memory connections use autocommit (`storage_utils.py:20`).
  * **Pandas** data frames of the in-memory call storage = finite list of rows keyed by `(call hid, name)`; tables made from
    frames = lists of rows with missing cells, `pd.merge` pairs the rows with equal cells in the given columns, where missing
    equals missing, and raises when no columns are given.
  * **User functions** are deterministic functions from arguments to a value or an exception; ops with
    the same name are the same function within one (unversioned) history.
* Not modelled: rendering (`viz.py`, `print_*`, `draw`, `info`), `serialize`, `tqdm`/`logging`,
  source-code extraction (`inspect`, AST), real time (back-off sleeps), the `sys.settrace` tracer
  (`sys_impl.py`), `eval`, `eval_df` beyond which columns are loaded,
  `dbs/`-style deprecated code.

## Plan per property

Status words used in `MANIFEST.json`: *proved*; *partial* (theorem name ends in `_partial`, or the full
statement is refuted by a theorem `…_refuted…` with a concrete witness and the strongest true part is proved);
*not_applicable*. Where a statement is refuted, the witness is a run of the model checked by the kernel, and the row says what
happens in the code.

### Storage

The storage is modelled as a state (`Model/Storage`: caches with their dirty marks, the tables of the database, the overflow
files, the log of executed bodies) with one function per method. What recorded data *mean* is given by a denotational reading
(`Spec/Meaning`: `TVal` – a value together with where it comes from –, `RefOK`, `CallSem`, `TableOK`), and `Inv` says that
everything in the caches and tables is right in that reading. `Keeps I m q e` is a Hoare triple for the storage monad.
Programs are terms (`Spec/Program`: `PExpr`, `Cmd`), run once in the storage (`runProg`) and once plainly.

| Id | Model | Statement and proof |
|---|---|---|
| C01 | `Storage`, `Outputs`, `Value`, `Program` | Plain evaluation and the run in the storage agree on every value, for every program, with commits, cache clearing and reopening in between. Simulation by induction over the program, with the invariant `Inv`. |
| C02 | same | The log of executed bodies has no second entry for a recorded call; invariant. |
| C03 | `CachedCallStorage.exists_content` as written: it asks the cache only | Rows of the cache are never lost by calls, unwraps, commits and clean-ups (`Warmer`), so a content-equal call is found; the same after preloading. Refuted with a cold cache. |
| C04, C22, C23, C25 | `Args`: signatures with all parameter kinds, `bind`, `parse_args` | For all signatures, bindings and wrappers; refuted where generated names (`args_0`) meet `**kwargs` keys, and for keyword passing before `*args`. |
| C05 | as C01 | Output ids come from one call only; refuted for value pointers returned by two ops. |
| C06 | `save_call`, `call_internal`, `wrap_inputs` and its structural calls | Every read of the storage is the same before and after (`SameView`); the ids of the structural calls are computed from the argument. Refuted when a list-building call was dropped and the call was not. |
| C07, C61 | `load_ref`, `unwrap`, `construct`, `save_ref`, `call_internal` with all their ways to fail | Invariant: whatever has a record has everything needed to load it (`Firm`, `MemFull`), so loads, unwraps and calls within the limits (`CallFitsIn`) succeed; records survive commits and process ends (`PHas`). Refuted for lists of collections: `load_ref` throws the loaded elements away. With `preload` and `cleanup_refs` (`Spec/Upkeep`): where nothing is uncommitted and nothing that is needed counts as garbage (`AllowedAt`), they keep the invariant; both conditions are needed (`C61_refuted_preload`, `C61_refuted_cleanup`). |
| C08 | `Spec/Sessions`: sequences of processes, each killed between statements or in a commit | Invariant: everything referred to is there, in memory and in the database (`Whole`); refuted after a failed commit and for `cleanup_refs` with uncommitted calls; holds for `cleanup_refs` under the conditions of `Spec/Upkeep`. |
| C09, C10, C27 | `Storage.commit` as a list of writes, `Transaction`: retry loop over connection states | For every point of failure; refuted for overflow files, for dirty marks cleared before the transaction ends, for in-memory connections (autocommit). |
| C11 | `Storage.clear_cache` and the `clear` of each table | Everything cached is uncommitted or in the database with the same content (`Backed`, kept by every statement); two storages with equal reads load and unwrap alike (`SameReads`, `Obl`). Refuted after a failed commit. |
| C12, C13, C18 | `DictStorage` | Refinement of a map, induction over operations; large values must not be overwritten. |
| C14, C15, C56 | `drop_calls` | Exactly the closure of dependents is removed; refuted for uncommitted calls and after `clear_cache`. |
| C16 | `cleanup_refs`, `get_orphans`, `get_unreferenced_cids`; `Spec/Cleanup`: what calls in the database use | By the invariant a used record has a used content id, so the two passes delete exactly what no row mentions; storages agreeing on a set of refs closed under elements load them alike (`Sims`). Refuted where elements of a used collection are not used themselves: a call answered by content shares the elements of another one, whose calls are dropped. |
| C17 | `Provenance`: `get_dependents`, `get_dependencies` | The loops compute the inductively defined closure; termination by counting. |
| C19 | `Modes` | Well-nested block trees; refuted for blocks of two storages. |
| C62, C21 | programs run again in a later process with `allow_new_calls=False` | `Recs`: every call of the first run, and the calls building its arguments, are on record at its end; commits persist and later processes keep the rows; hence (with `Firm`) the rerun is answered from the database, call by call, and `noExec_prog`: nothing is executed. The processes before and after may also run `preload` and `cleanup_refs` under the conditions of `Spec/Upkeep`. |
| C63, C64 | rows written by `save_call` (`Spec/History`) | The invariant of all programs says of every row of which call it is part, with the ids it was computed from; ids contain those of the inputs, so by the injective hash the ancestor relation is well founded. Refuted for inputs with the name of an output, and (C64) for value pointers, whose history id is made of their content. |
| C53 | `destruct`, `wrap_output`, `save_call`; `Spec/Elements`: all elements of all nested collections of a ref | Induction over `destruct`: every element is the output of one of the returned access calls (`TakenBy`); these are saved, and by the invariant a recorded call has all its rows. Refuted for calls answered by content, whose elements belong to the other collection. |
| C20, C21, C24 | `Noop`, `Identity` | All programs mixing run and no-op statements; refuted for value pointers (passed as pointer objects). |
| C26 | `Outputs` | Round trip of names; refuted for too few output names. |
| C28, C54 | `CallStorage` | Rows of a call are complete unless an input and an output share a name; the same call committed twice raises. |
| C55 | `SetDict` | Laws of the helpers on dictionaries of sets. |

### Versioning

| Id | Model | Statement and proof |
|---|---|---|
| C29–C31 | `CodeHistory` (`DAG`, `Commit`) | Invariants by induction over all sequences of operations. |
| C32–C37 | `Versioner`, `Version` | Invariant: every row of the version table agrees with the content versions it was made from; uniqueness of matches; a failed sync is the identity. C36 refuted: `drop_calls` does not tell the versioner. |
| C37 | `drop_version` over tables, cache and versioner (`VStorage`) | Partial: each executed call has the version it was executed with for as long as it is recorded (invariant over all statements); exactly the committed calls of the version and what was computed from them are removed, also for processes that open the database later; lookups as before otherwise. Refuted: uncommitted calls of the version survive and are written later; deleted dependents of other versions cannot be computed again (their version rows stay) |
| C38 | `Tracer`: `DecTracer` as a stack machine on call trees | Exact without nested ops; what happens up to the first nested op is characterised; refuted for nested ops and caught exceptions. |

### Computation frames

A frame is a record of ten dictionaries (`Model/CFrame`); `Wf R f` is the invariant (graph, values, calls, over the recorded
calls `R`, of which `RecOk` says that ids are unique and each value has one creator). `Consistent` is what the documentation of
`_check` says and is proved equivalent to `check`.

| Id | Model | Statement and proof |
|---|---|---|
| C39 | add, drop, rename, select | All finite sequences of operations under `FOp.Fit`; four refutations outside. |
| C40, C41 | `select_nodes`, `select_subsets` | Exact content; consistent iff the subset is closed. |
| C42 | union, intersection | Set laws on results; exact condition for the union to exist; refuted in general. |
| C43, C44 | `Model/CFrameReach` | Least closed set, graph reachability; termination by counting. |
| C45 | `Model/CFrameHistory` | Exactly the transitive history, any iteration order; termination when no value is made from itself. |
| C65, C66, C67 | `Model/CFrameTable`: tables of ids, `pd.merge` on the common columns (null equals null, as documented by pandas); the orders in which python visits sets are parameters | Histories by C45; invariant of the sequence of joins (`JoinOf`): every row consists of complete histories, none is lost by outer joins, no row is there twice; an inner join is determined by this, so independent of all orders. Refuted: rows pair values without history that have nothing to do with each other; for outer joins the rows, and for all joins whether there is a result, depend on the order of sets. |
| C68 | `midstream`, on top of the path search of C47 | Partial: for graphs without cycles the nodes are those between given ones, elements the least closed set from the sources in the given nodes (C43); consistent with one variable per argument; all nodes of a frame without isolated nodes give the frame back. Refuted with cycles: the search exceeds any depth. |
| C69 | `df` up to the ids in the cells and which columns are loaded | Partial: for frames without cycles, isolated nodes and calls without outputs, by composing C68, C66 and an induction on the time of creation (everything is in the history of an unused value). Refuted: isolated variables are dropped silently; IndexError for a single variable, for siblings, for functions without outputs; refs instead of values for a single node. |
| C70 | `VRun`: tracer, versioner, code state, recorded calls and `_mode_stack` put together; ops are given by what they do and return depending on the source | Partial: invariant over sessions (`RunInv`: every recorded result was computed by some code, its semantic version says what was used and in which version; contents with equal semantic version mean the same). A hit is right since `hash` is injective and the program is determined by the meanings of what it uses; a miss can be executed since otherwise two runs would agree on all that both use. Later runs only add to the versioner, so what was recorded is found again when the code is as it was. Programs of a small language (`Prog`) are shown to meet the assumptions. Refuted: nested ops, caught exceptions, changes inside a context, a failed `__enter__`, dropped calls. |
| C71 | `VWorld`: a database (versioner, calls) and processes, each a `VRun` with its cache and dirty marks; `commit`, kill, open; references, shapes and ops are left out of the commit | Partial: `RunInv` for each process and for the database, under all interleavings (never stale); rows of the versioners have results on disk or in the cache (no call fails); with one process at a time the versioner of the process extends the one on disk, marks are in the cache and not on disk (commits succeed, nothing is recomputed). Refuted: concurrent commits lose versions, the same call made by two processes blocks the second for good, dropping versions while others run or before writing. |
| C72 | `present_dependencies`, `get_canonical_groups`, `get_flat_versions`, `show_versions`, `get_code`, `diff` on the versioner of C32-C37; output as a list of items instead of text | Partial: over all reachable versioners (invariants of C29-C34 plus "every component has a content"): commits are printed with the content that hashes to them, a version's listing has every dependency once with a recorded text of the right semantic version. Refuted: the text is that of the first commit of the semantic version, not what was executed (`commits=version.semantic_expansion`); printed semantic version ids are unknown to `get_code`; `diff` of two commits of a global fails |
| C73 | `guess_code_state`, `crawl_static`, `crawl_obj`, `is_callable_obj`, `extract_func_obj`, `unwrap_decorators`, `from_obj`, `load_obj` over a heap of python objects (`PyProc`); a module is its dictionary, an import either works or fails | Partial: known functions and variables are taken as they are now (no restriction); new functions are found as what their names stand for if the module is tidy; entering succeeds under stated conditions; together these give the hypothesis `Crawled` of C70. Refuted: an older function kept under another name is taken for the new one; an unhashable global, a dataclass or a class containing itself makes every `with storage:` fail; tracked getters and class methods are never found, so that changes go unnoticed (stale result); methods of a class that inherits `__init__` from another module are not found in non-strict mode |
| C74 | `TrackedDict.__getitem__`, `track`, `make_tracked_copy` over programs as trees of reads, writes, attribute reads and calls (`Verif.Track.exec`), beside a plain run without tracer | Partial: transparent if no tracked function writes names of its module; the tracer does not object under stated conditions; the result is determined by what is recorded together with a list of what is not seen (bindings of names to functions, attributes of modules, names used in untracked or foreign inner functions, unhashable values). Refuted: each entry of that list changes the result with all that was recorded unchanged; writes of tracked functions are lost; classes of the own modules cannot be used in tracked functions |
| C75 | `get_adj_elts` (both directions), `_add_adj_calls`, `isin`, `__lt__` over the frame model (`Verif.CFrame.filterBy`); the test on a value and the order of edges are parameters | Partial: exact values always; kept calls have a matching value; complete if a variable and a function share one edge at most; succeeds if every function has an edge, fails otherwise; consistency characterised. Refuted: with two edges between a variable and a function `res.update` lets the last edge win, so calls are lost depending on set order; a function without edges makes it fail; a kept call may lack its non-matching inputs and outputs |
| C76 | `Model/Attach`: `_attach_atom`, `attach` with and without `inplace`, `ComputationFrame.attach`, over the storage sessions with preload and clean-ups | Partial: for results of ops with flat outputs, any session. Refuted: what `attach` returns for a list or dict ref is a plain list or dict without the ids; `cf.attach()` throws the attached copies away, no ref of the frame changes |
| C77 | `Model/Annotation`: `Type.from_annotation`, the annotation part of `parse_returns`; on top of the storage sessions | Partial: for annotations without `MSet`/`MTuple`, several outputs only without annotation or with `Tuple[...]` (proved to fail otherwise), no `MList` of collections. Refuted: `-> tuple` (or `Any`, or a string) with several outputs, `MSet`, and `nout=1` fail after the body was executed |
| C78 | `Model/Delete`: what `drop_calls` makes of its argument (generators can be read once), `delete_calls`, `delete_calls_from_df` on the tables of `Model/CFrameTable`; on top of the storage sessions | Partial: proved (success and exact effect) in any process without uncommitted calls and without `clear_cache` (otherwise refuted, C14 and C56), for collections that can be iterated over twice, and for tables with at most one call in a cell. Refuted: of a generator of ids the first is kept, of a generator of calls all are; cells with several calls (loops) are ignored by `delete_calls_from_df` |
| C79 | `Model/Eval`: `eval_df` (row by row, or column by column with `skip_cols`; `skip_calls`), `unwrap` of single refs, `RefCollection`s and sets, on the tables of `Model/CFrameTable` and the storage | Partial: proved for every storage after orderly sessions and every table whose cells hold refs only or calls only (shown to hold for the tables of `df` under the hypotheses of C69), for refs that calls in the storage use and values without lists of collections (C07). Refuted: `skip_calls` looks at the first row only; sets of refs (tables of `get_history_df`) lose equal values and fail for lists; `skip_cols` given by a generator is used up by the first columns. Left out: the types pandas gives to columns |
| C80 | `Model/SysTracer`: the trace function of `SysTracer` for the events `call` and `return`, run on the tree of frames python runs (`SysRun`), switched off by its own exceptions, which code on the way may catch | Partial: proved by induction on the tree that without an exception of the tracer (and nobody catching one) the graph is exactly the relation of use, read off the tree, and that frames of other kinds always end in an exception. Refuted: a storage with `tracer_impl=SysTracer` fails in every call with `TypeError`; code of `lambda`s is not tracked; after an exception of the tracer is caught, tracing is silently off; functions called `leaf_signal`. Taken as given: what python puts into a frame, and where a module is (`get_module_flow`) |
| C81 | `Model/CFrameShow`: the lines of `get_graph_desc` as data, and the text made from them | Partial: for a well-formed frame without empty functions whose output labels are outputs of the stored ops: one line per function, exactly the edges, exactly the isolated variables, functions in topological order (`Proofs/SortedReach`: in an almost-topological order a node comes before what it reaches, except inside cycles), outputs in order. Refuted: a function without calls (every frame with one, e.g. after `isin`) makes `ops()` raise `NotImplementedError`, so that the frame cannot be printed or shown by `repr`; an op is stored as it was at the first call, so that changing `output_names` (or giving fewer than outputs) makes printing raise `KeyError`/`IndexError` |
| C82 | `Model/Provenance`: `get_creators`, `get_consumers`, `get_ref_creator`, `mget_call` over cache and database, with python's order of sets as a parameter | Partial: after any orderly processes (as for C61) the queries do not raise and return exactly the calls in the database with the values as outputs (inputs), each as recorded, from the cache or from the database (`Proofs/Keyed`: keys of rows are unique; two true tables agree on a call they share). What `mget_call` answers satisfies `RecOk` and `Acyclic`, the assumptions of all theorems on frames, which links the storage model to the frame model. Refuted: calls that are not committed are not found, and inside of a context the queries raise `NotImplementedError`. Taken: no value is nested deeper than the recursion limit |
| C83 | `Model/StorageFrame`: `Storage.cf` with its dispatch on the argument (collections, iterators, dictionaries), `from_op` with its query (sqlite's reading of a name in double quotes), `_expand_unidirectional` with the queries of C82 in every round, python's order of sets as a parameter of the round | Partial: after any orderly processes `cf(op)` has exactly the calls of the op and their inputs and outputs; `expand_back(recursive=True, reuse_existing=False)` of `cf(refs)` and of `cf(op)` terminates with exactly the history read off the table of calls (`From`, `History` in `Spec/StorageFrame`), every value joined with its creator and every call with its inputs (induction on a rank of the acyclic record; invariant: every function has an edge for every input of its calls). Missing, because false: ops named like a column of the table (`op`, `name`, `direction`, …) get a wrong frame; generators are used up by the type tests, the frame is silently empty; the given dictionary is changed; in a context the expansion raises; reuse of functions (the default) stops early (C48) |
| C84 | `Model/CFrameView`: `get_var_values`, `get_func_table`, `values`, `var_info`, `get_var_stats`, `get_func_stats` (a data frame is its list of rows, of printed text only names and numbers) | Partial: `values`, the statistics and `var_info` for every well-formed frame (the calls counted for an incoming edge lie between those that created a value of the variable through an edge, and those that created one at all); the table of a function, also end to end with the table of calls for `cf(op)`, if no call has an input and an output of the same name; refuted for `def f(output_0)`: one column for both, the input is lost. |
| C85 | as C83, with `get_consumers` | Partial: from `cf(refs)` without reuse, if nothing downstream is an element of a list with several: terminates with exactly what was computed from the values (`Into`, `Later` in `Spec/StorageForward`), every value joined with every call that used it. What a round adds is in new variables without consumers (`Proofs/CFrameForward`), so every value has either none or all of its consumers (invariant). Missing, because false: the other elements of a list join the given one in its variable, several variables with elements of one list make the expansion diverge (C48); from `cf(op)` other consumers of the inputs are never found |
| C86 | as C83, then `get_history_df` as in C65 | Partial (conditions of C83): one row per value; its cells have, together, exactly the values and calls of the history of this value read off the table of calls (`RowHistory` in `Spec/StorageHistory`). The frame of C83 has for every call an edge for each input (invariant `Shut`, from `Beyond.full` of each round), so that the past of a value in the frame (C65) is its history in the table of calls (induction both ways) |
| C87 | `Model/SourceHistory`: `DAG.show` and what it calls, `Storage.source_history`; entries (commit, indentation, marks, content) instead of lines of text, the order of sets a parameter | Proved: every commit once, as the outline of the tree of parents (`IsOutline`, `Tells` in `Spec/SourceHistory`), by recursion on the growth of the history (C05) with an index that falls towards the root. `C87_marked_is_current` after `sync`; C87 does not cover text layout and `rich`. |
| C88 | `Model/CodeDiff`: `_get_diff`, `_get_colorized_diff`, the prompt of `DAG.commit`; `difflib.unified_diff` with `SequenceMatcher` (its source is python's, not in the repository; the model was compared with python on random texts); texts are lists of characters | Partial: proved if no old line starts with `--` and no new line with `++`. Refuted otherwise (`C88_refuted_removed`: the header filter of viz.py line 77/99 also drops removed lines that start with two dashes, such as a comment in a query), and for changes of line ends. The matching blocks of `SequenceMatcher` are proved to match and to increase; grouping only leaves out equal parts (`Walk`). |
| C89 | `Model/OpenStorage`: `Storage.__init__` as far as versions are concerned, `dump_config`, `get_versioner`, `save_versioner`, `sync_component`, `commit`; any number of processes with one table `sources`; the versioner is one object in the cache, `resolve` stands for resolving paths | Partial: opening, the options in use of a running process and `sync_component` proved for all sequences of commands, with the invariant that every versioner there is is well formed. Refuted: options given for a database that has a versioner are silently ignored while `dump_config` reports them (`C89_refuted_options`); a process that opened the new database before the first commit replaces options and history (`C89_refuted_race`); `sync_component` stores the versioner under the key `versioned` instead of `versioner` and is lost without a commit (`C89_refuted_sync_lost`). |
| C90 | Model/CFrameDraw.lean: `draw` with its counts, boxes and arrows, and the dot text of viz.py (`Node`, `Edge`, `to_dot_string` without groups, ports and arrow styles); the semantic version of a call is a parameter; `StopIteration` stands as `indexError`; running `dot` is outside. Spec/FrameDraw.lean: what a drawing is to show, and a small reader of dot statements. | Partial: `C90_draw_partial` (all frames in which every function has a call), `C90_dot_partial`, `C90_dot_edges_partial` (plain names). Refuted: a function without calls, as filtering leaves it, makes `draw` fail (`C90_refuted_empty`, `C90_refuted_filtered`); names with quotes or brackets go unescaped into the dot text (`C90_refuted_names`); `path='x.png'` is written as svg and a path with a space is cut by the shell (`C90_refuted_path`). |
| C91 | Model/CFrameMany.lean: `union(*cfs)`, `intersection(*cfs)` as folds of the binary operations of C42; that one frame is returned as the same object, not as a copy, is outside (values, not objects). | Partial: `C91_union_nodewise`, `C91_union_order` (by induction over the list; whenever both are defined), `C91_union_every_order_iff` (every order succeeds exactly if every two can be united), `C91_intersection_nodewise`, `C91_intersection_order`. Refuted: whether a union exists depends on the order (`C91_refuted_union_order`); no frames at all is a `TypeError` (`C91_refuted_none`). |
| C92 | Model/ChangeNotice.lean: what `sync_codebase` prints (the changed components and under each the ids of the versions found by `get_dependent_versions`), over the versioner of C32–C37; lines are kept as their parts. | Partial: `C92_announced_iff`, `C92_announced_once`, `C92_listed_partial` (by id; by op where no other op has a version with the same content id), `C92_answers_decide_partial` and `C92_valid_iff_partial` (no component goes back to earlier code; then the valid versions are exactly those valid before and listed only under changes answered "no"). Refuted: of two ops that call each other only one is listed, because the list is made by content ids which do not say of which op a version is (`C92_refuted_component`); going back to earlier code is not announced although versions become invalid (`C92_refuted_back`). |
| C93 | Model/CurrentVersions.lean: `get_current_versions` and `get_semantically_compatible_versions`, over the versioner of C32–C37. | Proved: `C93_current_iff` (exactly the good versions, each once, when the code is known), `C93_code_at_hand` (for the code of the open context the query never fails), `C93_unknown_empty`, `C93_queries_agree` (same outcome, errors included), `C93_found_iff_current` (a call is found exactly under a current version it is recorded under). |
| C94 | Model/CFrameIndex.lean: `__getitem__` over the selection of C40; an element of the index that is not a string is kept as `none`. | Partial: `C94_selects`, `C94_order`, `C94_repeated`, `C94_single`, `C94_nested`. Refuted: an index with an element that is not a string neither raises nor gives a frame, `None` is returned (`C94_refuted_not_names`). |
| C95 | Model/SemanticVersions.lean: `show_versions` with `only_semantic`, over the listings of C72. | Proved: `C95_each_meaning_once`. The fuel of reading a history is at least its length (`Shallow`), as in C72. |
| C46, C47 | `Graph`, `NodeOrder`: Tarjan, Kahn, path search | Line by line; C47 refuted on cyclic graphs (extra edges, divergence). |
| C48 | `Model/CFrameExpand` | All modes: only recorded calls are added, one round attaches all recorded neighbours of unattached values (`Grows`, `Attached`). Without reuse: termination (ranking), consistency, completeness. With reuse (the default): termination without failure (ops without a function and labels without a variable get fewer), completeness and consistency refuted by a chain of four calls of one op, and a function without calls makes it raise. |
| C49, C50, C59 | `Model/CFrameObj`: a heap of frames | Which object is changed; refuted for `move_ref`, `merge_into` (they write to the original), `cleanup` (result thrown away), `merge_vars` (intersections remain). |
| C51, C52, C60 | `Model/CFrameBuild` | Fresh names, edges at both ends, constructors; refuted when a variable gets the name of a function. |
| C57, C58 | drop, upstream, downstream, difference | Refuted after an output variable was dropped, for weak reachability, for differences. |
