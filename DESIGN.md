# Formal model of `sherman` (`RleTree`) in Lean 4

The source under `/repo` is read as text; nothing of it is compiled or run.  Model and proofs are in `lean/Verif/`.
`properties.jsonl` lists the properties, `MANIFEST.json` maps each of them to theorems, `seeded/LOG.jsonl` records how the
theorems react to wrong programs.

## Approach

* Every modelled Rust function is a total, computable Lean function whose comment cites file and lines.  A panic, a failed
  `weak_assert!`, an `unreachable!`, a `todo!()`, an access outside of an array, arithmetic that leaves its range and undefined
  behaviour are error values (`R α = Except Fault α`, `Base.lean`).  Nothing is totalised with a default value.
* `&mut self` becomes "return the new value".  A node is `{ptr, size, keys, kids}`; a key carries its stored relative
  position, its slice and its reference id, like the parallel arrays of `node.rs`.  Trees are indexed by height, like the typed
  handles of the code.
* A position in a tree is a node with the frames above it (`Ctx`).  A walk up along parent links becomes a step to the
  next frame.  That the stored links really name these frames is not assumed: the model records each access to a link
  (`World.links`), and C21 carries them out on a map from addresses to links.
* Index arithmetic goes through a dictionary of the directional operations (`IdxOps`).  The main theorems use unsigned integers
  up to an arbitrary `MAX` with checked arithmetic; C33 runs the *same* functions with a non-commutative index.
* A slice type is a dictionary `splitAt`, `tryJoin`, `mayJoin` (`SliceOps`) without laws, unless a property states some.
* The abstract meaning of a tree is a list of runs (size, slice).  `Spec.lean` defines insertion into such a list and knows
  nothing of nodes; `Observe.lean` reads the runs and the shape of a tree directly.  The central refinement theorem says that
  insertion into a tree does to its runs what insertion into a list does, failures included.
* Properties of executions (several trees, clones, threads, borrows, references, panics in user code) are invariants by
  induction over arbitrary programs; no bound on sizes, heights, number of trees, threads or steps.

Where the code does not do what a property says, the negation is proved with a concrete program as witness, and the part that
does hold is proved under the weakest condition found (`_partial`, or theorems with the exact condition).

## Per property

| id | title | status | model | proof | main theorems |
|----|-------|--------|-------|-------|---------------|
| C01 | Insertion is insertion into the sequence of runs | proved | `Tree`, `Insert`, `Spec` | refinement of insertion into a list, level by level over the frames (`LeafSplit`, `Bubble`, `EdgeInsert`, `SplitInsert`, `InsertSpec`); lifted to histories | `insert_runs`, `insertAll_runs`, `insert_returns`, `insertAll_returns`, `live_insert_returns` |
| C02 | Position-wise meaning of insert for lawful slices | proved | `Spec` | denotation of runs as elements over the list specification; two lawful slice types as instances | `insert_elements`, `insertAll_elements`, `constSl_denotes`, `pieceSl_denotes` |
| C03 | Size bookkeeping | proved | `Observe` | representation relation `Rep` with C01 | `size_eq_total`, `insert_size` |
| C04 | Run count bookkeeping | proved | `Observe` | representation relation `Rep` with C01 | `numberOfSlices_eq` |
| C05 | Lookup returns the run covering the index | proved | `Search` | induction over the height (`GetSpec`) | `get_covers` |
| C06 | Lookup panics exactly out of bounds | proved | `Search` | the same induction, failures included | `get_panics_iff`, `cursorTo_panics_iff` |
| C07 | Cursors are only hints | proved | `Search`, `Insert`, `Iter` | the hinted search gives the same step as the plain one, for every hint | `hints_irrelevant`, `iter_cursor_irrelevant` |
| C08 | B-tree shape is preserved | proved | `Observe` (`shape`) | invariant of histories | `shape` |
| C09 | Logarithmic height | proved | `Observe` | counting over the shape invariant; `CursorSpeed` for the default number of keys | `height_log`, `height_bound`, `height_default` |
| C10 | Insertion panics exactly when documented | proved | `Insert`, `Spec` | insertion fails iff the list specification does or the total does not fit; monotonicity in the bound (`Mono`, `Bound`) | `insert_panics`, `insert_fails_iff`, `insert_fault_cases`, `insert_ok_conditions`, `live_insert_fails_iff` |
| C11 | Joining with both neighbours at an edge | partial | `Insert` | exact condition for the panic; witness; the documented behaviour inside of a run | `insert_joinsBoth`, `doubleJoin_counterexample`, `insert_inside_partial`, `specInsert_error_iff` |
| C12 | Trees of Constant are maximally joined | proved | `Insert` with `Constant` | invariant of the list specification | `const_distinct`, `const_insert_returns` |
| C13 | Forward iteration yields exactly the runs touching the range | proved | `Iter` | simulation by the list of runs still to be yielded (`IterWalk`, `IterStack`, `IterSim`) | `iter_deque`, `iter_forward`, `entries_runs` |
| C14 | Double-ended iteration | proved | `Iter` | the same simulation: a double-ended queue | `iter_deque`, `iter_split` |
| C15 | Iteration panics exactly on invalid ranges | proved | `Iter` | exact condition for failure of the constructor; no failure afterwards | `iter_panics_iff`, `iter_failure_panics`, `iter_to_zero` |
| C16 | The cursor returned by insertion leads to the insertion | partial | `Insert`, `Cells` | the inserted slice is marked and followed (`Erase`, `Track`, `PathSpec`); witness for the excepted case | `insert_path_partial`, `insert_place`, `const_insert_path`, `splitFollows_of_noJoin`, `splitFollows_of_edge`, `splitFollows_of_leaf`, `splitFollows_const`, `insert_path_wrong`, `pieceSl_lawful` |
| C17 | cursor_to and SliceEntry::cursor produce the path to the run | proved | `Search`, `Cells` | induction over the height | `cursorTo_path` |
| C18 | BoundedCursor keeps the last LEN components nearest the root | partial | `Cursor` | exact behaviour for every `LEN` and sequence | `Cursor.roundTrip_eq`, `Cursor.newEmpty_ok_iff`, `Cursor.roundTrip_ideal_partial`, `Cursor.roundTrip_ne_ideal` |
| C19 | A slice reference keeps naming its run across insertions | proved | `RefTree` | replay of the store calls; ownership of addresses and references through every step (`Own`, `OwnInsert`, `RefMoves`) | `ref_resolves`, `ref_unique`, `insert_moves_range`, `refAt_spec` |
| C20 | insert_ref returns a reference to the inserted content | partial | `RefTree` | as C16, with the handle built from the events (`Handles`) | `insertRef_partial`, `insertRef_joined_partial`, `insert_place`, `const_insertRef`, `splitFollows_of_noJoin`, `splitFollows_of_edge`, `splitFollows_of_leaf`, `splitFollows_const`, `insertRef_wrong` |
| C21 | Parent links stay consistent | proved | `Links`, `LinkInsert`, `LinkProps` | facts about links carried through every step of an insertion; walks up modelled and shown equal to those from the root | `Forest.Run.linked`, `Forest.Run.insert_eq`, `Forest.Run.clone_returns`, `RefTree.up_eq`, `RleTree.cursorToUp_eq`, `Ctx.up_link`, `live_walks` |
| C22 | Clone of a plain tree is an independent equal copy | proved | `Cow` with `cow = false` | as C23 | `Cow.clone_runs`, `Cow.insert_isolated`, `Cow.run_refines`, `Cow.plain_unshared` |
| C23 | Copy-on-write clones are isolated | proved | `Cow` | programs over several trees in one memory refine lists of lists (`CowUnshare`, `CowWrite`, `CowInsert`, `CowState`) | `Cow.insert_isolated`, `Cow.run_refines`, `Cow.run_sound`, `Cow.clone_runs` |
| C24 | Copy-on-write reference counts are exact | proved | `Cow` | exactness of counts as an invariant of programs (`CowHeap`, `CowDrop`) | `Cow.counts_exact`, `Cow.run_orderly`, `Cow.no_leak`, `Cow.memory_is_held` |
| C25 | Concurrent drops and uniqueness checks are race free | proved | `Atomic` | invariant over all interleavings and all admissible loads; witnesses that each ordering is necessary | `Atomic.St.race_free`, `Atomic.St.one_last`, `Atomic.St.unique_is_alone`, `Atomic.St.count_exact`, `Atomic.St.last_can_finish`, `Atomic.St.wrapped_count_races`, `Atomic.St.relaxed_unique_races`, `Atomic.St.relaxed_decrement_races`, `Atomic.St.no_last_load_races` |
| C26 | RecycleVec hands out non-aliasing ids | proved | `Recycle` | refinement of a map with counts | `Recycle.step_refines`, `Recycle.run_refines`, `Recycle.run_refines_empty`, `Recycle.push_reuses` |
| C27 | Borrow state excludes mutation while borrowed | partial | `SliceRef` | invariant over all calls (`SliceRefInv`, `SliceRefStep`) | `Sys.insert_refused`, `Sys.insert_allowed`, `Sys.borrow_returns`, `Sys.borrow_stable`, `Sys.aborted_insert_poisons` |
| C28 | Dropping the tree under live borrows | partial | `SliceRef` | the same invariant | `Sys.nodes_destroyed_partial`, `Sys.dropTree_returns`, `Sys.dropBorrow_returns`, `Sys.valid_iff_owner`, `Sys.borrow_stable`, `Sys.calls_safe`, `Sys.window_calls_panic`, `Sys.window_borrow_leaks` |
| C29 | SliceRef weak count and allocation lifetime | partial | `SliceRef` | the same invariant | `Sys.store_freed_partial`, `Sys.cloneRef_returns`, `Sys.calls_safe`, `Sys.clone_after_drop_ub`, `Sys.window_calls_panic` |
| C30 | Panics in user code do not cause double drops or reads of moved values | partial | `Destroy` | record of holes is exact after every panic; drops follow it; witnesses for reads and insertions | `Cow.panics_then_drop_partial`, `Cow.exact_drop`, `Cow.edgePhase_ok_holes`, `Cow.splitPhase_ok_holes`, `Cow.readSlot_exact`, `Cow.readSlot_init`, `Cow.insertSlot_exact_iff`, `Cow.read_after_panic_counterexample`, `Cow.insert_after_panic_counterexample` |
| C31 | Dropping a tree destroys every slice exactly once | proved | `Cow`, `Destroy` | the drops of a program destroy what the memory held | `Cow.drop_destroys_once`, `Cow.memory_is_held`, `Cow.no_leak` |
| C32 | Range predicates mean what they say | proved | `Range` | over any linear order | `Range.contains_iff`, `Range.startsAfterEnd_iff`, `Range.isEmptyNaive_iff`, `Range.isEmptyNaive_sound`, `Range.overlapsNaive_iff`, `Range.overlapsNaive_complete`, `Range.std_ranges_mem` |
| C33 | Directional arithmetic is used consistently | partial | `Directional`, `Tree` | each formula of the code in an arbitrary group; witness in an ordered group | `Dir.directional_counterexample`, `Dir.shiftDecrease_correct`, `Dir.shiftIncrease_correct_iff`, `Dir.shiftIncrease_fixed`, `Dir.entrySize_correct_iff`, `Dir.childStart_correct_iff`, `Dir.getRange_correct`, `Dir.heis_lawful` |
| C34 | Directional laws are consistent and derivable | proved | `Directional` | algebra | `Dir.group_laws`, `Dir.unsigned_laws`, `Dir.core_is_group`, `Dir.core_laws`, `Dir.core_of_laws`, `Dir.wrapping_laws`, `Dir.lineCol_monoid`, `Dir.lineCol_no_subR`, `Dir.lineCol_subL` |
| C35 | Serialisation round trip | proved | `Serde` | over C01 | `serialize_runs`, `deserialize_returns`, `deserialize_fails_iff`, `roundTrip_elements`, `roundTrip_runs`, `roundTrip_const`, `roundTrip_ends` |
| C36 | The Mock used as a fuzzing oracle agrees with the specification | proved | `Mock` | simulation of the list specification, hence of the tree | `Mock.mock_insert`, `Mock.mock_insert_fails_iff`, `Mock.mock_insertRef`, `Mock.mock_joins_both`, `Mock.mock_runs`, `Mock.mock_get`, `Mock.mock_iter`, `Mock.mock_makeRef`, `Mock.mock_refs` |
| C37 | Drain removes exactly the requested range | partial | `Drain` | exact behaviour of the stub; witness | `drain_yields_nothing`, `drain_empties`, `drain_size_partial`, `drain_counterexample`, `drain_refs_panics` |
| C38 | No arithmetic overflow before the documented limit | proved | `Insert`, `Search`, `Iter` | every fault is one of the listed ones, none is an overflow | `insert_no_overflow`, `insert_fault_cases`, `get_panics_iff`, `iter_failure_panics`, `iter_deque`, `ref_resolves` |
| C39 | Trees that share nodes do not disturb each other's navigation data | proved | `CowLinks`, `CowLinkProps` | links of the nodes on the way down are set before they are used; separation of the nodes that an insertion owns from those that other trees reach | `Cow.links_immaterial`, `Cow.links_arbitrary`, `Cow.linked_refines`, `Cow.linked_orderly`, `Cow.links_isolated` |
| C40 | Iteration over trees that share nodes | partial | `CowIter`, `Cow`, `CowLinks` | stored links do not name nodes above the parent (`CowIterAny`), for one because they have the height of a parent; the stack holds exactly the parents that links do not name; simulation of `Iter`; witness with an address used twice | `Cow.iter_shared_partial`, `Cow.iter_shared`, `Cow.iter_any_links`, `Cow.iter_two_levels`, `Cow.iter_links_replaced`, `Cow.iter_reuse_wrong`, `Cow.iter_root_links_wrong` |
| C41 | cursor_to on trees that share nodes | partial | `CowCursor`, `Cow`, `CowLinks` | the way up undoes the way down if links are right; the recursive call is for the same node and target if they are not; witnesses; after an insertion the inserted slice, marked, is in no subtree that was left alone, and links on the other nodes are right (`CowPath`) | `Cow.cursorTo_shared_partial`, `Cow.cursorTo_tidy_partial`, `Cow.cursorTo_never_returns`, `Cow.cursorTo_loops`, `Cow.cursorTo_too_long`, `Cow.cursorTo_wrong_index`, `Cow.insert_cursorTo_partial`, `Cow.insert_cursorTo_const` |
| C42 | The project's own consistency check is sound and raises no false alarm | proved | `Validate` | the assertions of a node hold if and only if its keys and children are those of a list of runs; induction over the height; C01 and C21/C39 for no false alarms | `RleTree.validate_iff`, `validate_accepts`, `Cow.validate_accepts_shared`, `validate_trusted` |
| C43 | A panic in a slice's Clone leaves all trees as they were | partial | `ClonePanic` | every operation takes the number of calls of `Clone` that return; the copies along the way down are those without panics, cut off; refinement of lists of runs with an excess of `len`; witnesses | `Cow.clone_panic_partial`, `Cow.clone_panic_isolated`, `Cow.clone_panic_counts`, `Cow.insert_panic_values`, `Cow.clone_panic_memory`, `Cow.insert_torn`, `Cow.clone_leaks` |
| C44 | Clones used by several threads at once | proved | `Threads`, `Cow` | every step of a thread keeps what the others can reach; each variable has an invariant about its references and the private part of its way down; refinement of the lists of runs, an insertion taking effect at its last step; a bound on the steps left that others cannot change | `Cow.threads_linearizable`, `Cow.threads_progress`, `Cow.threads_orderly`, `Cow.threads_isolated`, `Cow.threads_counts`, `Cow.threads_no_leak`, `Cow.threads_insert_bound`, `Cow.threads_drop_bound` |
| C45 | A write copies only the way down to the changed nodes | proved | `Cow`, `ClonePanic` | the new addresses given out by each step of an insertion are counted (`AllocBound`); the copies of `ensure_unique` along the way (`CowCost`); calls of `Clone` as the number that must be allowed (`CowCostProps`) | `Cow.insert_copies_path`, `Cow.insert_clones_path`, `Cow.cow_clone_free` |
| C46 | Insertion, lookup and references take logarithmic time, and space is linear | proved | `Tick`, `TickInsert` (counts of steps over `Tree`, `Search`, `Insert`) | every function with counts has the result of the one without, and a bound given the numbers of keys per node and levels (`TickLemmas`); C08 and C09 for those numbers | `insert_steps`, `get_steps`, `reference_steps`, `insertAll_steps`, `space_linear` |
| C47 | Threads do not interfere through the navigation data that nodes store | proved | `ThreadsLinks`, `Threads` | the links on the private part of each way down are right at every step (`ThreadsLinkStep`, `ThreadsLinkEnd`, `ThreadsLinkInv`); nodes that others reach are not on it | `Cow.threads_links_immaterial`, `Cow.threads_links_arbitrary`, `Cow.threads_links_isolated` |
| C48 | Iteration while other threads work on clones | partial | `ThreadsLinks`, `CowIter` | C47 with the simulation of C40: neither nodes nor links of a tree change while others work | `Cow.threads_iter_partial`, `Cow.iter_any_links`, `Cow.iter_reuse_wrong` |
| C49 | No input makes the project's own fuzz targets fail | proved | `Fuzz` (generator and runner, over `MockTree`, `SliceRef`, `Links`, `Validate`, `Cursor`) | one relation between the state of the generator and that of the runner, kept by each command (`FuzzProps`): C36, C27, C21, C42, C14 for the answers; then the drops | `Fuzz.target_never_fails` |
| C50 | No input makes the fuzz target for copy-on-write fail | partial | `CowFuzz` (generator and runner, over `Fuzz`, `Cow`, `CowLinks`, `CowIter`, `CowPath`) | as C49 (`CowFuzzProps`), with C23, C39, C40, C41, C42 for the answers of trees that share nodes; C51 against overflow of counts; witness with an address used twice | `Fuzz.cow_target_partial`, `Fuzz.cow_target_reuse_fails` |
| C51 | Reference counts do not overflow in any feasible program | proved | `Cow`, `Threads` | a node refers to another one at most once, so counts are bounded by the addresses given out and the trees; an operation gives out at most 2h+3 of them (`CowCost`), and h is at most log2 MAX (`CowLimit`); with threads, no step increases a count by more than one (`ThreadsLimit`) | `Cow.run_succeeds`, `Cow.threads_succeed`, `Cow.threads_few_references` |
| C52 | A wrong implementation of Index causes no undefined behaviour | proved | `AnyIndex` (over `Search`, `Insert`, `Iter`, `RefTree`, `LinkProps`) | one Hoare-style rule per function: from a node or path of the right shape, no step fails except by a panic, and the shape is kept (`AnyIndexInsert`, `AnyIndexRun`, `AnyIndexIter`); references by the ownership invariant of C18 (`AnyIndexRefs`) | `any_balanced`, `any_insert`, `any_get`, `any_iter`, `any_iter_new`, `any_refs`, `any_ref` |
| C53 | Trees over any ordered index type behave as the list of runs | proved | `Search`, `Insert` over any index type; `OrderedSpec` for the lists of runs | the tree uses indices only through their operations, so maps that keep these keep what it does (`IndexHom`); a computation uses finitely many values (`FinUse`), and any finite part of an ordered group maps to the integers with sums and order kept (`OrderedGroup`, Fourier-Motzkin); then C01-C06 (`OrderedIndex`) and C13-C15 (`IndexHomIter`, `FinUseIter`, `OrderedIter`); negative positions by following the leftmost path (`OrderedNeg`) | `ordered_index`, `ordered_index_fails`, `ordered_index_panics`, `ordered_iter`, `ordered_iter_panics`, `gTouches_iff`, `fresh_nodup`, `ordered_negative`, `ordered_negative_history`, `natIdx_lawful`, `finIdx_lawful`, `intIdx_lawful`, `pairIdx_lawful` |
| C54 | Iteration takes constant time per run, after a logarithmic start | proved | `TickIter` (counts of steps over `Iter`) | potential argument: twice the number of nodes above that have been entered at their last (first) child, plus the height of the current node, is saved up for the way up and down again; the shape of nodes from C08, that of handles as in C52 | `iter_steps`, `iter_call_steps`, `iter_loop_steps` |
| C55 | After a caught panic of index arithmetic a tree can still be used | partial | `Caught`, `CaughtJoin` (insertion as in `Insert`, with what is in memory at each operation that can panic) | one rule per function (`CaughtLemmas`): it agrees with the function of `Insert` if it returns, and otherwise what is left is a tree whose nodes have between 1 and 2M keys; then C52, whose rules allow any lower bound of at least 1; witnesses for small M | `caught_keyed_partial`, `caught_usable_partial`, `caught_join_keyed_partial`, `caught_join_usable_partial`, `caught_join_lost`, `caught_nojoin_kept`, `caught_loses`, `caught_small_not_usable` |
| C56 | An insertion that panics duplicates, reorders and invents nothing | proved | `Caught`; the slices in order: `slicesT` (proved equal to those of `places`) | for each function of `Caught` what it does to the list of slices if it returns and if it panics (`CaughtKept`, `CaughtKeptRun`, `CaughtKeptLeaf`): lists woven from children and keys, the zipper contributes a prefix and a suffix; invariant over the program: every node has one more child than keys, and the count is at least the number of slices (`CaughtContents`, for slices that join `CaughtJoinContents`) | `caught_contents`, `caught_join_contents` |
| C57 | A caught panic of index arithmetic leaves every slice in its place | partial | `HolesArith` (`edgePhase` and `splitPhase` of `Destroy` with sizes) | a case analysis over all outcomes of joining and all sums: which place is empty at the end; taking and filling succeed because at most one place is empty; C30 for drops; witnesses with `u8` and `Constant` | `Cow.edge_overflow_holes`, `Cow.split_overflow_holes`, `Cow.const_split_overflow`, `Cow.overflow_then_drop_partial`, `Cow.edgePhaseA_eq`, `Cow.splitPhaseA_eq`, `Cow.overflow_read_counterexample`, `Cow.overflow_read_counterexample'` |
| C58 | A cursor saves searching | partial | `Tick` (counts of steps), `Cursor` | a hint that is right is confirmed by three comparisons; the node that stores the run is searched by halving; the filler of C18 is no index of a child, so searching ignores it and forgets the rest of the path (`CursorSpeed`); the search with a cursor is compared level by level with that without one (`CursorCost`) | `cursor_saves_partial`, `insert_cursor_saves_partial`, `cursor_saves_part`, `bounded_cursor_saves_partial`, `cursor_costs`, `insert_cursor_costs`, `bounded_cursor_unused`, `default_cursor_unused` |
| C59 | A tree of Constant is the run-length encoding of its elements | proved | `ConstRle`: `rle`, `segs`, `putAll` as specification | C02 gives the elements, C12 that neighbours differ, C04 that no run is empty; a list has only one such encoding; C05, C13 and C14 for what is seen | `const_rle`, `const_history`, `const_get`, `const_iter`, `const_canonical`, `const_cow_rle`, `rle_spec` |
| C60 | Neighbouring runs that could be joined are joined | partial | `Insert`; `Ends`, `Documented` as specification of slice types | as C12, with the ends that touch in place of the values (`Maximal`); for other types the cases of the specification of C01, and a witness | `never_joinable_partial`, `never_joinable_cow_partial`, `inserted_offered`, `Ends.documented`, `constSl_ends`, `pieceSl_ends`, `cappedSl_documented`, `cappedSl_denotes`, `joinable_neighbours` |
| C61 | What is_valid and can_borrow foretell about a slice reference | partial | `SliceRef` (the calls of C27-C29) | invariants over arbitrary calls for what stays invalid (`SliceRefAsk`), the invariant of C28 for the rest; witnesses for the two situations in which it is false | `Sys.try_matches`, `Sys.invalid_forever`, `Sys.cannot_borrow_refused`, `Sys.foretold_partial`, `Sys.window_not_foretold`, `Sys.aborted_cannot_borrow`, `Sys.stored_handles`, `Sys.stored_lookup`, `Sys.removed_would_panic` |
| C62 | The parameters of a tree do not change what it does | proved | `Tree`, `Insert`, `Iter`, `RefTree`, `Cow` | insertion into lists commutes with forgetting references; then C01, C05, C13 and C23 for both trees (`Params`) | `params_insert`, `params_size`, `params_get`, `params_iter`, `params_history`, `params_refs`, `Cow.params_program` |
| C63 | Insertions at different places do not disturb each other | proved | `Insert`, `Search`, `Spec` | case analysis of the specification of C01: what is replaced touches the position; the run at a position is unique, so `get` finds the same (C05); C02 and a lemma about lists for the order of insertions, C59 for constants (`Commute`); C22 and C23 for clones (`CowCommute`) | `insert_around`, `insert_leaves_before`, `insert_leaves_after`, `insert_commute`, `const_commute`, `Cow.insert_around`, `Cow.trees_commute` |
| C64 | The arrays inside of nodes are exactly as large as needed and never left | proved | `ArrayHack` (array types with the layout of `repr(C)`, pointers, partly initialised arrays, `map_array`) | induction over the structure of the array types: the layout is a line of elements; the operations on arrays simulate those of `Tree` on lists; an invariant of the loop of `map_array` with a panic at any element (`ArrayHackProps`) | `Hack.array_lengths`, `Hack.array_pointers`, `Hack.layout_line`, `Hack.internal_layout`, `Hack.raw_insert`, `Hack.raw_push`, `Hack.raw_split`, `Hack.leaf_insert`, `Hack.leaf_push`, `Hack.leaf_split`, `Hack.raw_replace`, `Hack.raw_newParent`, `Hack.rawOf_unique`, `Hack.clone_kids`, `Hack.clone_kids_128`, `Hack.map_array` |
| C65 | A destructor of a slice that panics does no harm beyond its tree | proved | `DropPanic`: `dropLogP`, as `dropLog` of `Destroy` with a set of values whose destructor panics | induction over levels and children: a drop that panics is the beginning of the one of C31; memory between the two is what other trees still read | `Cow.drop_panics`, `Cow.dropLogP_sim`, `Cow.dropSegs_spec`, `Cow.readT_less`, `Cow.drop_panic_leaks` |

Partial properties: what is missing is false, see "Where the code and the properties disagree".

## Where the code and the properties disagree

Each of these is a theorem about the model (named in brackets), found by reading the code at the point where a proof did not close.

* C11: joining with both neighbours at an edge ends in `todo!()` (`handle_join_deletion`).  [`doubleJoin_counterexample`]
* C16: inserting into a run stored in an *internal* node, when its left part joins the new slice and the result does not join the
  right part: the path gets a component too many (`fix.rs:108-134, 497-592`, `insert.rs:1142-1160`).  [`insert_path_wrong`]
* C20: in the same situation `insert_ref` makes its reference from a key that a split of an internal node has moved
  away, since no `Move` event is sent for keys of internal nodes.  [`insertRef_wrong`]
* C18: a `BoundedCursor` starts with `start_at = LEN - 1`, so one filler component is part of the path until it has been pushed
  out.  [`Cursor.roundTrip_ne_ideal`]
* C27: an insertion that is abandoned by a panic in user code leaves the store borrowed mutably for ever.  [`Sys.aborted_insert_poisons`]
* C28: between dropping a tree and dropping the last `Borrow`, using a `SliceRef` panics, or makes a `Borrow` that leaks the nodes.
  [`Sys.window_calls_panic`, `Sys.window_borrow_leaks`]
* C29: cloning a `SliceRef` after the tree was dropped does not increase the weak count: use after free.  [`Sys.clone_after_drop_ub`]
* C30: `Leaf::is_hole` looks at `holes[0]` twice, and `insert_key` / `insert_key_and_child` do not shift the record of holes: reading a
  slice that was moved out, after a caught panic.  [`Cow.read_after_panic_counterexample`, `Cow.insert_after_panic_counterexample`]
* C57: `do_insert_full_split_key` and `do_insert_full_edge_try_join` compute `lhs_size.add_right(slice_size)` while the left slice is out of
  its place (src/tree/insert.rs:573, 747): if that overflows and the panic is caught, `get` reads the value that was moved out and
  destroyed.  Safe code, types of the library only (`RleTree<u8, Constant<String>>`: insert 100 times `x` at index 200 into 250 times `x`).
  [`Cow.overflow_read_counterexample`]
* C33: `shift_keys` and two position formulas add on the wrong side for a non-commutative index; and the documented laws are those of
  a group, which excludes line/column positions altogether.  [`Dir.directional_counterexample`, `Dir.lineCol_no_subR`]
* C35: data with a size that is zero or too large makes deserialisation panic instead of returning an error.  [`deserialize_fails_iff`]
* C37: `Drain` is a stub.  [`drain_counterexample`]
* C40: on the way down `fwd_step` and `bkwd_step` compare the link stored in a child with the node where the way down *began*, not with the
  child's parent (`iter.rs:396-403, 483-490`).  A shared node can keep the address of a freed root; if a new root gets that address, the
  parent is not put on the stack, and iteration jumps to the root: a run is yielded twice, then positions underflow.  [`Cow.iter_reuse_wrong`]
* C41: when `cursor_to` meets a child that stores another parent's address, it calls `recurse(node, target)` with the *parent* and the target
  already reduced, instead of the child (`mod.rs:499-503`).  If the child is the first one this never ends: clone a tree, append to the clone,
  and `clone.cursor_to(0)` overflows the stack.  Otherwise the path is wrong; it is also wrong if the address is right and the stored index
  is not, since only addresses are compared.  [`Cow.cursorTo_never_returns`, `Cow.cursorTo_loops`, `Cow.cursorTo_too_long`,
  `Cow.cursorTo_wrong_index`]
* C50: the same defect makes the project's fuzz target for copy-on-write fail, with ten commands and an allocator that hands out a freed address
  again.  [`Fuzz.cow_target_reuse_fails`]
* C43: an insertion into the middle of a run of an *internal* node splits the run, puts the left part back under the old size and adds to `len`, then
  copies shared nodes on the way to the leaf (`insert.rs:1006-1024`).  If `Clone` panics there, the right part and the new slice are gone, and
  `number_of_slices()` stays wrong for ever.  `deep_clone` of an internal node keeps the cloned slices in `MaybeUninit`s until the children
  have been cloned (`node.rs:1139-1151`): a panic there leaks them.  [`Cow.insert_torn`, `Cow.clone_leaks`]
* C55: a panic of index arithmetic in the middle of an insertion (the tree gets too large) drops the nodes that were being split off, so slices
  that were stored are lost, while `number_of_slices()` counts them and the new ones.  With `M` = 1 or 2 a leaf without keys can remain, and `iter.rs:321`
  computes `len - 1` from a length of zero: a read out of bounds in builds without overflow checks.  [`caught_loses`, `caught_small_not_usable`]
* C58: a `BoundedCursor` with room for more than the path it is given is never used, as reading it starts with the filler (C18).  With the default
  parameters this is every cursor in every tree of fewer than 3 359 231 runs: cursors cost time and save none.  [`bounded_cursor_unused`, `default_cursor_unused`]
* C60: `try_join` is documented to be called whenever the slice on either side changes.  After an insertion into a run, its parts are not offered to the runs
  before and after it.  A slice type that limits the size of what it joins then has neighbours that would join.  [`joinable_neighbours`]
* C61: between dropping a tree and dropping its last `Borrow`, `can_borrow` answers `true` and `is_valid`, which exists to check that other calls do not panic,
  panics itself, as do `try_borrow_slice`, `try_range` and `try_cursor`.  After a caught panic in the middle of an insertion `can_borrow` answers `false`
  although nobody has borrowed the tree.  [`Sys.window_not_foretold`, `Sys.aborted_cannot_borrow`]
* C65: `do_drop` runs destructors of slices before it frees the node and drops the children, without a guard: if one panics, the node and everything not yet visited is leaked (a `Vec` would
  destroy the rest).  The safety comment there says that no user code is called; `drop_vals` calls the destructors of slices.  No consequences beyond the leak.  [`Cow.drop_panic_leaks`]
* `increment` in `cow.rs` adds before it checks for overflow; after `isize::MAX` caught panics the count wraps.  [`Atomic.St.wrapped_count_races`]

Noticed while reading, without consequences for the properties: `RefId`s of dropped `SliceRef`s are never recycled; `redirect` with two
references never stores a redirection; `remove` is never called; the callback of `insert_rhs` (`insert.rs:1128`) subtracts the wrong way round, but
is not reached; `insert` checks `idx > size` but not `idx < ZERO`, so with a signed index
type `insert(-3, ..)` inserts at the start, where `get(-3)` panics [`negative_insert`, `ordered_negative`]; the safety comment of `do_drop` about holes does not hold after panics;
a panic of `increment` within `shallow_clone` leaves the counts of the children before it increased;
`collapse_refs` matches on
`initial_result` without moving the `cell::Ref` out of its `Err`, so that `refs.borrow_mut()` right after it (`slice_ref.rs:564, 574`) always panics: `is_valid` of a
reference to a removed slice would panic instead of returning `false`, and so would every use of a redirected one [`removed_would_panic`]; at this commit nothing is
removed or redirected [`stored_handles`].

## What is modelled

| source | model | not modelled |
|--------|-------|--------------|
| `public_traits.rs` | index arithmetic and laws (`Tree`, `Directional`), `Slice` (`Base`, `Spec`) | nothing else in it |
| `lib.rs` | `Constant` (`ConstProps`) | `Debug` helpers |
| `range.rs` | all (`Range`) | |
| `cursor.rs` | `BoundedCursor` (`Cursor`); `NoCursor`, `CursorBuilder` as the path that they collect | `Debug` |
| `recycle.rs` | all (`Recycle`) | `Debug` |
| `mock.rs` | all (`Mock`) | the `Debug`/`Arbitrary` glue |
| `serde.rs` | all (`Serde`): the sequence of pairs | the data format |
| `param.rs` | strong counts, slice reference stores as used by the three configurations | the type-level plumbing |
| `const_math_hack.rs` | the array types, their layout, pointers, `map_array` with both helpers (`ArrayHack`); `GradualInitArray` as the list of the elements pushed, destroyed by unwinding (`ClonePanic`) | `as_slice`; a panic of a destructor of an element (but see C65) |
| `tree/mod.rs` | constructors, `size`, `number_of_slices`, `get`, `cursor_to` (also on memory with stored links: `CowCursor`), `search_step`, `insert*`, `Clone`, `Drop`, `destruct_root`, `drain`, `validate` (`Validate`) | `Debug` |
| `tree/node.rs` | node representation, `split`, `insert_key*`, `push_key*`, `replace_first_child`, `make_new_parent`, `shallow_clone`, `deep_clone` (with panics in `Clone`: `ClonePanic`), `do_drop`, holes, `into_child`, `into_parent`, `SliceHandle` | raw pointer casts between handle types; layout of leaves (of internal nodes: `ArrayHack`) |
| `tree/fix.rs` | `OpUpdateState`, `shift_keys*` (`Tree`, `Insert`) | |
| `tree/insert.rs` | all of it (`Insert`) | |
| `tree/iter.rs` | all of it (`Iter`; on memory with stored links: `CowIter`) | `Debug` |
| `tree/entry.rs` | all of it (`RefTree`, `LinkProps`) | |
| `tree/slice_ref.rs` | reference store (`RefTree`), borrow state and lifetime (`SliceRef`) | redirection chains (never created by this commit: `Stored`; following one would panic) |
| `tree/cow.rs` | counts in one thread (`Cow`), with threads: memory orderings (`Atomic`), whole operations (`Threads`, with stored links `ThreadsLinks`) | |
| `tree/drain.rs` | all of it (`Drain`) | |
| `fuzz-utils/src/lib.rs`, `fuzz/` | commands, generator and runner for the targets `no_features`, `slice_ref` (`Fuzz`) and `cow` (`CowFuzz`) | how bytes become numbers; printing; `map_slice` |

Further limits, each also stated where it applies:

* Node lengths and heights are natural numbers.  C08 and C09 show that they fit in a `u8`.
* `Cow.lean`, `CowLinks.lean`, `CowIter.lean`, `Threads*.lean`: an address is never used twice (but see C39, C40, C47); `Clone` of a slice gives an equal slice and does not panic; a program is not
  continued after a panic (panics in user code: `Destroy.lean`, C30).
* `Threads.lean`: accesses to counts are atomic and sequentially consistent (see C25 for the orderings); after its descent an insertion is one step, since
  it only changes nodes that no other thread can reach; `is_unique` before writes to links of children is added in `ThreadsLinks.lean`;
  a thread whose call panicked does nothing more.
* `Atomic.lean`: release/acquire semantics with stale loads; load buffering is not modelled.
* `Tick.lean`, `TickInsert.lean`, `TickIter.lean`: a step is an operation of the index type, a key or child moved or rewritten, a level, or a call of `split_at`, `try_join`, the update
  callback.  Between two steps the code makes a bounded number of memory accesses; this is by inspection, as is the place of the counts.
* Destructors of slices do not panic, except in `DropPanic.lean` (C65).
* Allocation does not fail.  Layout of nodes (that of their arrays is), `Send`/`Sync`, variance and `Debug` are not modelled.
* Where `Clone` of a plain tree copies nodes, the copy gets addresses in an order that the theorems do not depend on.
* `AnyIndex*.lean`: the operations of the index type are deterministic; a panic in one of them ends the program (but see `Caught*.lean`); `binary_search` is modelled by one algorithm, though its result is
  unspecified if comparisons are inconsistent (it is in bounds in any case).
* `Caught*.lean`: insertion is modelled a second time, with the state of memory at each operation; no references, no sharing; of slices that join only until one is left out of its place (C57).  Where
  `Insert.lean` leaves out sums whose result is not used, this model has them.
* `Ordered*.lean`: index types whose operations are those of a commutative ordered group on a range of values; `finIdx` is the arithmetic of release builds.

## Trusted base

* The kernel of Lean 4.33.0.
* The axioms below, as printed by `#print axioms`.  No own axioms, no `sorry`, no `native_decide`, no `bv_decide`; closed examples
  and witnesses are checked with `decide` or `decide +kernel`, which only use the kernel.
* The translation by hand from Rust to Lean, documented definition by definition with file and lines.

* `propext`, `Classical.choice`, `Quot.sound`: all other theorems of the manifest (233 of 327).
* `propext`, `Quot.sound`: all other theorems of the manifest (64 of 327).
* `propext`: `splitFollows_of_noJoin`, `splitFollows_const`, `Ctx.up_link`, `Range.contains_iff`, `Range.startsAfterEnd_iff`, `Range.isEmptyNaive_iff`, `Range.isEmptyNaive_sound`, `Range.overlapsNaive_iff`, `Range.overlapsNaive_complete`, `Range.std_ranges_mem`, `Dir.shiftDecrease_correct`, `Dir.shiftIncrease_correct_iff`, `Dir.shiftIncrease_fixed`, `Dir.entrySize_correct_iff`, `Dir.childStart_correct_iff`, `Dir.getRange_correct`, `Dir.group_laws`, `Dir.core_is_group`, `Dir.lineCol_no_subR`, `intIdx_lawful`, `constSl_ends`, `Hack.raw_replace`, `Hack.rawOf_unique`, `Hack.clone_kids_128`.
* none: `pieceSl_lawful`, `Dir.core_of_laws`, `drain_yields_nothing`, `Ends.documented`, `pieceSl_ends`, `Hack.array_lengths`.
