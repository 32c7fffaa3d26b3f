{
 "claims": [
  {
   "property": "C01",
   "status": "proved",
   "theorems": [
    "Sherman.insert_runs",
    "Sherman.insertAll_runs",
    "Sherman.insert_returns",
    "Sherman.insertAll_returns",
    "Sherman.live_insert_returns"
   ],
   "note": "With and without slice references."
  },
  {
   "property": "C02",
   "status": "proved",
   "theorems": [
    "Sherman.insert_elements",
    "Sherman.insertAll_elements",
    "Sherman.constSl_denotes",
    "Sherman.pieceSl_denotes"
   ],
   "note": ""
  },
  {
   "property": "C03",
   "status": "proved",
   "theorems": [
    "Sherman.size_eq_total",
    "Sherman.insert_size"
   ],
   "note": ""
  },
  {
   "property": "C04",
   "status": "proved",
   "theorems": [
    "Sherman.numberOfSlices_eq"
   ],
   "note": ""
  },
  {
   "property": "C05",
   "status": "proved",
   "theorems": [
    "Sherman.get_covers"
   ],
   "note": ""
  },
  {
   "property": "C06",
   "status": "proved",
   "theorems": [
    "Sherman.get_panics_iff",
    "Sherman.cursorTo_panics_iff"
   ],
   "note": "Trees that do not share nodes; for cursor_to on copy-on-write trees see C41."
  },
  {
   "property": "C07",
   "status": "proved",
   "theorems": [
    "Sherman.hints_irrelevant",
    "Sherman.iter_cursor_irrelevant"
   ],
   "note": "get, insert and iteration."
  },
  {
   "property": "C08",
   "status": "proved",
   "theorems": [
    "Sherman.shape"
   ],
   "note": ""
  },
  {
   "property": "C09",
   "status": "proved",
   "theorems": [
    "Sherman.height_log",
    "Sherman.height_bound",
    "Sherman.height_default"
   ],
   "note": ""
  },
  {
   "property": "C10",
   "status": "proved",
   "theorems": [
    "Sherman.insert_panics",
    "Sherman.insert_fails_iff",
    "Sherman.insert_fault_cases",
    "Sherman.insert_ok_conditions",
    "Sherman.live_insert_fails_iff"
   ],
   "note": "With and without slice references.  The exact condition includes the unimplemented double join of C11."
  },
  {
   "property": "C11",
   "status": "partial",
   "theorems": [
    "Sherman.insert_joinsBoth",
    "Sherman.doubleJoin_counterexample",
    "Sherman.insert_inside_partial",
    "Sherman.specInsert_error_iff"
   ],
   "note": "The documented behaviour is false at an edge between two runs (negation proved); exact reachability of the panic proved."
  },
  {
   "property": "C12",
   "status": "proved",
   "theorems": [
    "Sherman.const_distinct",
    "Sherman.const_insert_returns"
   ],
   "note": ""
  },
  {
   "property": "C13",
   "status": "proved",
   "theorems": [
    "Sherman.iter_deque",
    "Sherman.iter_forward",
    "Sherman.entries_runs"
   ],
   "note": ""
  },
  {
   "property": "C14",
   "status": "proved",
   "theorems": [
    "Sherman.iter_deque",
    "Sherman.iter_split"
   ],
   "note": ""
  },
  {
   "property": "C15",
   "status": "proved",
   "theorems": [
    "Sherman.iter_panics_iff",
    "Sherman.iter_failure_panics",
    "Sherman.iter_to_zero"
   ],
   "note": ""
  },
  {
   "property": "C16",
   "status": "partial",
   "theorems": [
    "Sherman.insert_path_partial",
    "Sherman.insert_place",
    "Sherman.const_insert_path",
    "Sherman.splitFollows_of_noJoin",
    "Sherman.splitFollows_of_edge",
    "Sherman.splitFollows_of_leaf",
    "Sherman.splitFollows_const",
    "Sherman.insert_path_wrong",
    "Sherman.pieceSl_lawful"
   ],
   "note": "False in general (negation proved with a lawful slice type: an extra component in the path).  Proved for all other insertions: between runs, into leaves, slices that never join, Constant slices, slices whose parts rejoin."
  },
  {
   "property": "C17",
   "status": "proved",
   "theorems": [
    "Sherman.cursorTo_path"
   ],
   "note": "Trees that do not share nodes."
  },
  {
   "property": "C18",
   "status": "partial",
   "theorems": [
    "Sherman.Cursor.roundTrip_eq",
    "Sherman.Cursor.newEmpty_ok_iff",
    "Sherman.Cursor.roundTrip_ideal_partial",
    "Sherman.Cursor.roundTrip_ne_ideal"
   ],
   "note": "Exact behaviour proved for every LEN and sequence; the expected behaviour is false for 1 <= LEN and fewer than 2*LEN-1 components (negation proved)."
  },
  {
   "property": "C19",
   "status": "proved",
   "theorems": [
    "Sherman.ref_resolves",
    "Sherman.ref_unique",
    "Sherman.insert_moves_range",
    "Sherman.refAt_spec"
   ],
   "note": ""
  },
  {
   "property": "C20",
   "status": "partial",
   "theorems": [
    "Sherman.insertRef_partial",
    "Sherman.insertRef_joined_partial",
    "Sherman.insert_place",
    "Sherman.const_insertRef",
    "Sherman.splitFollows_of_noJoin",
    "Sherman.splitFollows_of_edge",
    "Sherman.splitFollows_of_leaf",
    "Sherman.splitFollows_const",
    "Sherman.insertRef_wrong"
   ],
   "note": "False in general (negation proved: the reference is made from a key that was moved by a split of an internal node).  Proved for the same insertions as C16."
  },
  {
   "property": "C21",
   "status": "proved",
   "theorems": [
    "Sherman.Forest.Run.linked",
    "Sherman.Forest.Run.insert_eq",
    "Sherman.Forest.Run.clone_returns",
    "Sherman.RefTree.up_eq",
    "Sherman.RleTree.cursorToUp_eq",
    "Sherman.Ctx.up_link",
    "Sherman.live_walks"
   ],
   "note": "Any number of trees in one memory with arbitrary initial contents; every access to parent and idx_in_parent made by insertion and clone is carried out on a map from addresses to links, a read that does not find what the code goes on with being undefined behaviour.  Walks up along the links are modelled and equal the results computed from the root, errors included."
  },
  {
   "property": "C22",
   "status": "proved",
   "theorems": [
    "Sherman.Cow.clone_runs",
    "Sherman.Cow.insert_isolated",
    "Sherman.Cow.run_refines",
    "Sherman.Cow.plain_unshared"
   ],
   "note": "cow = false; all programs of new/insert/clone/drop on any number of trees."
  },
  {
   "property": "C23",
   "status": "proved",
   "theorems": [
    "Sherman.Cow.insert_isolated",
    "Sherman.Cow.run_refines",
    "Sherman.Cow.run_sound",
    "Sherman.Cow.clone_runs"
   ],
   "note": "cow = true; all programs of new/insert/clone/drop on any number of trees, single thread (threads: C25).  Clone of a slice is taken to give an equal slice."
  },
  {
   "property": "C24",
   "status": "proved",
   "theorems": [
    "Sherman.Cow.counts_exact",
    "Sherman.Cow.run_orderly",
    "Sherman.Cow.no_leak",
    "Sherman.Cow.memory_is_held"
   ],
   "note": "All programs of new/insert/clone/drop; a program is not continued after a panic."
  },
  {
   "property": "C25",
   "status": "proved",
   "theorems": [
    "Sherman.Atomic.St.race_free",
    "Sherman.Atomic.St.one_last",
    "Sherman.Atomic.St.unique_is_alone",
    "Sherman.Atomic.St.count_exact",
    "Sherman.Atomic.St.last_can_finish",
    "Sherman.Atomic.St.wrapped_count_races",
    "Sherman.Atomic.St.relaxed_unique_races",
    "Sherman.Atomic.St.relaxed_decrement_races",
    "Sherman.Atomic.St.no_last_load_races"
   ],
   "note": "Release/acquire model with stale loads; load buffering not modelled.  The exception for isize::MAX caught panics is exact (wrapped_count_races), and each ordering in the code is necessary."
  },
  {
   "property": "C26",
   "status": "proved",
   "theorems": [
    "Sherman.Recycle.step_refines",
    "Sherman.Recycle.run_refines",
    "Sherman.Recycle.run_refines_empty",
    "Sherman.Recycle.push_reuses"
   ],
   "note": ""
  },
  {
   "property": "C27",
   "status": "partial",
   "theorems": [
    "Sherman.Sys.insert_refused",
    "Sherman.Sys.insert_allowed",
    "Sherman.Sys.borrow_returns",
    "Sherman.Sys.borrow_stable",
    "Sherman.Sys.aborted_insert_poisons"
   ],
   "note": "Proved for all histories in which no insertion is abandoned by a panic of user code; false after such a panic (negation proved)."
  },
  {
   "property": "C28",
   "status": "partial",
   "theorems": [
    "Sherman.Sys.nodes_destroyed_partial",
    "Sherman.Sys.dropTree_returns",
    "Sherman.Sys.dropBorrow_returns",
    "Sherman.Sys.valid_iff_owner",
    "Sherman.Sys.borrow_stable",
    "Sherman.Sys.calls_safe",
    "Sherman.Sys.window_calls_panic",
    "Sherman.Sys.window_borrow_leaks"
   ],
   "note": "Proved if the SliceRefs are left alone between dropping the tree and dropping the last Borrow; otherwise false (negations proved: panics and leaked nodes)."
  },
  {
   "property": "C29",
   "status": "partial",
   "theorems": [
    "Sherman.Sys.store_freed_partial",
    "Sherman.Sys.cloneRef_returns",
    "Sherman.Sys.calls_safe",
    "Sherman.Sys.clone_after_drop_ub",
    "Sherman.Sys.window_calls_panic"
   ],
   "note": "Proved if no SliceRef is cloned after the tree was dropped; otherwise false (negations proved: use after free, panic)."
  },
  {
   "property": "C30",
   "status": "partial",
   "theorems": [
    "Sherman.Cow.panics_then_drop_partial",
    "Sherman.Cow.exact_drop",
    "Sherman.Cow.edgePhase_ok_holes",
    "Sherman.Cow.splitPhase_ok_holes",
    "Sherman.Cow.readSlot_exact",
    "Sherman.Cow.readSlot_init",
    "Sherman.Cow.insertSlot_exact_iff",
    "Sherman.Cow.read_after_panic_counterexample",
    "Sherman.Cow.insert_after_panic_counterexample"
   ],
   "note": "Drops after panics are right; reads and further insertions after a caught panic are not (negations proved, with the exact condition)."
  },
  {
   "property": "C31",
   "status": "proved",
   "theorems": [
    "Sherman.Cow.drop_destroys_once",
    "Sherman.Cow.memory_is_held",
    "Sherman.Cow.no_leak"
   ],
   "note": "All programs of new/insert/clone/drop, with and without sharing.  Destructors of slices are assumed not to panic (for those see C65)."
  },
  {
   "property": "C32",
   "status": "proved",
   "theorems": [
    "Sherman.Range.contains_iff",
    "Sherman.Range.startsAfterEnd_iff",
    "Sherman.Range.isEmptyNaive_iff",
    "Sherman.Range.isEmptyNaive_sound",
    "Sherman.Range.overlapsNaive_iff",
    "Sherman.Range.overlapsNaive_complete",
    "Sherman.Range.std_ranges_mem"
   ],
   "note": ""
  },
  {
   "property": "C33",
   "status": "partial",
   "theorems": [
    "Sherman.Dir.directional_counterexample",
    "Sherman.Dir.shiftDecrease_correct",
    "Sherman.Dir.shiftIncrease_correct_iff",
    "Sherman.Dir.shiftIncrease_fixed",
    "Sherman.Dir.entrySize_correct_iff",
    "Sherman.Dir.childStart_correct_iff",
    "Sherman.Dir.getRange_correct",
    "Sherman.Dir.heis_lawful"
   ],
   "note": "False for lawful non-commutative indices (negation proved, with the exact condition under which each formula of the code is right); for unsigned integers the consistent behaviour is C01-C06."
  },
  {
   "property": "C34",
   "status": "proved",
   "theorems": [
    "Sherman.Dir.group_laws",
    "Sherman.Dir.unsigned_laws",
    "Sherman.Dir.core_is_group",
    "Sherman.Dir.core_laws",
    "Sherman.Dir.core_of_laws",
    "Sherman.Dir.wrapping_laws",
    "Sherman.Dir.lineCol_monoid",
    "Sherman.Dir.lineCol_no_subR",
    "Sherman.Dir.lineCol_subL"
   ],
   "note": "The documented laws hold for the provided instances, are exactly those of a group, and exclude line/column positions."
  },
  {
   "property": "C35",
   "status": "proved",
   "theorems": [
    "Sherman.serialize_runs",
    "Sherman.deserialize_returns",
    "Sherman.deserialize_fails_iff",
    "Sherman.roundTrip_elements",
    "Sherman.roundTrip_runs",
    "Sherman.roundTrip_const",
    "Sherman.roundTrip_ends"
   ],
   "note": "Includes that malformed data makes deserialisation panic instead of returning an error."
  },
  {
   "property": "C36",
   "status": "proved",
   "theorems": [
    "Sherman.Mock.mock_insert",
    "Sherman.Mock.mock_insert_fails_iff",
    "Sherman.Mock.mock_insertRef",
    "Sherman.Mock.mock_joins_both",
    "Sherman.Mock.mock_runs",
    "Sherman.Mock.mock_get",
    "Sherman.Mock.mock_iter",
    "Sherman.Mock.mock_makeRef",
    "Sherman.Mock.mock_refs"
   ],
   "note": "The mock follows every history of the tree, including references; where the tree fails on a double join the mock joins. For slice types whose try_join refuses when MAY_JOIN is false (the mock does not consult MAY_JOIN)."
  },
  {
   "property": "C37",
   "status": "partial",
   "theorems": [
    "Sherman.drain_yields_nothing",
    "Sherman.drain_empties",
    "Sherman.drain_size_partial",
    "Sherman.drain_counterexample",
    "Sherman.drain_refs_panics"
   ],
   "note": "The iterator is a stub in this commit: exact behaviour proved, documented behaviour refuted except for the whole range."
  },
  {
   "property": "C38",
   "status": "proved",
   "theorems": [
    "Sherman.insert_no_overflow",
    "Sherman.insert_fault_cases",
    "Sherman.get_panics_iff",
    "Sherman.iter_failure_panics",
    "Sherman.iter_deque",
    "Sherman.ref_resolves"
   ],
   "note": ""
  },
  {
   "property": "C39",
   "status": "proved",
   "theorems": [
    "Sherman.Cow.links_immaterial",
    "Sherman.Cow.links_arbitrary",
    "Sherman.Cow.linked_refines",
    "Sherman.Cow.linked_orderly",
    "Sherman.Cow.links_isolated"
   ],
   "note": "All programs of new/insert/clone/drop, single thread; addresses are not reused in the model, but every operation works with arbitrary links (links_arbitrary).  Iteration: C40."
  },
  {
   "property": "C40",
   "status": "partial",
   "theorems": [
    "Sherman.Cow.iter_shared_partial",
    "Sherman.Cow.iter_shared",
    "Sherman.Cow.iter_any_links",
    "Sherman.Cow.iter_two_levels",
    "Sherman.Cow.iter_links_replaced",
    "Sherman.Cow.iter_reuse_wrong",
    "Sherman.Cow.iter_root_links_wrong"
   ],
   "note": "Proved for all programs, ranges, calls and interleavings if the allocator does not hand out an address again, and, whatever the allocator does, for all trees in which no first or last child stores the address of a node above its parent (iter_any_links: any memory, any links; so for all trees of at most two levels).  Otherwise false (negation proved: after a freed root's address is used for a new root, backward iteration yields a run twice and then underflows; such links mislead forward iteration as well)."
  },
  {
   "property": "C41",
   "status": "partial",
   "theorems": [
    "Sherman.Cow.cursorTo_shared_partial",
    "Sherman.Cow.cursorTo_tidy_partial",
    "Sherman.Cow.cursorTo_never_returns",
    "Sherman.Cow.cursorTo_loops",
    "Sherman.Cow.cursorTo_too_long",
    "Sherman.Cow.cursorTo_wrong_index",
    "Sherman.Cow.insert_cursorTo_partial",
    "Sherman.Cow.insert_cursorTo_const"
   ],
   "note": "False in general (negations proved: unbounded recursion already after cloning a tree and appending to the clone; paths with an extra component; paths with a stale index).  Proved if the links along the path are those of the tree; out of bounds it panics as documented.  Proved for the positions of an insertion right after it (insert_cursorTo_partial; for Constant slices without exception, insert_cursorTo_const)."
  },
  {
   "property": "C42",
   "status": "proved",
   "theorems": [
    "Sherman.RleTree.validate_iff",
    "Sherman.validate_accepts",
    "Sherman.Cow.validate_accepts_shared",
    "Sherman.validate_trusted"
   ],
   "note": "validate_iff: accepted if and only if well formed (the invariant behind C01 and the others) with right links; hypotheses are only what the array types guarantee (at most 2*M keys, one child more than keys)."
  },
  {
   "property": "C43",
   "status": "partial",
   "theorems": [
    "Sherman.Cow.clone_panic_partial",
    "Sherman.Cow.clone_panic_isolated",
    "Sherman.Cow.clone_panic_counts",
    "Sherman.Cow.insert_panic_values",
    "Sherman.Cow.clone_panic_memory",
    "Sherman.Cow.insert_torn",
    "Sherman.Cow.clone_leaks"
   ],
   "note": "False in general (negations proved: an insertion that has already split a run of an internal node loses a part of it and miscounts for ever; copying a plain tree leaks the clones of nodes above).  Proved: other trees, memory safety and counts are never affected; trees are unchanged for clone and for insertions between runs; exactly which values are lost."
  },
  {
   "property": "C44",
   "status": "proved",
   "theorems": [
    "Sherman.Cow.threads_linearizable",
    "Sherman.Cow.threads_progress",
    "Sherman.Cow.threads_orderly",
    "Sherman.Cow.threads_isolated",
    "Sherman.Cow.threads_counts",
    "Sherman.Cow.threads_no_leak",
    "Sherman.Cow.threads_insert_bound",
    "Sherman.Cow.threads_drop_bound"
   ],
   "note": "All executions of new/insert/clone/drop by any number of threads, a step being one access to a count.  Steps are sequentially consistent (the orderings of the atomic accesses: C25); what an insertion does to its own nodes after its descent is one step."
  },
  {
   "property": "C45",
   "status": "proved",
   "theorems": [
    "Sherman.Cow.insert_copies_path",
    "Sherman.Cow.insert_clones_path",
    "Sherman.Cow.cow_clone_free"
   ],
   "note": "Copies is a relation between the two memories only: how many nodes of before were written (with their counts), how many are new.  Single thread (threads: C44).  The numbers of levels are bounded by 2*(M+1)^h <= n+2."
  },
  {
   "property": "C46",
   "status": "proved",
   "theorems": [
    "Sherman.insert_steps",
    "Sherman.get_steps",
    "Sherman.reference_steps",
    "Sherman.insertAll_steps",
    "Sherman.space_linear"
   ],
   "note": "The functions of the model are repeated with a count of steps (Tick, TickInsert); that results are those of the functions without is part of each theorem.  What functions given by the user do counts one step per call.  Deletion does not exist at this commit."
  },
  {
   "property": "C47",
   "status": "proved",
   "theorems": [
    "Sherman.Cow.threads_links_immaterial",
    "Sherman.Cow.threads_links_arbitrary",
    "Sherman.Cow.threads_links_isolated"
   ],
   "note": "All executions of C44, with stored links and is_unique of single nodes at any moments between the end of the descent and the last step.  threads_links_arbitrary covers what addresses that are used again can do to links."
  },
  {
   "property": "C48",
   "status": "partial",
   "theorems": [
    "Sherman.Cow.threads_iter_partial",
    "Sherman.Cow.iter_any_links",
    "Sherman.Cow.iter_reuse_wrong"
   ],
   "note": "Proved for all executions, ranges, calls and interleavings if the allocator does not hand out an address again, or if no first or last child stores the address of a node above its parent (iter_any_links; that others change neither nodes nor links of the tree: C44, C47); otherwise false already with one thread (negation proved, see C40)."
  },
  {
   "property": "C49",
   "status": "proved",
   "theorems": [
    "Sherman.Fuzz.target_never_fails"
   ],
   "note": "All lists of commands, with Constant slices as in the targets.  How bytes become numbers is not modelled: an input is a list of commands with arbitrary numbers.  Overflow checks are on (debug build, as cargo fuzz does).  What an insertion that overflows leaves behind is arbitrary except that there is a root; that dropping its nodes is right is C30."
  },
  {
   "property": "C50",
   "status": "partial",
   "theorems": [
    "Sherman.Fuzz.cow_target_partial",
    "Sherman.Fuzz.cow_target_reuse_fails"
   ],
   "note": "All lists of commands (up to the length of C51), with Constant slices as in the targets, if the allocator does not hand out an address again; otherwise false (negation proved: an input with ten commands and an address used twice makes an assertion of the target fail, by C40's defect of iteration).  How bytes become numbers is not modelled.  After an insertion that overflows, memory is taken to be as if only the tree had been dropped."
  },
  {
   "property": "C51",
   "status": "proved",
   "theorems": [
    "Sherman.Cow.run_succeeds",
    "Sherman.Cow.threads_succeed",
    "Sherman.Cow.threads_few_references"
   ],
   "note": "run_succeeds is about a single thread, in numbers of operations; threads_succeed about any number of threads, in numbers of steps (a step has at most one access to a counter; how many steps an insertion takes is bounded by C44).  Strengthens C23 and C39 (run_refines, linked_refines), which have the panic about too many references as second outcome."
  },
  {
   "property": "C52",
   "status": "proved",
   "theorems": [
    "Sherman.any_balanced",
    "Sherman.any_insert",
    "Sherman.any_get",
    "Sherman.any_iter",
    "Sherman.any_iter_new",
    "Sherman.any_refs",
    "Sherman.any_ref"
   ],
   "note": "Trees with NoFeatures and AllowSliceRefs; not copy-on-write.  Not continued after a panic.  insert_ref under the condition that parts of a split slice rejoin (C20 is about the others).  The precondition failures are those that the model makes explicit: indices of arrays, weak assertions, dangling handles and links, references to freed entries of the store.  binary_search of the standard library, whose result for inconsistent comparisons is unspecified, is modelled by one algorithm."
  },
  {
   "property": "C53",
   "status": "proved",
   "theorems": [
    "Sherman.ordered_index",
    "Sherman.ordered_index_fails",
    "Sherman.ordered_index_panics",
    "Sherman.ordered_iter",
    "Sherman.ordered_iter_panics",
    "Sherman.gTouches_iff",
    "Sherman.fresh_nodup",
    "Sherman.ordered_negative",
    "Sherman.ordered_negative_history",
    "Sherman.natIdx_lawful",
    "Sherman.finIdx_lawful",
    "Sherman.intIdx_lawful",
    "Sherman.pairIdx_lawful"
   ],
   "note": "Insertion, size, number_of_slices, get and iter; trees with NoFeatures and AllowSliceRefs, not copy-on-write.  ordered_iter needs the nodes of the tree to have different addresses; fresh_nodup derives that from an allocator that hands out unused addresses.  LawfulIdx says nothing about sums above MAX or below zero, nor about negative differences.  The code does not reject insertion at negative positions (negative_insert): it is insertion at zero, if subtracting zero from such a position gives that position (ordered_negative).  wrap_beyond shows that the bound MAX is needed."
  },
  {
   "property": "C54",
   "status": "proved",
   "theorems": [
    "Sherman.iter_steps",
    "Sherman.iter_call_steps",
    "Sherman.iter_loop_steps"
   ],
   "note": "Trees with NoFeatures and AllowSliceRefs.  The functions of the model are repeated with a count of steps (TickIter); that results are those of the functions without is part of each theorem."
  },
  {
   "property": "C55",
   "status": "partial",
   "theorems": [
    "Sherman.caught_keyed_partial",
    "Sherman.caught_usable_partial",
    "Sherman.caught_join_keyed_partial",
    "Sherman.caught_join_usable_partial",
    "Sherman.caught_join_lost",
    "Sherman.caught_nojoin_kept",
    "Sherman.caught_loses",
    "Sherman.caught_small_not_usable"
   ],
   "note": "Proved for M >= 3 (the default is M = 5), for slices that do not join without further conditions, for slices that join unless one was left out of its place (caught_join_lost says when that happens; C57); for M = 1 and M = 2 false (negation proved: iteration reads out of bounds after one caught panic).  What is stored is not kept: slices can be lost and number_of_slices can be wrong from then on (caught_loses).  Trees with NoFeatures; parent links after a panic are not covered."
  },
  {
   "property": "C56",
   "status": "proved",
   "theorems": [
    "Sherman.caught_contents",
    "Sherman.caught_join_contents"
   ],
   "note": "Trees with NoFeatures (no references, no sharing).  Slices that join: try_join must hand back its arguments if it fails, and nothing is said about panics that leave a slice out of its place (caught_join_lost, C57)."
  },
  {
   "property": "C57",
   "status": "partial",
   "theorems": [
    "Sherman.Cow.edge_overflow_holes",
    "Sherman.Cow.split_overflow_holes",
    "Sherman.Cow.const_split_overflow",
    "Sherman.Cow.overflow_then_drop_partial",
    "Sherman.Cow.edgePhaseA_eq",
    "Sherman.Cow.splitPhaseA_eq",
    "Sherman.Cow.overflow_read_counterexample",
    "Sherman.Cow.overflow_read_counterexample'"
   ],
   "note": "False (negations proved, with u8 and Constant: the sum of the sizes of the left part and the new slice is computed while the left part is out of its place; after the panic get reads the value that was moved out and destroyed).  Proved: exactly in which cases a place stays empty (edge_overflow_holes, split_overflow_holes are equivalences), that all other panics of index arithmetic during joining leave every slice in its place, and that drops are right in all cases."
  },
  {
   "property": "C58",
   "status": "partial",
   "theorems": [
    "Sherman.cursor_saves_partial",
    "Sherman.insert_cursor_saves_partial",
    "Sherman.cursor_saves_part",
    "Sherman.bounded_cursor_saves_partial",
    "Sherman.cursor_costs",
    "Sherman.insert_cursor_costs",
    "Sherman.bounded_cursor_unused",
    "Sherman.default_cursor_unused"
   ],
   "note": "Proved for a cursor that hands back the path it was given, and for a BoundedCursor if the path has at least 2*LEN-1 components; in general each component in common with the path saves one search.  False for BoundedCursor with room for the whole path (negation proved, a consequence of C18): get and insert with such a cursor take exactly the steps they take without one, and with the default parameters every cursor is of this kind as long as there are fewer than 3 359 231 runs."
  },
  {
   "property": "C59",
   "status": "proved",
   "theorems": [
    "Sherman.const_rle",
    "Sherman.const_history",
    "Sherman.const_get",
    "Sherman.const_iter",
    "Sherman.const_canonical",
    "Sherman.const_cow_rle",
    "Sherman.rle_spec"
   ],
   "note": "Equality of values is lawful (Eq).  const_iter needs the nodes of the tree to have different addresses, as all trees of C13 do."
  },
  {
   "property": "C60",
   "status": "partial",
   "theorems": [
    "Sherman.never_joinable_partial",
    "Sherman.never_joinable_cow_partial",
    "Sherman.inserted_offered",
    "Sherman.Ends.documented",
    "Sherman.constSl_ends",
    "Sherman.pieceSl_ends",
    "Sherman.cappedSl_documented",
    "Sherman.cappedSl_denotes",
    "Sherman.joinable_neighbours"
   ],
   "note": "False in general (negation proved with a lawful slice type that meets the documented condition on try_join: the right part of a split run is not offered to the run after it).  Proved for all slice types for which the ends that touch decide (Constant, pieces of a buffer), and for all slice types as far as the inserted slice itself goes."
  },
  {
   "property": "C61",
   "status": "partial",
   "theorems": [
    "Sherman.Sys.try_matches",
    "Sherman.Sys.invalid_forever",
    "Sherman.Sys.cannot_borrow_refused",
    "Sherman.Sys.foretold_partial",
    "Sherman.Sys.window_not_foretold",
    "Sherman.Sys.aborted_cannot_borrow",
    "Sherman.Sys.stored_handles",
    "Sherman.Sys.stored_lookup",
    "Sherman.Sys.removed_would_panic"
   ],
   "note": "False between dropping the tree and dropping its last Borrow (can_borrow says yes, is_valid and the try_ methods panic) and after a caught panic in the middle of an insertion (can_borrow says no for good); both negations proved.  That invalid references stay invalid, that try_ and infallible methods agree and that a refused can_borrow foretells refusal is proved for all histories with panics anywhere; the rest for all histories outside these two situations.  That is_valid would panic for a slice that has been removed has no consequences yet, as nothing removes slices at this commit (stored_handles)."
  },
  {
   "property": "C62",
   "status": "proved",
   "theorems": [
    "Sherman.params_insert",
    "Sherman.params_size",
    "Sherman.params_get",
    "Sherman.params_iter",
    "Sherman.params_history",
    "Sherman.params_refs",
    "Sherman.Cow.params_program"
   ],
   "note": "Index types: unsigned integers of any two widths.  params_iter is about trees without copy-on-write (for those see C40, where iteration is wrong in general) and needs the nodes of a tree to have different addresses; copy-on-write trees compared by their contents, get and insert.  The limit to the number of sharers of a node is the one difference of copy-on-write."
  },
  {
   "property": "C63",
   "status": "proved",
   "theorems": [
    "Sherman.insert_around",
    "Sherman.insert_leaves_before",
    "Sherman.insert_leaves_after",
    "Sherman.insert_commute",
    "Sherman.const_commute",
    "Sherman.Cow.insert_around",
    "Sherman.Cow.trees_commute"
   ],
   "note": "Index types: unsigned integers.  insert_commute assumes that all four insertions return (in one order three slices may have to be joined, which is not implemented: C11); const_commute proves that they do, as far as the sizes fit.  Cow.trees_commute: the program with the insertion moved returns too, or meets the limit on references (C51)."
  },
  {
   "property": "C64",
   "status": "proved",
   "theorems": [
    "Sherman.Hack.array_lengths",
    "Sherman.Hack.array_pointers",
    "Sherman.Hack.layout_line",
    "Sherman.Hack.internal_layout",
    "Sherman.Hack.raw_insert",
    "Sherman.Hack.raw_push",
    "Sherman.Hack.raw_split",
    "Sherman.Hack.leaf_insert",
    "Sherman.Hack.leaf_push",
    "Sherman.Hack.leaf_split",
    "Sherman.Hack.raw_replace",
    "Sherman.Hack.raw_newParent",
    "Sherman.Hack.rawOf_unique",
    "Sherman.Hack.clone_kids",
    "Sherman.Hack.clone_kids_128",
    "Sherman.Hack.map_array"
   ],
   "note": "The layout of arrays and of repr(C) structures is that of the Rust reference; the size of a type is a multiple of its alignment and at most isize::MAX, as the compiler guarantees.  raw_insert, raw_push, raw_split and raw_replace: if the model of nodes as lists (used for all other properties) makes a step, then the arrays make the same step without leaving their bounds; leaf_insert, leaf_push and leaf_split say the same of leaves, which have no array of children.  clone_kids for M up to 127, which assert_reasonable_m enforces; clone_kids_128 shows that the limit is needed.  Contents are modelled as a list of places, which array_pointers connects with addresses."
  },
  {
   "property": "C65",
   "status": "proved",
   "theorems": [
    "Sherman.Cow.drop_panics",
    "Sherman.Cow.dropLogP_sim",
    "Sherman.Cow.dropSegs_spec",
    "Sherman.Cow.readT_less",
    "Sherman.Cow.drop_panic_leaks"
   ],
   "note": "The slices and nodes that the drop has not come to are leaked (drop_panic_leaks shows a case), among them the node of the slice that panicked; counts of nodes below keep the leaked references, so that other trees copy such nodes rather than change them.  Programs are not continued after the panic except for reading the other trees.  That the rest of a [S] is dropped when one element panics, and that a second panic aborts, is the behaviour of drop_in_place."
  }
 ]
}