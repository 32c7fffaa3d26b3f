{"id": "C01", "title": "Insertion is insertion into the sequence of runs", "statement": "Reading a tree as the ordered list of (size, slice) runs that iteration yields, `insert(idx, slice, size)` changes that list exactly as inserting into a plain list would: the run that strictly contains idx is cut at idx with `split_at`, the new run is placed between the two halves (or between the two runs meeting at idx), `try_join` is attempted first with the left neighbour and then with the right one, and every other run keeps its size, slice and order.", "quantifier": "every tree reachable by insertions, every M in 1..=127, every index 0..=size, every positive size, every slice type (arbitrary split_at/try_join behaviour), every cursor hint", "why_tests_cant": "There are unboundedly many tree shapes, node occupancies and split cascades; a test visits a few of them, while the cached relative positions must stay exact in all.", "anchors": ["src/tree/insert.rs: insert_internal, find_insertion_point, do_insert_full*, insert_rhs, BubbledInsertState", "src/tree/fix.rs: OpUpdateState, shift_keys", "src/tree/mod.rs: RleTree::insert"]}
{"id": "C02", "title": "Position-wise meaning of insert for lawful slices", "statement": "If a slice type denotes a sequence of elements (split_at cuts that sequence, a successful try_join concatenates, a failing one returns its arguments), then the element sequence of the tree after `insert(idx, s, n)` is old[..idx] ++ elements(s) ++ old[idx..].", "quantifier": "every lawful slice denotation, every history of insertions, every index and size", "why_tests_cant": "The law relates whole sequences after arbitrary histories; only sampled histories can be tested.", "anchors": ["src/tree/mod.rs: RleTree::insert", "src/public_traits.rs: Slice", "src/lib.rs: Constant"]}
{"id": "C03", "title": "Size bookkeeping", "statement": "`size()` always equals the sum of the sizes of the runs yielded by iteration, and `insert(idx, s, n)` increases it by exactly n.", "quantifier": "every reachable tree and every successful insertion", "why_tests_cant": "Sizes are cached at every level and updated incrementally; drift appears only after particular cascades.", "anchors": ["src/tree/mod.rs: RleTree::size", "src/tree/fix.rs: OpUpdateState::do_upward_step, shift_keys", "src/tree/node.rs: set_subtree_size"]}
{"id": "C04", "title": "Run count bookkeeping", "statement": "`number_of_slices()` always equals the number of runs that iteration over the whole tree yields.", "quantifier": "every reachable tree", "why_tests_cant": "The counter is adjusted in nine different branches of insertion before the tree is changed; a test cannot exhaust the combinations.", "anchors": ["src/tree/mod.rs: RleTree::number_of_slices, RleTree::validate", "src/tree/insert.rs: do_insert_full_edge, do_insert_full_split_key, do_insert_full_edge_try_join"]}
{"id": "C05", "title": "Lookup returns the run covering the index", "statement": "`get(idx)` with 0 <= idx < size() returns the run whose range contains idx: range.start is the sum of the sizes of the earlier runs, range.end - range.start is the run's size, and the slice is that run's slice.", "quantifier": "every reachable tree and every index in bounds", "why_tests_cant": "Positions are relative to nodes and recombined on the way down; correctness is about all depths and all positions.", "anchors": ["src/tree/mod.rs: RleTree::get, get_with_cursor, search_step", "src/tree/node.rs: slice_size, key_pos"]}
{"id": "C06", "title": "Lookup panics exactly out of bounds", "statement": "`get` and `cursor_to` panic if and only if the index is out of bounds (idx >= size()); for in-bounds indices they terminate and never hit an internal `unreachable!` or an arithmetic underflow.", "quantifier": "every reachable tree, every index, every hint", "why_tests_cant": "Absence of a panic for all inputs cannot be sampled.", "anchors": ["src/tree/mod.rs: get_with_cursor, cursor_to, search_step"]}
{"id": "C07", "title": "Cursors are only hints", "statement": "Supplying any cursor at all (stale, made for another tree, truncated, random bytes) to get, insert or iter gives the same result as supplying no cursor.", "quantifier": "every tree, every cursor (any finite sequence of path components), every index", "why_tests_cant": "The space of wrong hints is the space of byte strings times trees.", "anchors": ["src/tree/mod.rs: search_step, get_with_cursor, iter_with_cursor, insert_with_cursor", "src/tree/insert.rs: find_insertion_point", "src/tree/iter.rs: make_stack", "src/cursor.rs: Cursor"]}
{"id": "C08", "title": "B-tree shape is preserved", "statement": "After any history of insertions all leaves are at the same depth, every node other than the root holds between M and 2*M runs, the root holds between 1 and 2*M, and an internal node has exactly one more child than runs.", "quantifier": "every history of insertions, every M in 1..=127", "why_tests_cant": "A shape violation shows up only after specific occupancy patterns at several levels at once.", "anchors": ["src/tree/insert.rs: do_insert_full_edge_no_join_split, do_insert_full_edge_no_join_split_small_m, BubbledInsertState::do_upward_step", "src/tree/mod.rs: validate_node"]}
{"id": "C09", "title": "Logarithmic height", "statement": "A tree with n runs has height at most logarithmic in n: (M+1)^h <= n where h is the number of levels below the root; with the default number of keys, h reaches 8 only with at least 3 359 231 runs, as the documentation of BoundedCursor says; hence the height counter (a u8) cannot overflow for any tree that fits in memory.", "quantifier": "every reachable tree", "why_tests_cant": "It is an asymptotic claim over all sizes.", "anchors": ["src/tree/mod.rs: validate", "src/tree/node.rs: make_new_parent (height)", "src/tree/insert.rs"]}
{"id": "C10", "title": "Insertion panics exactly when documented", "statement": "`insert(idx, slice, size)` panics for idx > size() and for size <= 0; for every other argument it completes without panicking, provided the new total fits the index type and the slice does not join with both neighbours at an edge between two existing runs.", "quantifier": "every reachable tree, every argument, every M in 1..=127, every slice type", "why_tests_cant": "Absence of internal panics (unreachable!, failed weak_assert!, arithmetic under/overflow, out-of-range array index) must hold on every path.", "anchors": ["src/tree/insert.rs: insert_internal", "src/tree/mod.rs: insert docs"]}
{"id": "C11", "title": "Joining with both neighbours at an edge", "statement": "When the inserted slice lies between two runs and joins with both, the two runs and the slice become one run (documented on try_join and insert_ref). (In this commit that path ends in `todo!()`; the property is about reachability of that panic.)", "quantifier": "every tree and slice type", "why_tests_cant": "One must know exactly which inputs reach the unimplemented branch.", "anchors": ["src/tree/insert.rs: do_insert_full_edge_try_join, handle_join_deletion"]}
{"id": "C12", "title": "Trees of Constant are maximally joined", "statement": "In a tree of `Constant<T>` built by insertions, two adjacent runs never hold equal values; as a consequence inserting a Constant never joins with both neighbours at an edge and insertion never panics in bounds.", "quantifier": "every history of insertions of constants, every value type with decidable equality that is an equivalence", "why_tests_cant": "It is an invariant over histories, and it is the only reason the unimplemented branch is unreachable for the crate's own slice type.", "anchors": ["src/lib.rs: Constant", "src/tree/insert.rs: do_insert_full_edge_try_join, do_insert_full_split_key"]}
{"id": "C13", "title": "Forward iteration yields exactly the runs touching the range", "statement": "`iter(range)` consumed with next() yields, in increasing order and without gaps or repetition, exactly the runs whose range intersects the requested range, each with its absolute range, size and slice, and then None.", "quantifier": "every reachable tree, every valid range (all six std range kinds and explicit bounds)", "why_tests_cant": "All range endpoints against all tree shapes.", "anchors": ["src/tree/iter.rs: Iter::new, make_stack, fwd_step, next", "src/tree/entry.rs: SliceEntry::range, size, slice"]}
{"id": "C14", "title": "Double-ended iteration", "statement": "However next() and next_back() calls are interleaved, the runs produced by next() are a prefix and those produced by next_back() a (reversed) suffix of the same run list; together they never overlap, and once one returns None every run has been produced exactly once.", "quantifier": "every interleaving of next/next_back, every tree, every valid range", "why_tests_cant": "Interleavings are exponential in the number of runs.", "anchors": ["src/tree/iter.rs: Iterator::next, DoubleEndedIterator::next_back, fwd_step, bkwd_step"]}
{"id": "C15", "title": "Iteration panics exactly on invalid ranges", "statement": "`iter(range)` panics if and only if the start is after the end, the start is at or beyond size(), or the end lies beyond size(); an unbounded-start range with an exclusive end of 0 gives the empty iterator; once constructed, neither next nor next_back ever panics.", "quantifier": "every tree, every range", "why_tests_cant": "Universally quantified absence of panics.", "anchors": ["src/tree/iter.rs: Iter::new, make_stack", "src/range.rs: starts_after_end"]}
{"id": "C16", "title": "The cursor returned by insertion leads to the insertion", "statement": "The path recorded in the cursor returned by insert_with_cursor is exactly the sequence of child indices from the root of the new tree to the node holding the run that contains the inserted slice.", "quantifier": "every reachable tree and insertion", "why_tests_cant": "Paths are assembled while nodes split; each combination of split side and depth needs its own adjustment.", "anchors": ["src/tree/insert.rs: CursorSide handling, BubbledInsertState", "src/tree/fix.rs: OpUpdateState::do_upward_step", "src/tree/mod.rs: insert_with_cursor"]}
{"id": "C17", "title": "cursor_to and SliceEntry::cursor produce the path to the run", "statement": "`cursor_to(idx)` (tree without sharing) yields the child-index path from the root to the node holding the run that contains idx.", "quantifier": "every reachable tree, every in-bounds index", "why_tests_cant": "All depths and shapes.", "anchors": ["src/tree/mod.rs: cursor_to", "src/tree/entry.rs: cursor_to_handle"]}
{"id": "C18", "title": "BoundedCursor keeps the last LEN components nearest the root", "statement": "Prepending components c1, c2, ... ck to an empty BoundedCursor of capacity LEN and then reading it yields the most recently prepended components in order (the ones nearest the root), LEN of them at most; when fewer than LEN were prepended it yields exactly those.", "quantifier": "every LEN in 0..=255 and every sequence of components", "why_tests_cant": "All lengths and sequences.", "anchors": ["src/cursor.rs: BoundedCursor"]}
{"id": "C19", "title": "A slice reference keeps naming its run across insertions", "statement": "A SliceRef made for a run stays attached to it across any later insertions: resolving it yields a handle to the position that the run (possibly grown by joins, possibly cut down to its left part by a split) now occupies, its range() is that run's current range, and no two live references for different runs become the same.", "quantifier": "every history of insertions and make_ref calls", "why_tests_cant": "Runs move between nodes on every split; every move must update the store.", "anchors": ["src/tree/node.rs: insert_key, push_key, split, make_new_parent, insert_key_and_child, push_key_and_child", "src/tree/slice_ref.rs: SliceRefStore::update, suspend, make_ref", "src/tree/node.rs: SliceHandle::range"]}
{"id": "C20", "title": "insert_ref returns a reference to the inserted content", "statement": "The SliceRef returned by insert_ref refers to the run that contains the inserted slice.  If the slice joins with entries to which there are references, the returned reference is identical to those.", "quantifier": "every reachable tree, every insertion, every slice type", "why_tests_cant": "The handle is tracked through splits by a side channel of update events; missing one event in one branch leaves it dangling.", "anchors": ["src/tree/insert.rs: insert_internal, insert_rhs, BubbledInsertState::do_upward_step", "src/tree/fix.rs: TraverseUpdate", "src/tree/mod.rs: insert_ref_with_cursor"]}
{"id": "C21", "title": "Parent links stay consistent", "statement": "In trees without sharing, after every insertion each child's stored parent pointer and index-in-parent agree with the node that really holds it, so upward walks (range(), cursor()) follow the true path.", "quantifier": "every history of insertions, splits and root growth", "why_tests_cant": "Upward links are updated piecemeal in six functions.", "anchors": ["src/tree/node.rs: split, insert_key_and_child, push_key_and_child, replace_first_child, make_new_parent, deep_clone", "src/tree/mod.rs: validate_node"]}
{"id": "C22", "title": "Clone of a plain tree is an independent equal copy", "statement": "For trees without features, clone() produces a tree with the same runs, and later insertions in either do not affect the other.", "quantifier": "every reachable tree and every later history on both", "why_tests_cant": "All shapes and histories.", "anchors": ["src/tree/node.rs: deep_clone", "src/tree/mod.rs: Clone for RleTree<NoFeatures>"]}
{"id": "C23", "title": "Copy-on-write clones are isolated", "statement": "For copy-on-write trees, an insertion through one handle never changes what any other clone observes, whatever the sharing structure.", "quantifier": "every history of clone / insert / drop over any number of handles", "why_tests_cant": "Sharing patterns are arbitrary DAGs.", "anchors": ["src/tree/node.rs: make_unique, ensure_unique, shallow_clone, into_child", "src/tree/cow.rs: StrongCount"]}
{"id": "C24", "title": "Copy-on-write reference counts are exact", "statement": "At every quiescent point the strong count of each node equals the number of handles and parent nodes that refer to it; a node is freed exactly when this reaches zero, never earlier, never twice, and nothing reachable is freed.", "quantifier": "every history of clone / insert / drop", "why_tests_cant": "Leak and double-free freedom over all histories.", "anchors": ["src/tree/cow.rs", "src/tree/node.rs: increase_strong_count_and_clone, shallow_clone, try_drop, do_drop"]}
{"id": "C25", "title": "Concurrent drops and uniqueness checks are race free", "statement": "With handles to a shared node dropped, cloned and tested for uniqueness by any number of threads in any interleaving, exactly one drop observes that it was last, and a thread that sees the count as unique really is the only owner; accesses to the node's contents through handles, after seeing the count as unique, and in the destructor never race. (Excepted: more than isize::MAX clones of handles to one node that panicked because there were too many, with the panics caught.)", "quantifier": "every interleaving of atomic steps of any number of threads", "why_tests_cant": "Schedules cannot be enumerated by tests.", "anchors": ["src/tree/cow.rs: StrongCount for AtomicUsize"]}
{"id": "C26", "title": "RecycleVec hands out non-aliasing ids", "statement": "Under any sequence of push / clone / recycle / replace, an id that has outstanding references always reads the last value stored under it, ids of distinct live entries never coincide, an entry is released exactly when its last id is recycled, and released slots are reused before the vector grows.", "quantifier": "every operation history that only uses live ids", "why_tests_cant": "Free-list corruption depends on history.", "anchors": ["src/recycle.rs: RecycleVec"]}
{"id": "C27", "title": "Borrow state excludes mutation while borrowed", "statement": "While any Borrow obtained from a SliceRef is alive, insertion is refused with a panic before touching the tree; while no Borrow is alive it is never refused for that reason; the counter equals the number of live borrows.", "quantifier": "every interleaving of borrow, clone borrow, drop borrow, insert", "why_tests_cant": "All histories.", "anchors": ["src/tree/slice_ref.rs: acquire_mutable, release_mutable, borrow_refs, drop_borrow, Borrow::clone"]}
{"id": "C28", "title": "Dropping the tree under live borrows", "statement": "If the tree is dropped while Borrows are alive the nodes are destroyed exactly once, when the last Borrow goes away; if none is alive, they are destroyed immediately; afterwards every SliceRef reports invalid.", "quantifier": "every interleaving of borrow / drop operations", "why_tests_cant": "All histories.", "anchors": ["src/tree/slice_ref.rs: try_acquire_drop, SliceRefStore::drop, drop_borrow, InnerStore::drop", "src/tree/mod.rs: destruct_root"]}
{"id": "C29", "title": "SliceRef weak count and allocation lifetime", "statement": "The shared store allocation is freed exactly once, when the tree is gone and the last SliceRef is dropped; cloning a SliceRef (valid or not) never panics and never breaks this.", "quantifier": "every history of make_ref / clone / drop / tree drop", "why_tests_cant": "All histories; the failing ones involve invalid references only.", "anchors": ["src/tree/slice_ref.rs: Clone for SliceRef, do_drop, bump_weak_count"]}
{"id": "C30", "title": "Panics in user code do not cause double drops or reads of moved values", "statement": "If try_join or split_at panics during an insertion, every slice value is afterwards either still owned by the tree, or was consumed by the user code; dropping the tree drops each remaining value exactly once and reads never observe a moved-out value.", "quantifier": "every panic point in user callbacks, every tree, any use afterwards", "why_tests_cant": "Crash points times histories.", "anchors": ["src/tree/node.rs: take_value_and_leave_hole, fill_hole, is_hole, insert_key, do_drop"]}
{"id": "C31", "title": "Dropping a tree destroys every slice exactly once", "statement": "Destroying a tree without pending holes runs the destructor of each stored slice exactly once and frees each node exactly once.", "quantifier": "every reachable tree", "why_tests_cant": "All shapes.", "anchors": ["src/tree/node.rs: do_drop, try_drop", "src/tree/mod.rs: destruct_root"]}
{"id": "C32", "title": "Range predicates mean what they say", "statement": "`contains(x)` holds iff x is within both bounds; `starts_after_end` iff both bounds are given and no value could satisfy both; `is_empty_naive` is exact for bounded ranges; `overlaps_naive(a,b)` is equivalent to the existence of a common element whenever the two ranges do not share an unbounded side.", "quantifier": "every totally ordered index type, every pair of ranges", "why_tests_cant": "Infinitely many bound combinations.", "anchors": ["src/range.rs: RangeBounds::contains, starts_after_end, is_empty_naive, overlaps_naive"]}
{"id": "C33", "title": "Directional arithmetic is used consistently", "statement": "For a non-commutative index type obeying the documented laws (e.g. line/column) insert, get, and size() compute the positions that concatenating runs prescribes.", "quantifier": "every lawful Index type, every tree", "why_tests_cant": "Tests use integers, for which all the directional operations coincide in pairs.", "anchors": ["src/public_traits.rs: DirectionalAdd, DirectionalSub", "src/tree/fix.rs: shift_keys, do_upward_step", "src/tree/entry.rs: SliceEntry::size"]}
{"id": "C34", "title": "Directional laws are consistent and derivable", "statement": "The documented laws of directional arithmetic hold in every group with x +> y = x*y, x <+ l = l*x, x -> r = x*r^-1, x <- l = l^-1*x, and for every instance provided by the crate (unsigned integers, whenever no operation leaves the range).", "quantifier": "every group; every unsigned width and all in-range operands", "why_tests_cant": "Algebraic identities over all values.", "anchors": ["src/public_traits.rs: DirectionalAdd docs, blanket impls"]}
{"id": "C35", "title": "Serialisation round trip", "statement": "Deserialising the serialisation of a tree yields a tree with the same element sequence; if no two adjacent runs join, exactly the same runs; for slice types for which the ends that touch decide whether slices join (C60), always exactly the same runs.", "quantifier": "every reachable tree, every slice type for which appending does not double-join", "why_tests_cant": "All trees.", "anchors": ["src/serde.rs: Serialize, Deserialize"]}
{"id": "C36", "title": "The Mock used as a fuzzing oracle agrees with the specification", "statement": "The vector-backed Mock produces, for any history of insertions, the same run list, lookup results and iteration results as the run-list specification (hence the same as the tree).", "quantifier": "every history of insertions", "why_tests_cant": "It is the oracle of the fuzz tests: its own correctness is assumed by them.", "anchors": ["src/mock.rs: Mock::insert, get, iter, MockIter"]}
{"id": "C37", "title": "Drain removes exactly the requested range", "statement": "`drain(range)` removes from the tree exactly the elements in the range, and yields them. (In this commit the iterator methods are `todo!()`.)", "quantifier": "every tree and range", "why_tests_cant": "The unimplemented state must be characterised for all inputs.", "anchors": ["src/tree/drain.rs: Drain"]}
{"id": "C38", "title": "No arithmetic overflow before the documented limit", "statement": "All index arithmetic performed by insert, get and iter on an unsigned index type stays within 0..=MAX whenever the resulting total size is at most MAX.", "quantifier": "every reachable tree and argument, every unsigned width", "why_tests_cant": "Intermediate values depend on shape.", "anchors": ["src/tree/fix.rs: shift_keys", "src/tree/insert.rs", "src/tree/node.rs: slice_size, child_pos"]}
{"id": "C39", "title": "Trees that share nodes do not disturb each other's navigation data", "statement": "With copy-on-write, nodes that several trees share can hold navigation data (links towards the root) of only one of them, possibly of a tree that no longer exists.  Any program of insertions, clones and drops on any number of trees behaves all the same as if that data did not exist: never undefined behaviour, the same contents, the same panics.  An operation on one tree writes nothing at all to nodes that another tree can reach, apart from reference counts.", "quantifier": "every sequence of new/insert/clone/drop on any number of copy-on-write trees, every index, hint and slice", "why_tests_cant": "Which links are stale depends on the whole history of all trees; a dangling link does no harm in a test unless it is followed and the memory was reused.", "anchors": ["src/tree/node.rs: into_child, into_parent, ensure_unique, shallow_clone, split, make_new_parent", "src/tree/insert.rs: insert_internal", "src/tree/mod.rs: Clone, Drop"]}
{"id": "C40", "title": "Iteration over trees that share nodes", "statement": "With copy-on-write, iterating over a tree, from either end in any order, yields exactly the runs of that tree with their ranges, although shared nodes store the navigation data of other trees, and whatever is done to other trees (insertions, clones, drops) while the iterator is in use.", "quantifier": "every program of new/insert/clone/drop on any number of trees, every tree of it, every range and cursor, every interleaving of next/next_back with operations on other trees, every behaviour of the allocator", "why_tests_cant": "Stale links matter only if the address of a freed node is used again for a node of another height, which depends on the allocator.", "anchors": ["src/tree/iter.rs: make_stack, fwd_step, bkwd_step, next, next_back", "src/tree/mod.rs: iter, iter_with_cursor", "src/tree/node.rs: into_child, into_parent, parent"]}
{"id": "C41", "title": "cursor_to on trees that share nodes", "statement": "On copy-on-write trees, for which `cursor_to` is documented as the way to get a cursor, `cursor_to(idx)` returns for every index in bounds, and the path in the cursor is that from the root to the node holding the run that contains idx.", "quantifier": "every program of new/insert/clone/drop on any number of trees, every tree of it, every index", "why_tests_cant": "Depends on which nodes are shared and whose links they store, that is on the whole history; a wrong path is not visible in results, since cursors are hints.", "anchors": ["src/tree/mod.rs: cursor_to"]}
{"id": "C42", "title": "The project's own consistency check is sound and raises no false alarm", "statement": "`validate()`, on which the project's tests and fuzzers rely, never panics on a tree built by a program, with or without copy-on-write; and whenever it accepts a tree, wherever that comes from, the tree stores runs of positive sizes, `len` and `size` are their number and total size, every position found by lookups is right, parent links are right (with copy-on-write: exist exactly below the root), and insertions into it do what they should.", "quantifier": "every program of new/insert/clone/drop; for soundness every tree that respects the array sizes, reachable or not, with any contents of memory", "why_tests_cant": "It is the oracle of the tests: a test cannot tell whether its oracle overlooks something.", "anchors": ["src/tree/mod.rs: validate, validate_node, validate_leaf, validate_internal"]}
{"id": "C43", "title": "A panic in a slice's Clone leaves all trees as they were", "statement": "If the `Clone` implementation of the slices panics while a tree is cloned, or while an insertion copies nodes shared with other trees, and the panic is caught, then every tree has the same contents as before, reference counts are exact, no memory is accessed wrongly by whatever follows, and every clone made so far is destroyed.", "quantifier": "every program of new/insert/clone/drop on any number of trees, with and without copy-on-write, in which any operations end in a panic of the n-th call of Clone, for every n, and which continues afterwards", "why_tests_cant": "The state in which a panic interrupts the code depends on the shape of the tree, the sharing, and which call panics.", "anchors": ["src/tree/node.rs: deep_clone, shallow_clone, ensure_unique", "src/tree/insert.rs: insert_internal, insert_rhs", "src/const_math_hack.rs: GradualInitArray", "src/tree/mod.rs: Clone"]}
{"id": "C44", "title": "Clones used by several threads at once", "statement": "With copy-on-write, clones of a tree can be used by different threads at the same time: whatever the interleaving of the threads' accesses to reference counts (is_unique, increment, decrement) within insertions, clones and drops, the results are those of some sequential order of the calls, in which each call lies between its beginning and its end; no thread accesses freed memory; no thread sees another one's unfinished insertion or changes a node that another one can reach; counts are exact at every moment; when all trees are dropped no node is left; and no call can be held up by others.", "quantifier": "every number of threads and trees, every sequence of calls, every interleaving of their steps", "why_tests_cant": "Interleavings are not under a test's control; the critical ones (two threads find the same node shared, both copy it, the second one must free it) are rare.", "anchors": ["src/tree/node.rs: ensure_unique, shallow_clone, into_child, do_drop, try_drop", "src/tree/cow.rs: is_unique, increment, decrement", "src/tree/insert.rs: insert, insert_internal", "src/tree/mod.rs: Clone, Drop"]}
{"id": "C45", "title": "A write copies only the way down to the changed nodes", "statement": "An insertion into a tree that shares nodes with others copies and changes only the nodes on the way from the root to the place of insertion: of the existing nodes at most one per level is written, none of them shared; at most two new nodes per level (and one more root) are made, and one per level if nothing is shared; all other nodes of all trees stay as they are.  Accordingly Clone is called for at most one node's slices per level.  Cloning a copy-on-write tree makes no node and clones no slice.  The number of levels is logarithmic in the number of runs.", "quantifier": "every program of new/insert/clone/drop on any number of trees, also after caught panics of Clone; every tree of it, every insertion", "why_tests_cant": "A test sees contents, not which nodes were copied; the cost depends on shape and sharing.", "anchors": ["README.md: Lock-free concurrent {copy,clone}-on-write", "src/tree/node.rs: ensure_unique, shallow_clone, split, make_new_parent", "src/tree/insert.rs: insert_internal, insert_rhs, do_bubbled_insert", "src/tree/mod.rs: Clone"]}
{"id": "C46", "title": "Insertion, lookup and references take logarithmic time, and space is linear", "statement": "As the README promises, inserting a run, looking one up, making a cursor, and asking a reference for its range or a cursor each take O(log n) steps for a tree of n runs, at worst and not only on average, also if the call panics; a step being an operation of the index type, a key or child moved or rewritten, a level of the tree, or a call of `split_at`, `try_join` or the update callback.  Explicit bounds: 20(2M+14)(log n + 1) for an insertion, 2(2M+14)(log n + 1) for a lookup, 3 log n + 6 for a reference, logarithms to base M + 1.  k insertions in a row into a tree of n runs take O(k log(n + k)) steps.  The tree consists of at most (n-1)/M + 1 nodes.", "quantifier": "every tree built by a program, every M, every index type of unsigned integers, every insertion, lookup, cursor and reference, returning or not", "why_tests_cant": "Timing a test shows the trend for the shapes tried, not the worst case.", "anchors": ["README.md: Notable features", "src/tree/mod.rs: RleTree (size O(r), O(log(r)) insert), get, cursor_to, insert", "src/tree/insert.rs: insert_internal", "src/tree/node.rs: SliceHandle::range", "src/tree/fix.rs: shift_keys_auto"]}
{"id": "C47", "title": "Threads do not interfere through the navigation data that nodes store", "statement": "Nodes store a link to their parent, also nodes that trees of several threads share, and an insertion writes the links of children it finds not to be shared.  Whatever the interleaving, including the moments at which threads ask whether a node is shared, no result of any call depends on what is stored in shared nodes, and no thread writes the link of a node that another thread can reach (so there is no data race on it).", "quantifier": "every number of threads and trees, every sequence of calls, every interleaving of their steps and of the questions whether a node is shared; every value of the links of shared nodes", "why_tests_cant": "A race on a link is an interleaving that a test cannot force, and the wrong link has effect much later.", "anchors": ["src/tree/node.rs: split, make_new_parent, ensure_unique, into_child, into_parent", "src/tree/cow.rs: is_unique", "src/tree/insert.rs: insert_internal, do_bubbled_insert"]}
{"id": "C48", "title": "Iteration while other threads work on clones", "statement": "With copy-on-write, a thread can iterate over its tree, from either end in any order, while other threads insert into clones of it, clone and drop them: it yields exactly the runs of its tree with their ranges, and accesses no freed node, at whatever point of their insertions and destructors the other threads are.", "quantifier": "every number of threads and trees, every sequence of calls, every interleaving of their steps with next/next_back; every range and cursor; every behaviour of the allocator", "why_tests_cant": "Needs interleavings within an insertion of another thread; a stale link matters only if addresses are used again.", "anchors": ["src/tree/iter.rs: make_stack, fwd_step, bkwd_step, next, next_back", "src/tree/mod.rs: iter, iter_with_cursor", "src/tree/node.rs: ensure_unique, do_drop"]}
{"id": "C49", "title": "No input makes the project's own fuzz targets fail", "statement": "The fuzz targets `no_features` and `slice_ref` make a list of commands (insertions with and without references, lookups, iterations with bounds in any order of directions, making, cloning, checking and dropping references) together with the answers of the mock implementation, and run them on a tree: every answer of the tree is that of the mock, every call panics if and only if the mock does, `validate` accepts the tree after each insertion, the cursor that an insertion or an entry gives is the one that `cursor_to` gives, and neither the generator nor the runner panics.  So for every input the target either rejects it or ends normally, with everything freed.", "quantifier": "every input of the fuzzer of any length, every branching factor from 1 to 127, every unsigned index type, every number of components that a cursor can keep, arbitrary contents of fresh memory", "why_tests_cant": "Fuzzing tries some inputs; the claim is about all of them.", "anchors": ["fuzz-utils/src/lib.rs: CommandSequence::arbitrary, BasicCommand::arbitrary, SliceRefCommand::arbitrary, choose_sparse_index, expect_might_panic, RunnerState", "src/mock.rs: Mock", "fuzz/fuzz_targets/basic_slices/M1/no_features.rs", "fuzz/fuzz_targets/basic_slices/M3/slice_ref.rs"]}
{"id": "C50", "title": "No input makes the fuzz target for copy-on-write fail", "statement": "The fuzz target `cow` makes a list of commands on any number of trees (insertions, lookups, iterations, clones, drops) together with the answers of the mock implementation, and runs them on copy-on-write trees that share nodes: every answer of a tree is that of its mock, every call panics if and only if the mock does, `validate` accepts the trees after each insertion and each clone, the cursor that an insertion gives is the one that `cursor_to` gives afterwards, and neither the generator nor the runner panics.  So for every input the target either rejects it or ends normally, with all nodes freed.", "quantifier": "every input of the fuzzer of any feasible length, every branching factor from 1 to 127, every unsigned index type, every number of components that a cursor can keep; every behaviour of the allocator", "why_tests_cant": "Fuzzing tries some inputs; the claim is about all of them, and which addresses are used again depends on the allocator.", "anchors": ["fuzz-utils/src/lib.rs: CommandSequence::arbitrary, CowCommand::arbitrary, RunnerState::run_cow_cmd, run_basic_cmd", "src/mock.rs: Mock", "fuzz/fuzz_targets/basic_slices/M1/cow.rs", "fuzz/fuzz_targets/basic_slices/M3/cow.rs", "src/tree/mod.rs: Clone, Drop, iter, cursor_to, validate"]}
{"id": "C51", "title": "Reference counts do not overflow in any feasible program", "statement": "The panic about more than isize::MAX references to the same node cannot be provoked by cloning trees that are dropped or kept, nor by insertions that copy nodes and so refer to the same children again: a program of n operations on copy-on-write trees that is otherwise correct ends normally, whatever it shares, if n(2 log2 MAX + 4) <= isize::MAX, MAX being the largest index; with usize that is every program of up to 2^55 operations. With several threads, in any interleaving, it cannot be provoked within the first isize::MAX steps of all threads together.", "quantifier": "every program of new/insert/clone/drop on any number of trees up to that length, every kind of slice, every branching factor from 1 to 127", "why_tests_cant": "No test can run long enough to come near the limit, and what is far from it in a test could grow faster than the number of operations.", "anchors": ["src/tree/cow.rs: increment", "src/tree/node.rs: ensure_unique, shallow_clone, increment_strong_count", "src/tree/mod.rs: Clone", "src/tree/insert.rs: insert_internal"]}
{"id": "C52", "title": "A wrong implementation of Index causes no undefined behaviour", "statement": "Index is a safe trait, and its documentation promises that nothing unsafe depends on it.  However wrongly the operations of an index type add, subtract and compare, or if they panic, and however slices split and join: making a tree, inserting (with any cursor), get, cursor_to, iteration from both ends over any range, making references to the entries found by get and iteration, cloning them and asking them for their slice, range and cursor either return something or panic, but violate no precondition of unsafe code, follow no dangling reference or parent link and index no array out of bounds.  Trees stay balanced, and references stay attached to an entry of the tree.  This holds with debug assertions and without them, so also for the wrapping arithmetic of release builds.", "quantifier": "every index type and all functions as its operations (deterministic, possibly panicking), every type of slices, every program of these calls of any length that was not interrupted by a panic, every branching factor", "why_tests_cant": "Tests use the integer types; wrong arithmetic leads to undefined behaviour, if at all, in rare states of the tree, and a test that happens to survive says nothing.", "anchors": ["src/public_traits.rs: Index::TRUSTED, Index, DirectionalAdd, DirectionalSub", "src/tree/insert.rs: insert_internal", "src/tree/mod.rs: get, cursor_to, search_step", "src/tree/iter.rs: panic_internal_error_or_bad_index, make_stack, next, next_back", "src/tree/node.rs", "src/tree/fix.rs", "src/tree/slice_ref.rs: make_ref, range, cursor, borrow_slice"]}
{"id": "C53", "title": "Trees over any ordered index type behave as the list of runs", "statement": "Index is a public trait.  If an index type has sums, differences and an order as in a commutative ordered group (signed or rational numbers, pairs in lexicographic order, integers that wrap around above some largest value), at least for non-negative values up to some MAX, then a tree over it behaves as the list of its runs: after any history of insertions within bounds, size() is the sum of the sizes, number_of_slices() the number of runs, and get(i) with any cursor finds the run whose range contains i, with that range and slice.  Iteration over a range, from both ends in any order, yields exactly the runs that have a position in the range, each with its range and slice; ranges that start below zero, are reversed or reach beyond the tree panic when iteration is asked for.  A history within bounds fails only in the one unimplemented case (C10).  Lookups below zero or at size() and above, insertions above size() and of sizes that are not positive panic.  Insertion at a position below zero is insertion at zero.  In particular release builds, in which integers wrap around, behave like debug builds as long as the total size is at most the largest integer.", "quantifier": "every commutative linearly ordered group and every index type with its operations, correct at least on non-negative values up to MAX and arbitrary elsewhere; every slice type, every branching factor, every history within bounds, every cursor, every position, every range and sequence of calls of next and next_back", "why_tests_cant": "Tests use u8 to usize; nobody can test all index types, and the algorithm adds and subtracts positions in an order that depends on the shape of the tree.", "anchors": ["src/public_traits.rs: Index, DirectionalAdd, DirectionalSub", "src/tree/mod.rs: insert, get, size, number_of_slices, iter, iter_with_cursor", "src/tree/insert.rs: insert_internal", "src/tree/fix.rs: shift_keys", "src/tree/iter.rs: Iter::new, next, next_back"]}
{"id": "C54", "title": "Iteration takes constant time per run, after a logarithmic start", "statement": "For a tree of n runs, calling iter or iter_with_cursor on any range and then next and next_back k times in any order takes at most 12k + 2(2M+20)(log n + 1) + 8 steps altogether, a step being an operation of the index type or a level of the tree that is climbed or descended, logarithm to base M + 1; no single call takes more than 2(2M+20)(log n + 1) + 12 steps.  So a loop over the k runs that touch a range, in either direction, takes O(k + log n), and one over the whole tree O(n).", "quantifier": "all trees that any history of insertions can build, every branching factor, all ranges and cursors, all sequences of calls from both ends", "why_tests_cant": "A test measures particular trees; that climbing and descending are paid for by the runs yielded in between is a statement about all shapes and sequences of calls.", "anchors": ["src/tree/iter.rs: Iter::new, next, next_back, fwd_step, bkwd_step, make_stack", "src/tree/mod.rs: iter, iter_with_cursor"]}
{"id": "C55", "title": "After a caught panic of index arithmetic a tree can still be used", "statement": "Arithmetic of an index type can panic in the middle of an insertion, for instance because the tree would get too large for it.  A program that catches the panic can go on with the tree: further insertions, get, cursor_to and iteration from both ends return or panic but are never undefined behaviour, however many such panics were caught before; no node is left without entries.", "quantifier": "every index type whose operations are functions that may panic, every type of slices, every branching factor, all sequences of insertions of which any may panic at any operation, then all calls of get, cursor_to, next and next_back", "why_tests_cant": "A test would have to make each single operation of each insertion panic in each state of a tree, and undefined behaviour need not show.", "anchors": ["src/tree/insert.rs: insert_internal, do_insert_full_edge_no_join, do_insert_full_edge_no_join_split, BubbledInsertState::do_upward_step", "src/tree/node.rs: NodeBox, SharedNodeBox, split, shift_keys, make_new_parent", "src/tree/iter.rs: make_stack"]}
{"id": "C56", "title": "An insertion that panics duplicates, reorders and invents nothing", "statement": "For slices that do not join: an insertion that returns has put its slice between two of the stored ones, or into one of them, which is replaced by its two parts in order, and everything else is stored as before.  If index arithmetic panics in the middle and the program catches that, the slices then stored are those from before, or some of those that would have been stored had it returned, in the same order: none is there twice, none has moved, none is half of another unless the insertion was to split it.  The tree never stores more slices than number_of_slices() says.  For slices that join the same holds, with the new slice joined with one that is stored, or with the parts of the one it is put into, where they join; the panics of C57 are excepted.  All this holds for any index type, correct or not, and for trees that earlier panics have left.", "quantifier": "all index types with arbitrary operations, all slice types with MAY_JOIN = false and all others whose try_join hands back what does not join, every branching factor, all programs of insertions that return or panic at any operation of the index type", "why_tests_cant": "The arithmetic can panic at each of dozens of places on the way through a tree of any depth; a test provokes a few of them.", "anchors": ["src/tree/insert.rs: insert_internal, do_insert_full_edge_no_join_split, BubbledInsertState::do_upward_step, insert_rhs", "src/tree/node.rs: split, insert_key_and_child", "src/tree/mod.rs: NodeBox, number_of_slices"]}
{"id": "C57", "title": "A caught panic of index arithmetic leaves every slice in its place", "statement": "If a sum or difference of sizes panics (for instance an integer overflow in a build with overflow checks) while an inserted slice is being joined with its neighbours, and the program catches that, then every slice of the tree is still there: get and iteration do not hand out a value that was moved out, and dropping the tree destroys each value once.  try_join and split_at are assumed to return here (C30 is about the others).", "quantifier": "every tree, every place of insertion, every type of slices that join, every index type, every operation of the index type that panics until joining is done", "why_tests_cant": "Overflow at one particular addition of one particular insertion; reading a value that was moved out need not show in a test.", "anchors": ["src/tree/insert.rs: do_insert_full_edge_try_join, do_insert_full_split_key", "src/tree/node.rs: take_value_and_leave_hole, fill_hole, is_hole, do_drop", "src/lib.rs: Constant"]}
{"id": "C58", "title": "A cursor saves searching", "statement": "Cursors exist to speed up subsequent accesses.  With a cursor obtained for a position, get at any position of the same run takes at most 6 steps for each level above the node that stores the run, and 16 + log2(2M) steps there, a step being an operation of the index type or a level; so only this one node is searched; this is so for the default cursor as long as the tree is not deeper than it has room for, which with the default number of keys it is not up to millions of runs.  A cursor for another place costs get and insert at most three steps for each component that is on the way, and three for the first one that is not.", "quantifier": "all trees that any history of insertions can build, every branching factor, all pairs of positions of one run; every length of a BoundedCursor", "why_tests_cant": "The result is the same with and without cursor, so tests of results see nothing; the number of comparisons is not observed by any test.", "anchors": ["src/cursor.rs: Cursor, BoundedCursor, into_path", "src/tree/mod.rs: get_with_cursor, cursor_to, search_step, DEFAULT_MIN_KEYS", "src/tree/insert.rs: find_insertion_point"]}
{"id": "C59", "title": "A tree of Constant is the run-length encoding of its elements", "statement": "A tree of Constant values stands for a list of elements, and insert(i, Constant(x), n) puts n copies of x into that list at i.  All that one sees of the tree is the run-length encoding of the list: every history within bounds returns; number_of_slices() is the number of maximal repetitions, get(i) with any cursor returns the maximal repetition around i with its exact range, iteration over a range yields, from both ends, the maximal repetitions that have a position in the range.  So two trees with the same elements cannot be told apart, whatever histories, branching factors, cursors and integer types made them.  The same holds for each of several trees that share nodes.", "quantifier": "all value types with lawful equality, all histories within bounds, every branching factor and integer type, all positions, ranges, cursors and sequences of next and next_back; all programs of insertions, clones and drops", "why_tests_cant": "Whether a run is maximal depends on all insertions around it; tests compare with an expected list of runs for some histories.", "anchors": ["src/lib.rs: Constant", "src/tree/mod.rs: insert, get, iter, number_of_slices, size", "src/tree/insert.rs: do_insert_full_edge_try_join, do_insert_full_split_key", "src/tree/iter.rs: next, next_back"]}
{"id": "C60", "title": "Neighbouring runs that could be joined are joined", "statement": "According to the documentation of Slice, try_join is always called whenever the slice on either side of one changes.  So in a tree whose slices may join there are never two neighbouring runs for which try_join would succeed, whatever was inserted before, and for clones that share nodes as well.  In particular an inserted slice that was not joined joins with neither neighbour.", "quantifier": "all slice types that meet the documented condition (if x and y join but y and z do not, then neither do x joined with y, and z), all histories of insertions, every branching factor and cursor; all programs with clones", "why_tests_cant": "Which pairs are offered to try_join depends on where the insertion falls; a pair that is forgotten leaves a tree that looks right position by position.", "anchors": ["src/public_traits.rs: Slice::try_join", "src/tree/insert.rs: do_insert_full_edge_try_join, do_insert_full_split_key"]}
{"id": "C61", "title": "What is_valid and can_borrow foretell about a slice reference", "statement": "The infallible methods of a SliceRef (borrow_slice, range, cursor) panic exactly if is_valid or can_borrow says no, and the try_ methods return None in exactly these cases; otherwise both return the same slice, range or path.  Asking changes nothing.  can_borrow says no exactly if the tree is mutably borrowed or has been dropped.  A reference that was found invalid once is never found valid again, nor can anything be read through it, whatever happens later, including panics in user code.", "quantifier": "all histories of one tree with any number of slice references, clones of them and borrows; for the last sentence and for the agreement of try_ and infallible methods also all histories with panics anywhere", "why_tests_cant": "The answer depends on the state of a tree, of its store of references and of a counter after any sequence of calls.", "anchors": ["src/tree/slice_ref.rs: is_valid, can_borrow, borrow_slice, try_borrow_slice, range, try_range, cursor, try_cursor, collapse_refs, borrow_refs"]}
{"id": "C62", "title": "The parameters of a tree do not change what it does", "statement": "RleTree is parameterised by the number of keys per node, the index type, and by one of no features, slice references and copy-on-write, and most calls exist with and without cursor.  None of this changes results: the same sequence of calls gives the same slices with the same ranges from get and iter, the same size and number of slices, and the same panics, as long as the sizes fit the index types.  Programs with clones give the same trees with deep copies as with copy-on-write.", "quantifier": "all pairs of parameters (number of keys, width of an integer index, cursors, features), all slice types, all histories of insertions, all programs of insertions, clones and drops", "why_tests_cant": "Tests run each configuration by itself, on small histories; agreement concerns all pairs on all histories.", "anchors": ["src/param.rs: RleTreeConfig, NoFeatures, AllowCow, AllowSliceRefs", "src/tree/mod.rs: insert, get, iter, size, number_of_slices", "src/tree/insert.rs: insert_internal"]}
{"id": "C63", "title": "Insertions at different places do not disturb each other", "statement": "An insertion leaves every run alone that does not touch its position: get finds a run that ends before the position as before, and a run that starts after it as before but moved by the size of the insertion; at most two runs are replaced, and number_of_slices grows by zero, one or two. Two insertions, at i and at j >= i, give the same elements in either order (the position of the one at j moved by the size of the other one if that is made first); with Constant slices the runs are then the same, so that nothing a program can see tells in which order they were made. The same holds for insertions into a clone that shares nodes; and an insertion into one tree can be moved behind any operations (insertions, clones, drops) that do not name this tree, without a change of what any tree holds.", "quantifier": "All trees that histories of insertions lead to, all positions, sizes, slices and cursors, all branching factors; the second part for all slice types that denote sequences of elements.", "why_tests_cant": "Runs far away move between nodes when nodes are split, and sizes and positions are stored relative to parents; a test compares few positions of few trees, and both orders for few pairs of positions.", "anchors": ["src/tree/mod.rs: RleTree::{insert, get, number_of_slices}", "src/tree/insert.rs: insert_internal", "src/lib.rs: Slice, Constant"]}
{"id": "C64", "title": "The arrays inside of nodes are exactly as large as needed and never left", "statement": "A tree with parameter M holds up to 2*M slices and 2*M+1 children per node, in arrays that are assembled from pairs and arrays of arrays and accessed by pointer arithmetic.  For every M, every type of slices and indices (any size and alignment, also of size zero) and every machine whose addresses can hold them: pointers lead to the elements they should lead to, elements do not overlap, a pointer to an internal node serves as one to a leaf, nothing outside of the arrays or uninitialised is read or written when keys are inserted, appended, split off or copied, and the elements are afterwards those that were there and the new one, in order.  When the function that maps the elements of such an array panics, every element has been handed over or is destroyed, exactly once, and so is every result.", "quantifier": "all M, sizes, alignments, machines; all contents of nodes, positions and elements; all functions that are mapped, with a panic at any element", "why_tests_cant": "The code has assertions for the lengths for M = 4, 7 and 10; tests use few types of slices, and undefined behaviour need not show in a test.", "anchors": ["src/const_math_hack.rs: ArrayHack, Add, Mul, MappedArray, GradualInitArray, GradualUninitArray", "src/tree/node.rs: KeyArray, ChildArray, shift, insert_key_and_child, push_key_and_child, split, deep_clone"]}
{"id": "C65", "title": "A destructor of a slice that panics does no harm beyond its tree", "statement": "If the destructor of a slice panics while a tree is dropped and the panic is caught, then no slice has been destroyed twice: the destructors that ran are a first part of those that run without a panic, in the same order, namely those of all slices in the nodes that were freed and in the node of the slice whose destructor panicked, and exactly one of them panicked.  No node was freed that another tree needs, and every other tree, also a clone that shares nodes, holds the runs it held.  The program is aborted only if at least two destructors panic.  Without such slices the drop is complete.", "quantifier": "all programs of new/insert/clone/drop with and without sharing, every branching factor, all sets of slices whose destructors panic", "why_tests_cant": "A test would need destructors that panic at each place of trees of several levels that share nodes.", "anchors": ["src/tree/node.rs: do_drop, drop_vals, try_drop", "src/tree/mod.rs: Drop for RleTree, destruct_root"]}
