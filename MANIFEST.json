{
 "claims": [
  {
   "property": "C01",
   "status": "partial",
   "theorems": [
    "Verif.Vec.vector_sequence_partial",
    "Verif.Vec.vector_index_huge_faults"
   ],
   "note": "Histories over any number of vectors, including construction, move and destruction. Everything is proved for every size (loop counters and byte counts as natural numbers; with the int of the code the limit is that of C102) except operator[], which is proved for vectors of fewer than 2^31 elements: beyond that the assertion compares with a negative number and stops every access (vector_index_huge_faults)."
  },
  {
   "property": "C02",
   "status": "proved",
   "theorems": [
    "Verif.Vec.vector_capacity"
   ],
   "note": "Every state reachable without a fault."
  },
  {
   "property": "C03",
   "status": "proved",
   "theorems": [
    "Verif.Vec.vector_memory"
   ],
   "note": ""
  },
  {
   "property": "C04",
   "status": "partial",
   "theorems": [
    "Verif.Vec.vector_copy_partial",
    "Verif.Vec.vector_copy_faults"
   ],
   "note": "Holds for trivially destructible element types; for others every copy of a non-empty vector destroys unconstructed slots (proved)."
  },
  {
   "property": "C05",
   "status": "proved",
   "theorems": [
    "Verif.Vec.vector_move"
   ],
   "note": ""
  },
  {
   "property": "C06",
   "status": "partial",
   "theorems": [
    "Verif.Vec.vector_index_partial",
    "Verif.Vec.vector_index_write_partial",
    "Verif.Vec.vector_index_faults",
    "Verif.Vec.vector_index_huge_faults"
   ],
   "note": "Indices below -size() are not stopped by the assertion (proved)."
  },
  {
   "property": "C07",
   "status": "partial",
   "theorems": [
    "Verif.Vec.vector_push_own_element_partial",
    "Verif.Vec.vector_push_own_element_faults"
   ],
   "note": "False when size()==capacity(): use after free (proved)."
  },
  {
   "property": "C08",
   "status": "partial",
   "theorems": [
    "Verif.AllocSpec.allocSpec_bytes_partial",
    "Verif.AllocSpec.allocSpec_overflow"
   ],
   "note": "Proved for requests below 2^31 bytes; from 2^31 bytes on the int conversion makes the request wrong (allocSpec_overflow)."
  },
  {
   "property": "C09",
   "status": "partial",
   "theorems": [
    "Verif.Arr.array_sequence_partial",
    "Verif.Arr.array_write",
    "Verif.Arr.array_fill_overflow",
    "Verif.Arr.array_copy_overflow",
    "Verif.Arr.array_index_outside_faults",
    "Verif.Arr.array_zero_length"
   ],
   "note": "Proved for every N < 2^31. For N >= 2^31 the int loop counters overflow (array_fill_overflow, array_copy_overflow)."
  },
  {
   "property": "C10",
   "status": "partial",
   "theorems": [
    "Verif.Stack.stack_lifo_partial",
    "Verif.Stack.stack_lifo",
    "Verif.Stack.stack_empty_pop"
   ],
   "note": "stack_lifo covers every history without copies for every element type; stack_lifo_partial adds copies except of non-empty stacks whose element type has a non-trivial destructor, where the underlying Vector copy goes wrong (C04, vector_copy_faults)."
  },
  {
   "property": "C11",
   "status": "partial",
   "theorems": [
    "Verif.XStack.xvalue_stack_partial",
    "Verif.XStack.xvalue_stack_nonstrict",
    "Verif.XStack.xvalue_duplicate_breaks",
    "Verif.XStack.xvalue_push_push_pop"
   ],
   "note": "Proved for every history in which no pushed value equals the current extremum, and for every history with a non-strict comparator. With a strict comparator a repeated extremum makes pop() drop an extra entry (xvalue_duplicate_breaks, xvalue_push_push_pop), so the unrestricted statement is false."
  },
  {
   "property": "C12",
   "status": "partial",
   "theorems": [
    "Verif.XStack.xvalue_stack_partial",
    "Verif.XStack.xvalue_stack_nonstrict",
    "Verif.XStack.xvalue_duplicate_breaks"
   ],
   "note": "Same guard as C11."
  },
  {
   "property": "C13",
   "status": "partial",
   "theorems": [
    "Verif.Heap.heap_top_partial",
    "Verif.Heap.heap_pop_overflow"
   ],
   "note": "Proved for heaps of at most 2^30 elements. The limit is exact: heap_pop_overflow shows that pop() of a heap into which 2^30+1 or more rising elements were pushed overflows int when it computes a child's index."
  },
  {
   "property": "C14",
   "status": "partial",
   "theorems": [
    "Verif.Heap.heap_top_partial",
    "Verif.Heap.heap_pop_removes_top_partial",
    "Verif.Heap.heap_push_adds_partial",
    "Verif.Heap.heap_pop_overflow"
   ],
   "note": "Same size limit as C13."
  },
  {
   "property": "C15",
   "status": "partial",
   "theorems": [
    "Verif.Heap.heap_sort_partial",
    "Verif.Heap.heap_sort_overflow"
   ],
   "note": "Proved for ranges of fewer than 2^30 elements. The limit is exact: heap_sort_overflow gives a range of every length from 2^30 on which the sift-down overflows int."
  },
  {
   "property": "C16",
   "status": "partial",
   "theorems": [
    "Verif.Heap.heap_build_partial",
    "Verif.Heap.heap_build_overflow"
   ],
   "note": "Same limit as C15."
  },
  {
   "property": "C17",
   "status": "partial",
   "theorems": [
    "Verif.Heap.heap_copy_partial",
    "Verif.Heap.heap_move",
    "Verif.Heap.heap_copy_faults"
   ],
   "note": "The move half is proved in full (heap_move). Copies are proved for trivially destructible element types; for others every copy goes wrong (heap_copy_faults)."
  },
  {
   "property": "C18",
   "status": "partial",
   "theorems": [
    "Verif.DSU.dsu_connected_partial",
    "Verif.DSU.dsu_reconnect_hangs",
    "Verif.DSU.dsu_returns_iff",
    "Verif.DSU.dsu_connected_exact_partial"
   ],
   "note": "False as stated: a redundant connect makes the root its own parent, after which find on that class never terminates (dsu_reconnect_hangs). Proved in full for histories without redundant connects, and for arbitrary histories an exact description: a history returns iff it never looks up such a dead class (dsu_returns_iff), and afterwards connected is right on live elements and diverges on dead ones (dsu_connected_exact_partial)."
  },
  {
   "property": "C19",
   "status": "partial",
   "theorems": [
    "Verif.DSU.dsu_find_partial",
    "Verif.DSU.dsu_reconnect_hangs",
    "Verif.DSU.dsu_returns_iff",
    "Verif.DSU.dsu_find_exact_partial"
   ],
   "note": "False as stated for the reason given under C18; exact description for arbitrary histories in dsu_find_exact_partial."
  },
  {
   "property": "C20",
   "status": "partial",
   "theorems": [
    "Verif.DSU.dsu_count_partial",
    "Verif.DSU.dsu_count_exact_partial",
    "Verif.DSU.dsu_count_wrong"
   ],
   "note": "False after a redundant connect (dsu_count_wrong). For arbitrary histories count() is n minus the number of connects, which is the number of classes that are not dead (dsu_count_exact_partial)."
  },
  {
   "property": "C21",
   "status": "partial",
   "theorems": [
    "Verif.Str.string_construct_partial",
    "Verif.Str.string_construct_empty_faults",
    "Verif.Str.string_construct_empty_wrong"
   ],
   "note": "Proved for every non-empty C string. Construction from the empty C string reads past its terminator (both failing-case theorems), so the unrestricted statement is false."
  },
  {
   "property": "C22",
   "status": "partial",
   "theorems": [
    "Verif.Str.string_append_partial",
    "Verif.Str.string_append_self_faults",
    "Verif.Str.string_push_back_partial",
    "Verif.Str.string_concat_partial",
    "Verif.Str.string_eq_partial"
   ],
   "note": "Proved for all strings that are not moved-from, except self-append of a non-empty string, which always ends in a use after free (string_append_self_faults)."
  },
  {
   "property": "C23",
   "status": "partial",
   "theorems": [
    "Verif.Str.string_terminated_partial",
    "Verif.Str.string_moved_from_broken"
   ],
   "note": "Invariant proved over all histories for strings that are not moved-from; moved-from strings violate it (string_moved_from_broken)."
  },
  {
   "property": "C24",
   "status": "proved",
   "theorems": [
    "Verif.DL.dlist_sequence",
    "Verif.DL.dlist_empty_pop"
   ],
   "note": "Histories of construction, push_front, push_back, pop_front, pop_back, clear, copy and destruction over any number of lists; moves are C26."
  },
  {
   "property": "C25",
   "status": "proved",
   "theorems": [
    "Verif.DL.dlist_copy"
   ],
   "note": "Prior and later histories must not have moved from an empty list, which corrupts both lists (C26)."
  },
  {
   "property": "C26",
   "status": "partial",
   "theorems": [
    "Verif.DL.dlist_move_partial",
    "Verif.DL.dlist_move_empty_faults"
   ],
   "note": "False when the source is empty: then both sentinels point at each other and empty() and the destructor stop at the assertion (dlist_move_empty_faults). Proved for every non-empty source."
  },
  {
   "property": "C27",
   "status": "partial",
   "theorems": [
    "Verif.DL.dlist_memory_partial"
   ],
   "note": "For every history that never moves from an empty list (C26)."
  },
  {
   "property": "C28",
   "status": "partial",
   "theorems": [
    "Verif.SL.slist_sequence_partial",
    "Verif.SL.slist_sequence_plain",
    "Verif.SL.slist_empty_pop",
    "Verif.SL.slist_push_wrong",
    "Verif.SL.slist_pop_faults"
   ],
   "note": "False for the inherited push on an empty list (later push_back misplaces elements) and the inherited pop of the only element (dangling tail, use after free). Proved for all other histories."
  },
  {
   "property": "C29",
   "status": "partial",
   "theorems": [
    "Verif.SL.slist_copy_partial",
    "Verif.SL.slist_copy_wrong"
   ],
   "note": "False for every non-empty source: the copy holds the first element repeated and its tail points into the source, so the next push_back changes the source (slist_copy_wrong). Proved for empty sources."
  },
  {
   "property": "C30",
   "status": "partial",
   "theorems": [
    "Verif.SL.slist_move_partial",
    "Verif.SL.slist_move_empty_faults"
   ],
   "note": "False when the source is empty (slist_move_empty_faults). Proved for every non-empty source."
  },
  {
   "property": "C31",
   "status": "partial",
   "theorems": [
    "Verif.Deq.deque_sequence_partial",
    "Verif.Deq.deque_history_partial",
    "Verif.Deq.deque_never_used_faults",
    "Verif.Deq.deque_adjacent_wrong"
   ],
   "note": "Proved for every block size and every non-empty history of pushes and pops. Missing: iterating a deque on which nothing was ever pushed reads indeterminate iterators (deque_never_used_faults), and iterators compare wrongly when a later allocated block ends where an earlier one begins (deque_adjacent_wrong, hypothesis AdjUp)."
  },
  {
   "property": "C32",
   "status": "partial",
   "theorems": [
    "Verif.Deq.deque_layout_partial",
    "Verif.Deq.deque_pop_keeps_storage_partial"
   ],
   "note": "Holds for all histories without copy and move; with them under AvoidsAll (no use of a moved-to deque, no copy/move from a never-used deque, no copy from a cleared one). Hypothesis AdjUp as in C31."
  },
  {
   "property": "C33",
   "status": "partial",
   "theorems": [
    "Verif.Deq.deque_iterable_partial",
    "Verif.Deq.deque_never_used_faults",
    "Verif.Deq.deque_cleared_faults"
   ],
   "note": "False for never-used deques (indeterminate iterators) and for deques cleared while they had elements (dangling iterators); both failing cases are proved for every history. Holds in all other states."
  },
  {
   "property": "C34",
   "status": "partial",
   "theorems": [
    "Verif.Deq.deque_copy_partial",
    "Verif.Deq.deque_iterable_partial",
    "Verif.Deq.deque_never_used_faults",
    "Verif.Deq.deque_cleared_faults"
   ],
   "note": "Deep, disjoint and independent under every later history for sources in use; copying never-used or cleared sources fails as in C33."
  },
  {
   "property": "C35",
   "status": "partial",
   "theorems": [
    "Verif.Deq.deque_move_partial",
    "Verif.Deq.deque_moved_to_faults"
   ],
   "note": "False: the iterators of the destination keep referring to the (now empty) block table of the source, so nearly every use of the destination stops at an assertion (proved for every history and source). What holds: size, empty and front of the destination, the source is a usable empty deque, other deques are untouched."
  },
  {
   "property": "C36",
   "status": "partial",
   "theorems": [
    "Verif.Queue.queue_fifo_list",
    "Verif.Queue.queue_fifo_deque_partial",
    "Verif.Queue.queue_adjacent_wrong"
   ],
   "note": "Proved outright for the linked-list-backed queue; for the deque-backed queue under AdjUp (touching blocks in allocation order), without which it is false (queue_adjacent_wrong)."
  },
  {
   "property": "C37",
   "status": "partial",
   "theorems": [
    "Verif.AVL.avl_push_partial",
    "Verif.AVL.avl_history_partial"
   ],
   "note": "For every state reached without a defective use (Safe): push adds exactly x; push of a present element stops at the assertion before any change. Missing: states left behind by the defective uses (erase of a root with fewer than two children, copies of non-empty trees), where push uses released nodes (avl_erase_root_dangles)."
  },
  {
   "property": "C38",
   "status": "partial",
   "theorems": [
    "Verif.AVL.avl_balance_partial",
    "Verif.AVL.fib_exp"
   ],
   "note": "Holds in every state reached without a defective use; the states left by erasing a root with fewer than two children or by copying are not trees any more."
  },
  {
   "property": "C39",
   "status": "partial",
   "theorems": [
    "Verif.AVL.avl_pop_partial",
    "Verif.AVL.avl_pop_absent_faults"
   ],
   "note": "Present elements and empty trees: as claimed. False for an absent element of a non-empty tree: null dereference (avl_pop_absent_faults)."
  },
  {
   "property": "C40",
   "status": "partial",
   "theorems": [
    "Verif.AVL.avl_find_partial"
   ],
   "note": "Holds in every state reached without a defective use; after erasing a root without right child find uses a released node (avl_erase_root_dangles)."
  },
  {
   "property": "C41",
   "status": "partial",
   "theorems": [
    "Verif.AVL.avl_erase_partial",
    "Verif.AVL.avl_erase_end",
    "Verif.AVL.avl_erase_root_faults",
    "Verif.AVL.avl_erase_root_dangles"
   ],
   "note": "Holds for every element not in a root with fewer than two children (so always in trees of three or more elements). False otherwise: root with only a right child: use of a released node; root without right child: returns and leaves a dangling root pointer."
  },
  {
   "property": "C42",
   "status": "partial",
   "theorems": [
    "Verif.AVL.avl_iteration_partial",
    "Verif.AVL.avl_iteration_empty_faults",
    "Verif.Tree.inorder_iteration",
    "Verif.Tree.inorder_empty_faults",
    "Verif.Tree.next_end",
    "Verif.BST.bst_iteration_partial",
    "Verif.BST.bst_iteration_empty_faults"
   ],
   "note": "Holds for every non-empty tree. False for an empty tree: begin() dereferences a null pointer."
  },
  {
   "property": "C43",
   "status": "partial",
   "theorems": [
    "Verif.AVL.avl_memory_partial",
    "Verif.Tree.clear_releases",
    "Verif.BST.bst_memory",
    "Verif.BST.bst_outcomes",
    "Verif.Map.map_memory_partial"
   ],
   "note": "BinarySearchTree: holds in every state any program reaches (bst_memory). AVLTree and Map: in every state reached without a defective use; missing are the states left by defective uses (leaks and double release, avl_assign_leaks, avl_copy_faults, avl_erase_root_dangles). Releasing is exact for every tree shape (clear_releases)."
  },
  {
   "property": "C44",
   "status": "partial",
   "theorems": [
    "Verif.AVL.avl_copy_partial",
    "Verif.AVL.avl_copy_faults",
    "Verif.AVL.avl_assign_leaks",
    "Verif.Map.map_copy_partial",
    "Verif.Map.map_copy_faults",
    "Verif.Map.map_assign_leaks"
   ],
   "note": "False: the implicit copy is memberwise, so a copy of a non-empty tree or map shares its nodes (avl_copy_faults, map_copy_faults) and assignment to a non-empty one leaks (avl_assign_leaks, map_assign_leaks). Proved for empty ones and self-assignment."
  },
  {
   "property": "C45",
   "status": "partial",
   "theorems": [
    "Verif.BST.bst_push_partial",
    "Verif.BST.bst_push_dup_wrong",
    "Verif.BST.bst_find_partial",
    "Verif.BST.bst_pushes_partial",
    "Verif.BST.bst_runs_partial",
    "Verif.BST.bst_history_partial"
   ],
   "note": "Order, elements and find hold over every history. False for size(): pushing an element that is present leaves the tree alone but counts it (bst_push_dup_wrong), so size() is the number of pushes."
  },
  {
   "property": "C46",
   "status": "partial",
   "theorems": [
    "Verif.BST.bst_pop_partial",
    "Verif.BST.bst_erase_partial",
    "Verif.BST.bst_pop_absent_faults",
    "Verif.BST.bst_erase_end_faults",
    "Verif.BST.bst_two_faults",
    "Verif.BST.bst_two_wrong"
   ],
   "note": "Proved for nodes with at most one child. False for every node with two children: depending on the right subtree, removal dereferences a null pointer (bst_two_faults) or returns with the tree unordered and an element that find misses (bst_two_wrong). Removing an absent element dereferences a null pointer."
  },
  {
   "property": "C47",
   "status": "proved",
   "theorems": [
    "Verif.Tree.preorder_iteration"
   ],
   "note": "Iteration and traversal in PreOrder, every tree including the empty one."
  },
  {
   "property": "C48",
   "status": "partial",
   "theorems": [
    "Verif.Tree.postorder_iteration_partial",
    "Verif.Tree.traversal_partial",
    "Verif.Tree.traversal_empty_faults"
   ],
   "note": "PostOrder iteration terminates but visits the nodes in post-order exactly when no node has a right child (postorder_iteration_partial gives the exact condition). traversal() starts at the first node instead of the root: traversal_partial says what it visits; on an empty tree it dereferences a null pointer."
  },
  {
   "property": "C49",
   "status": "proved",
   "theorems": [
    "Verif.Tree.left_rotation",
    "Verif.Tree.right_rotation",
    "Verif.Tree.left_rotation_inside",
    "Verif.Tree.right_rotation_inside"
   ],
   "note": "Any tree and any node with the required child, at the root and inside a tree."
  },
  {
   "property": "C50",
   "status": "partial",
   "theorems": [
    "Verif.Map.map_lookup_partial",
    "Verif.Map.map_runs_partial",
    "Verif.Map.map_reference_stable",
    "Verif.Map.map_reference_stable_partial",
    "Verif.Map.map_push_dup_faults",
    "Verif.Map.map_pop_absent_faults",
    "Verif.Map.map_iteration_empty_faults"
   ],
   "note": "Proved for every finite program of the named statements (also clear, several maps, m[a] = n[b]): map_lookup_partial. False for iteration over an empty map: begin() dereferences a null pointer. Outside the claim: push of a present key asserts, pop of an absent key dereferences a null pointer. The const operator[] and erase do not compile."
  },
  {
   "property": "C51",
   "status": "partial",
   "theorems": [
    "Verif.Sma.sma_construct",
    "Verif.Sma.sma_runs_partial",
    "Verif.Sma.sma_blocks_partial",
    "Verif.Sma.sma_alloc_partial",
    "Verif.Sma.sma_contents",
    "Verif.Sma.sma_huge_overflow"
   ],
   "note": "Holds in every state clients can bring about by allocate, deallocate of held blocks, memory_merge and arbitrary writes into held blocks, for every supported pool configuration, for requests with n + 8 < 2^31. Missing: requests within 8 of INT_MAX, where the rounding overflows in every state (sma_huge_overflow)."
  },
  {
   "property": "C52",
   "status": "proved",
   "theorems": [
    "Verif.Sma.sma_accounting",
    "Verif.Sma.sma_max"
   ],
   "note": "Counters, lists read off the memory, and the library's dump() check, in every reachable state."
  },
  {
   "property": "C53",
   "status": "partial",
   "theorems": [
    "Verif.Sma.sma_success_partial",
    "Verif.Sma.sma_huge_overflow"
   ],
   "note": "Null exactly when no free block of the rounded size exists; nothing changed then. Missing: requests within 8 of INT_MAX, which overflow."
  },
  {
   "property": "C54",
   "status": "proved",
   "theorems": [
    "Verif.Sma.sma_merge"
   ],
   "note": "Termination, unchanged counter and client data, every old free block is covered by a new one, largest free block does not shrink, no adjacent large blocks."
  },
  {
   "property": "C55",
   "status": "partial",
   "theorems": [
    "Verif.Sma.sma_recover_partial",
    "Verif.Sma.sma_recover_multiples_partial",
    "Verif.Sma.sma_recover_wrong"
   ],
   "note": "False in general: sma_recover_wrong gives, for every supported configuration with a pool at least 16 bytes larger than the small sizes, a history (allocate 8, deallocate, merge) after which a request for the whole pool fails. Proved: it holds when only large blocks remain after merging, and for clients whose requests are multiples of one size larger than MAX_BLOCK_SIZE that divides the pool."
  },
  {
   "property": "C56",
   "status": "partial",
   "theorems": [
    "Verif.Sma.sma_align_partial",
    "Verif.Sma.sma_align_wrong"
   ],
   "note": "False: the pool starts 4 bytes into an object aligned to 8, so every returned address is 4 modulo 8 (sma_align_wrong). Proved: multiples of 4, multiples of 8 relative to the pool."
  },
  {
   "property": "C57",
   "status": "partial",
   "theorems": [
    "Verif.Sma.sma_nonsense_partial",
    "Verif.Sma.sma_nonpositive_wrong",
    "Verif.Sma.sma_zero_leaks",
    "Verif.Sma.sma_zero_faults",
    "Verif.Sma.sma_negative_faults"
   ],
   "note": "True for deallocate. False for allocate: it never returns null for n <= 0 (sma_nonpositive_wrong); zero leaks a large block, or follows the null pointer."
  },
  {
   "property": "C58",
   "status": "partial",
   "theorems": [
    "Verif.Sma.sma_port_alloc_partial",
    "Verif.Sma.sma_port_dealloc",
    "Verif.Sma.sma_port_dealloc_nothing",
    "Verif.Sma.sma_port_huge_overflow"
   ],
   "note": "Allocation succeeds exactly when a free block of the rounded size exists after merging, otherwise the program stops. Deallocating null or a non-positive size stops the program. Missing: requests within 8 of INT_MAX."
  },
  {
   "property": "C59",
   "status": "partial",
   "theorems": [
    "Verif.Sma.roundUp_least_partial",
    "Verif.Sma.roundUp_overflow"
   ],
   "note": "Proved up to INT_MAX-8. At INT_MAX-7 the sum bytes + 8 already overflows (roundUp_overflow)."
  },
  {
   "property": "C60",
   "status": "proved",
   "theorems": [
    "Verif.Alg.find_first",
    "Verif.Alg.forEach_once",
    "Verif.Alg.find_vector",
    "Verif.Alg.forEach_vector"
   ],
   "note": "For any iterator type; also instantiated with Vector's iterators over all vector histories."
  },
  {
   "property": "C61",
   "status": "proved",
   "theorems": [
    "Verif.Utils.pointer_comparators",
    "Verif.Utils.value_comparators"
   ],
   "note": "Pointers are addresses; value types are assumed to have consistent < and >."
  },
  {
   "property": "C62",
   "status": "partial",
   "theorems": [
    "Verif.Deq.deque_elements_destroyed_partial",
    "Verif.Deq.deque_defaults_leaked"
   ],
   "note": "Holds for the elements pushed; false for the objects default-constructed with every block, none of which is ever destroyed (deque_defaults_leaked)."
  },
  {
   "property": "C63",
   "status": "partial",
   "theorems": [
    "Verif.Utils.max_greatest",
    "Verif.Utils.abs_partial",
    "Verif.Utils.abs_min_overflow",
    "Verif.Utils.swap_exchanges"
   ],
   "note": "max and swap proved; abs proved except for INT_MIN, which overflows."
  },
  {
   "property": "C64",
   "status": "proved",
   "theorems": [
    "Verif.BST.bst_move",
    "Verif.BST.bst_move_new"
   ],
   "note": "Assignment (bst_move) and construction (bst_move_new), in every state any program reaches."
  },
  {
   "property": "C65",
   "status": "proved",
   "theorems": [
    "Verif.EL.embedded_list",
    "Verif.EL.embedded_del_null"
   ],
   "note": "Singly and doubly linked form; every history used within the documented preconditions (SpecRun)."
  },
  {
   "property": "C66",
   "status": "proved",
   "theorems": [
    "Verif.Sma.sma_isolation",
    "Verif.Sma.sma_read_your_writes"
   ],
   "note": "Every legal configuration; permitted steps are the client operations of Spec/SMA (requests within 8 of INT_MAX, which overflow, are not permitted)."
  },
  {
   "property": "C67",
   "status": "partial",
   "theorems": [
    "Verif.Deq.deque_iterators_partial"
   ],
   "note": "Guards as in C32: AdjUp (touching blocks allocated in address order) and AvoidsAll (no defective use of C33, C35). Outside AdjUp deque_adjacent_wrong shows iteration goes wrong."
  },
  {
   "property": "C68",
   "status": "partial",
   "theorems": [
    "Verif.DL.dlist_references_partial"
   ],
   "note": "Proved for all histories that do not move from an empty list; moving from an empty list breaks the ring (C26)."
  },
  {
   "property": "C69",
   "status": "partial",
   "theorems": [
    "Verif.DL.dlist_iterators_partial"
   ],
   "note": "Proved for all histories that do not move from an empty list; moving from an empty list breaks the ring (C26)."
  },
  {
   "property": "C70",
   "status": "partial",
   "theorems": [
    "Verif.Deq.deque_references_partial"
   ],
   "note": "Proved for all histories under the guards of C32: no use of the deque defects of C33 and C35, and touching blocks allocated in address order (C31)."
  },
  {
   "property": "C71",
   "status": "proved",
   "theorems": [
    "Verif.Vec.vector_references"
   ],
   "note": "Stated for every further history that completes, so no guard on the known crashing operations is needed. Identifiers of released blocks are never reused in the model, so an access after release is always visible as a fault."
  },
  {
   "property": "C72",
   "status": "proved",
   "theorems": [
    "Verif.Iter.vector_iterators",
    "Verif.Iter.array_iterators",
    "Verif.Iter.vector_iterators_outside_faults",
    "Verif.Iter.array_iterators_outside_faults"
   ],
   "note": "Forming a pointer outside the storage, subtracting pointers into different arrays and using released storage are faults of the model; all the stated uses avoid them."
  },
  {
   "property": "C73",
   "status": "partial",
   "theorems": [
    "Verif.AVL.avl_references_partial",
    "Verif.Map.map_reference_stable_partial",
    "Verif.Map.map_reference_stable"
   ],
   "note": "Proved for every list of further statements that keeps the element and contains none of the defective uses of C39, C41 and C44 (pop of an absent key, erase in a root with fewer than two children, copying a non-empty tree), after which the state of the program is not defined. map_reference_stable needs no such guard: its statements (operator[], push, writes, assignments, clearing or dropping other maps) have no defective uses."
  },
  {
   "property": "C74",
   "status": "proved",
   "theorems": [
    "Verif.Vec.vector_amortised",
    "Verif.Vec.vector_linear",
    "Verif.Vec.vector_push_allocations"
   ],
   "note": "The memory of the model counts the objects constructed by dstruct::construct (field built) and the blocks allocated (field next); the counters are not consulted by the model."
  },
  {
   "property": "C75",
   "status": "proved",
   "theorems": [
    "Verif.Heap.heap_work",
    "Verif.Heap.heap_push_pop_work",
    "Verif.Heap.heap_push_assignments",
    "Verif.Heap.heap_pop_assignments",
    "Verif.Heap.heap_build_work",
    "Verif.Heap.heap_sort_work"
   ],
   "note": "For every history, push, pop, build and sort that completes; no assumption on the comparator. Comparisons are not counted."
  },
  {
   "property": "C76",
   "status": "proved",
   "theorems": [
    "Verif.AVL.avl_find_path",
    "Verif.Map.map_find_path",
    "Verif.BST.bst_find_path"
   ],
   "note": "States reached without the defective uses (which have their own theorems under C37-C46). The bound is expressed by the set of nodes the result depends on, so no counter is needed."
  },
  {
   "property": "C77",
   "status": "partial",
   "theorems": [
    "Verif.XStack.xvalue_copy_move_partial",
    "Verif.XStack.xvalue_copy_faults"
   ],
   "note": "Partial because of two defects: pushing a value equal to the extremum under a strict comparator (C11, xvalue_duplicate_breaks) and copying a non-empty stack whose elements have a non-trivial destructor (xvalue_copy_faults)."
  },
  {
   "property": "C78",
   "status": "partial",
   "theorems": [
    "Verif.XStack.xvalue_iterate_partial",
    "Verif.XStack.xvalue_iterate_wrong",
    "Verif.XStack.xvalue_iterate_first"
   ],
   "note": "False for every non-empty stack: the loop also visits the saved extrema (xvalue_iterate_wrong). Proved: the elements are visited in order, interleaved with them."
  },
  {
   "property": "C79",
   "status": "partial",
   "theorems": [
    "Verif.DSU.dsu_copy_move_partial",
    "Verif.DSU.dsu_reconnect_hangs"
   ],
   "note": "Partial only because of the defect of C19: connecting connected elements makes a later find hang (dsu_reconnect_hangs)."
  },
  {
   "property": "C80",
   "status": "partial",
   "theorems": [
    "Verif.StackOn.stack_lifo_list_partial",
    "Verif.StackOn.stack_lifo_deque_partial",
    "Verif.StackOn.stack_list_move_empty",
    "Verif.StackOn.stack_adjacent_wrong"
   ],
   "note": "Partial because of container defects: moving an empty list-backed stack (stack_list_move_empty), touching deque blocks out of allocation order (stack_adjacent_wrong), and the deque copy/move defects of C33/C34 (guard Deq.AvoidsAll)."
  },
  {
   "property": "C81",
   "status": "partial",
   "theorems": [
    "Verif.Str.string_compare_mixed_partial",
    "Verif.Str.string_concat_mixed_partial",
    "Verif.Str.string_compare_empty_faults"
   ],
   "note": "False for the empty C string: comparing with \"\" reads past the array (string_compare_empty_faults). Proved for all non-empty C strings and strings that are not moved-from."
  },
  {
   "property": "C82",
   "status": "partial",
   "theorems": [
    "Verif.TreeIter.tree_iterators_values_partial",
    "Verif.TreeIter.avl_iterators_values_partial",
    "Verif.TreeIter.tree_iterator_self_move_crashes",
    "Verif.TreeIter.avl_iterator_self_move_crashes",
    "Verif.TreeIter.tree_iterator_moved",
    "Verif.TreeIter.avl_iterator_moved"
   ],
   "note": "False in general: moving an iterator to itself resets it, after which it compares equal to end() and ++ calls a null function pointer (both proved); begin() of an empty tree and post-order iteration fail as in C42 and C48. Proved for every other history."
  },
  {
   "property": "C83",
   "status": "partial",
   "theorems": [
    "Verif.Queue.queue_values_list_partial",
    "Verif.Queue.queue_values_deque_partial",
    "Verif.Queue.queue_list_move_empty",
    "Verif.Queue.queue_adjacent_wrong"
   ],
   "note": "False in general because of the defects of the containers: moving an empty list (C26, witness here), copies and moves of deques as in C33 and C35, touching blocks (C31, witness queue_adjacent_wrong). Proved for every other history, including operator[]."
  },
  {
   "property": "C84",
   "status": "proved",
   "theorems": [
    "Verif.Heap.heap_access",
    "Verif.Heap.heap_access_zero",
    "Verif.Heap.heap_capacity"
   ],
   "note": "Proved for every legal history that completes (copies of heaps of types with a destructor do not, C17). heap_access_zero: h[0] is always the constructor's sentinel object, never an element."
  },
  {
   "property": "C85",
   "status": "proved",
   "theorems": [
    "Verif.DSU.dsu_amortised"
   ],
   "note": "Potential argument over parent arrays (logarithms of subtree sizes); no assumption beyond valid indices and that the history returns."
  },
  {
   "property": "C86",
   "status": "partial",
   "theorems": [
    "Verif.DSU.dsu_find_links_partial",
    "Verif.DSU.dsu_find_linear"
   ],
   "note": "False: union_set compares root indices instead of ranks, so for every n a history of non-redundant connects makes one find follow n-1 links (dsu_find_linear). Proved: never more than n-1, and at most one right after a find of the same element."
  },
  {
   "property": "C87",
   "status": "partial",
   "theorems": [
    "Verif.DSU.dsu_index_large_partial",
    "Verif.DSU.dsu_index_negative"
   ],
   "note": "False for negative indices: i-n is silently taken for element i, and for a representative find returns the negative number itself, so connected(i-n, i) is false (dsu_index_negative). Proved for indices from n upwards."
  },
  {
   "property": "C88",
   "status": "partial",
   "theorems": [
    "Verif.DSU.dsu_union_set_partial",
    "Verif.DSU.dsu_union_set_hangs"
   ],
   "note": "False for elements that are not representatives: union_set(i, find(i)) closes a cycle and find(i) never returns (dsu_union_set_hangs). Proved for representatives."
  },
  {
   "property": "C89",
   "status": "proved",
   "theorems": [
    "Verif.Deq.deque_amortised"
   ],
   "note": "Potential argument on the number of blocks and the room left at both ends of the table."
  },
  {
   "property": "C90",
   "status": "partial",
   "theorems": [
    "Verif.Deq.deque_one_ended_storage_partial",
    "Verif.Deq.deque_window_grows",
    "Verif.Deq.deque_fifo_storage"
   ],
   "note": "Proved for deques used at one end (max of two blocks and 8 times the largest size; never more than twice that allocated in all). False for a first-in first-out queue: pushing and popping a single element again and again reaches every capacity (deque_window_grows); with pushes at the back and pops at the front the capacity is never below the number of elements ever pushed (deque_fifo_storage), because a push at the end of the table doubles it however empty it is, and a pop never shrinks it (deque_pop_keeps_storage_partial)."
  },
  {
   "property": "C91",
   "status": "proved",
   "theorems": [
    "Verif.AVL.avl_push_path",
    "Verif.AVL.avl_pop_path",
    "Verif.AVL.avl_erase_path",
    "Verif.Map.map_push_path",
    "Verif.Map.map_pop_path",
    "Verif.Map.map_index_path"
   ],
   "note": "Footprint theorems: a list of nodes of the stated length, reads and writes both confined to it, rebalancing included."
  },
  {
   "property": "C92",
   "status": "proved",
   "theorems": [
    "Verif.Vec.vector_out_of_memory",
    "Verif.Vec.vector_denied_stops",
    "Verif.Vec.vector_denied_unnoticed"
   ],
   "note": "Histories are those of C01 plus copies and appended references outside the defective cases of C04 and C07 (AvoidsAll)."
  },
  {
   "property": "C93",
   "status": "partial",
   "theorems": [
    "Verif.AVL.avl_swap_partial",
    "Verif.AVL.avl_swap_reach_partial",
    "Verif.AVL.avl_reach_linked",
    "Verif.AVL.avl_swap_siblings_broken"
   ],
   "note": "Proved for all pairs except siblings, for every linked state and hence for every reachable tree. For two different nodes with the same parent the property is false in every tree (avl_swap_siblings_broken): both child links of the parent end at the same node. Deletion never passes siblings, so the defect is not visible through the public interface."
  },
  {
   "property": "C94",
   "status": "partial",
   "theorems": [
    "Verif.Pool.vector_pool_partial",
    "Verif.Pool.vector_pool_returned_partial",
    "Verif.Pool.vector_pool_stops_partial",
    "Verif.Pool.vector_pool_pop_full",
    "Verif.Pool.vector_pool_pop_stops"
   ],
   "note": "Vectors over the byte-level model of the static allocator simulate vectors over abstract blocks; histories avoid the defects C04 and C07 and byte counts beyond int. Refuted part: pop_back, which makes a vector smaller, stops the program when the pool is full (vector_pool_pop_full, vector_pool_pop_stops)."
  },
  {
   "property": "C95",
   "status": "partial",
   "theorems": [
    "Verif.Deq.deque_iterator_kept_partial",
    "Verif.Deq.deque_stale_iterator"
   ],
   "note": "Proved under the guards of C32 while the capacity stays the same (the condition under which the table is not replaced; the capacity never shrinks). deque_stale_iterator: when a push makes the table grow, an iterator taken before misses the end of its block and becomes unusable, for every block size."
  },
  {
   "property": "C96",
   "status": "proved",
   "theorems": [
    "Verif.Sma.sma_uniform",
    "Verif.Sma.sma_uniform_count",
    "Verif.Sma.sma_uniform_port"
   ],
   "note": "sma_uniform: success exactly if free_mem_size() is at least d. sma_uniform_count: M / d blocks of one size can be held at once. sma_uniform_port: the port neither merges nor stops while d bytes are free."
  },
  {
   "property": "C97",
   "status": "proved",
   "theorems": [
    "Verif.LPool.dlist_pool",
    "Verif.LPool.dlist_pool_full",
    "Verif.LPool.slist_pool",
    "Verif.LPool.slist_pool_full",
    "Verif.LPool.list_pool_returned"
   ],
   "note": "Byte-level simulation of the list functions in the static allocator; the guards of the statement are those of C26 and C28-C30."
  },
  {
   "property": "C98",
   "status": "proved",
   "theorems": [
    "Verif.Sma.sma_split",
    "Verif.Sma.sma_split_refused",
    "Verif.Sma.sma_split_first",
    "Verif.Sma.sma_split_small",
    "Verif.Sma.sma_split_all_free"
   ],
   "note": "Requests are positive and not within 8 of INT_MAX (C53)."
  },
  {
   "property": "C99",
   "status": "partial",
   "theorems": [
    "Verif.Pool.vector_direct_partial",
    "Verif.Pool.vector_direct_returned_partial",
    "Verif.Pool.vector_direct_stops_partial",
    "Verif.Pool.vector_direct_pop_full",
    "Verif.Pool.vector_direct_pop_unnoticed",
    "Verif.Pool.vector_direct_resize_unnoticed"
   ],
   "note": "Proved for every history that avoids the two defects of vectors with any allocator (C04, C07) and byte counts beyond int (C08). The last sentence of the statement is false: vector_direct_pop_full, vector_direct_pop_unnoticed and vector_direct_resize_unnoticed show vectors with a capacity and no storage, which stop the program at the next push_back. The exact stop condition covers the operations that make their request before anything else; pop_back and copy assignment are covered by vector_direct_partial and vector_direct_pop_full."
  },
  {
   "property": "C100",
   "status": "proved",
   "theorems": [
    "Verif.Pool.vector_pool_growth",
    "Verif.Pool.vector_pool_growth_half",
    "Verif.Pool.vector_pool_reserve"
   ],
   "note": "Exact limit for both ways of reaching the allocator; the bounds on pool and element size are part of the quantifier, and so is that the size is a multiple of four: storage of smaller objects is padded to eight bytes, which changes the limit. Invariant: the storage of capacity cap starts right behind all the storage used before, and what follows it is one free block."
  },
  {
   "property": "C101",
   "status": "proved",
   "theorems": [
    "Verif.TPool.bst_pool",
    "Verif.TPool.bst_pool_full",
    "Verif.TPool.bst_pool_sets",
    "Verif.TPool.bst_pool_sets_full",
    "Verif.TPool.avl_pool",
    "Verif.TPool.avl_pool_full",
    "Verif.TPool.tree_pool_returned"
   ],
   "note": "Byte-level simulation of the tree functions in the static allocator; the uses excluded by the second part are the defective removals of C39, C41 and C46."
  },
  {
   "property": "C102",
   "status": "proved",
   "theorems": [
    "Verif.Vec.vector_int",
    "Verif.Vec.vector_int_push_full",
    "Verif.Vec.vector_int_resize"
   ],
   "note": "Discharges, for vectors of fewer than 2^31 bytes, the natural-number loop counters and byte counts of Verif.Vector. malloc is assumed to succeed for every non-negative request and to return null for a negative one."
  },
  {
   "property": "C103",
   "status": "proved",
   "theorems": [
    "Verif.TPool.map_pool",
    "Verif.TPool.map_pool_full",
    "Verif.TPool.map_pool_reference"
   ],
   "note": "Model MapPool.lean over the interface TreeOps; simulation with the map model (MapPoolRun.lean)"
  },
  {
   "property": "C104",
   "status": "proved",
   "theorems": [
    "Verif.DSU.dsu_order",
    "Verif.DSU.dsu_order_fixed",
    "Verif.DSU.dsu_order_repr"
   ],
   "note": "Histories that look up an element made unreachable by a redundant connect (C18) terminate in no order."
  },
  {
   "property": "C105",
   "status": "proved",
   "theorems": [
    "Verif.HPool.heap_pool",
    "Verif.HPool.heap_pool_returned",
    "Verif.HPool.heap_pool_stops",
    "Verif.HPool.heap_pool_sort"
   ],
   "note": "Model HeapPool.lean over the interface MemOps; simulation with the heap model (HeapPoolSim.lean, HeapPoolWorld.lean)"
  },
  {
   "property": "C106",
   "status": "partial",
   "theorems": [
    "Verif.SPool.string_pool_partial",
    "Verif.SPool.string_pool_returned_partial",
    "Verif.SPool.string_pool_stops_partial",
    "Verif.SPool.string_pool_eq_partial"
   ],
   "note": "Partial because strings go wrong with any allocator in the situations of C21, C22 and C23 (guard AvoidsAll)."
  },
  {
   "property": "C107",
   "status": "partial",
   "theorems": [
    "Verif.XPool.stack_pool_partial",
    "Verif.XPool.stack_pool_stops_partial",
    "Verif.XPool.xstack_pool_partial",
    "Verif.XPool.xstack_pool_returned_partial",
    "Verif.XPool.xstack_pool_stops_partial"
   ],
   "note": "Missing: pushing a value equal to the extremum under a strict comparator (C11, C12) and copying non-empty stacks of a type with a non-trivial destructor (C04), which go wrong with any allocator."
  },
  {
   "property": "C108",
   "status": "partial",
   "theorems": [
    "Verif.DSUPool.dsu_pool_partial",
    "Verif.DSUPool.dsu_pool_returned_partial",
    "Verif.DSUPool.dsu_pool_stops_partial",
    "Verif.DSUPool.dsu_pool_hangs"
   ],
   "note": "Missing: connecting two connected elements, after which find never returns (dsu_pool_hangs, C79's defect), and sets whose array exceeds an int in bytes."
  },
  {
   "property": "C109",
   "status": "partial",
   "theorems": [
    "Verif.Shared.shared_pool_partial",
    "Verif.Shared.shared_pool_untouched_partial",
    "Verif.Shared.shared_pool_returned_partial"
   ],
   "note": "Missing: the defective uses and sizes beyond an int that the single classes exclude (their own claims give the failing cases), and deques whose blocks have a multiple of eight bytes, which go wrong in a pool of their own (C111)."
  },
  {
   "property": "C110",
   "status": "proved",
   "theorems": [
    "Verif.Sma.sma_policy",
    "Verif.Sma.sma_large",
    "Verif.Sma.sma_policy_free",
    "Verif.Sma.sma_policy_new"
   ],
   "note": "Free blocks are read off the memory (Spec/SMA.lean). Requests within 8 of INT_MAX overflow (sma_huge_overflow, C51) and are outside the quantifier."
  },
  {
   "property": "C111",
   "status": "partial",
   "theorems": [
    "Verif.DeqPool.deque_pool_partial",
    "Verif.DeqPool.deque_pool_room_partial",
    "Verif.DeqPool.deque_pool_unhit_partial",
    "Verif.DeqPool.deque_pool_wrong"
   ],
   "note": "False for the code: a new block can be placed directly in front of an older one, so that the end iterator of a deque and its begin iterator hold the same address. deque_pool_wrong: in every fresh pool (more than 96 bytes, MAX_BLOCK_SIZE at least 16) three pushes to a deque with one 8-byte element per block give a deque of size 3 that iterates as empty. deque_pool_partial: all of it holds if the number of bytes of a block is no multiple of eight (any pool state, any blocks of other clients, any history within the uses C31 allows). deque_pool_unhit_partial: for any block size it holds for histories that ran to their end without a block being placed directly in front of one in use. deque_pool_room_partial: an operation other than a copy returns if a free block has as many bytes as it needs (`needs`, an upper bound). Missing: room that merging would make, room for copies; runs in which a block was placed so and that return right results all the same."
  },
  {
   "property": "C112",
   "status": "partial",
   "theorems": [
    "Verif.Queue.queue_pool_list_partial",
    "Verif.Queue.queue_pool_deque_partial",
    "Verif.Queue.queue_pool_unhit_partial",
    "Verif.Queue.queue_pool_wrong",
    "Verif.Queue.queue_pool_loses",
    "Verif.StackOn.stack_pool_list_partial",
    "Verif.StackOn.stack_pool_deque_partial",
    "Verif.StackOn.stack_pool_unhit_partial",
    "Verif.StackOn.stack_pool_wrong"
   ],
   "note": "False for dstruct::Queue over the static port: queue_pool_wrong (32 four-byte elements per block, a pool in which nothing is in use but blocks were given back, 96 pushes: size() is 96, iteration yields nothing; queue_pool_loses: the next push loses the 96 elements) and for stacks over such deques (stack_pool_wrong). Proved: over lists with the exact condition when the pool has room, except moves from an empty queue or stack (C83, C80); over deques if the size of a block is no multiple of eight, and for blocks of any size if no block was ever placed directly in front of one in use, except the defective copies and moves of C33 and C35."
  },
  {
   "property": "C113",
   "status": "partial",
   "theorems": [
    "Verif.Queue.queue_pool_lasts_partial",
    "Verif.Queue.queue_pool_exhausts",
    "Verif.Queue.queue_pool_exhausts_unhit"
   ],
   "note": "False for queues over deques: in a pool of M bytes, in any reachable state, the program has stopped for lack of memory by the time M / (size + 8 / ARR_SIZE) elements have been pushed in all, however few of them are in the queue at a time (queue_pool_exhausts for blocks whose size is no multiple of eight; queue_pool_exhausts_unhit for any block size, unless a block was placed directly in front of one in use, the case of C111). Proved for queues over linked lists in a new pool: every use that never has more elements in the queue than there is room for runs to its end, and the whole pool is free whenever the queue is empty."
  }
 ]
}