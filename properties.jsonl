{"id": "C01", "title": "Vector behaves as a sequence", "statement": "Starting from an empty Vector, after any sequence of push_back, pop_back (on a non-empty vector), element assignment through operator[], resize(n), resize(n,e) and clear, size(), operator[], front(), back() and iteration report exactly the list obtained by running the same operations on an ordinary list: no reallocation (growth or shrink) loses, duplicates, reorders or changes an element.", "quantifier": "every finite sequence of these operations, every element value, every n", "why_tests_cant": "Reallocation happens at sizes that depend on the whole history (doubling on full, halving when size < capacity/3); tests exercise a handful of sizes.", "anchors": ["core/ds/array/Vector.hpp", "Vector::push_back", "Vector::pop_back", "Vector::resize", "Vector::clear", "Vector::operator[]"]}
{"id": "C02", "title": "Vector size never exceeds capacity and growth policy is geometric", "statement": "In every reachable state size() <= capacity(); push_back changes the capacity only when size() == capacity(), and then to max(2, 2*size()); pop_back changes it only when the new size is below a third of the capacity, and then to half the capacity, which still holds every remaining element.", "quantifier": "every reachable state of a Vector", "why_tests_cant": "The relation between size and capacity is an invariant over unbounded histories.", "anchors": ["core/ds/array/Vector.hpp", "Vector::push_back", "Vector::pop_back", "Vector::resize", "Vector::capacity"]}
{"id": "C03", "title": "Vector memory safety and release", "statement": "Any history of valid operations on vectors, other than copying between vectors (C04) and appending a reference to an element (C07), performs no out-of-bounds access, no read of an unconstructed slot, no use after free; every element constructed is destroyed exactly once; every buffer obtained from the allocator is returned exactly once, with the same element count it was requested with, at the latest when the vectors are destroyed.", "quantifier": "every finite history of operations whose documented preconditions hold", "why_tests_cant": "Leaks, double destruction and wrong-size deallocation leave no trace in test output, and the sized deallocation only matters for the static pool allocator.", "anchors": ["core/ds/array/Vector.hpp", "Vector::push_back", "Vector::pop_back", "Vector::resize", "Vector::_clear", "Vector::~Vector", "spec/DStructSpec.hpp: AllocSpec"]}
{"id": "C04", "title": "Vector copies are deep and independent", "statement": "Copy construction and copy assignment give a vector with equal contents that shares no storage with the source: later operations on one never change the other, for every element type, without touching any object outside its lifetime.", "quantifier": "every source vector, every destination vector, every later history on either one, every element type", "why_tests_cant": "Independence is a statement about all later histories; destroying a slot that was never constructed is silent for most element types.", "anchors": ["core/ds/array/Vector.hpp", "Vector::operator=(const Vector &)", "Vector::Vector(const Vector &)"]}
{"id": "C05", "title": "Vector move transfers the contents and leaves a usable empty source", "statement": "After move construction or move assignment the destination has exactly the source's former contents and capacity, the destination's old buffer is released, and the source is an empty vector that can be used again.", "quantifier": "every pair of vectors and every later history on the source", "why_tests_cant": "Ownership transfer bugs show up only in particular later histories (double free at scope exit, reuse of the moved-from object).", "anchors": ["core/ds/array/Vector.hpp", "Vector::operator=(Vector &&)", "Vector::Vector(Vector &&)"]}
{"id": "C06", "title": "Vector indexing accepts exactly -size()..size()-1", "statement": "v[i] refers to element i for 0 <= i < size(), to element size()+i for -size() <= i < 0, and every other i is stopped by the assertion instead of accessing memory outside the elements.", "quantifier": "every vector and every int index", "why_tests_cant": "The index is mixed signed/unsigned arithmetic; a test tries a few indices only.", "anchors": ["core/ds/array/Vector.hpp", "Vector::operator[](int)"]}
{"id": "C07", "title": "Vector push_back accepts a reference to one of its own elements", "statement": "v.push_back(v[i]) appends a copy of the value v[i] had before the call, for every valid i, also when the call reallocates.", "quantifier": "every vector state (including size()==capacity()) and every valid index", "why_tests_cant": "Only the reallocating case can go wrong, and freed memory usually still holds the old value, so a test passes by luck.", "anchors": ["core/ds/array/Vector.hpp", "Vector::push_back"]}
{"id": "C08", "title": "Typed allocation requests the right number of bytes", "statement": "AllocSpec<T>::allocate(n) asks the underlying allocator for exactly n*sizeof(T) bytes and deallocate(p,n) reports the same number, so a block of n objects of type T fits.", "quantifier": "every n and every sizeof(T)", "why_tests_cant": "The byte count goes through int; overflow needs sizes no test allocates.", "anchors": ["spec/DStructSpec.hpp", "AllocSpec::allocate", "AllocSpec::deallocate", "port/dstruct-port.h: Alloc", "port/libc/libc-dstruct-port.hpp"]}
{"id": "C09", "title": "Array is a fixed-length sequence with Python-style indices", "statement": "An Array<T,N> always holds N elements; a[i] for 0<=i<N and a[i-N] are the same element, writing one element changes no other, the fill constructor and copy/move give equal contents, and iteration from begin() to end() visits the N elements in order.", "quantifier": "every N > 0, every index in range, every sequence of writes", "why_tests_cant": "The statement ranges over all N and all write histories.", "anchors": ["core/ds/array/Array.hpp", "Array::operator[]", "Array::Array"]}
{"id": "C10", "title": "Stack is LIFO", "statement": "For any history of push, pop (on non-empty), clear, copy and move, top() is the most recently pushed element not yet popped and size() is the number of such elements.", "quantifier": "every finite history", "why_tests_cant": "LIFO order across all interleavings and reallocations is a statement about unbounded histories.", "anchors": ["core/ds/stack/Stack.hpp", "core/ds/array/Vector.hpp"]}
{"id": "C11", "title": "XValueStack top/pop remain LIFO", "statement": "For any history of push and pop (on non-empty), top() of a MinStack/MaxStack is the most recently pushed element not yet popped, empty() tells whether any remain.", "quantifier": "every finite history of pushes and pops over a totally ordered element type, including equal elements", "why_tests_cant": "The structure hides saved extrema among the data; whether a saved entry and a datum can be confused depends on the equality pattern of the whole history.", "anchors": ["core/ds/stack/XValueStack.hpp", "XValueStack::push", "XValueStack::pop", "XValueStack::top", "XValueStack::empty"]}
{"id": "C12", "title": "XValueStack reports the extremum of what is in it", "statement": "For any history of push and pop, getXValue() of a MinStack (MaxStack) is the least (greatest) of the elements currently in the stack.", "quantifier": "every finite history and every total preorder comparator", "why_tests_cant": "The answer after a pop depends on the saved history, which tests only sample.", "anchors": ["core/ds/stack/XValueStack.hpp", "XValueStack::getXValue", "XValueStack::push", "XValueStack::pop"]}
{"id": "C13", "title": "Heap top is an extremum after any history", "statement": "For any history of push, pop (on non-empty) and range construction, top() is an element of the heap that precedes or ties with every other element under the comparator, whether the comparator is strict (greater/less) or non-strict.", "quantifier": "every finite history, every element type with a total preorder, every comparator compatible with it", "why_tests_cant": "Heap order is an invariant over all histories; the sift loops run to a depth depending on data.", "anchors": ["core/ds/Heap.hpp", "Heap::push", "Heap::pop", "Heap::top", "Heap::_adjust_up", "Heap::_adjust_down"]}
{"id": "C14", "title": "Heap preserves the multiset of elements", "statement": "push adds exactly the pushed element, pop removes exactly the element top() reported, and size() counts them; no sift loses or duplicates an element.", "quantifier": "every heap state, every history", "why_tests_cant": "Loss or duplication can depend on any tie or shape of the tree.", "anchors": ["core/ds/Heap.hpp", "Heap::push", "Heap::pop", "Heap::size"]}
{"id": "C15", "title": "Heap::sort sorts", "statement": "Heap::sort(begin, end) leaves in the range a permutation of the original elements ordered by the comparator.", "quantifier": "every array and every total preorder comparator", "why_tests_cant": "Sortedness for every input is exactly what sampling cannot settle.", "anchors": ["core/ds/Heap.hpp", "Heap::sort", "Heap::Heap(begin, end)"]}
{"id": "C16", "title": "Heap::build produces a heap-ordered permutation", "statement": "Heap::build(begin, end) leaves in the range a permutation of the original elements in which element i precedes or ties with elements 2i+1 and 2i+2.", "quantifier": "every array and every total preorder comparator", "why_tests_cant": "The bottom-up construction touches every internal node; the boundary of the last internal node depends on the length's parity.", "anchors": ["core/ds/Heap.hpp", "Heap::build", "Heap::Heap(begin, end)"]}
{"id": "C17", "title": "Heap copy and move leave two valid heaps", "statement": "Copying a heap gives an equal independent heap; moving transfers all elements and leaves the source a valid empty heap usable for further pushes.", "quantifier": "every heap state and every later history on either heap", "why_tests_cant": "The sentinel slot must be re-established in the moved-from heap; misuse shows only in later histories.", "anchors": ["core/ds/Heap.hpp", "Heap::operator="]}
{"id": "C18", "title": "DisjointSet connectivity is the equivalence closure of the connects", "statement": "After any sequence of connect and find calls, connected(a,b) holds exactly when a and b are related by the reflexive-symmetric-transitive closure of the connected pairs.", "quantifier": "every finite sequence of connects (including repeated and redundant ones) and finds on valid indices", "why_tests_cant": "Redundant connects and long chains combine in unboundedly many ways; a cycle makes a later call hang rather than fail.", "anchors": ["core/ds/set/DisjointSet.hpp", "DisjointSet::connect", "DisjointSet::connected", "DisjointSet::union_set", "DisjointSet::find"]}
{"id": "C19", "title": "DisjointSet find terminates and path compression changes no class", "statement": "find(x) always terminates, returns one representative per class (find(a)==find(b) iff same class, find(find(x))==find(x)), and calling it changes no later answer of find, connected or count.", "quantifier": "every reachable state and every index", "why_tests_cant": "find mutates the parent array; its harmlessness is an invariant over states.", "anchors": ["core/ds/set/DisjointSet.hpp", "DisjointSet::find"]}
{"id": "C20", "title": "DisjointSet count is the number of classes", "statement": "The number of sets reported equals the number of equivalence classes: n initially and one less after each connect of two previously unconnected elements.", "quantifier": "every n > 0 and every sequence of connects and finds", "why_tests_cant": "The count is recomputed from the array whose shape depends on the whole history.", "anchors": ["core/ds/set/DisjointSet.hpp", "DisjointSet::count", "DisjointSet::DisjointSet"]}
{"id": "C21", "title": "String construction and c_str round-trip", "statement": "Constructing a string from any NUL-terminated character sequence gives a string of that length whose c_str() is the same NUL-terminated sequence.", "quantifier": "every NUL-terminated input, including the empty one", "why_tests_cant": "Boundary handling of the terminator has to hold for every length.", "anchors": ["core/ds/string/BasicString.hpp", "BasicString::BasicString(const CharType *)", "BasicString::c_str", "BasicString::size"]}
{"id": "C22", "title": "String append, concatenation and equality", "statement": "s += t and s + t append exactly t's characters, push_back appends one character, == holds exactly when the character sequences are equal; t is unchanged, including when s and t are the same object.", "quantifier": "every pair of strings, including aliased operands", "why_tests_cant": "Equality and concatenation laws range over all pairs; the aliased case is easily missed.", "anchors": ["core/ds/string/BasicString.hpp", "BasicString::operator+=", "BasicString::operator+", "BasicString::operator==", "BasicString::push_back"]}
{"id": "C23", "title": "String stays NUL-terminated and usable", "statement": "In every reachable state (also after clear, copy, move-from) c_str() is terminated by a NUL directly after the size() characters, and size() is the number of characters.", "quantifier": "every finite history of operations, including use of moved-from strings", "why_tests_cant": "Requires an invariant over all histories.", "anchors": ["core/ds/string/BasicString.hpp", "BasicString::size", "BasicString::clear", "BasicString::operator=(BasicString &&)"]}
{"id": "C24", "title": "DoublyLinkedList behaves as a double-ended sequence", "statement": "After any history of push_front, push_back, pop_front, pop_back (on non-empty) and clear, the list read forwards is the expected sequence, read backwards is its reverse, and front(), back(), size(), empty() agree with it.", "quantifier": "every finite history", "why_tests_cant": "Forward and backward links must agree at every node in every reachable state.", "anchors": ["core/ds/linked-list/DoublyLinkedList.hpp", "core/ds/linked-list/LinkedList.hpp", "core/ds/linked-list/EmbeddedList.hpp"]}
{"id": "C25", "title": "DoublyLinkedList copies are deep and independent", "statement": "Copy construction/assignment gives an equal list; later operations on either leave the other unchanged.", "quantifier": "every pair of lists, every earlier and later history that does not move from an empty list (C26)", "why_tests_cant": "Shared nodes show up only under particular later histories.", "anchors": ["core/ds/linked-list/DoublyLinkedList.hpp", "DoublyLinkedList::operator=(const DoublyLinkedList &)"]}
{"id": "C26", "title": "DoublyLinkedList move leaves both lists valid", "statement": "Move construction/assignment transfers all elements in order and leaves the source a valid empty list, also when the source is empty.", "quantifier": "every pair of lists, including empty ones, and every later history", "why_tests_cant": "Circular sentinel links must be repaired in every case.", "anchors": ["core/ds/linked-list/DoublyLinkedList.hpp", "DoublyLinkedList::operator=(DoublyLinkedList &&)"]}
{"id": "C27", "title": "DoublyLinkedList releases every node exactly once", "statement": "Any history ending in destruction frees every allocated node exactly once and never touches a freed node.", "quantifier": "every finite history", "why_tests_cant": "Leaks and use-after-free are silent in tests.", "anchors": ["core/ds/linked-list/DoublyLinkedList.hpp", "core/ds/linked-list/LinkedList.hpp", "LinkedList::clear"]}
{"id": "C28", "title": "SinglyLinkedList behaves as a sequence", "statement": "After any history of its public operations (push_front, push_back, pop_front, pop_back, push, pop, clear) on valid states, iteration yields the expected sequence and front(), back(), size() agree with it, with no access to freed nodes.", "quantifier": "every finite history of public operations", "why_tests_cant": "The cached tail must be right in every reachable state; mixing inherited and overridden operations gives unboundedly many histories.", "anchors": ["core/ds/linked-list/SinglyLinkedList.hpp", "core/ds/linked-list/LinkedList.hpp"]}
{"id": "C29", "title": "SinglyLinkedList copies are deep and independent", "statement": "Copying a list gives an equal list sharing no node with the source; later operations on either leave the other unchanged.", "quantifier": "every pair of lists and every later history", "why_tests_cant": "Only specific later operations reveal a tail pointer that still refers to the source.", "anchors": ["core/ds/linked-list/SinglyLinkedList.hpp", "SinglyLinkedList::operator=(const SinglyLinkedList &)"]}
{"id": "C30", "title": "SinglyLinkedList move leaves both lists valid", "statement": "Moving transfers all elements in order and leaves the source a valid empty list, also when the source is empty.", "quantifier": "every pair of lists, including empty ones", "why_tests_cant": "The circular sentinel link must be repaired in every case.", "anchors": ["core/ds/linked-list/SinglyLinkedList.hpp", "SinglyLinkedList::operator=(SinglyLinkedList &&)"]}
{"id": "C31", "title": "Deque behaves as a double-ended sequence", "statement": "After any history of push_back, push_front, pop_back, pop_front (on non-empty) on a newly created deque, front(), back(), size(), operator[] and iteration report exactly the corresponding list; re-centring and growing the block map loses and reorders nothing.", "quantifier": "every block size, every finite history", "why_tests_cant": "The block map is re-centred at points that depend on the whole interleaving of front and back operations.", "anchors": ["core/ds/queue/DoubleEndedQueue.hpp", "DoubleEndedQueue::_resize", "DoubleEndedQueue::push_back", "DoubleEndedQueue::push_front", "DoubleEndedQueue::pop_back", "DoubleEndedQueue::pop_front"]}
{"id": "C32", "title": "Deque never accesses outside its blocks and keeps capacity above size", "statement": "In every reachable state the elements occupy consecutive slots inside allocated blocks, size() <= capacity(), capacity() is the number of allocated slots, and pops never reallocate.", "quantifier": "every block size and every finite history", "why_tests_cant": "Map-index arithmetic at block boundaries depends on the history; out-of-bounds accesses are often silent.", "anchors": ["core/ds/queue/DoubleEndedQueue.hpp", "DoubleEndedQueue::_resize", "DoubleEndedQueueIterator"]}
{"id": "C33", "title": "Deque can be iterated and copied in every state", "statement": "begin()/end() delimit an empty range for an empty deque (new, emptied by pops, or cleared), and iteration never reads indeterminate or released memory.", "quantifier": "every reachable state including never-used and cleared deques", "why_tests_cant": "Indeterminate and dangling pointers usually compare harmlessly in a test run.", "anchors": ["core/ds/queue/DoubleEndedQueue.hpp", "DoubleEndedQueue::begin", "DoubleEndedQueue::end", "DoubleEndedQueue::clear"]}
{"id": "C34", "title": "Deque copies are deep and independent", "statement": "Copying gives an equal deque sharing no storage; later operations on either leave the other unchanged.", "quantifier": "every source and destination state and every later history", "why_tests_cant": "Independence quantifies over later histories.", "anchors": ["core/ds/queue/DoubleEndedQueue.hpp", "DoubleEndedQueue::operator=(const DoubleEndedQueue &)"]}
{"id": "C35", "title": "Deque move transfers the contents", "statement": "After a move the destination behaves as the source did (iteration, indexing, pushes and pops at both ends) and the source is a usable empty deque.", "quantifier": "every source state and every later history on the destination or source", "why_tests_cant": "A stale back-reference inside the iterators matters only when a later operation steps them.", "anchors": ["core/ds/queue/DoubleEndedQueue.hpp", "DoubleEndedQueue::operator=(DoubleEndedQueue &&)"]}
{"id": "C36", "title": "Queue is FIFO", "statement": "For any history of push and pop (on non-empty), front() is the oldest element not yet popped, back() the newest, and size() counts them.", "quantifier": "every finite history, for the default Deque-backed queue and a linked-list-backed queue", "why_tests_cant": "FIFO order over unbounded interleavings crosses arbitrarily many block boundaries.", "anchors": ["core/ds/queue/Queue.hpp", "core/ds/queue/DoubleEndedQueue.hpp"]}
{"id": "C37", "title": "AVL push inserts exactly the new key", "statement": "push(x) with x not present adds x and nothing else; push(x) with x present stops at the assertion without changing the tree; find, size and in-order iteration agree with the resulting ordered set.", "quantifier": "every reachable tree and every key, under any strict total order comparator", "why_tests_cant": "Rebalancing cases depend on the whole insertion history.", "anchors": ["core/ds/tree/AVLTree.hpp", "AVLTree::push", "AVLTree::_insert", "AVLTree::_check_and_balance"]}
{"id": "C38", "title": "AVL tree stays balanced with exact heights", "statement": "In every reachable state the two subtrees of each node differ in height by at most one, height() is the true height, and height is at most logarithmic in size (size >= fib(height+2)-1).", "quantifier": "every finite history of pushes, pops and erases", "why_tests_cant": "Balance is an invariant; one wrong height update degrades it only on particular later histories.", "anchors": ["core/ds/tree/AVLTree.hpp", "AVLTree::_check_and_balance", "AVLTree::_left_rotate", "AVLTree::_right_rotate", "AVLTree::_delete"]}
{"id": "C39", "title": "AVL pop removes exactly the given key", "statement": "pop(x) with x present removes x and nothing else and keeps order, balance and size; pop of an absent key leaves the tree unchanged and does not fault.", "quantifier": "every reachable tree and every key", "why_tests_cant": "Deletion has node-swap and rebalancing cases depending on the shape.", "anchors": ["core/ds/tree/AVLTree.hpp", "AVLTree::pop", "AVLTree::_delete", "AVLTree::_swap_node", "AVLTree::_rebalance_after_delete"]}
{"id": "C40", "title": "AVL find is exact", "statement": "find(x) returns an iterator to the element equal to x if there is one and end() otherwise, changing nothing.", "quantifier": "every reachable tree and every key", "why_tests_cant": "Correctness of search for all keys rests on the order invariant of the whole tree.", "anchors": ["core/ds/tree/AVLTree.hpp", "core/ds/tree/BinarySearchTree.hpp", "BinarySearchTreeBase::_find"]}
{"id": "C41", "title": "AVL erase through an iterator", "statement": "erase(it) removes exactly the element it refers to, returns an iterator to the in-order successor, and leaves a valid tree; erase(end()) does nothing.", "quantifier": "every reachable tree and every position, including the root", "why_tests_cant": "Removal of a root with fewer than two children is one shape among infinitely many.", "anchors": ["core/ds/tree/AVLTree.hpp", "AVLTree::erase", "AVLTree::_delete"]}
{"id": "C42", "title": "Tree in-order iteration enumerates in sorted order", "statement": "Iterating from begin() to end() visits every element exactly once in increasing order and terminates; for an empty tree begin()==end().", "quantifier": "every reachable tree including the empty one", "why_tests_cant": "The successor walk climbs parent links; each shape is a different path.", "anchors": ["core/ds/tree/EmbeddedBinaryTree.hpp", "core/ds/tree/BinaryTree.hpp", "next_inorder", "first_node"]}
{"id": "C43", "title": "Tree nodes are released exactly once", "statement": "clear and destruction free every node exactly once for every tree shape; size() equals the number of allocated nodes; parent links always mirror child links.", "quantifier": "every reachable tree", "why_tests_cant": "Leaks and double frees are silent in tests.", "anchors": ["core/ds/tree/BinaryTree.hpp", "core/ds/tree/AVLTree.hpp", "core/ds/tree/EmbeddedBinaryTree.hpp"]}
{"id": "C44", "title": "Copies of an AVL tree (and of a Map) are independent", "statement": "Copying or moving an AVLTree or Map gives an object with the same contents whose later mutation or destruction does not affect the other.", "quantifier": "every tree and every later history on either object", "why_tests_cant": "Shared nodes are only detected by particular later operations.", "anchors": ["core/ds/tree/AVLTree.hpp", "core/ds/Map.hpp"]}
{"id": "C45", "title": "BST push and find", "statement": "push(x) adds x when absent and leaves an ordered tree; pushing a present key changes nothing; size() is the number of elements; find is exact.", "quantifier": "every finite history of pushes", "why_tests_cant": "Holds for every insertion order only by an invariant.", "anchors": ["core/ds/tree/BinarySearchTree.hpp", "BinarySearchTree::push", "BinarySearchTree::_insert", "BinarySearchTreeBase::_find"]}
{"id": "C46", "title": "BST pop and erase", "statement": "pop(x)/erase(it) removes exactly that element, keeps the order and every other element, for nodes with zero, one or two children.", "quantifier": "every reachable tree and every element", "why_tests_cant": "The two-children case depends on the shape of the subtrees.", "anchors": ["core/ds/tree/BinarySearchTree.hpp", "BinarySearchTree::pop", "BinarySearchTree::erase", "BinarySearchTree::_try_to_delete"]}
{"id": "C47", "title": "Pre-order iteration", "statement": "Iteration and traversal in PreOrder visit every node exactly once, each node before its left subtree and its left subtree before its right subtree, and terminate.", "quantifier": "every tree shape", "why_tests_cant": "The successor computation climbs an unbounded number of parents.", "anchors": ["core/ds/tree/EmbeddedBinaryTree.hpp", "next_preorder", "core/ds/tree/BinaryTree.hpp"]}
{"id": "C48", "title": "Post-order iteration and traversal", "statement": "Iteration in PostOrder, and traversal() in any order, visit every node exactly once in the named order.", "quantifier": "every tree shape", "why_tests_cant": "Some shapes (left-only, perfect small trees) happen to give the right answer.", "anchors": ["core/ds/tree/EmbeddedBinaryTree.hpp", "next_postorder", "first_node", "core/ds/tree/BinaryTree.hpp", "BinaryTree::traversal"]}
{"id": "C49", "title": "Rotations preserve the in-order sequence", "statement": "A left or right rotation leaves the in-order sequence of the tree, the set of nodes and the parent/child consistency unchanged.", "quantifier": "every tree and every node with the required child", "why_tests_cant": "All shapes of the three moved subtrees have to be covered.", "anchors": ["core/ds/tree/EmbeddedBinaryTree.hpp", "left_rotate", "right_rotate", "core/ds/tree/AVLTree.hpp"]}
{"id": "C50", "title": "Map is a finite map", "statement": "After any history of operator[] reads/writes, push of new keys and pop of present keys, operator[](k) reads the last value written for k (or a default-constructed value that is thereby inserted), find tells presence, size() is the number of keys, and iteration is in key order.", "quantifier": "every finite history and every key", "why_tests_cant": "Interactions between rebalancing and in-place value updates depend on the history.", "anchors": ["core/ds/Map.hpp", "Map::operator[]", "core/ds/tree/AVLTree.hpp"]}
{"id": "C51", "title": "Static allocator hands out disjoint blocks inside the pool", "statement": "Every block returned by allocate(n), n > 0, lies inside the pool, holds at least n bytes, and overlaps neither another live block nor any block on a free list; whatever clients write into their own blocks cannot corrupt the allocator.", "quantifier": "every finite sequence of allocations, deallocations (of live blocks with their size), merges and client writes, every legal pool/list configuration", "why_tests_cant": "Disjointness is an invariant over all histories; tests see a few addresses.", "anchors": ["memory/StaticMemAllocator.hpp", "StaticMemAllocator::allocate", "StaticMemAllocator::deallocate", "StaticMemAllocator::memory_merge"]}
{"id": "C52", "title": "Static allocator accounting is exact", "statement": "free_mem_size() always equals the pool size minus the sum of the live blocks' sizes rounded up to 8, and equals the sum of the sizes on the free lists; max_free_mblock_size() is the size of the largest free block.", "quantifier": "every finite history", "why_tests_cant": "Drift in the counters needs specific split/merge patterns.", "anchors": ["memory/StaticMemAllocator.hpp", "free_mem_size", "max_free_mblock_size", "StaticMemAllocator::allocate", "StaticMemAllocator::deallocate"]}
{"id": "C53", "title": "Static allocator succeeds whenever a large enough free block exists", "statement": "allocate(n) with n > 0 returns null exactly when no free block of at least n rounded up to 8 bytes exists, and then changes nothing.", "quantifier": "every reachable state and every n > 0", "why_tests_cant": "First-fit search over quick lists and the pool list depends on the free-list state.", "anchors": ["memory/StaticMemAllocator.hpp", "StaticMemAllocator::allocate"]}
{"id": "C54", "title": "Static allocator merge is safe", "statement": "memory_merge terminates, keeps free_mem_size() and all live blocks, never reduces max_free_mblock_size(), and afterwards no two adjacent blocks remain in the large-block list.", "quantifier": "every reachable state", "why_tests_cant": "Merging rewrites links in place while walking them; patterns of adjacency are unbounded.", "anchors": ["memory/StaticMemAllocator.hpp", "memory_merge_d", "quick_mem_memory_merge_d", "mem_pool_memory_merge_d"]}
{"id": "C55", "title": "Static allocator recovers everything after all is freed", "statement": "When every block has been deallocated and memory_merge has run, a request for the whole pool succeeds.", "quantifier": "every history ending with no live block", "why_tests_cant": "Fragmentation left behind depends on the order of frees.", "anchors": ["memory/StaticMemAllocator.hpp", "StaticMemAllocator::memory_merge"]}
{"id": "C56", "title": "Static allocator returns suitably aligned addresses", "statement": "Every address returned is a multiple of 8.", "quantifier": "every allocation in every reachable state", "why_tests_cant": "The alignment of a static object in one build says nothing about the layout guarantee.", "anchors": ["memory/StaticMemAllocator.hpp", "MEM_ALIGN_ROUND_UP", "mMemoryPool_d"]}
{"id": "C57", "title": "Static allocator ignores nonsensical requests", "statement": "allocate(n) with n <= 0 returns null and deallocate of null or a non-positive size returns false, without changing any state.", "quantifier": "every reachable state and every non-positive n", "why_tests_cant": "The effect of a zero request is only visible in later allocations.", "anchors": ["memory/StaticMemAllocator.hpp", "StaticMemAllocator::allocate", "StaticMemAllocator::deallocate"]}
{"id": "C58", "title": "Pool-backed port retries after merging", "statement": "port allocate over the static allocator returns a valid block whenever one exists after coalescing, and otherwise stops the program rather than returning null; port deallocate of a live block never crashes.", "quantifier": "every reachable allocator state and every positive request", "why_tests_cant": "The retry path is only entered for particular fragmentation patterns.", "anchors": ["port/static-memory/sma-dstruct-port.hpp: allocate, deallocate", "memory/StaticMemAllocator.hpp"]}
{"id": "C59", "title": "Size rounding is the least multiple of 8", "statement": "The size-class rounding maps every request n (0 < n <= INT_MAX-7) to the least multiple of 8 not below n.", "quantifier": "every int in the range", "why_tests_cant": "Bit-mask arithmetic over 2^31 values.", "anchors": ["memory/StaticMemAllocator.hpp", "MEM_ALIGN_ROUND_UP"]}
{"id": "C60", "title": "find and for_each algorithms", "statement": "find(b,e,v) returns the first position whose element equals v, or e when there is none; for_each applies the function exactly once to each element in order.", "quantifier": "every range and every value", "why_tests_cant": "A statement about every range length.", "anchors": ["core/algorithm.hpp", "dstruct::algorithm::find", "dstruct::algorithm::for_each"]}
{"id": "C61", "title": "The default comparators are strict total orders", "statement": "less and greater, including their pointer specialisations (address order with null as the least pointer), are strict total orders (irreflexive, transitive, any two different values comparable) and greater(a,b) is less(b,a).", "quantifier": "every triple of values or pointers, including null", "why_tests_cant": "Transitivity and asymmetry quantify over triples including mixtures of null and non-null.", "anchors": ["core/utils.hpp", "less", "greater"]}
{"id": "C62", "title": "Deque element lifetimes", "statement": "Every element object a deque brings to life is destroyed exactly once before its storage is released or reused.", "quantifier": "every element type and every finite history", "why_tests_cant": "A skipped destructor is invisible unless the element owns resources.", "anchors": ["core/ds/queue/DoubleEndedQueue.hpp", "DoubleEndedQueue::push_back", "DoubleEndedQueue::push_front", "DoubleEndedQueue::_resize"]}
{"id": "C63", "title": "max, abs and swap", "statement": "max(a,b) is one of its arguments and neither exceeds it; abs(a) is the absolute value of a; swap(a,b) exchanges two variables, also when both are the same one.", "quantifier": "every pair of values of a totally ordered type, every int, every pair of variables", "why_tests_cant": "Needs all values including INT_MIN, aliasing, and arbitrary move semantics of the element type.", "anchors": ["core/utils.hpp", "dstruct::max", "dstruct::abs", "dstruct::swap"]}
{"id": "C64", "title": "Moving a binary search tree transfers its elements", "statement": "Moving a BinarySearchTree (construction or assignment) gives the target the size, elements and lookups of the source, leaves the source empty and usable, releases exactly the nodes the target had before, and does nothing on self-assignment.", "quantifier": "every state any program reaches, including trees left unordered or with a surplus size", "why_tests_cant": "Ownership of every node after an arbitrary history of moves, pushes and removals is an invariant over all executions.", "anchors": ["core/ds/tree/BinarySearchTree.hpp", "BinarySearchTree::BinarySearchTree(BinarySearchTree&&)", "BinarySearchTree::operator="]}
{"id": "C65", "title": "Embedded lists are lists of client nodes", "statement": "The embedded-list functions init, empty, add and del, used within their preconditions on client-owned nodes, make each list consist of exactly the nodes added and not deleted, in the expected order (add puts the node after the given one), for the singly and the doubly linked form; walking forward and, for the doubly linked form, backward visits exactly those nodes once and comes back to the list head; a deleted node has null links and belongs to no list.", "quantifier": "every finite history over any number of lists and nodes", "why_tests_cant": "The link structure after arbitrary interleavings of insertions and deletions in several lists is an invariant over all histories, not a finite set of cases.", "anchors": ["core/ds/linked-list/EmbeddedList.hpp", "SinglyLink", "DoublyLink", "init", "empty", "add", "del"]}
{"id": "C66", "title": "Clients of the static allocator do not disturb each other", "statement": "A client holding a block from the static allocator reads back exactly what was last written to it through that block, whatever all clients allocate, give back, write and merge in between, as long as the block is not given back.", "quantifier": "every configuration, every reachable state, every finite sequence of permitted client steps", "why_tests_cant": "The allocator keeps its free lists inside the pool; that its bookkeeping never lands in memory a client holds is a property of all interleavings.", "anchors": ["memory/StaticMemAllocator.hpp", "allocate", "deallocate", "_merge_mem"]}
{"id": "C67", "title": "Deque iterators form a line", "statement": "The iterators of a deque in use form a line from begin() to end(): ++ and -- move to the neighbour, + n and - n move any distance inside the line, == holds exactly for equal positions, * reads the element at the position, and reading backward from end() to begin() gives the elements in reverse.", "quantifier": "every deque in use after every finite history", "why_tests_cant": "Iterators cross block boundaries that depend on the history of pushes, pops and re-centring.", "anchors": ["core/ds/queue/DoubleEndedQueue.hpp", "DoubleEndedQueueIterator_", "begin", "end"]}
{"id": "C68", "title": "List iterators stay with their element", "statement": "An iterator taken at an element of a doubly linked list, and the reference it gives, stays at that element across any further operations on any lists that do not remove it: it is found again at the element's new position, possibly in another list after a move, and reading through it gives the element's current value.", "quantifier": "every history, every element of every list, every further history that does not remove the element", "why_tests_cant": "Validity has to hold after every later history, and each test takes one iterator through one history.", "anchors": ["core/ds/linked-list/DoublyLinkedList.hpp", "core/ds/linked-list/LinkedList.hpp", "push_front", "push_back", "erase", "operator="]}
{"id": "C69", "title": "List iterators form a line", "statement": "The iterators of a doubly linked list form a line from begin() to end(): ++ and -- move between neighbours, two iterators are equal exactly when their positions are, and * reads the element at the position.", "quantifier": "every list after every finite history", "why_tests_cant": "A broken back link or a duplicated node only shows up when walking backward after particular histories of insertions and removals.", "anchors": ["core/ds/linked-list/DoublyLinkedList.hpp", "core/Iterator.hpp", "begin", "end"]}
{"id": "C70", "title": "Deque references stay valid", "statement": "A reference to a deque element stays valid across any further operations that do not remove the element: pushes and pops at either end, growth and re-centring of the block table, any use of other deques and moving this deque never relocate an element; reading through the reference gives the element's current value and indexing at its new position gives the same reference.", "quantifier": "every history, every element of every deque in use, every further history that does not remove the element", "why_tests_cant": "Blocks are handed over between tables whenever an end of the table is reached, at positions that depend on the whole history.", "anchors": ["core/ds/queue/DoubleEndedQueue.hpp", "_resize", "push_back", "push_front", "pop_back", "pop_front", "operator[]"]}
{"id": "C71", "title": "Vector references are valid exactly until the storage is given up", "statement": "The address of a vector element stays the address of that position as long as the storage is kept: across pushes with room left, pops that do not shrink, assignments, any use of other vectors, and moving the vector. Reads and writes through it are reads and writes of that position. After the storage is given up (growing when full, shrinking, resize, clear, assignment, end of lifetime) every access through the address is a use after free, in every later state.", "quantifier": "every history, every element of every vector in use, every further history that completes", "why_tests_cant": "Whether a particular push or pop reallocates depends on the size and capacity produced by the whole history, and a dangling read usually returns a plausible value in a test.", "anchors": ["core/ds/array/Vector.hpp", "operator[]", "begin", "push_back", "pop_back", "resize", "clear"]}
{"id": "C72", "title": "Vector and Array iterators are random-access iterators", "statement": "The iterators of a vector or array form a line from begin() to end(): ++, --, it++, it--, it + n and it - n move between positions, distance(first, last) is the difference of the positions, two iterators are equal exactly when their positions are, * reads the element at the position, and writing through an iterator assigns exactly that position.", "quantifier": "every vector in every state a history completes in; every array of every length below 2^31 after every history", "why_tests_cant": "Pointer arithmetic outside the storage is undefined but usually harmless when run, so tests do not notice an iterator that leaves it.", "anchors": ["core/Iterator.hpp", "PrimitiveIterator", "distance", "core/ds/array/Vector.hpp", "core/ds/array/Array.hpp", "begin", "end"]}
{"id": "C73", "title": "AVLTree and Map references stay with their element", "statement": "An iterator to an element of a tree keeps referring to that element, and find keeps giving that iterator, whatever else is inserted into or removed from this tree or others, as long as the element itself is not removed; likewise a reference obtained from m[key] keeps referring to the value of that key until the key is removed.", "quantifier": "every reachable state, every element, every finite list of further statements that does not remove it", "why_tests_cant": "Rotations and removals relink nodes in ways that depend on the whole shape of the tree; an implementation that moves a value between nodes passes every test that looks elements up afresh.", "anchors": ["core/ds/tree/AVLTree.hpp", "core/ds/Map.hpp", "core/ds/tree/BinarySearchTreeBase.hpp", "find", "pop", "erase", "operator[]"]}
{"id": "C74", "title": "Vector growth and shrinking are amortised constant", "statement": "However push_back and pop_back are interleaved, the number of element constructions (new elements plus elements carried over to new storage) stays within a constant per operation (4 per push_back, 2 per pop_back) plus a multiple of the sizes explicitly asked for by sized constructors, resize and copies; filling a new vector with n elements allocates at most log2 n + 1 times.", "quantifier": "every history of vector operations that completes, any number of vectors, any element type", "why_tests_cant": "An asymptotic bound over all interleavings; a shrink rule that thrashes at a boundary is correct on every test and only slow on particular sequences.", "anchors": ["core/ds/array/Vector.hpp", "push_back", "pop_back", "resize"]}
{"id": "C75", "title": "Heap operations move a logarithmic number of elements", "statement": "push on a heap of n elements assigns at most 2 log2(n+1) elements and pop at most 1 + 2 log2(n-1); building a heap from n elements constructs and assigns at most 4n+3 elements and sorting a range of n elements at most 8n + 3 + 2 n log2 n; constructing a heap and then n push and pop operations in any order constructs and assigns at most n (4 + 2 log2 n) + 2 elements, relocations of the storage included, whatever the comparator answers.", "quantifier": "every history of heap operations that completes, any number of heaps, any comparator, any element type, sizes below 2^31", "why_tests_cant": "An asymptotic bound over all inputs and all interleavings; an implementation that sifts through the wrong nodes or rebuilds on every operation gives the right results in every functional test.", "anchors": ["core/ds/Heap.hpp", "_adjust_up", "_adjust_down", "push", "pop", "sort", "build"]}
{"id": "C76", "title": "Tree lookups touch one path", "statement": "find(x) on an AVL tree or map of n elements consults at most 2 log2(n+1) + 1 nodes, and on a binary search tree at most as many nodes as the tree is high: it gives the same result, without a fault, in any memory that agrees on these nodes, even if all other nodes are released; it changes nothing.", "quantifier": "every state reached by statements that meet their preconditions and are not one of the defective uses of C37-C46, every strict weak order, every element looked up", "why_tests_cant": "A cost and footprint bound over all reachable shapes; a find that wanders through other nodes returns the same answers in every functional test.", "anchors": ["core/ds/tree/BinarySearchTreeBase.hpp", "core/ds/tree/AVLTree.hpp", "core/ds/tree/BinarySearchTree.hpp", "core/ds/Map.hpp", "_find", "find"]}
{"id": "C77", "title": "XValueStack objects are values", "statement": "Copy and move assignment of extremum stacks keep elements, extremum and comparator together: a copy has those of its source and is independent of it, a moved-from stack is empty and usable, and all storage is released exactly once.", "quantifier": "every history of constructions, pushes, pops, clears, copies, moves and destructions of any number of stacks, every order and comparator family, every element type", "why_tests_cant": "Sharing between objects, double release and leaks only show for particular interleavings of copies, moves and later updates, over unboundedly many objects.", "anchors": ["core/ds/stack/XValueStack.hpp", "core/ds/stack/Stack.hpp", "operator=", "dstruct.hpp"]}
{"id": "C78", "title": "XValueStack iteration visits the elements", "statement": "A range-for loop over an extremum stack visits exactly its elements, from the bottom to the top.", "quantifier": "every stack state reached by any history, every comparator", "why_tests_cant": "Which values the underlying storage holds besides the elements depends on the whole history of extrema.", "anchors": ["core/ds/stack/XValueStack.hpp", "core/ds/stack/Stack.hpp", "begin", "end"]}
{"id": "C79", "title": "DisjointSet objects are values", "statement": "Copying a disjoint set gives an object with the same classes, and from then on connecting elements in one does not affect the other; moving transfers the classes and leaves an empty object; all storage is released exactly once.", "quantifier": "every history of constructions, finds, connects, copies, moves and destructions of any number of disjoint sets of any sizes below 2^31", "why_tests_cant": "find compresses paths, so even queries write to the storage; sharing shows only for particular interleavings over unboundedly many objects.", "anchors": ["core/ds/set/DisjointSet.hpp", "operator=", "find", "connect", "core/ds/array/Vector.hpp"]}
{"id": "C80", "title": "Stack is LIFO over every container it is used with", "statement": "Over a DoubleEndedQueue or a DoublyLinkedList as well, after any history of push, pop, clear, copy, move and destruction, top() is the most recent element not yet popped, size() counts them, and iteration visits them from the bottom to the top.", "quantifier": "every history meeting the preconditions, any number of stacks, every element type, every block size and block placement of the deque", "why_tests_cant": "examples/stack pushes one hundred integers once; the failures found depend on where the allocator places blocks and on moving empty stacks.", "anchors": ["core/ds/stack/Stack.hpp", "examples/stack/stack.cpp", "core/ds/queue/DoubleEndedQueue.hpp", "core/ds/linked-list/DoublyLinkedList.hpp"]}
{"id": "C81", "title": "String operators with C strings", "statement": "For a string s with characters x and a C string denoting l: s == str, str == s are true exactly when x = l; s != str, str != s and s1 != s2 are the negations; s + str is x ++ l and str + s is l ++ x. No string that existed before changes and no temporary is left behind.", "quantifier": "every reachable state of any number of strings, all strings and C strings (any length below 2^31 - 1), every character type", "why_tests_cant": "The operators nest copies of copies of their arguments; leaks, sharing and the out-of-bounds read of the empty C string do not show in a test that compares results.", "anchors": ["core/ds/string/BasicString.hpp", "operator+", "operator==", "operator!="]}
{"id": "C82", "title": "Tree iterators are values", "statement": "An iterator of a binary tree or AVL tree denotes a position in the pre-order or in-order sequence. Under any history of begin, end, copy and move construction and assignment, ++it, it++ and destruction: copies advance independently, it++ yields the old position, dereferencing gives the node at the position, == compares positions, end() stays end(), and the tree is unchanged. An iterator that was moved from keeps comparing and dereferencing as before, but cannot be advanced.", "quantifier": "every tree of any shape and size, any number of iterators, every history of iterator operations", "why_tests_cant": "An iterator caches the data address separately from the link it advances; the two can only disagree after particular sequences of moves and increments, for unboundedly many shapes and histories.", "anchors": ["core/ds/tree/BinaryTree.hpp:18-95", "core/ds/tree/AVLTree.hpp:42-83", "spec/DStructSpec.hpp:88-113"]}
{"id": "C83", "title": "Queue objects are values and can be indexed", "statement": "Over a DoubleEndedQueue or a DoublyLinkedList, copying a queue gives an equal queue that is independent from then on, moving transfers the elements and leaves an empty usable queue; over a deque q[i] is the i-th oldest element and q[-i] the i-th newest.", "quantifier": "every history of construction, push, pop, copy, move and destruction of any number of queues, every element type, block size and block placement", "why_tests_cant": "examples/queue only pushes and pops one queue; copies, moves and indexing cross arbitrarily many block boundaries and interleavings.", "anchors": ["core/ds/queue/Queue.hpp:27-75", "core/ds/queue/DoubleEndedQueue.hpp", "core/ds/linked-list/DoublyLinkedList.hpp"]}
{"id": "C84", "title": "Heap elements by index", "statement": "In every state a program can reach, the elements of a heap are h[1], ..., h[size()] in iteration order (h[-1], ..., h[-size()] from the back), h[1] is top(), an element never precedes the one at half its index, larger indices are rejected, size() and empty() agree with the contents, and size() <= capacity(); a push changes the capacity exactly if the heap is full, to one more than twice the size.", "quantifier": "every legal history over any number of heaps of at most 2^30 elements that runs to completion, every element type, every comparator that implements a total preorder", "why_tests_cant": "The heap order between positions i/2 and i after unboundedly many pushes and pops; tests look only at top().", "anchors": ["core/ds/Heap.hpp:62-83"]}
{"id": "C85", "title": "DisjointSet operations take logarithmic time on average", "statement": "Any sequence of k operations (find, connected, connect) on n elements that completes follows, and rewrites, at most k(3 log2 n + 4) parent links altogether.", "quantifier": "every n from 1 to 2^31-1 and every completing sequence of operations on valid indices, in any order, including redundant connects", "why_tests_cant": "It is an amortised bound: single operations can be linear, and the bound holds only over whole histories, of which there are infinitely many.", "anchors": ["core/ds/set/DisjointSet.hpp", "DisjointSet::find", "DisjointSet::union_set"]}
{"id": "C86", "title": "A single DisjointSet find follows at most log2 n links", "statement": "Because the sets are joined by rank, no path in the forest is longer than log2 n, so a single find follows at most log2 n links; right after a find of an element, finding it again follows at most one.", "quantifier": "every reachable state and every element", "why_tests_cant": "The depth depends on the whole history of unions; only adversarial orders make it linear.", "anchors": ["core/ds/set/DisjointSet.hpp", "DisjointSet::find", "DisjointSet::union_set"]}
{"id": "C87", "title": "DisjointSet rejects arguments that are not elements", "statement": "find, connected and connect called with an index outside 0..n-1 stop at an assertion instead of answering.", "quantifier": "every reachable state and every int outside the range", "why_tests_cant": "The behaviour depends on the shape of the forest at that moment, not only on the index.", "anchors": ["core/ds/set/DisjointSet.hpp", "core/ds/array/Vector.hpp", "DisjointSet::find", "DisjointSet::connected", "DisjointSet::connect"]}
{"id": "C88", "title": "The public union_set joins the classes of its arguments", "statement": "union_set(a, b) leaves the object in the state connect(a, b) would leave it in.", "quantifier": "every reachable state and all elements a and b", "why_tests_cant": "For elements that are not representatives the damage appears only in later calls, as non-termination.", "anchors": ["core/ds/set/DisjointSet.hpp", "DisjointSet::union_set", "DisjointSet::connect"]}
{"id": "C89", "title": "Deque growth is amortised", "statement": "Pushing and popping at both ends of a new deque allocates in total at most two blocks and room for sixteen elements per push, and the capacity never exceeds two blocks and eight elements per push (on a platform where no block ends where an earlier allocated one begins).", "quantifier": "all histories of pushes and pops at either end without a pop on empty, all block sizes", "why_tests_cant": "Whether the table doubles too often depends on where the elements are within it, and so on the whole history of pushes and pops.", "anchors": ["core/ds/queue/DoubleEndedQueue.hpp", "DoubleEndedQueue::_resize", "DoubleEndedQueue::push_back", "DoubleEndedQueue::push_front"]}
{"id": "C90", "title": "Deque storage follows its contents", "statement": "The capacity of a deque stays within a constant factor of the largest number of elements it ever held, plus a constant.", "quantifier": "all histories of pushes and pops at either end without a pop on empty, all block sizes", "why_tests_cant": "Short runs stay within the first blocks; the growth shows only after many operations on a deque that is almost empty.", "anchors": ["core/ds/queue/DoubleEndedQueue.hpp", "DoubleEndedQueue::_resize", "DoubleEndedQueue::pop_front", "core/ds/queue/Queue.hpp"]}
{"id": "C91", "title": "Tree updates work on logarithmically many nodes", "statement": "On an AVL tree of n elements, push(x) of a new element reads, writes, allocates or releases at most 36 log2(n+1) + 20 nodes, pop(x) of a present element (or on an empty tree) at most 32 log2(n+1) + 26, and erase(find(x)), unless x is in a root with fewer than two children, at most 48 log2(n+1) + 38. The same bounds hold for push and pop of a map of n keys, and m[key] works on at most 40 log2(n+1) + 25 nodes, whether it inserts the key or not. All rebalancing is included. The operation returns the same result and makes the same changes in any memory that agrees on these nodes, even if all other nodes are released, and changes no other node.", "quantifier": "every state reached by statements that meet their preconditions and are not one of the defective uses of C37-C46, every strict weak order, every element", "why_tests_cant": "A bound on the nodes touched by rebalancing over all reachable shapes; an update that visits or rewrites unrelated nodes with the values they already have passes every functional test.", "anchors": ["core/ds/tree/AVLTree.hpp", "core/ds/tree/EmbeddedBinaryTree.hpp", "core/ds/Map.hpp", "_insert", "_delete", "_delete_by_target", "_rebalance_after_delete", "_check_and_balance", "swap_node", "operator[]"]}
{"id": "C92", "title": "A vector that runs out of memory stops or is right", "statement": "Let the allocator deny any requests it likes by returning a null pointer. A history of legal vector operations, outside the defective uses of C04 and C07, then either runs to its end, and every vector shows exactly the specified elements and capacity, no object is lost and nothing leaks, or it is stopped by the library's null-pointer check. A denied request stops the operation at once if there is something to put into the new storage (filling constructor, push_back on a full vector, resize(n, x), resize(n) or copy of elements). resize(n) of a vector without elements returns although it has no storage, capacity() reports n, and the next push_back is stopped.", "quantifier": "every choice of denied requests, every history, every element type and every number of vectors", "why_tests_cant": "Allocation failures hardly ever happen in tests, and every combination of history and failing request is a separate run.", "anchors": ["core/ds/array/Vector.hpp", "core/common.hpp", "port/libc/libc-dstruct-port.hpp", "resize", "push_back", "construct", "destroy", "DSTRUCT_CRASH"]}
{"id": "C93", "title": "The AVL node exchange swaps any two nodes of a tree", "statement": "_swap_node(a, b), the helper of deletion, puts two nodes of a tree into each other's place: afterwards every parent, left and right link, and the root pointer, is the old one with a and b renamed into each other; values stay with their nodes, heights with their places, and nothing else changes. The reference parameters come back exchanged, except when a was a child of b.", "quantifier": "every tree, every two nodes of it in any relation (equal, parent and child in either order and on either side, ancestor, unrelated, siblings), with or without the root", "why_tests_cant": "Deletion only ever calls the helper with a node and its in-order successor, so most relations are never exercised by tests of the public interface.", "anchors": ["core/ds/tree/AVLTree.hpp", "_swap_node"]}
{"id": "C94", "title": "Vectors work in the static pool", "statement": "Vectors whose memory comes from StaticMemAllocator behave, whatever operations are performed on any number of them, exactly as vectors with memory of their own: every legal history ends with every vector showing the elements and the capacity it should, the storage of different vectors and the free blocks do not overlap although the allocator keeps its links inside the freed storage, free_mem_size() is the size of the pool minus the storage of the vectors alive, and all of it is free when no vector is left. The only exception is lack of memory, which stops the program; it does so only in an operation that makes a vector larger, and exactly if no free block is large enough even after merging.", "quantifier": "every legal pool configuration of less than half the int range, every element type with objects of any number of bytes, any encoding and any destructor effect, every number of vectors, every history", "why_tests_cant": "Corruption needs particular interleavings of growing and shrinking vectors whose freed storage is reused while its old bytes hold allocator links; exhaustion depends on the fragmentation reached by the whole history.", "anchors": ["core/ds/array/Vector.hpp", "memory/StaticMemAllocator.hpp", "port/static-memory/sma-dstruct-port.hpp", "dstruct-static.hpp", "resize", "push_back", "pop_back", "allocate", "deallocate"]}
{"id": "C95", "title": "Deque iterators stay with their element", "statement": "An iterator of a deque stays with its place whatever is done afterwards, as long as its place is not taken away (by popping it, or by clearing, overwriting, moving or destroying the deque): pushes and pops at either end change its distance from begin() in the expected way only, the iterator obtained anew for that position is the very same, and reading through it gives the element that is there.", "quantifier": "every block size, every history before and after taking the iterator, every number of deques, every position including end()", "why_tests_cant": "An iterator contains the index of its block in the table; that index only becomes wrong when the table grows, and the wrong index only shows when the iterator later crosses the end of a block.", "anchors": ["core/ds/queue/DoubleEndedQueue.hpp", "DoubleEndedQueueIterator_", "operator++", "_resize", "push_back", "push_front"]}
{"id": "C96", "title": "Requests of one size use the whole static pool", "statement": "Let all clients of a static memory allocator request only sizes that, rounded up to 8, are multiples of d, and let them allocate, give back, merge and write in any order. Then a request (of at most INT_MAX - 8 bytes) that takes d bytes succeeds exactly when free_mem_size() is at least d, and the port's allocate returns a block without merging in this case and stops the program otherwise. In particular, if every request takes d bytes, exactly MEM_SIZE / d blocks can be held at the same time, however blocks were given back before.", "quantifier": "every legal configuration of the allocator, every size d and every history of the clients", "why_tests_cant": "Fragmentation depends on the whole history of requests and on the order in which blocks are returned; a test sees a few histories for one pool size.", "anchors": ["memory/StaticMemAllocator.hpp", "port/static-memory/sma-dstruct-port.hpp", "allocate", "deallocate", "free_mem_size", "memory_merge"]}
{"id": "C97", "title": "Linked lists work in the static pool up to exactly the number of nodes that fit", "statement": "With the static allocator, reached through the port or used directly as by the containers of dstruct-static.hpp, every history of operations on any number of doubly linked lists (or of singly linked lists) in a fresh pool that is legal for sequences and avoids the situations in which these lists go wrong with any allocator (C26, C28, C29, C30) runs to its end if and only if after each operation the lists together have at most floor(M / node size) elements; every list then shows exactly its elements in all observers, free_mem_size() is the pool size minus one node per element, and an emptied world has all memory back. Otherwise the history stops for lack of memory and nothing else goes wrong: address reuse, splitting and merging of blocks never make nodes overlap, and fragmentation never makes an insertion fail early.", "quantifier": "all legal allocator configurations, all element layouts with a node size that fits into int, all pointer representations, all histories over any number of lists", "why_tests_cant": "A test runs a few histories on one pool size; the claim is about every history and pool and says that the last node that fits can always be obtained whatever was freed before.", "anchors": ["core/ds/linked-list/LinkedList.hpp", "core/ds/linked-list/DoublyLinkedList.hpp", "core/ds/linked-list/SinglyLinkedList.hpp", "memory/StaticMemAllocator.hpp", "port/static-memory/sma-dstruct-port.hpp", "AllocSpec", "dstruct-static.hpp"]}
{"id": "C98", "title": "Without merging the pieces of the static pool only get smaller", "statement": "As long as memory_merge is not called (the containers of dstruct-static.hpp never call it), every block of the static memory allocator, free or held by a client, lies inside a block of any earlier state. So a request larger than every block of some state is refused for ever after, however much is given back; after a first request of k bytes no request exceeding both k and the rest of the pool succeeds; and once clients requesting d bytes each have filled the pool, nothing larger than d is ever granted, even when the whole pool is free again.", "quantifier": "every supported pool, every history of requests, returns and writes after any reachable state", "why_tests_cant": "The claim is about all later histories, of any length, and about all pool sizes.", "anchors": ["memory/StaticMemAllocator.hpp", "StaticMemAllocator::allocate_d", "StaticMemAllocator::deallocate_d", "dstruct-static.hpp"]}
{"id": "C99", "title": "Vectors that use the static allocator directly", "statement": "Vectors as dstruct-static.hpp defines them, which get the result of StaticMemoryAllocator::allocate without merging and without a null check, behave as vectors with memory of their own until memory runs out: every legal history returns with every vector showing the elements and the capacity it should, storage in the pool without overlaps, and free_mem_size() the size of the pool minus the storage held, or stops at a null pointer and does nothing worse. An operation stops exactly if its request for storage is refused and there is something to put into the storage, or if an earlier refusal left the vector without storage. A vector that reports a capacity has storage for it.", "quantifier": "every legal pool configuration of less than half the int range, every element type with objects of any number of bytes, any encoding and any destructor effect, every number of vectors, every history", "why_tests_cant": "A refused request is noticed only when something is written to the storage, possibly many operations later; whether it is refused depends on the fragmentation reached by the whole history.", "anchors": ["dstruct-static.hpp", "core/ds/array/Vector.hpp", "memory/StaticMemAllocator.hpp", "resize", "push_back", "pop_back", "allocate", "deallocate"]}
{"id": "C100", "title": "How many elements push_back can put into the static pool", "statement": "A vector that is alone in a fresh static pool and is filled by push_back only holds all its elements, in order, exactly if the doublings of its storage fit: n elements of w bytes need a power of two cap >= n, cap >= 2, with w * (2 * cap - 2) at most the size of the pool; otherwise the program stops at a null pointer. The condition is the same with the merging port (ENABLE_SMA) and with the allocator used directly (dstruct-static.hpp). So elements added one by one never take more than half of the pool and one element, whereas after resize(n) a vector takes n elements exactly if n elements fit into the pool.", "quantifier": "every legal pool configuration of less than half the int range, every element type whose size is a multiple of four bytes (twice it in the int range; for resize any size), with any encoding and destructor effect, every list of elements", "why_tests_cant": "The limit depends on where each storage block of the vector lies among the pieces left by the earlier ones, for every pool size and element size.", "anchors": ["core/ds/array/Vector.hpp", "push_back", "resize", "memory/StaticMemAllocator.hpp", "allocate", "deallocate", "port/static-memory/sma-dstruct-port.hpp", "dstruct-static.hpp"]}
{"id": "C101", "title": "Trees whose nodes live in the static pool", "statement": "Binary search trees and AVL trees whose nodes come from the static memory pool (smemory::BSTree of dstruct-static.hpp, or ENABLE_SMA) behave as trees with memory of their own. A program over any number of binary search trees that returns there, even one whose removals leave a tree unordered, returns in the pool with the same results and the same observations, exactly if after each statement no more nodes are allocated than fit into the pool; otherwise it stops for lack of memory and in no other way. For binary search trees and AVL trees used without the documented defects: the program returns with the specified results and every tree shows exactly its set exactly if the sets together never have more elements than nodes fit into the pool, the height of an AVL tree stays logarithmic, free_mem_size() is the size of the pool minus one node per element, and all of the pool is free when the trees are empty.", "quantifier": "every legal pool configuration, both ways of reaching the allocator, every element type of whole words with any encoding and destructor effect, every representation of pointers in one word, every comparison (irreflexive for the first part, strict weak for the second), every number of trees, every program", "why_tests_cant": "Links, heights and values share the pool with the free list, and nodes are reused after removal in any order; one overlapping or lost block shows only for particular histories, and whether a push finds room depends on the whole history.", "anchors": ["dstruct-static.hpp", "core/ds/tree/BinaryTree.hpp", "core/ds/tree/BinarySearchTree.hpp", "core/ds/tree/AVLTree.hpp", "memory/StaticMemAllocator.hpp", "port/static-memory/sma-dstruct-port.hpp", "push", "pop", "erase", "clear"]}
{"id": "C102", "title": "The int arithmetic of Vector", "statement": "Vector counts its loops with int and hands element and byte counts to the allocator as int. A legal history (outside C04 and C07) in which the storage of every vector stays below 2^31 bytes returns with these counters, leaks nothing, and every vector shows exactly its list. The limit is exact for push_back: appending to a full vector whose doubled storage would have 2^31 bytes or more stops at a null pointer. A resize(n) of a new vector for 2^31 bytes or more returns and capacity() reports n, but there is storage for fewer elements only: the byte count is reduced modulo 2^32 and taken for a signed number, a negative count gets no storage, and the first push_back beyond the real storage writes out of bounds, or to a null pointer if there is none.", "quantifier": "every size of the element type, every legal history over any number of vectors, every n of 2^31 bytes or more", "why_tests_cant": "The conversions go wrong only for vectors of two gigabytes and more, and the limit depends on the size of the element type; tests do not allocate that much.", "anchors": ["core/ds/array/Vector.hpp", "spec/DStructSpec.hpp", "Vector::resize", "Vector::push_back", "AllocSpec::allocate"]}
{"id": "C103", "title": "Maps whose nodes live in the static pool", "statement": "Maps whose nodes come from the static memory pool (ENABLE_SMA, or a tree with that allocator as DStruct) behave as maps with memory of their own. A program over any number of maps without the documented defective uses returns with the specified results, and every map shows exactly its pairs in key order, exactly if after each statement the maps together have no more keys than nodes fit into the pool; otherwise it stops for lack of memory and in no other way, also when the key is inserted by operator[] in the middle of an assignment m[a] = n[b]. free_mem_size() is the size of the pool minus one node per key. A reference m[key] stays at the same address of the pool, reads the current value of the key and writes only that value, as long as the key is not removed.", "quantifier": "every legal pool configuration, both ways of reaching the allocator, every key and value type of whole words with any encoding and destructor effect, every representation of pointers in one word, every strict weak order of the keys, every number of maps, every program", "why_tests_cant": "Whether operator[] needs a node depends on the keys, and the node is taken from memory shared with the free list while another reference is held; a lost or moved value shows only for particular histories.", "anchors": ["core/ds/Map.hpp", "core/ds/tree/AVLTree.hpp", "core/ds/tree/BinaryTree.hpp", "memory/StaticMemAllocator.hpp", "port/static-memory/sma-dstruct-port.hpp"]}
{"id": "C104", "title": "The replies of a DisjointSet do not depend on the order of evaluation", "statement": "Whichever orders of evaluation the compiler picks where the language leaves them open (the operands of the assignment in find, of the comparison in connected), a history of find, connected and connect on valid indices gives the same replies in all of them or terminates in none; find returns the representative that follows from the rule that connect(a, b) gives the class of b the representative of a.", "quantifier": "every size, every history on valid indices including redundant connects, every choice of orders made anew in each call", "why_tests_cant": "A test sees the one order its compiler picked; path compression writes to the array while the other operand still has to be evaluated.", "anchors": ["core/ds/set/DisjointSet.hpp", "DisjointSet::find", "DisjointSet::connected", "DisjointSet::connect", "xmake.lua"]}
{"id": "C105", "title": "Heaps in the static pool behave as priority queues or the program stops for lack of memory", "statement": "Heaps and priority queues whose storage comes from the static memory allocator follow the specification of priority queues, whatever their size, as long as the pool does not run out; their storage lies in the pool, apart from that of all other heaps and from the free blocks, the free memory reported is the pool size minus the storage of the heaps alive, and all of it is free again when the last heap is destroyed. A push stops the program exactly if the heap's storage is full and no free block holds twice the elements; a construction or a move into a new heap exactly if there is no room for one more sentinel; destroying never; a pop only if the storage shrinks. Heap::sort of a vector in the pool stops or leaves the elements in order, with all other vectors and the amount of free memory as before. (Copying heaps of types with a non-trivial destructor is excluded: C17.)", "quantifier": "every legal pool configuration of less than half the int range, reached through the merging port (ENABLE_SMA), element type of any number of bytes (twice it in the int range), every comparison that is a total preorder, every legal history on any number of heaps (ranges given to constructors of fewer than 2^30 elements)", "why_tests_cant": "The stop depends on the fragmentation left by the whole history and on where the growing storage of each heap ends up; a test sees a few fill levels of one pool.", "anchors": ["core/ds/Heap.hpp", "Heap::push", "Heap::pop", "Heap::sort", "dstruct-static.hpp", "memory/StaticMemAllocator.hpp"]}
{"id": "C106", "title": "Strings in the static pool behave as character sequences or the program stops for lack of memory", "statement": "Strings whose storage comes from the static memory allocator follow the specification of character sequences as long as the pool does not run out: every string shows its characters, c_str() points into the pool to those characters followed by NUL, the storage of each string lies in the pool apart from that of all other strings and from the free blocks, the free memory reported is the pool size minus the storage of the strings alive, and all of it is free again when the last string is destroyed. Constructing a string returns whenever some free block has room for both storages that the constructor requests; push_back stops the program only if the string's storage is full, += only if the result does not fit into it, and writing, moving and destroying never do. == stops or tells whether the sequences are equal, with no string and no amount of free memory changed.", "quantifier": "every legal pool configuration of less than half the int range, reached through the merging port (ENABLE_SMA), every character type of any number of bytes (fifteen of them in the int range), every legal history on any number of strings", "why_tests_cant": "Each string constructs twice and reallocates as it grows, so where its characters and the NUL end up depends on the whole history; a NUL overwritten by a neighbouring block shows only for particular histories.", "anchors": ["core/ds/string/BasicString.hpp", "core/ds/array/Vector.hpp", "dstruct-static.hpp", "memory/StaticMemAllocator.hpp", "port/static-memory/sma-dstruct-port.hpp"]}
{"id": "C107", "title": "Stacks in the static pool are last-in first-out or the program stops for lack of memory", "statement": "Stacks, minimum stacks and maximum stacks whose storage comes from the static memory allocator follow the specification of stacks as long as the pool does not run out: every stack shows its elements and their extremum, its storage lies in the pool apart from that of all other stacks and from the free blocks, the free memory reported is the pool size minus the storage of the stacks alive, and all of it is free again when the last stack is destroyed. A push stops the program only if the storage of the stack has no room for what it must save; if the storage is full, it stops exactly if no free block can hold twice as many entries. Popping stops it only if the storage shrinks, and clearing, moving, constructing and destroying never do.", "quantifier": "every legal configuration of the allocator, every element type of any size, every order and comparator family, every history of operations on any number of stacks", "why_tests_cant": "Whether the bytes of one stack are disturbed by the growth, shrinking, copying or moving of another depends on the whole history of allocations; tests see a few histories in a pool of one size.", "anchors": ["dstruct-static.hpp", "core/ds/stack/Stack.hpp", "core/ds/stack/XValueStack.hpp", "core/ds/array/Vector.hpp", "memory/StaticMemAllocator.hpp", "port/static-memory/sma-dstruct-port.hpp"]}
{"id": "C108", "title": "Disjoint sets in the static pool keep their classes or the program stops for lack of memory", "statement": "Disjoint sets whose array comes from the static memory allocator follow the specification of disjoint sets as long as the pool does not run out: every set shows its own number of elements, number of classes and connections, its array lies in the pool apart from those of all other sets and from the free blocks, the free memory reported is the pool size minus the arrays of the sets alive, and all of it is free again when the last set is destroyed. Constructing a set of n elements stops the program exactly if no free block can hold n ints; find, connected, connect, moving and destroying never stop it.", "quantifier": "every legal configuration of the allocator, every history of constructions, finds, connects, copies, moves and destructions of any number of disjoint sets", "why_tests_cant": "Path compression rewrites the array on every query, and whether these writes stay inside the array of the right set depends on the whole history of allocations; tests see a few histories in a pool of one size.", "anchors": ["dstruct-static.hpp", "core/ds/set/DisjointSet.hpp", "core/ds/array/Vector.hpp", "memory/StaticMemAllocator.hpp", "port/static-memory/sma-dstruct-port.hpp"]}
{"id": "C109", "title": "Containers of different classes share the static pool without disturbing each other", "statement": "When vectors, strings, heaps, stacks, extremum stacks, disjoint sets, linked lists, queues and stacks over lists, search trees, maps and deques of any element types take their storage from the one static memory allocator and their operations interleave in any order, each class behaves as if it had the pool for itself as long as memory suffices: every operation returns what it should, every object shows what its own operations made of it, an operation on an object of one class changes no cell of a buffer or node of another class, all buffers, nodes, blocks and tables lie in the pool apart from each other and from the free blocks, and the free memory reported is the pool size minus those of all objects alive, so that everything is free when the last object is gone. If memory does not suffice, the program stops in an operation that requests storage no free block can hold.", "quantifier": "every legal configuration of the allocator, every number and choice of classes, element types, orders and comparators, every interleaving of legal histories", "why_tests_cant": "The blocks of the classes have different sizes and lifetimes, and whether one class is handed storage of another depends on the interleaving of all their allocations and releases; tests exercise one container at a time.", "anchors": ["memory/StaticMemAllocator.hpp", "port/static-memory/sma-dstruct-port.hpp", "dstruct-static.hpp", "core/ds/array/Vector.hpp", "core/ds/string/BasicString.hpp", "core/ds/Heap.hpp", "core/ds/stack/Stack.hpp", "core/ds/stack/XValueStack.hpp", "core/ds/set/DisjointSet.hpp", "core/ds/queue/Queue.hpp", "core/ds/linked-list/DoublyLinkedList.hpp", "core/ds/linked-list/SinglyLinkedList.hpp", "core/ds/tree/BinarySearchTree.hpp", "core/ds/tree/AVLTree.hpp", "core/ds/Map.hpp", "core/ds/queue/DoubleEndedQueue.hpp"]}
{"id": "C110", "title": "Static allocator takes the best small block, the lowest large block", "statement": "A successful allocate(n) takes the front of exactly one free block and leaves every other free block alone; what remains of that block, if anything, becomes one free block. If n is at most MAX_BLOCK_SIZE and a block outside the large-block list is big enough, the block taken is the smallest such block, with the lowest address among equals; otherwise it is the lowest-addressed large block that is big enough. deallocate adds exactly the returned block, rounded up to 8 bytes, to the free blocks. Every free block larger than MAX_BLOCK_SIZE is on the large-block list, and every block on that list is larger than MAX_BLOCK_SIZE or is the whole pool. A new pool is one large block.", "quantifier": "every legal configuration, every reachable state, every request n with 0 < n and n + 8 <= INT_MAX, every live block given back", "why_tests_cant": "Which block is taken depends on the whole free-list state that all earlier allocations, releases and merges left behind; a test sees only the address it gets.", "anchors": ["memory/StaticMemAllocator.hpp", "StaticMemAllocator::allocate", "StaticMemAllocator::deallocate", "quick_mem_allocate_d", "mem_pool_allocate_d"]}
{"id": "C111", "title": "Deques in the static pool are sequences", "statement": "With ENABLE_SMA, where the blocks and tables of all deques lie in one static pool: after any history of operations on any number of deques that runs to its end, each deque shows the sequence that the history defines: size(), iteration and indexing agree with it. The blocks and tables of the deques never overlap each other or the blocks of other clients of the pool, and when no deque is left every byte they took is free again. An operation does not complete only because the pool has no room.", "quantifier": "every pool, every block size, every element size, every history of new, push, pop, clear, write, copy, move and end of lifetime, every other use of the pool that went before", "why_tests_cant": "Deque iterators compare raw pointers, so whether iteration is right depends on the addresses the allocator chooses; these depend on the whole history of the pool.", "anchors": ["core/ds/queue/DoubleEndedQueue.hpp", "DoubleEndedQueue::_resize", "DoubleEndedQueue::push_back", "DoubleEndedQueue::_only_clear", "port/static-memory/sma-dstruct-port.hpp", "memory/StaticMemAllocator.hpp"]}
{"id": "C112", "title": "Queues and stacks in the static pool keep their elements", "statement": "With the static allocator, after any history of operations on any number of queues (adapter::Queue over a DoubleEndedQueue, as dstruct::Queue, or over a DoublyLinkedList) or stacks (adapter::Stack over one of them) that runs to its end, each queue shows the elements pushed and not yet popped, the oldest first, and each stack shows them with the newest on top: size(), empty(), front(), back(), top() and iteration agree. The containers' memory lies in the pool without overlapping other blocks and is free again when no queue or stack is left. A history does not run to its end only because the pool has no room.", "quantifier": "every pool, every element type and block size, every history of construction, push, pop, clear (stacks), copy, move and end of lifetime, for deques also every earlier use of the pool", "why_tests_cant": "Whether iteration works depends on where the allocator places blocks, which depends on the whole history of the pool; the failing placement needs an earlier client and an exact number of elements.", "anchors": ["dstruct.hpp", "port/static-memory/sma-dstruct-port.hpp", "core/ds/queue/Queue.hpp", "core/ds/stack/Stack.hpp", "core/ds/queue/DoubleEndedQueue.hpp", "core/ds/linked-list/DoublyLinkedList.hpp", "memory/StaticMemAllocator.hpp"]}
{"id": "C113", "title": "A queue in the static pool that stays short can be used for ever", "statement": "With the static allocator, a queue that never holds more than one element can take any number of pushes and pops, over a linked list as over a deque: the program does not stop for lack of memory, however long it runs.", "quantifier": "every pool, every element type, every block size, every number of rounds of one push and one pop", "why_tests_cant": "The memory of a deque-backed queue grows by one block per few rounds; whether a run of rounds stops depends on how many there are, and tests use few.", "anchors": ["core/ds/queue/Queue.hpp", "core/ds/queue/DoubleEndedQueue.hpp", "core/ds/linked-list/DoublyLinkedList.hpp", "port/static-memory/sma-dstruct-port.hpp", "memory/StaticMemAllocator.hpp"]}
