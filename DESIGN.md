# Formal model of DStruct: design

Target: the C++ header library in `/repo` (pinned commit), read as text.
Prover: Lean 4.33.0; of Mathlib only `Data.Multiset.Basic` (`Spec/Heap.lean`) and `Data.ENat.Basic`
(`DequePoolRel.lean`, a helper) are used.
Everything lives in `lean/Verif/`.

## 1. How C++ is modelled

**Programs.**  A member function is a Lean definition in the monad
`Prog σ α = σ → Option (Except Fault (α × σ))` (`Verif/Base.lean`):

* `some (.ok (a, s'))` - returns `a` in state `s'`;
* `some (.error f)` - the execution goes wrong.  `f : Fault` separates undefined
  behaviour (`nullDeref`, `useAfterFree`, `outOfBounds`, `uninit`, `badDestroy`,
  `badFree`, signed `overflow`) from a failed `DSTRUCT_ASSERT` (`assert`) and from
  `DSTRUCT_CRASH` (`crash`).  Undefined behaviour is never assumed away: it is an outcome
  that the safety theorems exclude and the counterexample theorems exhibit;
* `none` - the execution never terminates.

Theorems speak of programs through `Returns p s a s'`, `Faults p s e` and `Diverges p s`.
Pointer-chasing loops and recursive functions are `partial_fixpoint` definitions, so
termination is something that is *proved*, not something that comes from the
definition; non-termination (`DisjointSet`) is proved as well.

**Memory.**  Block or cell identifiers are natural numbers (or pointers built from them), an
allocation returns a fresh identifier, and identifiers are not reused (as in
CompCert).  Loads and stores through freed or never allocated identifiers are faults;
so is a deallocation with the wrong element count.  `malloc` is assumed to succeed, except
in C92, where the vector model runs over an allocator that denies arbitrary requests.  The
static allocator is the exception: it is modelled over one memory of addressed words, its
free lists are stored inside the blocks, and its null results are modelled exactly.

**Integers.**  Sizes and element counts are unbounded naturals/integers except where
the conversion is the point (`AllocSpec`, `Vector::operator[]`, `Array`,
`BasicString::size`, `StaticMemAllocator`, `abs`, and the loop counters and byte counts of
`Vector` in C102), where `int`/`size_t` behaviour is explicit.  `Heap` theorems carry the bound that its `int` child indices need.  All other
theorems therefore speak about executions in which every container holds fewer than 2^31
elements.

**Elements.**  The element type is an arbitrary Lean type.  Copying an element is
assumed to yield an equal value and not to fail.  Object lifetimes (which slots hold a
constructed object) are tracked for `Vector`, lists and `Deque`.

**Specification style.**  Each property theorem compares the model with a small
specification written with ordinary lists, finite sets or functions, in
`Verif/Spec/*.lean` or at the head of the property file, which does not mention the
model's helpers.  History properties quantify over finite programs (lists of statements over
any number of objects), run on the model and on the specification.  Property theorems are in
`Verif/Props/*.lean`; helper lemmas are elsewhere.  Next to each theorem an `example` shows a
concrete state that meets its hypotheses.

**False properties.**  When the code violates a property, the `_partial` theorem proves it
under an explicit guard and theorems named `_faults`, `_wrong`, `_leaks`, `_overflow`,
`_hangs`, ... prove, as generally as possible, what happens outside the guard.

## 2. Modules

| modules | code |
| --- | --- |
| `Base` | program monad, faults, weakest preconditions |
| `Vector*` | `core/ds/array/Vector.hpp` over blocks of slots, worlds of many vectors |
| `FixedArray*` | `core/ds/array/Array.hpp` |
| `Stack`, `XValueStack`, `Heap*`, `DisjointSet*`, `BasicString*` | `core/ds/stack/*`, `core/ds/Heap.hpp`, `core/ds/set/DisjointSet.hpp`, `core/ds/string/BasicString.hpp`, all running the `Vector` model itself |
| `LinkedList*`, `DList*`, `SList*`, `EmbeddedList*` | `core/ds/linked-list/*` at pointer level |
| `Deque*`, `Queue` | `core/ds/queue/*`: block table, iterators, re-centring, copy, move |
| `Tree*` | `core/ds/tree/BinaryTree.hpp`, `EmbeddedBinaryTree.hpp`, `tree-base.hpp` at pointer level |
| `AVL*` | `core/ds/tree/AVLTree.hpp` |
| `BST*` | `core/ds/tree/BinarySearchTree.hpp`, `BinarySearchTreeBase.hpp` |
| `Map*` | `core/ds/Map.hpp` over the AVL model |
| `SMA*`, `RoundUp` | `memory/StaticMemAllocator.hpp`, `port/static-memory/sma-dstruct-port.hpp` |
| `AllocSpec` | `spec/DStructSpec.hpp` (`AllocSpec`), `port/libc/libc-dstruct-port.hpp` |
| `Utils`, `Algorithm`, `Iterator` | `core/utils.hpp`, `core/algorithm.hpp`, `core/Iterator.hpp` |

`core/common.hpp` (`construct`, `destroy`, the copy/move macros) is modelled inside each of
these.

## 3. Properties: how each is proved, and what was found

`full` = proved as stated.  `partial` = false for the code in some situation (or restricted
by a stated hypothesis); see `MANIFEST.json` for the theorems.

| id | status | how / what is missing |
| --- | --- | --- |
| C01 | partial | Refinement of any history over a world of vectors to lists. `operator[]` rejects every index of a vector of 2^31 or more elements (`vector_index_huge_faults`); everything else is proved for every size, with loop counters and byte counts that are natural numbers (for the `int` of the code see C102). |
| C02 | full | Capacity function carried by the refinement. |
| C03 | full | Same refinement: no fault, no lost object, all blocks released at the end. |
| C04 | partial | `operator=` destroys slots that were never constructed; true for trivially destructible `T`, fault for all others (every copy of a non-empty vector). |
| C05 | full | Move leaves an empty usable source. |
| C06 | partial | An index below `-size()` passes the assertion and reads before the buffer. |
| C07 | partial | With `size()==capacity()` the argument is read after its buffer was freed. |
| C08 | partial | `int` narrowing of the byte count; exact bound 2^31. |
| C09 | partial | `int` loop counters: N < 2^31. `array_index_outside_faults` and `array_zero_length` describe the indices and the length outside the property. |
| C10 | partial | Without copies for every `T`; with copies only where C04 holds. |
| C11, C12 | partial | Pushing a value equal to the current extremum under a strict comparator makes `pop` drop an extra entry; full theorem for non-strict comparators. |
| C13 - C16 | partial | For every comparator compatible with a total preorder; permutation and heap order as invariants of the sift loops. Limit of 2^30 elements because child indices are computed in `int`; `heap_pop_overflow`, `heap_sort_overflow`, `heap_build_overflow` show it is exact. |
| C17 | partial | Move in full; copies where C04 holds. |
| C18 - C20 | partial | `connect` of two already connected elements makes the representative its own parent, and later calls on that class diverge. For histories with such `connect`s the outcome is described exactly: when they return (`dsu_returns_iff`), what each query does afterwards, and that `count()` is then too small. |
| C21 | partial | Empty input reads past its terminator. |
| C22 | partial | `s += s` of a non-empty string ends in a use after free. |
| C23 | partial | Moved-from strings report size 2^64-1. |
| C24, C25 | full | Ring invariant at pointer level, refinement to lists. |
| C26, C30 | partial | Moving from an empty list cross-links the sentinels; later calls fail an assertion. |
| C27 | partial | Guard of C26. |
| C28 | partial | The inherited `push` on an empty list and `pop` of the only element do not maintain the tail pointer. |
| C29 | partial | The copy of a non-empty list repeats the first element and keeps a tail into the source. |
| C31, C32, C36 | partial | Hypothesis `AdjUp`: deque iterators are compared by addresses, so a block that ends where an earlier allocated one begins confuses them; `deque_adjacent_wrong` and `queue_adjacent_wrong` are the witnesses. The project's own pool allocator places blocks so: C111 and C112 prove which programs go wrong there. The list-backed queue needs no hypothesis. Comparing a pointer into a released block to another pointer counts as a fault (`cmp`), so the theorems also say that no operation compares dangling pointers. |
| C33 | partial | Never-used deques have indeterminate iterators, cleared ones dangling iterators. |
| C34 | partial | Same cause, for the source of the copy. |
| C35 | partial | The moved iterators keep referring to the source's block table; almost every use of the destination stops at an assertion. |
| C37, C38, C40 | partial | Pointer-level refinement to ghost trees, for every program that avoids the defective uses of C41, C44 (which leave something that is not a tree). |
| C39 | partial | Popping an absent key of a non-empty tree dereferences null. |
| C41 | partial | Erasing a root with fewer than two children leaves the root pointer dangling or uses the released root. |
| C42 | partial | `begin()` of an empty tree dereferences null. |
| C43 | partial | BST: in every state any program reaches. AVL/Map: guard of C37. |
| C44 | partial | The implicit copy is memberwise: shared nodes, leaks on assignment. |
| C45 | partial | A duplicate push leaves the tree alone but increments the size. |
| C46 | partial | The two-children case dereferences null or leaves an unordered tree, for every such node. |
| C47, C49 | full | Every tree shape. |
| C48 | partial | `next_postorder` is right exactly for trees without right children; `traversal` starts at the first node instead of the root. |
| C50 | partial | Every program of the named statements; `begin()` of an empty map dereferences null. |
| C51, C53, C58 | partial | Invariant over all histories including client writes; missing: requests within 8 of `INT_MAX` overflow. |
| C52, C54 | full | Same invariant; joins of free blocks as a rewriting relation. |
| C55 | partial | Quick lists are never joined with large blocks; general counterexample for every configuration; true for clients that only use multiples of a large size. |
| C56 | partial | The pool sits at offset 4 of an object aligned to 8: every address is 4 modulo 8. |
| C57 | partial | True for `deallocate`; `allocate(n)`, n ≤ 0, never returns null; `allocate(0)` loses a large block. |
| C59 | partial | `bytes + 8` overflows at `INT_MAX - 7`. |
| C60, C61 | full | Any iterator type; pointers as addresses. |
| C62 | partial | Blocks default-construct elements that are then constructed over and never destroyed. |
| C63 | partial | `abs(INT_MIN)` overflows. |
| C64 | full | Every reachable state. |
| C65 | full | Relational specification over client nodes, simulation by induction over the history. |
| C66 | full | Trace induction over the disjointness invariant of C51 (permitted steps exclude requests within 8 of `INT_MAX`). |
| C67 | partial | Positions as natural numbers, from the invariant of C32 and with its guards. |
| C68 | partial | The refinement of C24 on ghost node lists: each operation keeps the node of every element it does not remove (`follow`), so the iterator, which is the node pointer, stays with it. |
| C69 | partial | The ring invariant of C24, read as a line of iterators from `begin()` to `end()`. |
| C70 | partial | Each operation of C32 keeps the slot (block, offset) of every element it does not remove; the table doubling re-uses the blocks. Guards of C32. |
| C71 | full | `storage` follows the buffer of a vector through each operation; the frame condition of C01 says a buffer is kept or released, and identifiers are never reused. Histories that complete avoid the defects of C04 and C07 (proved). |
| C72 | full | Pointer arithmetic with undefined cases as faults (`Verif/Iterator.lean`), on top of the invariants of C01 and C09; arrays of length below 2^31 (C09). |
| C73 | partial | The ghost tree of each object lists (node, value) pairs; every step keeps each pair that the statement does not remove (`step_ghost`), so `deref` and `find` agree with the old iterator after any list of statements. For maps the same with keys (`AtKey`). Guard: no defective use in the list. |
| C74 | full | `Vec.Mem` counts constructed objects and allocated blocks. Upper bounds for each method by partial correctness (`wlp`, Verif/Partial.lean), then a potential per vector, max(3·size − 2·capacity, capacity − 2·size), pays for every relocation (`cost_paid`). |
| C75 | full | `Vec.Mem` also counts assignments. Sifting up from node k makes at most log₂ k swaps and sifting down from node i at most log₂(n/i), by partial correctness, so no comparator law is needed; the heights of all parents add up to at most n (`heights_le`), which gives the linear construction; the potential of C74 pays for relocations. Comparisons are not counted (at most two per level). |
| C76 | full | Footprint: there is a list of nodes of the stated length such that `find` gives the same result in every memory agreeing on them (all other nodes may be released). Induction along the search path; the height bound is C38's. |
| C77 | partial | World of XValueStack objects over the vector memory, each with its comparator; refinement to lists via the single-object encoding invariant and the vector world (`XStack.vecs`). Two failing cases. |
| C78 | partial (false) | The storage is an encoding of the elements with saved extrema in between; the loop visits all of it. Proved: the elements are a sublist; `xvalue_iterate_wrong`: strictly more is visited whenever the stack is not empty. |
| C79 | partial | World of DisjointSet objects over the vector memory; each object's invariant (forest, ranks) is framed over the others' blocks. Excluded: the hanging `connect` of connected elements. |
| C80 | partial | The adapter as a function of the container's operations (`StackOn.DS`), instantiated with the deque and list models; refinement to the stack specification of C10 through the container worlds of C24 and C31. |
| C81 | partial | The operators written out with their by-value parameters and temporaries as named objects (prvalue arguments are constructed in place); composed from the steps of C21-C23. Failing case: `""`. |
| C82 | partial | Iterator objects with all members (`link`, function pointer, cached data pointer) in a world of named iterators over an unchanging tree; both iterator classes as instances of one interface; refinement to positions. Failing case: self-move. |
| C83 | partial | As C36 with copies and moves, transferred from the list and deque refinements through the adapter; `operator[]` from the deque's. Failing cases: those of the containers. |
| C84 | proved | The observers added to the heap model; stated for every legal history that returns (a copy that hits C17 does not). The sentinel at index 0 is described by `heap_access_zero`. |
| C85 | full | Assignments are counted by the vector memory; the potential is the sum of the logarithms of all subtree sizes, each `find` lowers it by the links it follows up to `log2 n`, each link raises it by at most `log2 n`. |
| C86 | partial | Refuted for every `n` by a chain of connects, since `union_set` compares indices of roots; upper bound `n - 1` by distinctness of path elements, and 1 after compression. |
| C87 | partial | Indices at or above `n` stop at the assertion of `Vector::operator[]`; negative ones wrap around to the end (Python style) and are answered, wrongly for representatives. |
| C88 | partial | `union_set` of representatives is `connect`; of an element and its representative it closes a cycle, on which `find` diverges (fixpoint induction). |
| C89 | proved | Every push or pop acts on three numbers (blocks, position of the first element, length); potential argument over them. |
| C90 | partial | Invariant on the position of the first element for use at one end, which also bounds everything ever allocated; for push/pop at opposite ends a witness for every capacity. Finding: a queue that never holds more than one element uses unbounded memory; deque_fifo_storage: with pushes at the back and pops at the front the capacity is at least the number of elements ever pushed, because growing never brings the first element closer to the begin of the table (Grown.later), so its position counts the pops. |
| C91 | full | Footprint triple (Foot.lean): a program run from a state returns the same result from every state agreeing on the nodes P and changes no node outside P. Rules for each primitive, then by induction along the path for insert, delete, rebalanceAfterDelete and deleteByTarget; the list of nodes is built from the first four levels below each node of the path. Height bound from C38. |
| C92 | proved | The vector model takes its allocator as a parameter (`resizeWith`, …, `runWith`); `allocOr grant` denies the requests chosen by `grant`. Outcome logic `wpc` (returns with `Q` or stops with `crash`); invariant `WInvO` allows vectors with a capacity but no buffer. Props/VectorOom.lean. |
| C93 | partial | `swapNode` computed link by link on two arbitrary nodes (AVLSwapAny.lean) and compared with the renaming `ren a b` (Spec/AVLSwap.lean). False for siblings: `aParent->left = b` is undone by the following test of `bParent->left == b`, so both child links of the parent end at `a`. Props/AVLSwap.lean. |
| C94 | partial | The vector functions over an interface of memory operations (`MemOps`): one instance is the model of VectorWorld (equal by `rfl`), the other works on the bytes of the static allocator. Simulation `R` maps blocks to addresses; every block is live storage of the allocator and its objects are the decoded bytes; objects may have any number of bytes, so a cell of eight bytes of the allocator model may hold parts of several (`byteAt`, `pokeBytes`). Refuted for `pop_back`, which allocates before it frees. Spec/VectorPool.lean, Props/VectorPool.lean. |
| C95 | partial | Invariant along histories: the iterator is the one at the shifted position unless the capacity grew (`shift` in Spec/Deque). Missing: the case in which the table grows, refuted for every block size by `deque_stale_iterator` (the iterator keeps the index its block had in the old table). |
| C96 | proved | Clients as in C51 whose requests all round to multiples of d (`ReachOnly`, `Spec/SMA.lean`). Invariant: every block starts at a multiple of d from the start of the pool and the clients' blocks end at one; since free and held blocks tile the pool, a free block that is not the last one is followed by another block and so has at least d bytes. `sma_uniform`, `sma_uniform_count`, `sma_uniform_port`. |
| C97 | proved | The list functions over an interface of node operations (`NodeOps`): one instance is the model of LinkedList/DList/SList (equal by `rfl`), the other works on the bytes of the static allocator, links and data included. Simulation `R` maps node identifiers to addresses; the nodes are equal-sized live blocks (`Slots.Held`), for which C96 says that a request fails only when the pool is full. Histories return iff the elements fit. Both for the port (`ENABLE_SMA`) and for the allocator used directly (dstruct-static.hpp, `Sma.Mode.direct`: a refused request gives null and `construct` stops the program). SMAMode.lean, ListPool.lean, PoolSlots.lean, Spec/ListPool.lean, Props/ListPool.lean. |
| C98 | proved | `NoMerge` is the closure of client steps other than `memory_merge`; `sma_split` by induction over them (a request cuts one free block, a return gives the block back as it was). `sma_split_refused`, `sma_split_first`, `sma_split_small` draw the consequences for later requests; `sma_split_all_free` exhibits, for every pool and size, a state in which the whole pool is free and yet nothing larger is granted. |
| C99 | partial | The vector functions over `MemOps` with the direct allocator. Simulation `SimD` transfers returns and stops at null pointers from the world of blocks with an allocator that may refuse (C92's model) to the bytes of the pool; each operation makes at most one request, so the oracle of the block world is chosen anew per operation. Refuted: a refused request can leave a vector with a capacity and no storage (`pop_back` of the only element, `resize` of an empty vector). Spec/VectorDirect.lean, Props/VectorDirect.lean. |
| C100 | proved | Vectors in the pool (VectorPool) filled by `push_back`. Invariant by induction over the elements (VectorGrow): the storage of capacity `cap` starts `w*(cap-2)` bytes into the pool and is followed by one free block; so the next doubling succeeds exactly if it fits there, and neither the pieces in front nor merging them can serve it. `Grows` in Spec/VectorGrow. Element sizes are multiples of four, so that no storage is padded. |
| C101 | proved | The tree functions over an interface of node operations (`TreeOps`): with `poolTree` they work on the bytes of the static allocator, links, heights and values included. Simulation `R` with the models of Tree, BST and AVLTree maps node identifiers to addresses (equal-sized live blocks, `Slots.Held`, C96); function by function both return, or the pool stops because it is full (TreePoolSim, TreePoolOps, TreePoolBst, TreePoolAvl). Programs over many trees: TreePoolWorld, TreePoolBstRun, TreePoolRun. Spec/TreePool.lean, Props/TreePool.lean. |
| C102 | proved | `Verif/VectorInt.lean` writes the loops and byte counts of `Vector` with the `int` of the code (overflow is a fault, conversions modulo 2^32) and shows that they agree with `Verif/Vector.lean` below the limit; then the refinement of C01 carries over. `vector_int_push_full` and `vector_int_resize` show what happens beyond it. |
| C103 | proved | The functions of Map over the interface `TreeOps` of C101 (MapPool.lean). `operator[]` asks for a node only if the key is absent (`index_sim`); step by step both models return, or the pool stops because it is full, and nodes in use stay where they are (`step_pool`, `Stay`; MapPoolRun.lean). Spec/MapPool.lean, Props/MapPool.lean. Uses excluded: those of `Map.Safe` (C50). |
| C104 | proved | find, connected and connect with the choice of order as a parameter (DisjointSetOrder.lean); the invariant of C18/C19 with the representative function made explicit holds after every operation in every order (DisjointSetOrderLemmas.lean). Spec/DisjointSetOrder.lean, Props/DisjointSetOrder.lean. |
| C105 | proved | The functions of Heap over the interface `MemOps` of C94 (HeapPool.lean), equal to those of Heap.lean on its memory; simulation function by function (HeapPoolSim.lean) and step by step (HeapPoolWorld.lean). The pool is too small for the int overflow of C13, so sizes need no bound (`pre_of_allowed`). Spec/HeapPool.lean, Props/HeapPool.lean. Uses excluded: copies of heaps of types with a non-trivial destructor (C17). |
| C106 | partial | The functions of BasicString over the interface `MemOps` of C94 (StringPool.lean), equal to those of BasicString.lean on its memory; simulation function by function (StringPoolSim.lean, with the room that a construction needs) and step by step (StringPoolWorld.lean). Spec/StringPool.lean, Props/StringPool.lean. Missing: the uses excluded by `AvoidsAll`, which go wrong with any allocator (C21, C22, C23). |
| C107 | partial | The functions of Stack and XValueStack over the interface `MemOps` of C94 (XStackPool.lean), equal to those of Stack.lean and XValueStack.lean on their memory; simulation function by function (XStackPoolSim.lean) and step by step (XStackPoolWorld.lean). Spec/XStackPool.lean, Props/XStackPool.lean. Missing: the uses excluded by `AvoidsAll`, which go wrong with any allocator (C04, C11, C12). |
| C108 | partial | The functions of UFSet over the interface `MemOps` of C94 (DisjointSetPool.lean), with `int` stored in four bytes; simulation by the model of C79 on unbounded integers (DisjointSetPoolSim.lean, DisjointSetPoolWorld.lean), every entry being in the range of `int`. Spec/DisjointSetPool.lean, Props/DisjointSetPool.lean. Missing: connecting connected elements (general failing case `dsu_pool_hangs`), arrays longer than an `int` can count in bytes. |
| C109 | partial | One world with one pool and several groups of objects, each of one class with its own operations (SharedPool.lean: `step` runs the operation of a class on its view of the world and puts the pool and the objects back); every class of C94, C97, C101, C103, C105–C108, C111 is shown sound with blocks in other hands (SharedPoolSound.lean for classes on vectors, SharedPoolNodes.lean for lists, queues and stacks over lists, trees and maps, SharedPoolDeques.lean for deques), and the histories follow by induction (SharedPoolRun.lean). The specification judges each group by its own operations alone (Spec/SharedPool.lean). Props/SharedPool.lean. The nodes of a list or tree are those found by following the links stored in the pool, the blocks of a deque those listed in its table. Each operation returns its result (`Returned`; tree and map operations have one), and the results of a group are those its own operations define. Missing: what the single classes exclude (`Ok`), deques whose blocks have a multiple of eight bytes (C111 is false for them). |
| C110 | proved | `Props/SMAPolicy.lean`: `sma_policy` (which free block serves a request, and the exact set of free blocks afterwards), `sma_policy_free`, `sma_policy_new`, `sma_large`. From the list invariant of `SMAInv.lean` and `alloc_choice` (`SMAOps.lean`), which records the list and the position the search stopped at. The quantifier leaves out requests within 8 of `INT_MAX`, which overflow (C51). |
| C111 | partial | Model: Verif/DequePool.lean, the code of Verif/Deque.lean function by function, with blocks and tables requested from the port over the static allocator and pointers compared by address (contents of blocks stay in the abstract memory, by C51 the allocator does not touch them). The property fails: deque_pool_wrong, by stepping the allocator with C110. Proved (deque_pool_partial): it holds for every history if the number of bytes of a block is no multiple of eight, since blocks then cannot touch; (deque_pool_unhit_partial): it holds for blocks of any size for every history that runs to its end without a block having been placed directly in front of one in use (`hit`, a field of the model's state that the code does not have, records this). Proof: every function simulates the one of Verif/Deque.lean (Verif/DequePoolRel, Pres, Prims, Ops, Run), where a pointer to the end of a block equals one to the start of another if the addresses say so; with the addresses of the whole run fixed in advance this is an `adj` that satisfies AdjUp as long as `hit` is false. An operation stops only if it requests memory and no free block has as many bytes as it needs (`NoRoom`; deque_pool_room_partial says the converse: with such a block it returns); the simulation carries the bytes needed, and C110 shows that serving a request from a free block leaves the rest of it, or the block itself, free. `needs` is an upper bound (a copy of the old table, the new table, all new blocks), and for a copy of a whole deque there is no bound. Not proved: when a request is served by merging free blocks, and what happens in runs that were hit and go on without going wrong. This also shows that the hypothesis AdjUp of C31, C32 and C36 (blocks in front of others are older) is violated by the project's own allocator. |
| C112 | partial | Model: Verif/AdapterPool.lean, the adapters of Verif/Queue.lean and Verif/StackOn.lean over the pool-backed containers of Verif/ListPool.lean (C97) and Verif/DequePool.lean (C111). The property fails for dstruct::Queue (built with ENABLE_SMA; smemory::Queue does not compile) with its default block of 32 elements: queue_pool_wrong, for every pool of more than 832 bytes with the default MAX_BLOCK_SIZE; proof in Verif/QueuePoolTrace.lean by stepping the allocator with C110 (`Knows`) and the queue through its 96 pushes (`G`, `After`); the next push loses the 96 elements, queue_pool_loses; stack_pool_wrong is the same for a stack over the deque. Proved: queue_pool_list_partial, stack_pool_list_partial from dlist_pool and dlist_pool_full (both directions of the condition on room; moves from an empty queue or stack excluded as in C83 and C80); queue_pool_deque_partial, stack_pool_deque_partial from deque_pool_partial (block size no multiple of eight) and queue_pool_unhit_partial, stack_pool_unhit_partial from deque_pool_unhit_partial. `pop()` of a stack reads the top before it removes it; `run_same` shows that this changes nothing. Missing: a guard for blocks of a multiple of eight bytes that does not speak about placement. |
| C113 | partial | Theorems in Verif/Props/QueueLife.lean about the models of C112. List-backed queues: queue_pool_lasts_partial from queue_pool_list_partial for every use that keeps the queue within the pool's room (`Within`, counted on the prefixes of the use), by induction on the use. Deque-backed queues: fifo_ok (C90) bounds the number of blocks from below by the number of pushes, and the blocks and the table are in the pool at the same time, whose counters (C52) bound their sum (Rel0.bytes), so a run with that many pushes cannot return (fifo_full); run_sim (C111) says that it then faults with lack of memory. Missing: the property itself for deques, which is false. |

Further facts about the code that the models make explicit:

* Deque: `clear()` of a non-empty deque leaves its iterators pointing to released blocks; a
  deque on which nothing was pushed has no initialised iterators.  Moving an iterator resets the
  source but leaves its `mPointer_d`; the model nulls it (it can only be read by `pop_front()` of a
  deque that was moved from, which is empty).
* Trees: the left rotation computes heights from the old child (harmless, proved); in-order
  iteration ends by stepping to a null node; `height` is an `int`.  `mSize_d` is unbounded
  in the model and decrementing 0 gives 0 (unreachable in the proved histories).
* BST: erasing `end()` dereferences null; the copy members do not compile.
* Map: `erase` and the `const` `operator[]` do not compile; pushing a present key fails an
  assertion; popping an absent key dereferences null.
* SMA: supported configurations are `Legal` (`Spec/SMA.lean`): `MAX_BLOCK_SIZE ≥ 8`, pool at
  least 16 bytes and a multiple of 8, no overflow in rounding.  All pool accesses are
  misaligned by 4 and are assumed to work as on x86.  `allocate(n)` with -8 < n ≤ 0 takes
  the first large block; smaller n index other lists or run out of bounds.

## 4. Trusted base

* The Lean kernel, and the axioms `propext`, `Classical.choice`, `Quot.sound` (the only
  ones any theorem depends on; checked with `#print axioms` for every theorem in the
  manifest).
* The reading of the C++ sources into the model; each definition cites the lines it
  models and states its simplifications.
* Modelling assumptions: copying/comparing elements does not fail; `malloc` succeeds (except in C92, C99 and C100);
  addresses are not reused after release (a use after free is always detected), except in C94, C97, C101, C103, C105, C106, C107, C108, C109,
  C99 and C100, where storage is bytes of the static pool and any alignment is acceptable (elements of vectors, strings, stacks and
  heaps have any number of bytes, the data in nodes of lists and trees whole words of eight bytes, as their
  alignment demands), and in C111, where blocks and tables of deques have addresses in the pool but what they hold
  is kept outside of it; pointers to
  different objects compare by address; null plus a member offset is not by itself a fault
  (`to_node` of a null link), only an access is; comparator hypotheses are stated in each
  theorem (`StrictWeak`, `Order`).
* Order of evaluation: operands are evaluated in one fixed order.  The only expressions of the library whose
  operands have side effects that could interfere are in `DisjointSet`; C104 covers all their orders.
* Not modelled: the C++ compiler and its optimisations, exceptions thrown by element
  types, concurrency (the library has none), logging output, `tests/`, `examples/`,
  template code that does not compile when instantiated (`BinaryTree::copy`, `Map::erase`,
  `Map::operator[] const`, and `smemory::Deque`/`smemory::Queue` of dstruct-static.hpp:75-79: the iterator
  befriends only the deque over the default allocator, DoubleEndedQueue.hpp:25), `forward`, the type-level helpers (`RemoveReference`, ...).

## 5. Mutation tests

`seeded/LOG.jsonl` records, for each wrong program tried in a scratch copy, which theorems
failed and which were tightened because they did not.
