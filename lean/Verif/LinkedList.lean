import Verif.Base

/-!
# Model of `core/ds/linked-list/EmbeddedList.hpp` and `LinkedList.hpp`

Links and list nodes live in memory.  The sentinel `mHeadNode_d` of the list object named
`k` is the cell `Ptr.head k`; nodes obtained from the allocator are `Ptr.node n`.
-/

namespace Verif.LL

open Prog

variable {α : Type}

/-- A `Link *` or `Node *` (a node's link is its first member, EmbeddedList.hpp:68-70 and
90-96, so both are the same address). -/
inductive Ptr
  | null
  | head (k : Nat)
  | node (n : Nat)
  deriving DecidableEq, Repr

/-- The link type a list is built with: `SinglyLink_` or `DoublyLink_`. -/
inductive Kind
  | singly
  | doubly
  deriving DecidableEq, Repr

/-- A constructed `EmbeddedListNode_<T, Link>` (EmbeddedList.hpp:68-70).  `prev` is unused
with `SinglyLink_`.  `data = none`: the value is indeterminate (sentinel of a list of a type
without default constructor semantics, e.g. `int`). -/
structure Cell (α : Type) where
  next : Ptr
  prev : Ptr
  data : Option α

/-- Memory.  A cell is unallocated (`none`), raw storage (`some none`) or holds a node. -/
structure Mem (α : Type) where
  cell : Ptr → Option (Option (Cell α))
  /-- every node identifier `≥ next` is unused so far -/
  next : Nat
  /-- `mSize_d` of each list object (LinkedList.hpp:142) -/
  sz : Nat → Nat
  /-- `mTailNodePtr_d` of each `SinglyLinkedList` (SinglyLinkedList.hpp:153) -/
  tail : Nat → Ptr
  /-- nodes whose storage was released while they were constructed -/
  lost : Nat

/-- Memory before any list exists. -/
def Mem.init : Mem α :=
  { cell := fun _ => none, next := 0, sz := fun _ => 0, tail := fun _ => .null, lost := 0 }

/-- Change the node at `p`, if there is one. -/
def Mem.upd (m : Mem α) (p : Ptr) (f : Cell α → Cell α) : Mem α :=
  { m with cell := fun x => if x = p then (m.cell x).map (·.map f) else m.cell x }

/-- The node at `p`. -/
def get (p : Ptr) : Prog (Mem α) (Cell α) := fun m =>
  if p = .null then some (.error .nullDeref) else
  match m.cell p with
  | none => some (.error .useAfterFree)
  | some none => some (.error .uninit)
  | some (some c) => some (.ok (c, m))

/-- `p->next` -/
def getNext (p : Ptr) : Prog (Mem α) Ptr := do return (← get p).next

/-- `p->prev` -/
def getPrev (p : Ptr) : Prog (Mem α) Ptr := do return (← get p).prev

/-- `p->data` -/
def getData (p : Ptr) : Prog (Mem α) α := do
  let c ← get p
  match c.data with
  | none => fail .uninit
  | some x => pure x

/-- `p->next = q` -/
def setNext (p q : Ptr) : Prog (Mem α) Unit := do
  let _ ← get p
  modify fun m => m.upd p fun c => { c with next := q }

/-- `p->prev = q` -/
def setPrev (p q : Ptr) : Prog (Mem α) Unit := do
  let _ ← get p
  modify fun m => m.upd p fun c => { c with prev := q }

/-- `p->data = x` -/
def setData (p : Ptr) (x : α) : Prog (Mem α) Unit := do
  let _ ← get p
  modify fun m => m.upd p fun c => { c with data := some x }

/-- `AllocNode_::allocate()` (LinkedList.hpp:22; spec/DStructSpec.hpp:47-49).
Simplification: the underlying allocator succeeds. -/
def allocNode : Prog (Mem α) Ptr := fun m =>
  some (.ok (.node m.next,
    { m with cell := fun x => if x = .node m.next then some none else m.cell x
             next := m.next + 1 }))

/-- `dstruct::construct(nPtr, node)` (core/common.hpp:52-57): copy-constructs a node. -/
def constructNode (p : Ptr) (c : Cell α) : Prog (Mem α) Unit := fun m =>
  if p = .null then some (.error .crash) else
  match m.cell p with
  | none => some (.error .useAfterFree)
  | some o => some (.ok ((), { m with
      cell := fun x => if x = p then some (some c) else m.cell x
      lost := m.lost + (if o.isSome then 1 else 0) }))

/-- `dstruct::destroy(nPtr)` (core/common.hpp:76-85). -/
def destroyNode (p : Ptr) : Prog (Mem α) Unit := fun m =>
  if p = .null then some (.error .crash) else
  match m.cell p with
  | none => some (.error .useAfterFree)
  | some none => some (.error .badDestroy)
  | some (some _) => some (.ok ((), { m with
      cell := fun x => if x = p then some none else m.cell x }))

/-- `AllocNode_::deallocate(nPtr)`: only something obtained from the allocator can be
released. -/
def freeNode (p : Ptr) : Prog (Mem α) Unit := fun m =>
  match p, m.cell p with
  | .node _, some o => some (.ok ((), { m with
      cell := fun x => if x = p then none else m.cell x
      lost := m.lost + (if o.isSome then 1 else 0) }))
  | _, _ => some (.error .badFree)

/-! ## Links (EmbeddedList.hpp) -/

/-- `Link::init(link)` (EmbeddedList.hpp:19-21 and 43-45). -/
def linkInit (kd : Kind) (p : Ptr) : Prog (Mem α) Unit := do
  setNext p p
  match kd with
  | .singly => pure ()
  | .doubly => setPrev p p

/-- `Link::add(prev, curr)` (EmbeddedList.hpp:27-30 and 51-57). -/
def linkAdd (kd : Kind) (prev curr : Ptr) : Prog (Mem α) Unit :=
  match kd with
  | .singly => do
    setNext curr (← getNext prev)
    setNext prev curr
  | .doubly => do
    setNext curr (← getNext prev)
    setPrev curr prev
    let n ← getNext prev
    when (n ≠ .null) (setPrev n curr)
    setNext prev curr

/-- `Link::del(prev, curr)` (EmbeddedList.hpp:32-35 and 59-64). -/
def linkDel (kd : Kind) (prev curr : Ptr) : Prog (Mem α) Unit :=
  match kd with
  | .singly => do
    setNext prev (← getNext curr)
    setNext curr .null
  | .doubly => do
    setNext prev (← getNext curr)
    let n ← getNext curr
    when (n ≠ .null) (setPrev n prev)
    setNext curr .null
    setPrev curr .null

/-! ## `LinkedList_` (LinkedList.hpp) -/

/-- `mSize_d` of object `k`. -/
def getSize (k : Nat) : Prog (Mem α) Nat := do
  let _ ← get (.head k)
  return (← Prog.get).sz k

/-- `mSize_d = n` -/
def setSize (k n : Nat) : Prog (Mem α) Unit := do
  let _ ← get (.head k)
  modify fun m => { m with sz := fun x => if x = k then n else m.sz x }

/-- `mTailNodePtr_d` of object `k`. -/
def getTail (k : Nat) : Prog (Mem α) Ptr := do
  let _ ← get (.head k)
  return (← Prog.get).tail k

/-- `mTailNodePtr_d = p` -/
def setTail (k : Nat) (p : Ptr) : Prog (Mem α) Unit := do
  let _ ← get (.head k)
  modify fun m => { m with tail := fun x => if x = k then p else m.tail x }

/-- `LinkedList_()` (LinkedList.hpp:37-40).  `dflt` is what default-initialisation of the
sentinel's `T` gives (`none` for a type such as `int`). -/
def baseNew (kd : Kind) (dflt : Option α) (k : Nat) : Prog (Mem α) Unit := do
  modify fun m => { m with
    cell := fun x => if x = .head k then some (some ⟨.null, .null, dflt⟩) else m.cell x }
  linkInit kd (.head k)
  setSize k 0

/-- `empty()` (LinkedList.hpp:66-73). -/
def empty (k : Nat) : Prog (Mem α) Bool := do
  let n ← getSize k
  if n = 0 then do
    let q ← getNext (.head k)
    dassert (q = .head k)
    pure true
  else pure false

/-- `size()` (LinkedList.hpp:75-77). -/
def size (k : Nat) : Prog (Mem α) Nat := getSize k

/-- `front()` (LinkedList.hpp:80-82). -/
def front (k : Nat) : Prog (Mem α) α := do getData (← getNext (.head k))

/-- A `const T &` argument: an object outside all nodes, or the data of a node. -/
inductive Arg (α : Type)
  | val (x : α)
  | ref (p : Ptr)

/-- Read through a `const T &`. -/
def Arg.get : Arg α → Prog (Mem α) α
  | .val x => pure x
  | .ref p => getData p

/-- Allocate a node and copy-construct it from the sentinel after storing `obj` there
(LinkedList.hpp:91-93, DoublyLinkedList.hpp:106-109, SinglyLinkedList.hpp:108-110). -/
def newNode (k : Nat) (obj : Arg α) : Prog (Mem α) Ptr := do
  let n ← allocNode
  let x ← obj.get
  setData (.head k) x
  let h ← get (.head k)
  constructNode n h
  pure n

/-- `push_front(obj)` (LinkedList.hpp:89-98), also `push` (85-87). -/
def basePushFront (kd : Kind) (k : Nat) (obj : Arg α) : Prog (Mem α) Unit := do
  let n ← newNode k obj
  linkAdd kd (.head k) n
  setSize k ((← getSize k) + 1)

/-- `pop_front()` (LinkedList.hpp:104-117), also `pop` (100-102). -/
def basePopFront (kd : Kind) (k : Nat) : Prog (Mem α) Unit := do
  dassert ((← getSize k) > 0)
  let l ← getNext (.head k)
  linkDel kd (.head k) l
  destroyNode l
  freeNode l
  setSize k ((← getSize k) - 1)

/-- `_clear()` (LinkedList.hpp:144-148). -/
def baseClear (kd : Kind) (k : Nat) : Prog (Mem α) Unit := do
  if ← empty k then pure ()
  else
    basePopFront kd k
    baseClear kd k
partial_fixpoint

/-- Move assignment of the base class for distinct objects (LinkedList.hpp:46-58).  The
sentinel is copied as a whole, also when its data is indeterminate. -/
def baseMove (kd : Kind) (d s : Nat) : Prog (Mem α) Unit := do
  baseClear kd d
  let h ← get (.head s)
  let _ ← get (.head d)
  modify fun m => m.upd (.head d) fun _ => h
  setSize d (← getSize s)
  linkInit kd (.head s)
  setSize s 0

/-- Destructor (LinkedList.hpp:60-62), then the end of the object's lifetime. -/
def baseDrop (kd : Kind) (k : Nat) : Prog (Mem α) Unit := do
  baseClear kd k
  modify fun m => { m with cell := fun x => if x = .head k then none else m.cell x }

/-- `for (it = b; it != end(); ++it)` collecting the elements
(iterator `++`: DoublyLinkedList.hpp:32-35, SinglyLinkedList.hpp:30-33). -/
def iterateFrom (k : Nat) (b : Ptr) : Prog (Mem α) (List α) := do
  if b = .head k then pure []
  else
    let x ← getData b
    let b' ← getNext b
    let xs ← iterateFrom k b'
    pure (x :: xs)
partial_fixpoint

/-- `i` times `++` on an iterator at `p` (DoublyLinkedList.hpp:32-35,
SinglyLinkedList.hpp:30-33). -/
def advance : Nat → Ptr → Prog (Mem α) Ptr
  | 0, p => pure p
  | i + 1, p => do advance i (← getNext p)

/-- `begin()` (LinkedList.hpp:121-124) advanced `i` times. -/
def nth (k i : Nat) : Prog (Mem α) Ptr := do advance i (← getNext (.head k))

/-- Range-for over a list (LinkedList.hpp:120-138). -/
def iterate (k : Nat) : Prog (Mem α) (List α) := do iterateFrom k (← getNext (.head k))

end Verif.LL
