import Verif.DList
import Verif.SList
import Verif.VectorPool
import Verif.SMAMode

/-!
# Linked lists whose nodes live in the static pool

The model in `Verif.LinkedList` gives every node an identifier that is never used again.  With the
static allocator (`Verif.SMAMode`) nodes are parts of one array of bytes, addresses are used
again, and nothing but the code keeps the nodes apart.  Here the functions of the lists are written
over an arbitrary memory (`NodeOps`); instantiated with the nodes of `Verif.LinkedList` they are the
functions modelled there (`Verif/ListPoolSim.lean`), and instantiated with `poolNodes` they work on
the bytes of the static allocator.  The list objects themselves with their sentinels are not in the
pool.
-/

namespace Verif.LPool

open Prog Verif.LL

variable {σ α : Type}

/-- What the lists need from memory. -/
structure NodeOps (σ α : Type) where
  /-- the sentinel of list `k` -/
  getHead : Nat → Prog σ (Cell α)
  getNext : Ptr → Prog σ Ptr
  getPrev : Ptr → Prog σ Ptr
  getData : Ptr → Prog σ α
  setNext : Ptr → Ptr → Prog σ Unit
  setPrev : Ptr → Ptr → Prog σ Unit
  setData : Ptr → α → Prog σ Unit
  /-- `AllocNode_::allocate()` -/
  alloc : Prog σ Ptr
  construct : Ptr → Cell α → Prog σ Unit
  destroy : Ptr → Prog σ Unit
  /-- `AllocNode_::deallocate(nPtr)` -/
  free : Ptr → Prog σ Unit
  getSize : Nat → Prog σ Nat
  setSize : Nat → Nat → Prog σ Unit
  getTail : Nat → Prog σ Ptr
  setTail : Nat → Ptr → Prog σ Unit
  /-- the storage of list `k` now holds this sentinel -/
  makeHead : Nat → Cell α → Prog σ Unit
  /-- overwrite the sentinel of the list `k`, which is alive -/
  putHead : Nat → Cell α → Prog σ Unit
  /-- the lifetime of list `k` is over -/
  dropHead : Nat → Prog σ Unit

section
variable (I : NodeOps σ α)

/-! ## Links and `LinkedList_` -/

/-- `Link::init(link)` (EmbeddedList.hpp:19-21 and 43-45). -/
def linkInit (kd : Kind) (p : Ptr) : Prog σ Unit := do
  I.setNext p p
  match kd with
  | .singly => pure ()
  | .doubly => I.setPrev p p

/-- `Link::add(prev, curr)` (EmbeddedList.hpp:27-30 and 51-57). -/
def linkAdd (kd : Kind) (prev curr : Ptr) : Prog σ Unit :=
  match kd with
  | .singly => do
    I.setNext curr (← I.getNext prev)
    I.setNext prev curr
  | .doubly => do
    I.setNext curr (← I.getNext prev)
    I.setPrev curr prev
    let n ← I.getNext prev
    when (n ≠ .null) (I.setPrev n curr)
    I.setNext prev curr

/-- `Link::del(prev, curr)` (EmbeddedList.hpp:32-35 and 59-64). -/
def linkDel (kd : Kind) (prev curr : Ptr) : Prog σ Unit :=
  match kd with
  | .singly => do
    I.setNext prev (← I.getNext curr)
    I.setNext curr .null
  | .doubly => do
    I.setNext prev (← I.getNext curr)
    let n ← I.getNext curr
    when (n ≠ .null) (I.setPrev n prev)
    I.setNext curr .null
    I.setPrev curr .null

/-- `LinkedList_()` (LinkedList.hpp:37-40). -/
def baseNew (kd : Kind) (dflt : Option α) (k : Nat) : Prog σ Unit := do
  I.makeHead k ⟨.null, .null, dflt⟩
  linkInit I kd (.head k)
  I.setSize k 0

/-- `empty()` (LinkedList.hpp:66-73). -/
def empty (k : Nat) : Prog σ Bool := do
  let n ← I.getSize k
  if n = 0 then do
    let q ← I.getNext (.head k)
    dassert (q = .head k)
    pure true
  else pure false

/-- `front()` (LinkedList.hpp:80-82). -/
def front (k : Nat) : Prog σ α := do I.getData (← I.getNext (.head k))

/-- Read through a `const T &`. -/
def getArg : Arg α → Prog σ α
  | .val x => pure x
  | .ref p => I.getData p

/-- Allocate a node and copy-construct it from the sentinel after storing `obj` there
(LinkedList.hpp:91-93, DoublyLinkedList.hpp:106-109, SinglyLinkedList.hpp:108-110). -/
def newNode (k : Nat) (obj : Arg α) : Prog σ Ptr := do
  let n ← I.alloc
  let x ← getArg I obj
  I.setData (.head k) x
  let h ← I.getHead k
  I.construct n h
  pure n

/-- `push_front(obj)` (LinkedList.hpp:89-98), also `push` (85-87). -/
def basePushFront (kd : Kind) (k : Nat) (obj : Arg α) : Prog σ Unit := do
  let n ← newNode I k obj
  linkAdd I kd (.head k) n
  I.setSize k ((← I.getSize k) + 1)

/-- `pop_front()` (LinkedList.hpp:104-117), also `pop` (100-102). -/
def basePopFront (kd : Kind) (k : Nat) : Prog σ Unit := do
  dassert ((← I.getSize k) > 0)
  let l ← I.getNext (.head k)
  linkDel I kd (.head k) l
  I.destroy l
  I.free l
  I.setSize k ((← I.getSize k) - 1)

/-- `_clear()` (LinkedList.hpp:144-148). -/
def baseClear (kd : Kind) (k : Nat) : Prog σ Unit := do
  if ← empty I k then pure ()
  else
    basePopFront I kd k
    baseClear kd k
partial_fixpoint

/-- Move assignment of the base class for distinct objects (LinkedList.hpp:46-58). -/
def baseMove (kd : Kind) (d s : Nat) : Prog σ Unit := do
  baseClear I kd d
  let h ← I.getHead s
  let _ ← I.getHead d
  I.putHead d h
  I.setSize d (← I.getSize s)
  linkInit I kd (.head s)
  I.setSize s 0

/-- Destructor (LinkedList.hpp:60-62), then the end of the object's lifetime. -/
def baseDrop (kd : Kind) (k : Nat) : Prog σ Unit := do
  baseClear I kd k
  I.dropHead k

/-- `for (it = b; it != end(); ++it)` collecting the elements
(iterator `++`: DoublyLinkedList.hpp:32-35, SinglyLinkedList.hpp:30-33). -/
def iterateFrom (k : Nat) (b : Ptr) : Prog σ (List α) := do
  if b = .head k then pure []
  else
    let x ← I.getData b
    let b' ← I.getNext b
    let xs ← iterateFrom k b'
    pure (x :: xs)
partial_fixpoint

/-- `i` times `++` on an iterator at `p` (DoublyLinkedList.hpp:32-35,
SinglyLinkedList.hpp:30-33). -/
def advance : Nat → Ptr → Prog σ Ptr
  | 0, p => pure p
  | i + 1, p => do advance i (← I.getNext p)

/-- `begin()` (LinkedList.hpp:121-124) advanced `i` times. -/
def nth (k i : Nat) : Prog σ Ptr := do advance I i (← I.getNext (.head k))

/-- Range-for over a list (LinkedList.hpp:120-138). -/
def iterate (k : Nat) : Prog σ (List α) := do iterateFrom I k (← I.getNext (.head k))

/-! ## `DoublyLinkedList` -/

namespace D

/-- `back()` (DoublyLinkedList.hpp:99-102). -/
def back (k : Nat) : Prog σ α := do
  dassert ((← I.getSize k) > 0)
  I.getData (← I.getPrev (.head k))

/-- `push_back(obj)` (DoublyLinkedList.hpp:104-114). -/
def pushBack (k : Nat) (obj : Arg α) : Prog σ Unit := do
  let n ← newNode I k obj
  linkAdd I .doubly (← I.getPrev (.head k)) n
  I.setSize k ((← I.getSize k) + 1)

/-- `pop_back()` (DoublyLinkedList.hpp:116-128). -/
def popBack (k : Nat) : Prog σ Unit := do
  dassert ((← I.getSize k) > 0)
  let l ← I.getPrev (.head k)
  linkDel I .doubly (← I.getPrev l) l
  I.destroy l
  I.free l
  I.setSize k ((← I.getSize k) - 1)

/-- `DoublyLinkedList(n, obj)` (DoublyLinkedList.hpp:74). -/
def newFill (dflt : Option α) (k n : Nat) (x : α) : Prog σ Unit := do
  baseNew I .doubly dflt k
  forRange n 0 () fun _ _ => pushBack I k (.val x)

/-- The loop of copy assignment (DoublyLinkedList.hpp:79-81). -/
def copyLoop (d s : Nat) (it : Ptr) : Prog σ Unit := do
  if it = .head s then pure ()
  else
    pushBack I d (.ref it)
    copyLoop d s (← I.getNext it)
partial_fixpoint

/-- Copy assignment for distinct objects (DoublyLinkedList.hpp:76-83). -/
def copyAssign (d s : Nat) : Prog σ Unit := do
  baseClear I .doubly d
  copyLoop I d s (← I.getNext (.head s))

/-- Move assignment for distinct objects (DoublyLinkedList.hpp:85-93). -/
def moveAssign (d s : Nat) : Prog σ Unit := do
  baseMove I .doubly d s
  I.setNext (← I.getPrev (.head d)) (.head d)
  I.setPrev (← I.getNext (.head d)) (.head d)

/-- Collecting the elements with `it = end(); while (it != begin()) { --it; … }`
(iterator `--`: DoublyLinkedList.hpp:42-45). -/
def backwardFrom (k : Nat) (b it : Ptr) : Prog σ (List α) := do
  if it = b then pure []
  else
    let it' ← I.getPrev it
    let x ← I.getData it'
    let xs ← backwardFrom k b it'
    pure (x :: xs)
partial_fixpoint

/-- Reading a list backwards. -/
def backward (k : Nat) : Prog σ (List α) := do
  backwardFrom I k (← I.getNext (.head k)) (.head k)

/-- One operation (compare `Verif.DL.step`). -/
def step (dflt : Option α) : DL.Op α → Prog σ Unit
  | .new k => baseNew I .doubly dflt k
  | .newFill k n x => newFill I dflt k n x
  | .pushFront k x => basePushFront I .doubly k (.val x)
  | .pushBack k x => pushBack I k (.val x)
  | .pushFrontElem k j i => do basePushFront I .doubly k (.ref (← nth I j i))
  | .pushBackElem k j i => do pushBack I k (.ref (← nth I j i))
  | .set k i x => do I.setData (← nth I k i) x
  | .popFront k => basePopFront I .doubly k
  | .popBack k => popBack I k
  | .clear k => baseClear I .doubly k
  | .copy d s => do
    let _ ← I.getHead d
    let _ ← I.getHead s
    if d = s then pure () else copyAssign I d s
  | .move d s => do
    let _ ← I.getHead d
    let _ ← I.getHead s
    if d = s then pure () else moveAssign I d s
  | .drop k => baseDrop I .doubly k

/-- A history of operations. -/
def run (dflt : Option α) (ops : List (DL.Op α)) : Prog σ Unit := seqAll (ops.map (step I dflt))

end D

/-! ## `SinglyLinkedList` -/

namespace S

/-- `SinglyLinkedList()` (SinglyLinkedList.hpp:59-61). -/
def new (dflt : Option α) (k : Nat) : Prog σ Unit := do
  baseNew I .singly dflt k
  I.setTail k (.head k)

/-- `back()` (SinglyLinkedList.hpp:101-104). -/
def back (k : Nat) : Prog σ α := do
  dassert ((← I.getSize k) > 0)
  I.getData (← I.getTail k)

/-- `push_back(obj)` (SinglyLinkedList.hpp:106-117). -/
def pushBack (k : Nat) (obj : Arg α) : Prog σ Unit := do
  let n ← newNode I k obj
  linkAdd I .singly (← I.getTail k) n
  I.setSize k ((← I.getSize k) + 1)
  I.setTail k n

/-- `push_front(obj)` (SinglyLinkedList.hpp:119-123). -/
def pushFront (k : Nat) (obj : Arg α) : Prog σ Unit := do
  basePushFront I .singly k obj
  if (← I.getSize k) = 1 then I.setTail k (← I.getNext (.head k))
  else pure ()

/-- `pop_front()` (SinglyLinkedList.hpp:125-129). -/
def popFront (k : Nat) : Prog σ Unit := do
  basePopFront I .singly k
  if (← I.getSize k) = 0 then I.setTail k (.head k)
  else pure ()

/-- `clear()` (SinglyLinkedList.hpp:131-134). -/
def clear (k : Nat) : Prog σ Unit := do
  baseClear I .singly k
  I.setTail k (.head k)

/-- The search loop of `_pop_back` (SinglyLinkedList.hpp:139-142). -/
def findLast (k : Nat) (link : Ptr) : Prog σ Ptr := do
  if (← I.getNext link) = (← I.getTail k) then pure link
  else findLast k (← I.getNext link)
partial_fixpoint

/-- `_pop_back()` (SinglyLinkedList.hpp:137-150). -/
def popBack (k : Nat) : Prog σ Unit := do
  dassert ((← I.getSize k) > 0)
  let link ← findLast I k (.head k)
  I.destroy (← I.getTail k)
  I.free (← I.getTail k)
  I.setSize k ((← I.getSize k) - 1)
  I.setTail k link
  I.setNext link (.head k)

/-- `SinglyLinkedList(n, obj)` (SinglyLinkedList.hpp:63-67). -/
def newFill (dflt : Option α) (k n : Nat) (x : α) : Prog σ Unit := do
  new I dflt k
  forRange n 0 () fun _ _ => pushBack I k (.val x)

/-- The loop of copy assignment (SinglyLinkedList.hpp:76-81). -/
def copyLoop (d s : Nat) (nodePtr nextLinkPtr : Ptr) : Prog σ Unit := do
  if nextLinkPtr = .head s then pure ()
  else
    pushBack I d (.ref nodePtr)
    copyLoop d s nodePtr (← I.getNext nextLinkPtr)
partial_fixpoint

/-- Copy assignment for distinct objects (SinglyLinkedList.hpp:69-86). -/
def copyAssign (d s : Nat) : Prog σ Unit := do
  clear I d
  if (← I.getSize s) ≠ 0 then do
    let linkPtr ← I.getNext (.head s)
    let nextLinkPtr ← I.getNext linkPtr
    let nodePtr := linkPtr
    copyLoop I d s nodePtr nextLinkPtr
    pushBack I d (.ref nodePtr)
    I.setTail d nodePtr
  else pure ()

/-- Move assignment for distinct objects (SinglyLinkedList.hpp:88-96). -/
def moveAssign (d s : Nat) : Prog σ Unit := do
  baseMove I .singly d s
  I.setTail d (← I.getTail s)
  I.setNext (← I.getTail d) (.head d)
  I.setTail s (.head s)

/-- One operation (compare `Verif.SL.step`). -/
def step (dflt : Option α) : SL.Op α → Prog σ Unit
  | .new k => new I dflt k
  | .newFill k n x => newFill I dflt k n x
  | .pushFront k x => pushFront I k (.val x)
  | .pushBack k x => pushBack I k (.val x)
  | .popFront k => popFront I k
  | .popBack k => popBack I k
  | .push k x => basePushFront I .singly k (.val x)
  | .pop k => basePopFront I .singly k
  | .clear k => clear I k
  | .copy d s => do
    let _ ← I.getHead d
    let _ ← I.getHead s
    if d = s then pure () else copyAssign I d s
  | .move d s => do
    let _ ← I.getHead d
    let _ ← I.getHead s
    if d = s then pure () else moveAssign I d s
  | .drop k => baseDrop I .singly k

/-- A history of operations. -/
def run (dflt : Option α) (ops : List (SL.Op α)) : Prog σ Unit := seqAll (ops.map (step I dflt))

end S

end

/-! ## The bytes of the static allocator -/

/-- How pointers are represented in eight bytes: the bytes determine the pointer. -/
structure PtrRep where
  enc : Ptr → Sma.Cell
  dec : Sma.Cell → Option Ptr
  dec_enc : ∀ p, dec (enc p) = some p

/-- The number of links in a node (EmbeddedList.hpp:15-16 and 38-40). -/
def links : Kind → Nat
  | .singly => 1
  | .doubly => 2

/-- The number of times eight bytes in a node: the links are followed by the data
(EmbeddedList.hpp:67-70). -/
def nodeWords (kd : Kind) (K : Pool.Layout α) : Nat := links kd + K.words

/-- The allocator's memory and the list objects, which are elsewhere. -/
structure PMem (α : Type) where
  pool : Sma.St
  /-- the sentinels; `none`: there is no such list now -/
  head : Nat → Option (Cell α)
  sz : Nat → Nat
  tail : Nat → Ptr

/-- Run a program on the pool. -/
def onPool {β : Type} (p : Prog Sma.St β) : Prog (PMem α) β := fun w =>
  match p w.pool with
  | none => none
  | some (.error f) => some (.error f)
  | some (.ok (a, s)) => some (.ok (a, { w with pool := s }))

section
variable (md : Sma.Mode) (c : Sma.Cfg)

/-- Access to eight bytes at address `a`: not through the null pointer and only to the pool.  The
machine does not know which bytes of the pool are in use. -/
def touchWord (a : Nat) : Prog Sma.St Unit := do
  check (a ≠ 0) .nullDeref
  check (c.inPool a) .outOfBounds

/-- Read a pointer.  Bytes that are no pointer are a fault. -/
def loadPtr (D : PtrRep) (a : Nat) : Prog Sma.St Ptr := do
  touchWord c a
  let s ← Prog.get
  match D.dec (s.mem a) with
  | some p => pure p
  | none => fail .uninit

/-- Write a pointer. -/
def savePtr (D : PtrRep) (a : Nat) (p : Ptr) : Prog Sma.St Unit := do
  touchWord c a
  Prog.modify fun s => { s with mem := Sma.upd s.mem a (D.enc p) }

variable (kd : Kind) (K : Pool.Layout α) (D : PtrRep)

/-- The sentinel of list `k`. -/
def getHead (k : Nat) : Prog (PMem α) (Cell α) := fun w =>
  match w.head k with
  | none => some (.error .useAfterFree)
  | some h => some (.ok (h, w))

/-- Change the sentinel of list `k`. -/
def changeHead (k : Nat) (g : Cell α → Cell α) : Prog (PMem α) Unit := do
  let h ← getHead k
  modify fun w => { w with head := fun x => if x = k then some (g h) else w.head x }

/-- Nodes in the static pool: a pointer to a node is `Ptr.node a` with its address.
`AllocSpec<Node_>::allocate()` and `deallocate(ptr)` (spec/DStructSpec.hpp:47-53) go to the port of
the static allocator (port/static-memory/sma-dstruct-port.hpp:30-61) or to the allocator itself
(dstruct-static.hpp:65-70), see `Sma.Mode`; `construct` and `destroy` are
those of core/common.hpp:52-57 and 76-85.  The destructor of a node is that of its data; if that is
not trivial, it goes wrong on bytes that are no object.
Simplifications: those of `Pool.poolOps`; copying a value that is indeterminate leaves the bytes as
they are; `construct` on a sentinel does not occur; a sentinel that has been destroyed cannot be
accessed any more and none can be passed to `deallocate`. -/
def poolNodes : NodeOps (PMem α) α where
  getHead := getHead
  getNext
    | .null => fail .nullDeref
    | .head k => do return (← getHead k).next
    | .node a => onPool (loadPtr c D a)
  getPrev
    | .null => fail .nullDeref
    | .head k => do return (← getHead k).prev
    | .node a => onPool (loadPtr c D (a + 8))
  getData
    | .null => fail .nullDeref
    | .head k => do
      match (← getHead k).data with
      | none => fail .uninit
      | some x => pure x
    | .node a => onPool (Pool.load c K (a + 8 * links kd))
  setNext
    | .null, _ => fail .nullDeref
    | .head k, q => changeHead k fun h => { h with next := q }
    | .node a, q => onPool (savePtr c D a q)
  setPrev
    | .null, _ => fail .nullDeref
    | .head k, q => changeHead k fun h => { h with prev := q }
    | .node a, q => onPool (savePtr c D (a + 8) q)
  setData
    | .null, _ => fail .nullDeref
    | .head k, x => changeHead k fun h => { h with data := some x }
    | .node a, x => onPool (Pool.save c K (a + 8 * links kd) (K.enc x))
  alloc := do
    let a ← onPool (Sma.getBlock md c (AllocSpec.byteCount (8 * nodeWords kd K) 1))
    pure (if a = 0 then .null else .node a)
  construct
    | .node a, h => onPool do
      check (a ≠ 0) .crash
      savePtr c D a h.next
      when (kd = .doubly) (savePtr c D (a + 8) h.prev)
      match h.data with
      | none => pure ()
      | some x => Pool.save c K (a + 8 * links kd) (K.enc x)
    | _, _ => fail .crash
  destroy
    | .node a => onPool do
      check (a ≠ 0) .crash
      Pool.touchObj c K (a + 8 * links kd)
      let s ← Prog.get
      check (K.triv = true ∨ (K.dec fun j => s.mem (a + 8 * links kd + 8 * j)).isSome) .badDestroy
      Pool.save c K (a + 8 * links kd) (K.fin fun j => s.mem (a + 8 * links kd + 8 * j))
    | .head k => do
      let _ ← getHead k
      modify fun w => { w with head := fun x => if x = k then none else w.head x }
    | .null => fail .crash
  free
    | .node a => onPool (Sma.giveBlock md c a (AllocSpec.byteCount (8 * nodeWords kd K) 1))
    | .null => onPool (Sma.giveBlock md c 0 (AllocSpec.byteCount (8 * nodeWords kd K) 1))
    | .head _ => fail .badFree
  getSize k := do
    let _ ← getHead k
    return (← Prog.get).sz k
  setSize k n := do
    let _ ← getHead k
    modify fun w => { w with sz := fun x => if x = k then n else w.sz x }
  getTail k := do
    let _ ← getHead k
    return (← Prog.get).tail k
  setTail k p := do
    let _ ← getHead k
    modify fun w => { w with tail := fun x => if x = k then p else w.tail x }
  makeHead k h := modify fun w => { w with head := fun x => if x = k then some h else w.head x }
  putHead k h := modify fun w => { w with head := fun x => if x = k then some h else w.head x }
  dropHead k := modify fun w => { w with head := fun x => if x = k then none else w.head x }

end

end Verif.LPool
