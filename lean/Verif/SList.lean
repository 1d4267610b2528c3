import Verif.LinkedList

/-! # Model of `core/ds/linked-list/SinglyLinkedList.hpp` -/

namespace Verif.SL

open Prog Verif.LL

variable {α : Type}

/-- `SinglyLinkedList()` (SinglyLinkedList.hpp:59-61). -/
def new (dflt : Option α) (k : Nat) : Prog (Mem α) Unit := do
  baseNew .singly dflt k
  setTail k (.head k)

/-- `back()` (SinglyLinkedList.hpp:101-104). -/
def back (k : Nat) : Prog (Mem α) α := do
  dassert ((← getSize k) > 0)
  getData (← getTail k)

/-- `push_back(obj)` (SinglyLinkedList.hpp:106-117). -/
def pushBack (k : Nat) (obj : Arg α) : Prog (Mem α) Unit := do
  let n ← newNode k obj
  linkAdd .singly (← getTail k) n
  setSize k ((← getSize k) + 1)
  setTail k n

/-- `push_front(obj)` (SinglyLinkedList.hpp:119-123). -/
def pushFront (k : Nat) (obj : Arg α) : Prog (Mem α) Unit := do
  basePushFront .singly k obj
  if (← getSize k) = 1 then setTail k (← getNext (.head k))
  else pure ()

/-- `pop_front()` (SinglyLinkedList.hpp:125-129). -/
def popFront (k : Nat) : Prog (Mem α) Unit := do
  basePopFront .singly k
  if (← getSize k) = 0 then setTail k (.head k)
  else pure ()

/-- `clear()` (SinglyLinkedList.hpp:131-134). -/
def clear (k : Nat) : Prog (Mem α) Unit := do
  baseClear .singly k
  setTail k (.head k)

/-- The search loop of `_pop_back` (SinglyLinkedList.hpp:139-142). -/
def findLast (k : Nat) (link : Ptr) : Prog (Mem α) Ptr := do
  if (← getNext link) = (← getTail k) then pure link
  else findLast k (← getNext link)
partial_fixpoint

/-- `_pop_back()` (SinglyLinkedList.hpp:137-150). -/
def popBack (k : Nat) : Prog (Mem α) Unit := do
  dassert ((← getSize k) > 0)
  let link ← findLast k (.head k)
  destroyNode (← getTail k)
  freeNode (← getTail k)
  setSize k ((← getSize k) - 1)
  setTail k link
  setNext link (.head k)

/-- `SinglyLinkedList(n, obj)` (SinglyLinkedList.hpp:63-67). -/
def newFill (dflt : Option α) (k n : Nat) (x : α) : Prog (Mem α) Unit := do
  new dflt k
  forRange n 0 () fun _ _ => pushBack k (.val x)

/-- The loop of copy assignment (SinglyLinkedList.hpp:76-81).  The declaration inside the loop
(line 80) shadows `nodePtr`, so the pushed element is always that of `nodePtr`, the first
node. -/
def copyLoop (d s : Nat) (nodePtr nextLinkPtr : Ptr) : Prog (Mem α) Unit := do
  if nextLinkPtr = .head s then pure ()
  else
    pushBack d (.ref nodePtr)
    copyLoop d s nodePtr (← getNext nextLinkPtr)
partial_fixpoint

/-- Copy assignment for distinct objects (SinglyLinkedList.hpp:69-86). -/
def copyAssign (d s : Nat) : Prog (Mem α) Unit := do
  clear d
  if (← getSize s) ≠ 0 then do
    let linkPtr ← getNext (.head s)
    let nextLinkPtr ← getNext linkPtr
    let nodePtr := linkPtr
    copyLoop d s nodePtr nextLinkPtr
    pushBack d (.ref nodePtr)
    setTail d nodePtr
  else pure ()

/-- Move assignment for distinct objects (SinglyLinkedList.hpp:88-96). -/
def moveAssign (d s : Nat) : Prog (Mem α) Unit := do
  baseMove .singly d s
  setTail d (← getTail s)
  setNext (← getTail d) (.head d)
  setTail s (.head s)

/-- Public operations, `k`, `d`, `s` naming list objects. -/
inductive Op (α : Type)
  /-- `SinglyLinkedList<T> k;` -/
  | new (k : Nat)
  /-- `SinglyLinkedList<T> k(n, x);` -/
  | newFill (k n : Nat) (x : α)
  | pushFront (k : Nat) (x : α)
  | pushBack (k : Nat) (x : α)
  | popFront (k : Nat)
  /-- `k._pop_back()` -/
  | popBack (k : Nat)
  /-- `k.push(x)`, inherited from `LinkedList_` (LinkedList.hpp:85-87) -/
  | push (k : Nat) (x : α)
  /-- `k.pop()`, inherited from `LinkedList_` (LinkedList.hpp:100-102) -/
  | pop (k : Nat)
  | clear (k : Nat)
  /-- `d = s` -/
  | copy (d s : Nat)
  /-- `d = move(s)` -/
  | move (d s : Nat)
  /-- end of the lifetime of `k` -/
  | drop (k : Nat)

/-- One operation.  A copy/move *constructor* is `new` followed by `copy`/`move`; the
self-assignment tests are in core/common.hpp:34-48. -/
def step (dflt : Option α) : Op α → Prog (Mem α) Unit
  | .new k => new dflt k
  | .newFill k n x => newFill dflt k n x
  | .pushFront k x => pushFront k (.val x)
  | .pushBack k x => pushBack k (.val x)
  | .popFront k => popFront k
  | .popBack k => popBack k
  | .push k x => basePushFront .singly k (.val x)
  | .pop k => basePopFront .singly k
  | .clear k => clear k
  | .copy d s => do
    let _ ← get (.head d)
    let _ ← get (.head s)
    if d = s then pure () else copyAssign d s
  | .move d s => do
    let _ ← get (.head d)
    let _ ← get (.head s)
    if d = s then pure () else moveAssign d s
  | .drop k => baseDrop .singly k

/-- A history of operations. -/
def run (dflt : Option α) (ops : List (Op α)) : Prog (Mem α) Unit :=
  seqAll (ops.map (step dflt))

end Verif.SL
