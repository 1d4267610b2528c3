import Verif.LinkedList

/-! # Model of `core/ds/linked-list/DoublyLinkedList.hpp` -/

namespace Verif.DL

open Prog Verif.LL

variable {α : Type}

/-- `DoublyLinkedList()` (DoublyLinkedList.hpp:73). -/
def new (dflt : Option α) (k : Nat) : Prog (Mem α) Unit := baseNew .doubly dflt k

/-- `back()` (DoublyLinkedList.hpp:99-102). -/
def back (k : Nat) : Prog (Mem α) α := do
  dassert ((← getSize k) > 0)
  getData (← getPrev (.head k))

/-- `push_back(obj)` (DoublyLinkedList.hpp:104-114). -/
def pushBack (k : Nat) (obj : Arg α) : Prog (Mem α) Unit := do
  let n ← newNode k obj
  linkAdd .doubly (← getPrev (.head k)) n
  setSize k ((← getSize k) + 1)

/-- `pop_back()` (DoublyLinkedList.hpp:116-128). -/
def popBack (k : Nat) : Prog (Mem α) Unit := do
  dassert ((← getSize k) > 0)
  let l ← getPrev (.head k)
  linkDel .doubly (← getPrev l) l
  destroyNode l
  freeNode l
  setSize k ((← getSize k) - 1)

/-- `DoublyLinkedList(n, obj)` (DoublyLinkedList.hpp:74). -/
def newFill (dflt : Option α) (k n : Nat) (x : α) : Prog (Mem α) Unit := do
  new dflt k
  forRange n 0 () fun _ _ => pushBack k (.val x)

/-- The loop of copy assignment (DoublyLinkedList.hpp:79-81): `it` walks over `s`. -/
def copyLoop (d s : Nat) (it : Ptr) : Prog (Mem α) Unit := do
  if it = .head s then pure ()
  else
    pushBack d (.ref it)
    copyLoop d s (← getNext it)
partial_fixpoint

/-- Copy assignment for distinct objects (DoublyLinkedList.hpp:76-83). -/
def copyAssign (d s : Nat) : Prog (Mem α) Unit := do
  baseClear .doubly d
  copyLoop d s (← getNext (.head s))

/-- Move assignment for distinct objects (DoublyLinkedList.hpp:85-93). -/
def moveAssign (d s : Nat) : Prog (Mem α) Unit := do
  baseMove .doubly d s
  setNext (← getPrev (.head d)) (.head d)
  setPrev (← getNext (.head d)) (.head d)

/-- Collecting the elements with `it = end(); while (it != begin()) { --it; … }`
(iterator `--`: DoublyLinkedList.hpp:42-45). -/
def backwardFrom (k : Nat) (b it : Ptr) : Prog (Mem α) (List α) := do
  if it = b then pure []
  else
    let it' ← getPrev it
    let x ← getData it'
    let xs ← backwardFrom k b it'
    pure (x :: xs)
partial_fixpoint

/-- Reading a list backwards. -/
def backward (k : Nat) : Prog (Mem α) (List α) := do
  backwardFrom k (← getNext (.head k)) (.head k)

/-- Public operations, `k`, `d`, `s` naming list objects.  `push`/`pop` (inherited,
LinkedList.hpp:85-87 and 100-102) are `pushFront`/`popFront`. -/
inductive Op (α : Type)
  /-- `DoublyLinkedList<T> k;` -/
  | new (k : Nat)
  /-- `DoublyLinkedList<T> k(n, x);` -/
  | newFill (k n : Nat) (x : α)
  | pushFront (k : Nat) (x : α)
  | pushBack (k : Nat) (x : α)
  /-- `k.push_front(*it)` where `it` is `j.begin()` advanced `i` times -/
  | pushFrontElem (k j i : Nat)
  /-- `k.push_back(*it)` where `it` is `j.begin()` advanced `i` times -/
  | pushBackElem (k j i : Nat)
  /-- `*it = x` where `it` is `k.begin()` advanced `i` times -/
  | set (k i : Nat) (x : α)
  | popFront (k : Nat)
  | popBack (k : Nat)
  | clear (k : Nat)
  /-- `d = s` -/
  | copy (d s : Nat)
  /-- `d = move(s)` -/
  | move (d s : Nat)
  /-- end of the lifetime of `k` -/
  | drop (k : Nat)

/-- One operation.  A copy/move *constructor* is `new` followed by `copy`/`move`; the
self-assignment tests are in core/common.hpp:34-48. -/
def step (dflt : Option α) : Op α → Prog (Mem α) Unit
  | .new k => new dflt k
  | .newFill k n x => newFill dflt k n x
  | .pushFront k x => basePushFront .doubly k (.val x)
  | .pushBack k x => pushBack k (.val x)
  | .pushFrontElem k j i => do basePushFront .doubly k (.ref (← nth j i))
  | .pushBackElem k j i => do pushBack k (.ref (← nth j i))
  | .set k i x => do setData (← nth k i) x
  | .popFront k => basePopFront .doubly k
  | .popBack k => popBack k
  | .clear k => baseClear .doubly k
  | .copy d s => do
    let _ ← get (.head d)
    let _ ← get (.head s)
    if d = s then pure () else copyAssign d s
  | .move d s => do
    let _ ← get (.head d)
    let _ ← get (.head s)
    if d = s then pure () else moveAssign d s
  | .drop k => baseDrop .doubly k

/-- A history of operations. -/
def run (dflt : Option α) (ops : List (Op α)) : Prog (Mem α) Unit :=
  seqAll (ops.map (step dflt))

end Verif.DL
