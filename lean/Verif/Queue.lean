import Verif.Deque
import Verif.DList

/-!
# Model of `core/ds/queue/Queue.hpp`

The adapter forwards to the member `mDS_d` (Queue.hpp:77) of the container type it is given.
-/

namespace Verif.Queue

open Prog

variable {σ α : Type}

/-- The operations of the underlying container that the adapter uses; `σ` is the state of the
program, `k` names the container inside the queue `k`. -/
structure DS (σ α : Type) where
  new : Nat → Prog σ Unit
  drop : Nat → Prog σ Unit
  copy : Nat → Nat → Prog σ Unit
  move : Nat → Nat → Prog σ Unit
  pushBack : Nat → α → Prog σ Unit
  popFront : Nat → Prog σ Unit
  front : Nat → Prog σ α
  back : Nat → Prog σ α
  size : Nat → Prog σ Nat
  empty : Nat → Prog σ Bool
  iterate : Nat → Prog σ (List α)

/-- `Queue<T, DoubleEndedQueue<T, A>>`, the default (dstruct.hpp:77). -/
def deque (cfg : Deq.Cfg α) : DS (Deq.World α) α where
  new k := Deq.step cfg (.new k)
  drop k := Deq.step cfg (.drop k)
  copy d s := Deq.step cfg (.copy d s)
  move d s := Deq.step cfg (.move d s)
  pushBack k x := Deq.pushBack cfg k (.val x)
  popFront k := Deq.popFront cfg k
  front k := Deq.front cfg k
  back k := Deq.back cfg k
  size k := Deq.size k
  empty k := Deq.empty k
  iterate k := Deq.iterate cfg k

/-- `Queue<T, DoublyLinkedList<T>>` (examples/queue/queue.cpp:20). -/
def dlist (dflt : Option α) : DS (LL.Mem α) α where
  new k := DL.step dflt (.new k)
  drop k := DL.step dflt (.drop k)
  copy d s := DL.step dflt (.copy d s)
  move d s := DL.step dflt (.move d s)
  pushBack k x := DL.pushBack k (.val x)
  popFront k := LL.basePopFront .doubly k
  front k := LL.front k
  back k := DL.back k
  size k := LL.size k
  empty k := LL.empty k
  iterate k := LL.iterate k

/-- `size()` (Queue.hpp:36-38). -/
def size (ds : DS σ α) (k : Nat) : Prog σ Nat := ds.size k

/-- `empty()` (Queue.hpp:42-44). -/
def empty (ds : DS σ α) (k : Nat) : Prog σ Bool := ds.empty k

/-- `back()` (Queue.hpp:47). -/
def back (ds : DS σ α) (k : Nat) : Prog σ α := ds.back k

/-- `front()` (Queue.hpp:49-51). -/
def front (ds : DS σ α) (k : Nat) : Prog σ α := ds.front k

/-- `operator[]` (Queue.hpp:53-55) of a queue over a deque; over a list it does not compile, a list having none. -/
def index (cfg : Deq.Cfg α) (k : Nat) (i : Int) : Prog (Deq.World α) α := Deq.index cfg k i

/-- `push(obj)` (Queue.hpp:59-61). -/
def push (ds : DS σ α) (k : Nat) (x : α) : Prog σ Unit := ds.pushBack k x

/-- `pop()` (Queue.hpp:63-65). -/
def pop (ds : DS σ α) (k : Nat) : Prog σ Unit := ds.popFront k

/-- Range-for over a queue (Queue.hpp:68-74). -/
def iterate (ds : DS σ α) (k : Nat) : Prog σ (List α) := ds.iterate k

/-- Operations of a history; construction, destruction, copy and move are defaulted
(Queue.hpp:27-32). -/
inductive Op (α : Type)
  | new (k : Nat)
  | push (k : Nat) (x : α)
  | pop (k : Nat)
  | copy (d s : Nat)
  | move (d s : Nat)
  | drop (k : Nat)

def step (ds : DS σ α) : Op α → Prog σ Unit
  | .new k => ds.new k
  | .push k x => push ds k x
  | .pop k => pop ds k
  | .copy d s => ds.copy d s
  | .move d s => ds.move d s
  | .drop k => ds.drop k

/-- A history of queue operations. -/
def run (ds : DS σ α) (ops : List (Op α)) : Prog σ Unit := seqAll (ops.map (step ds))

end Verif.Queue
