import Verif.Stack
import Verif.Deque
import Verif.DList

/-!
# Model of `core/ds/stack/Stack.hpp` over `DoubleEndedQueue` and `DoublyLinkedList`

The adapter forwards to the member `mDS_d` (Stack.hpp:59) of the container type it is given
(examples/stack/stack.cpp:20 uses a `DoubleEndedQueue`); `Verif.Stack` is the default, over `Vector`.
-/

namespace Verif.StackOn

open Prog

variable {σ α : Type}

/-- The operations of the underlying container that the adapter uses; `σ` is the state of the
program, `k` names the container inside the stack `k`. -/
structure DS (σ α : Type) where
  new : Nat → Prog σ Unit
  drop : Nat → Prog σ Unit
  copy : Nat → Nat → Prog σ Unit
  move : Nat → Nat → Prog σ Unit
  pushBack : Nat → α → Prog σ Unit
  popBack : Nat → Prog σ Unit
  clear : Nat → Prog σ Unit
  back : Nat → Prog σ α
  size : Nat → Prog σ Nat
  empty : Nat → Prog σ Bool
  iterate : Nat → Prog σ (List α)

/-- `Stack<T, DoubleEndedQueue<T, A>>` (examples/stack/stack.cpp:20). -/
def deque (cfg : Deq.Cfg α) : DS (Deq.World α) α where
  new k := Deq.step cfg (.new k)
  drop k := Deq.step cfg (.drop k)
  copy d s := Deq.step cfg (.copy d s)
  move d s := Deq.step cfg (.move d s)
  pushBack k x := Deq.pushBack cfg k (.val x)
  popBack k := Deq.popBack cfg k
  clear k := Deq.step cfg (.clear k)
  back k := Deq.back cfg k
  size k := Deq.size k
  empty k := Deq.empty k
  iterate k := Deq.iterate cfg k

/-- `Stack<T, DoublyLinkedList<T>>`. -/
def dlist (dflt : Option α) : DS (LL.Mem α) α where
  new k := DL.step dflt (.new k)
  drop k := DL.step dflt (.drop k)
  copy d s := DL.step dflt (.copy d s)
  move d s := DL.step dflt (.move d s)
  pushBack k x := DL.pushBack k (.val x)
  popBack k := DL.popBack k
  clear k := LL.baseClear .doubly k
  back k := DL.back k
  size k := LL.size k
  empty k := LL.empty k
  iterate k := LL.iterate k

/-- `size()` (Stack.hpp:36). -/
def size (ds : DS σ α) (k : Nat) : Prog σ Nat := ds.size k

/-- `empty()` (Stack.hpp:38). -/
def empty (ds : DS σ α) (k : Nat) : Prog σ Bool := ds.empty k

/-- `top()` (Stack.hpp:41). -/
def top (ds : DS σ α) (k : Nat) : Prog σ α := ds.back k

/-- `push(obj)` (Stack.hpp:44). -/
def push (ds : DS σ α) (k : Nat) (x : α) : Prog σ Unit := ds.pushBack k x

/-- `pop()` (Stack.hpp:45-48): copies the top into a local and removes it. -/
def pop (ds : DS σ α) (k : Nat) : Prog σ Unit := do
  let _ ← ds.back k
  ds.popBack k

/-- `clear()` (Stack.hpp:50-52). -/
def clear (ds : DS σ α) (k : Nat) : Prog σ Unit := ds.clear k

/-- Range-for over a stack (Stack.hpp:55-56). -/
def iterate (ds : DS σ α) (k : Nat) : Prog σ (List α) := ds.iterate k

/-- One operation; construction, destruction, copy and move are defaulted (Stack.hpp:27-32). -/
def step (ds : DS σ α) : Stack.Op α → Prog σ Unit
  | .new k => ds.new k
  | .push k x => push ds k x
  | .pop k => pop ds k
  | .clear k => clear ds k
  | .copy d s => ds.copy d s
  | .move d s => ds.move d s
  | .drop k => ds.drop k

/-- A history of stack operations. -/
def run (ds : DS σ α) (ops : List (Stack.Op α)) : Prog σ Unit := seqAll (ops.map (step ds))

end Verif.StackOn
