import Verif.Queue
import Verif.StackOn
import Verif.ListPool
import Verif.DequePool

/-!
# Queues and stacks whose container keeps its memory in the static pool

`dstruct::Queue` is the adapter over a `DoubleEndedQueue` (dstruct.hpp:76-77), which keeps its memory in the pool if
the library is built with `ENABLE_SMA` (`smemory::Queue` cannot be used, see `Verif.DequePool`);
the adapters take any container (Queue.hpp:20-21, Stack.hpp:20-21) and request no memory themselves.
-/

namespace Verif

variable {α : Type}

/-- `Queue<T, DoublyLinkedList<T, Alloc>>` with `Alloc` the static allocator (Queue.hpp, `Verif.Queue`;
`Verif.ListPool`). -/
def Queue.poolList (md : Sma.Mode) (c : Sma.Cfg) (K : Pool.Layout α) (E : LPool.PtrRep) (dflt : Option α) :
    Queue.DS (LPool.PMem α) α :=
  let I := LPool.poolNodes md c .doubly K E
  { new := fun k => LPool.D.step I dflt (.new k)
    drop := fun k => LPool.D.step I dflt (.drop k)
    copy := fun d s => LPool.D.step I dflt (.copy d s)
    move := fun d s => LPool.D.step I dflt (.move d s)
    pushBack := fun k x => LPool.D.pushBack I k (.val x)
    popFront := fun k => LPool.basePopFront I .doubly k
    front := fun k => LPool.front I k
    back := fun k => LPool.D.back I k
    size := fun k => I.getSize k
    empty := fun k => LPool.empty I k
    iterate := fun k => LPool.iterate I k }

/-- `Queue<T, DoubleEndedQueue<T, A, Alloc>>` (`Verif.DequePool`). -/
def Queue.poolDeque (P : DeqPool.Cfg α) : Queue.DS (DeqPool.PWorld α) α where
  new k := DeqPool.step P (.new k)
  drop k := DeqPool.step P (.drop k)
  copy d s := DeqPool.step P (.copy d s)
  move d s := DeqPool.step P (.move d s)
  pushBack k x := DeqPool.pushBack P k (.val x)
  popFront k := DeqPool.popFront P k
  front k := DeqPool.on (Deq.front P.deq k)
  back k := DeqPool.back P k
  size k := DeqPool.on (Deq.size k)
  empty k := DeqPool.on (Deq.empty k)
  iterate k := DeqPool.iterate P k

/-- `Stack<T, DoublyLinkedList<T, Alloc>>` (Stack.hpp, `Verif.StackOn`). -/
def StackOn.poolList (md : Sma.Mode) (c : Sma.Cfg) (K : Pool.Layout α) (E : LPool.PtrRep) (dflt : Option α) :
    StackOn.DS (LPool.PMem α) α :=
  let I := LPool.poolNodes md c .doubly K E
  { new := fun k => LPool.D.step I dflt (.new k)
    drop := fun k => LPool.D.step I dflt (.drop k)
    copy := fun d s => LPool.D.step I dflt (.copy d s)
    move := fun d s => LPool.D.step I dflt (.move d s)
    pushBack := fun k x => LPool.D.pushBack I k (.val x)
    popBack := fun k => LPool.D.popBack I k
    clear := fun k => LPool.baseClear I .doubly k
    back := fun k => LPool.D.back I k
    size := fun k => I.getSize k
    empty := fun k => LPool.empty I k
    iterate := fun k => LPool.iterate I k }

/-- `Stack<T, DoubleEndedQueue<T, A, Alloc>>`. -/
def StackOn.poolDeque (P : DeqPool.Cfg α) : StackOn.DS (DeqPool.PWorld α) α where
  new k := DeqPool.step P (.new k)
  drop k := DeqPool.step P (.drop k)
  copy d s := DeqPool.step P (.copy d s)
  move d s := DeqPool.step P (.move d s)
  pushBack k x := DeqPool.pushBack P k (.val x)
  popBack k := DeqPool.popBack P k
  clear k := DeqPool.onlyClear P k
  back k := DeqPool.back P k
  size k := DeqPool.on (Deq.size k)
  empty k := DeqPool.on (Deq.empty k)
  iterate k := DeqPool.iterate P k

end Verif
