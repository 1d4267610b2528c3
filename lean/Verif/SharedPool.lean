import Verif.StringPool
import Verif.HeapPool
import Verif.XStackPool
import Verif.DisjointSetPool
import Verif.ListPool
import Verif.MapPool
import Verif.DequePool
import Verif.AdapterPool

/-!
# One static pool for containers of different classes

Sources: memory/StaticMemAllocator.hpp:144-147 (the only object of a `StaticMemAllocator` type),
port/static-memory/sma-dstruct-port.hpp:28-61 (`port::allocate` and `port::deallocate` on it).

With `ENABLE_SMA` every container draws its memory from this one object, whatever its class and element
type.  A program is modelled as a sequence of operations on several *groups* of objects: the objects of
a group have the same class and the same element type, and all groups share the allocator.  The
operations are those of `Verif.VectorPool`, `Verif.HeapPool`, `Verif.StringPool`, `Verif.XStackPool`,
`Verif.DisjointSetPool`, `Verif.ListPool`, `Verif.TreePool`, `Verif.MapPool` and `Verif.DequePool`, which
cite the sources function by function.  Simplification: an operation works on objects of one group only (the library has
none on objects of different classes), and elements hold no memory of the pool themselves.
-/

namespace Verif.Shared

open Prog Vec

/-- A class of containers with a given element type: its objects, and its operations on them and on the
bytes of the allocator. -/
structure Class where
  /-- the allocator and the objects -/
  World : Type
  /-- the objects -/
  Objs : Type
  /-- no objects -/
  none : Objs
  /-- there is an object with this number -/
  alive : Objs → Nat → Prop
  pack : Sma.St → Objs → World
  pool : World → Sma.St
  objs : World → Objs
  Op : Type
  /-- what operations return -/
  Out : Type
  step : Sma.Mode → Sma.Cfg → Op → Prog World Out

/-- A class whose objects are vectors. -/
def ofTable (Op : Type) (step : Sma.Mode → Sma.Cfg → Op → Prog Pool.PWorld Unit) : Class where
  World := Pool.PWorld
  Objs := Nat → Option Vec
  none := fun _ => .none
  alive := fun o k => o k ≠ .none
  pack := fun s o => ⟨s, o⟩
  pool := fun w => w.pool
  objs := fun w => w.obj
  Op := Op
  Out := Unit
  step := step

/-- `Vector` (core/ds/array/Vector.hpp), modelled in `Verif.VectorPool`. -/
def vectors {α : Type} (K : Pool.Elem α) : Class := ofTable (Vec.Op α) fun md c => Pool.step md c K

/-- `BasicString` (core/ds/string/BasicString.hpp), modelled in `Verif.StringPool`. -/
def strings {α : Type} [DecidableEq α] (K : Pool.Elem α) (nul : α) : Class :=
  ofTable (Str.Op α) fun md c => SPool.step md c K nul

/-- `Heap` (core/ds/Heap.hpp), modelled in `Verif.HeapPool`. -/
def heaps {α : Type} (K : Pool.Elem α) (cmp : α → α → Bool) : Class :=
  ofTable (Heap.Op α) fun md c => HPool.step md c K cmp

/-- `Stack` (core/ds/stack/Stack.hpp), modelled in `Verif.XStackPool`. -/
def stackClass {α : Type} (K : Pool.Elem α) : Class := ofTable (Stack.Op α) fun md c => XPool.stackStep md c K

/-- `DisjointSet` (core/ds/set/DisjointSet.hpp), modelled in `Verif.DisjointSetPool`. -/
def disjointSets : Class := ofTable DSU.WOp fun md c => DSUPool.wstep md c

/-- `XValueStack` (core/ds/stack/XValueStack.hpp), modelled in `Verif.XStackPool`; `ι` are the comparison objects, `gone` is
what moving leaves behind. -/
def xstacks {α : Type} (ι : Type) [DecidableEq α] (K : Pool.Elem α) (cmp : ι → α → α → Bool) (gone : α → α) :
    Class where
  World := XPool.XWorld ι α
  Objs := Nat → Option (XStack.Obj ι α)
  none := fun _ => .none
  alive := fun o k => o k ≠ .none
  pack := fun s o => ⟨s, o⟩
  pool := fun w => w.pool
  objs := fun w => w.obj
  Op := XStack.WOp ι α
  Out := Unit
  step := fun md c => XPool.wstep md c K cmp gone

/-- The list objects, which are outside the pool: sentinels, `mSize_d` and `mTailNodePtr_d`. -/
structure Lists (α : Type) where
  head : Nat → Option (LL.Cell α)
  sz : Nat → Nat
  tail : Nat → LL.Ptr

/-- A class whose objects are lists. -/
def ofLists {α : Type} (Op : Type) (step : Sma.Mode → Sma.Cfg → Op → Prog (LPool.PMem α) Unit) : Class where
  World := LPool.PMem α
  Objs := Lists α
  none := ⟨fun _ => .none, fun _ => 0, fun _ => .null⟩
  alive := fun o k => o.head k ≠ .none
  pack := fun s o => ⟨s, o.head, o.sz, o.tail⟩
  pool := fun w => w.pool
  objs := fun w => ⟨w.head, w.sz, w.tail⟩
  Op := Op
  Out := Unit
  step := step

/-- `DoublyLinkedList` (core/ds/linked-list/DoublyLinkedList.hpp), modelled in `Verif.ListPool`; `dflt` is the value of
a sentinel, `E` the bytes of a pointer. -/
def dlists {α : Type} (K : Pool.Layout α) (E : LPool.PtrRep) (dflt : Option α) : Class :=
  ofLists (DL.Op α) fun md c => LPool.D.step (LPool.poolNodes md c .doubly K E) dflt

/-- `SinglyLinkedList` (core/ds/linked-list/SinglyLinkedList.hpp), modelled in `Verif.ListPool`. -/
def slists {α : Type} (K : Pool.Layout α) (E : LPool.PtrRep) (dflt : Option α) : Class :=
  ofLists (SL.Op α) fun md c => LPool.S.step (LPool.poolNodes md c .singly K E) dflt

/-- `adapter::Queue` over `DoublyLinkedList` (core/ds/queue/Queue.hpp), modelled in `Verif.Queue` and
`Verif.AdapterPool`. -/
def queues {α : Type} (K : Pool.Layout α) (E : LPool.PtrRep) (dflt : Option α) : Class :=
  ofLists (Queue.Op α) fun md c => Queue.step (Queue.poolList md c K E dflt)

/-- `adapter::Stack` over `DoublyLinkedList` (core/ds/stack/Stack.hpp), modelled in `Verif.StackOn` and
`Verif.AdapterPool`. -/
def listStacks {α : Type} (K : Pool.Layout α) (E : LPool.PtrRep) (dflt : Option α) : Class :=
  ofLists (Stack.Op α) fun md c => StackOn.step (StackOn.poolList md c K E dflt)

/-- A class whose objects are trees: a root and `mSize_d`. -/
def ofTrees {β : Type} (Op : Type) (step : Sma.Mode → Sma.Cfg → Op → Prog TPool.World β) : Class where
  World := TPool.World
  Objs := Nat → Option (Tree.Ptr × Nat)
  none := fun _ => .none
  alive := fun o k => o k ≠ .none
  pack := fun s o => ⟨s, o⟩
  pool := fun w => w.pool
  objs := fun w => w.obj
  Op := Op
  Out := β
  step := step

/-- `BinarySearchTree` (core/ds/tree/BinarySearchTree.hpp), modelled in `Verif.TreePool`. -/
def bsts {α : Type} (K : Pool.Layout α) (E : TPool.PtrRep) (lt : α → α → Bool) : Class :=
  ofTrees (BST.Op α) fun md c => TPool.B.step (TPool.poolTree md c K E) lt

/-- `AVLTree` (core/ds/tree/AVLTree.hpp), modelled in `Verif.TreePool`. -/
def avls {α : Type} (K : Pool.Layout (AVL.D α)) (E : TPool.PtrRep) (lt : α → α → Bool) : Class :=
  ofTrees (AVL.Op α) fun md c => TPool.A.step (TPool.poolTree md c K E) lt

/-- `Map` (core/ds/Map.hpp), modelled in `Verif.MapPool`; `dflt` is the value of a key that was not there. -/
def maps {κ V : Type} (K : Pool.Layout (AVL.D (κ × V))) (E : TPool.PtrRep) (lt : κ → κ → Bool) (dflt : V) : Class :=
  ofTrees (Map.Op κ V) fun md c => TPool.M.step (TPool.poolTree md c K E) lt dflt

/-- The deques and what their blocks hold, and the addresses of blocks and tables. -/
structure Deques (α : Type) where
  deq : Deq.World α
  blk : Nat → Nat
  tab : Nat → Nat
  hit : Bool

/-- `DoubleEndedQueue` (core/ds/queue/DoubleEndedQueue.hpp), modelled in `Verif.DequePool`: `A` elements of `size` bytes in
a block, `d` is the value of a default-constructed element.  Deques reach the allocator only through the port (see
there). -/
def deques {α : Type} (A size : Nat) (d : α) : Class where
  World := DeqPool.PWorld α
  Objs := Deques α
  none := ⟨.init, fun _ => 0, fun _ => 0, false⟩
  alive := fun o k => o.deq.obj k ≠ .none
  pack := fun s o => ⟨o.deq, s, o.blk, o.tab, o.hit⟩
  pool := fun w => w.pool
  objs := fun w => ⟨w.deq, w.blk, w.tab, w.hit⟩
  Op := Deq.Op α
  Out := Unit
  step := fun _ c => DeqPool.step ⟨c, A, size, d⟩

/-- A family with one member replaced. -/
def upd {n : Nat} {β : Fin n → Type} (f : ∀ j, β j) (i : Fin n) (x : β i) : ∀ j, β j :=
  fun j => if h : j = i then h ▸ x else f j

variable {n : Nat} (cls : Fin n → Class)

/-- The allocator (StaticMemAllocator.hpp:144-147) and the objects of all groups. -/
structure World where
  pool : Sma.St
  part : ∀ i, (cls i).Objs

/-- An operation on objects of some group. -/
structure Op where
  group : Fin n
  op : (cls group).Op

variable {cls}

/-- The objects of a group together with the allocator. -/
def World.view (w : World cls) (i : Fin n) : (cls i).World := (cls i).pack w.pool (w.part i)

/-- What an operation on objects of some group returned. -/
structure Reply (cls : Fin n → Class) where
  group : Fin n
  out : (cls group).Out

/-- One operation: it works on the allocator and on the objects of its group. -/
def step (md : Sma.Mode) (c : Sma.Cfg) (o : Op cls) : Prog (World cls) (cls o.group).Out := fun w =>
  match (cls o.group).step md c o.op (w.view o.group) with
  | none => none
  | some (.error f) => some (.error f)
  | some (.ok (r, v)) => some (.ok (r, ⟨(cls o.group).pool v, upd w.part o.group ((cls o.group).objs v)⟩))

/-- A history of operations on all groups. -/
def run (md : Sma.Mode) (c : Sma.Cfg) : List (Op cls) → Prog (World cls) (List (Reply cls))
  | [] => pure []
  | o :: ops => do
    let r ← step md c o
    let rs ← run md c ops
    pure (⟨o.group, r⟩ :: rs)

/-- Program start: the allocator is constructed (StaticMemAllocator.hpp:58-63), there are no objects. -/
def World.start (cls : Fin n → Class) (s : Sma.St) : World cls := ⟨s, fun i => (cls i).none⟩

end Verif.Shared
