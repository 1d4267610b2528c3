import Verif.SharedPool
import Verif.Spec.HeapPool
import Verif.Spec.StringPool
import Verif.Spec.DisjointSetPool
import Verif.Spec.ListPool
import Verif.Spec.MapPool
import Verif.Spec.DequePool
import Verif.Props.Vector
import Verif.Props.QueueValues
import Verif.Props.StackOn

/-!
# Specification vocabulary for containers of different classes in one pool

What the objects of a class should be, what may be done to them and what they show is taken from the
specifications of the classes (`Verif.Spec.VectorPool` and so on), which know nothing of other classes.
-/

namespace Verif.Shared

open Vec Pool

/-- What a class should do. -/
structure Meaning (k : Class) where
  /-- what the objects should be -/
  Spec : Type
  /-- no objects -/
  start : Spec
  /-- the operation may be called -/
  Ok : k.Op → Spec → Prop
  /-- what it should make of the objects -/
  next : k.Op → Spec → Spec → Prop
  /-- what it should return -/
  Returned : k.Op → Spec → k.Out → Prop
  /-- what the public observers show -/
  Shows : Sma.Cfg → k.World → Spec → Prop
  /-- what must be the case if the operation stops the program for lack of memory -/
  Stops : Sma.Cfg → k.World → k.Op → Prop
  /-- the blocks of the pool that hold the elements of the objects: address and number of bytes -/
  Uses : k.World → List Sma.Block → Prop

/-- Every operation of a history may be called. -/
def Meaning.Legal {k : Class} (M : Meaning k) : List k.Op → M.Spec → Prop
  | [], _ => True
  | op :: ops, s => M.Ok op s ∧ ∀ t, M.next op s t → M.Legal ops t

/-- What a history should return and what it should make of the objects. -/
def Meaning.Runs {k : Class} (M : Meaning k) : List k.Op → List k.Out → M.Spec → M.Spec → Prop
  | [], rs, s, t => rs = [] ∧ t = s
  | op :: ops, rs, s, t => ∃ r rs' u, rs = r :: rs' ∧ M.Returned op s r ∧ M.next op s u ∧ M.Runs ops rs' u t

/-- `bs` are the buffers of the vectors in a table. -/
def Buffers (size : Nat) (tab : Nat → Option Vec) (bs : List Sma.Block) : Prop :=
  ∃ ks : List Nat, ks.Nodup ∧ (∀ k, k ∈ ks ↔ ∃ v, tab k = some v ∧ v.cap ≠ 0) ∧
    bs = ks.filterMap fun k => (tab k).map fun v => (v.c, taken8 size v.cap)

/-- From `p` the links lead through the nodes at `as` back to the sentinel of list `k`. -/
def ListFrom (E : LPool.PtrRep) (mem : Nat → Sma.Cell) (k : Nat) : LL.Ptr → List Nat → Prop
  | p, [] => p = .head k
  | p, a :: as => p = .node a ∧ ∃ q, E.dec (mem a) = some q ∧ ListFrom E mem k q as

/-- `bs` are the nodes of the lists, of `bytes` bytes each. -/
def ListNodes {α : Type} (bytes : Nat) (E : LPool.PtrRep) (w : LPool.PMem α) (bs : List Sma.Block) : Prop :=
  ∃ (ks : List Nat) (as : Nat → List Nat), ks.Nodup ∧ (∀ k, k ∈ ks ↔ w.head k ≠ none) ∧
    (∀ k ∈ ks, ∃ h, w.head k = some h ∧ ListFrom E w.pool.mem k h.next (as k)) ∧
    bs = ks.flatMap fun k => (as k).map fun a => (a, bytes)

/-- The nodes of the subtree at `p` are at `as`, from left to right; the links to the children follow
that to the parent. -/
inductive TreeFrom (E : TPool.PtrRep) (mem : Nat → Sma.Cell) : Tree.Ptr → List Nat → Prop
  | nil : TreeFrom E mem none []
  | node {a : Nat} {l r : Tree.Ptr} {as bs : List Nat} : E.dec (mem (a + 8)) = some l →
      E.dec (mem (a + 16)) = some r → TreeFrom E mem l as → TreeFrom E mem r bs →
      TreeFrom E mem (some a) (as ++ a :: bs)

/-- `bs` are the nodes of the trees, of `bytes` bytes each. -/
def TreeNodes (bytes : Nat) (E : TPool.PtrRep) (w : TPool.World) (bs : List Sma.Block) : Prop :=
  ∃ (ks : List Nat) (as : Nat → List Nat), ks.Nodup ∧ (∀ k, k ∈ ks ↔ w.obj k ≠ none) ∧
    (∀ k ∈ ks, ∃ h, w.obj k = some h ∧ TreeFrom E w.pool.mem h.1 (as k)) ∧
    bs = ks.flatMap fun k => (as k).map fun a => (a, bytes)

/-- `bs` are the tables of the deques and the blocks that the tables list, each of which has `size` bytes. -/
def DequeBlocks {α : Type} (size : Nat) (w : DeqPool.PWorld α) (bs : List Sma.Block) : Prop :=
  ∃ ks : List Nat, ks.Nodup ∧ (∀ k, k ∈ ks ↔ w.deq.obj k ≠ none) ∧
    bs = ks.flatMap fun k => ((w.deq.obj k).map fun d =>
      (if d.tbl = [] then [] else [(w.tab k, taken8 8 d.tbl.length)]) ++
        d.tbl.map fun b => (w.blk b, taken8 size 1)).getD []

/-- The pool has no room for `n` objects, even after merging its free blocks. -/
def NoSpace (c : Sma.Cfg) (size : Nat) (s : Sma.St) (n : Nat) : Prop := n ≠ 0 ∧ Full c s (taken8 size n)

/-- A vector is full and there is no room for twice as many elements. -/
def PushStops (c : Sma.Cfg) (size : Nat) (s : Sma.St) (v : Vec) : Prop :=
  v.sz = v.cap ∧ NoSpace c size s (max 2 (2 * v.sz))

section
variable {α ι : Type}

/-- Vectors: requests that cannot be met, and operations that shrink or copy storage. -/
def vectorStops (K : Elem α) (c : Sma.Cfg) (w : PWorld) : Vec.Op α → Prop
  | .newFill _ n _ | .resize _ n | .resizeFill _ n _ => NoSpace c K.size w.pool n
  | .push k _ | .pushElem k _ _ => ∃ v, w.obj k = some v ∧ PushStops c K.size w.pool v
  | .pop k => ∃ v, w.obj k = some v ∧ v.sz - 1 < v.cap / 3
  | .copy d s => d ≠ s ∧ ∃ u, w.obj s = some u ∧ u.cap ≠ 0
  | .new _ | .set _ _ _ | .clear _ | .move _ _ | .drop _ => False

/-- Strings: construction, `clear` and copying, and growing when the storage is full. -/
def stringStops (w : PWorld) : Str.Op α → Prop
  | .push k _ | .pushElem k _ _ => ∃ v, w.obj k = some v ∧ v.sz = v.cap
  | .append d s => ∃ v u, w.obj d = some v ∧ w.obj s = some u ∧ d ≠ s ∧ v.cap < v.sz + (u.sz - 1)
  | .set _ _ _ | .move _ _ | .drop _ => False
  | .new _ | .newC _ _ | .clear _ | .copy _ _ => True

/-- Heaps: no room for the sentinel of a new heap or for twice as many elements, shrinking, copying,
and moving into a heap that exists. -/
def heapStops (K : Elem α) (c : Sma.Cfg) (w : PWorld) : Heap.Op α → Prop
  | .new _ _ | .newMove _ _ => NoSpace c K.size w.pool 1
  | .push k _ => ∃ v, w.obj k = some v ∧ PushStops c K.size w.pool v
  | .pop k => ∃ v, w.obj k = some v ∧ v.sz - 1 < v.cap / 3
  | .drop _ => False
  | .newRange _ _ _ | .newCopy _ _ | .copy _ _ | .move _ _ => True

/-- Stacks: no room for twice as many elements, shrinking and copying. -/
def stackStops (K : Elem α) (c : Sma.Cfg) (w : PWorld) : Stack.Op α → Prop
  | .push k _ => ∃ v, w.obj k = some v ∧ PushStops c K.size w.pool v
  | .pop k => ∃ v, w.obj k = some v ∧ v.sz - 1 < v.cap / 3
  | .copy _ _ => True
  | .new _ | .clear _ | .move _ _ | .drop _ => False

/-- Extremum stacks: as stacks; a push that saves the old extremum adds two entries, so that the first of
them may fill the storage. -/
def xstackStops (K : Elem α) (cmp : ι → α → α → Bool) (c : Sma.Cfg) (w : XPool.XWorld ι α) :
    XStack.WOp ι α → Prop
  | .op k (.push x) => ∃ v, w.obj k = some v ∧ (PushStops c K.size w.pool v.o.st ∨
      ((v.o.st.sz = 0 ∨ cmp v.c x v.o.x = true) ∧ v.o.st.cap = v.o.st.sz + 1))
  | .op k .pop => ∃ v, w.obj k = some v ∧ v.o.st.sz - 2 < v.o.st.cap / 3
  | .copy _ _ => True
  | .op _ .clear | .new _ _ _ | .move _ _ | .drop _ => False

/-- Disjoint sets: no room for a new array, and assigning a copy of one. -/
def disjointSetStops (c : Sma.Cfg) (w : PWorld) : DSU.WOp → Prop
  | .new _ n => NoSpace c 4 w.pool n
  | .newCopy _ s => ∃ u, w.obj s = some u ∧ NoSpace c 4 w.pool u.cap
  | .copy d s => d ≠ s ∧ ∃ u, w.obj s = some u ∧ u.cap ≠ 0
  | .op _ _ | .newMove _ _ | .move _ _ | .drop _ => False

/-- Queues over lists: no room for a node, and copying. -/
def queueStops (bytes : Nat) (c : Sma.Cfg) (w : LPool.PMem α) : Queue.Op α → Prop
  | .push _ _ => Full c w.pool bytes
  | .copy _ _ => True
  | .new _ | .pop _ | .move _ _ | .drop _ => False

/-- Stacks over lists: no room for a node, and copying. -/
def listStackStops (bytes : Nat) (c : Sma.Cfg) (w : LPool.PMem α) : Stack.Op α → Prop
  | .push _ _ => Full c w.pool bytes
  | .copy _ _ => True
  | .new _ | .pop _ | .clear _ | .move _ _ | .drop _ => False

/-- Doubly linked lists: no room for a node; statements that add several nodes or read an element first. -/
def dlistStops (bytes : Nat) (c : Sma.Cfg) (w : LPool.PMem α) : DL.Op α → Prop
  | .pushFront _ _ | .pushBack _ _ => Full c w.pool bytes
  | .newFill _ _ _ | .pushFrontElem _ _ _ | .pushBackElem _ _ _ | .copy _ _ => True
  | .new _ | .set _ _ _ | .popFront _ | .popBack _ | .clear _ | .move _ _ | .drop _ => False

/-- Singly linked lists. -/
def slistStops (bytes : Nat) (c : Sma.Cfg) (w : LPool.PMem α) : SL.Op α → Prop
  | .pushFront _ _ | .pushBack _ _ | .push _ _ => Full c w.pool bytes
  | .newFill _ _ _ | .copy _ _ => True
  | .new _ | .popFront _ | .popBack _ | .pop _ | .clear _ | .move _ _ | .drop _ => False

/-- Search trees: no room for a node. -/
def bstStops (bytes : Nat) (c : Sma.Cfg) (w : TPool.World) : BST.Op α → Prop
  | .push _ _ => Full c w.pool bytes
  | .newFrom _ _ | .pushAt _ _ _ => True
  | .new _ | .pop _ _ | .popAt _ _ _ | .erase _ _ | .clear _ | .move _ _ | .moveNew _ _ | .drop _ => False

/-- AVL trees: no room for a node. -/
def avlStops (bytes : Nat) (c : Sma.Cfg) (w : TPool.World) : AVL.Op α → Prop
  | .push _ _ => Full c w.pool bytes
  | .new _ | .pop _ _ | .popAt _ _ _ | .erase _ _ | .clear _ | .copy _ _ | .copyNew _ _ | .drop _ => False

/-- Maps: no room for a node; `a[i] = b[j]` may add two. -/
def mapStops {V : Type} (bytes : Nat) (c : Sma.Cfg) (w : TPool.World) : Map.Op α V → Prop
  | .push _ _ _ | .get _ _ | .set _ _ _ => Full c w.pool bytes
  | .assign _ _ _ _ => True
  | .new _ | .pop _ _ | .clear _ | .copy _ _ | .copyNew _ _ | .drop _ => False

def vectorMeaning (K : Elem α) : Meaning (vectors K) where
  Spec := Vec.SWorld α
  start := fun _ => none
  Ok := fun op s => Vec.specStep op s ≠ none ∧ Vec.Avoids K.triv op s ∧ Pool.Sized K.size op
  next := fun op s t => Vec.specStep op s = some t
  Returned := fun _ _ _ => True
  Shows := fun c w s => Pool.Shows .port c K w s
  Stops := fun c w op => vectorStops K c w op
  Uses := fun w => Buffers K.size w.obj

def stringMeaning [DecidableEq α] (K : Elem α) (nul : α) : Meaning (strings K nul) where
  Spec := Str.Spec α
  start := fun _ => none
  Ok := fun op s => Str.specStep nul op s ≠ none ∧ Str.Avoids nul op s
  next := fun op s t => Str.specStep nul op s = some t
  Returned := fun _ _ _ => True
  Shows := fun c w s => SPool.Shows .port c K nul w s
  Stops := fun _ w op => stringStops w op
  Uses := fun w => Buffers K.size w.obj

def heapMeaning (K : Elem α) (R : α → α → Prop) (cmp : α → α → Bool) : Meaning (heaps K cmp) where
  Spec := Heap.Spec α
  start := fun _ => none
  Ok := fun op s => HPool.Allowed op s ∧ Heap.Avoids K.triv op ∧ HPool.Sized K.size op
  next := fun op s t => Heap.specStep R op s t
  Returned := fun _ _ _ => True
  Shows := fun c w s => HPool.Shows .port c K R w s
  Stops := fun c w op => heapStops K c w op
  Uses := fun w => Buffers K.size w.obj

def stackMeaning (K : Elem α) : Meaning (stackClass K) where
  Spec := Stack.Spec α
  start := fun _ => none
  Ok := fun op s => Stack.specStep op s ≠ none ∧ Stack.Avoids K.triv op s
  next := fun op s t => Stack.specStep op s = some t
  Returned := fun _ _ _ => True
  Shows := fun c w s => XPool.StackShows .port c K w s
  Stops := fun c w op => stackStops K c w op
  Uses := fun w => Buffers K.size w.obj

def xstackMeaning [DecidableEq α] (K : Elem α) (R : ι → α → α → Prop) (cmp : ι → α → α → Bool) (gone : α → α) :
    Meaning (xstacks ι K cmp gone) where
  Spec := XStack.SWorld ι α
  start := fun _ => none
  Ok := fun op s => XStack.wspecStep op s ≠ none ∧ XStack.WAvoids R cmp K.triv op s
  next := fun op s t => XStack.wspecStep op s = some t
  Returned := fun _ _ _ => True
  Shows := fun c w s => XPool.Shows .port c K R w s
  Stops := fun c w op => xstackStops K cmp c w op
  Uses := fun w => Buffers K.size fun k => (w.obj k).map fun v => v.o.st

def disjointSetMeaning : Meaning disjointSets where
  Spec := DSU.SWorld
  start := fun _ => none
  Ok := fun op s => (∃ t, DSU.Legal [op] s t) ∧ DSUPool.Small [op]
  next := fun op s t => DSU.Legal [op] s t
  Returned := fun _ _ _ => True
  Shows := fun c w s => DSUPool.Shows .port c w s
  Stops := fun c w op => disjointSetStops c w op
  Uses := fun w => Buffers 4 w.obj

def queueMeaning (K : Pool.Layout α) (E : LPool.PtrRep) (dflt : Option α) : Meaning (queues K E dflt) where
  Spec := Queue.Spec α
  start := fun _ => none
  Ok := fun op s => Queue.specStep op s ≠ none ∧ Queue.Avoids op s
  next := fun op s t => Queue.specStep op s = some t
  Returned := fun _ _ _ => True
  Shows := fun c w s => (∀ k, s k = none → w.head k = none) ∧ Queue.Shows (Queue.poolList .port c K E dflt) w s ∧
    ∀ k q, s k = some q → Returns (Queue.iterate (Queue.poolList .port c K E dflt) k) w q w
  Stops := fun c w op => queueStops (8 * LPool.nodeWords .doubly K) c w op
  Uses := fun w => ListNodes (8 * LPool.nodeWords .doubly K) E w

def listStackMeaning (K : Pool.Layout α) (E : LPool.PtrRep) (dflt : Option α) : Meaning (listStacks K E dflt) where
  Spec := Stack.Spec α
  start := fun _ => none
  Ok := fun op s => Stack.specStep op s ≠ none ∧ StackOn.Avoids op s
  next := fun op s t => Stack.specStep op s = some t
  Returned := fun _ _ _ => True
  Shows := fun c w s => (∀ k, s k = none → w.head k = none) ∧ StackOn.Shows (StackOn.poolList .port c K E dflt) w s ∧
    ∀ k q, s k = some q → Returns (StackOn.iterate (StackOn.poolList .port c K E dflt) k) w q.reverse w
  Stops := fun c w op => listStackStops (8 * LPool.nodeWords .doubly K) c w op
  Uses := fun w => ListNodes (8 * LPool.nodeWords .doubly K) E w

def dlistMeaning (K : Pool.Layout α) (E : LPool.PtrRep) (dflt : Option α) : Meaning (dlists K E dflt) where
  Spec := DL.SWorld α
  start := fun _ => none
  Ok := fun op s => DL.specStep op s ≠ none ∧ DL.Avoids op s
  next := fun op s t => DL.specStep op s = some t
  Returned := fun _ _ _ => True
  Shows := fun c w s => LPool.D.Shows .port c K E w s
  Stops := fun c w op => dlistStops (8 * LPool.nodeWords .doubly K) c w op
  Uses := fun w => ListNodes (8 * LPool.nodeWords .doubly K) E w

def slistMeaning (K : Pool.Layout α) (E : LPool.PtrRep) (dflt : Option α) : Meaning (slists K E dflt) where
  Spec := DL.SWorld α
  start := fun _ => none
  Ok := fun op s => SL.specStep op s ≠ none ∧ SL.Avoids op s
  next := fun op s t => SL.specStep op s = some t
  Returned := fun _ _ _ => True
  Shows := fun c w s => LPool.S.Shows .port c K E w s
  Stops := fun c w op => slistStops (8 * LPool.nodeWords .singly K) c w op
  Uses := fun w => ListNodes (8 * LPool.nodeWords .singly K) E w

def bstMeaning (K : Pool.Layout α) (E : TPool.PtrRep) (lt : α → α → Bool) : Meaning (bsts K E lt) where
  Spec := BST.SWorld α
  start := fun _ => none
  Ok := fun op s => BST.specStep lt op s ≠ none ∧ BST.SafeIn lt op s
  next := fun op s t => BST.specStep lt op s = some t
  Returned := fun op s r => r = BST.specOut lt op s
  Shows := fun c w s => TPool.B.Shows .port c K E lt w s
  Stops := fun c w op => bstStops (8 * TPool.nodeWords K) c w op
  Uses := fun w => TreeNodes (8 * TPool.nodeWords K) E w

def avlMeaning (K : Pool.Layout (AVL.D α)) (E : TPool.PtrRep) (lt : α → α → Bool) : Meaning (avls K E lt) where
  Spec := AVL.SWorld α
  start := fun _ => none
  Ok := fun op s => AVL.specStep lt op s ≠ none ∧ AVL.SafeIn lt op s
  next := fun op s t => AVL.specStep lt op s = some t
  Returned := fun op s r => r = AVL.specOut lt op s
  Shows := fun c w s => TPool.A.Shows .port c K E lt w s
  Stops := fun c w op => avlStops (8 * TPool.nodeWords K) c w op
  Uses := fun w => TreeNodes (8 * TPool.nodeWords K) E w

def mapMeaning {V : Type} (K : Pool.Layout (AVL.D (α × V))) (E : TPool.PtrRep) (lt : α → α → Bool) (dflt : V) :
    Meaning (maps K E lt dflt) where
  Spec := Map.SWorld α V
  start := fun _ => none
  Ok := fun op s => Map.specStep lt dflt op s ≠ none ∧ Map.Safe lt op s
  next := fun op s t => Map.specStep lt dflt op s = some t
  Returned := fun op s r => r = Map.specOut lt dflt op s
  Shows := fun c w s => TPool.M.Shows .port c K E lt dflt w s
  Stops := fun c w op => mapStops (8 * TPool.nodeWords K) c w op
  Uses := fun w => TreeNodes (8 * TPool.nodeWords K) E w

def dequeMeaning (A size : Nat) (d : α) : Meaning (deques A size d) where
  Spec := Deq.SWorld α
  start := fun _ => none
  Ok := fun op s => Deq.specStep op s ≠ none ∧ Deq.Avoids op s
  next := fun op s t => Deq.specStep op s = some t
  Returned := fun _ _ _ => True
  Shows := fun c w s => DeqPool.Shows ⟨c, A, size, d⟩ w s
  Stops := fun c w op => DeqPool.NoRoom ⟨c, A, size, d⟩ w op
  Uses := fun w => DequeBlocks (size * A) w

end

/-- The classes of the library, with what their type arguments must satisfy: the bytes of a first
allocation or of a node can be computed in an `int`, characters are trivially copyable, comparisons are
orders, the blocks of a deque cannot touch each other. -/
inductive Container : (k : Class) → Meaning k → Prop
  | vectors {α : Type} (K : Elem α) (hK : 2 * K.size + 8 < 2 ^ 31) : Container (vectors K) (vectorMeaning K)
  | strings {α : Type} [DecidableEq α] (K : Elem α) (nul : α) (hK : 15 * K.size + 8 < 2 ^ 31)
      (ht : K.triv = true) : Container (strings K nul) (stringMeaning K nul)
  | heaps {α : Type} (K : Elem α) (R : α → α → Prop) (cmp : α → α → Bool) (hK : 2 * K.size + 8 < 2 ^ 31)
      (ho : Heap.Order R cmp) : Container (heaps K cmp) (heapMeaning K R cmp)
  | stackClass {α : Type} (K : Elem α) (hK : 2 * K.size + 8 < 2 ^ 31) :
      Container (stackClass K) (stackMeaning K)
  | xstacks {α ι : Type} [DecidableEq α] (K : Elem α) (R : ι → α → α → Prop) (cmp : ι → α → α → Bool)
      (gone : α → α) (hK : 2 * K.size + 8 < 2 ^ 31) (ho : ∀ i, Heap.Order (R i) (cmp i)) :
      Container (xstacks ι K cmp gone) (xstackMeaning K R cmp gone)
  | disjointSets : Container disjointSets disjointSetMeaning
  | dlists {α : Type} (K : Pool.Layout α) (E : LPool.PtrRep) (dflt : Option α)
      (hK : 8 * LPool.nodeWords .doubly K + 8 < 2 ^ 31) : Container (dlists K E dflt) (dlistMeaning K E dflt)
  | queues {α : Type} (K : Pool.Layout α) (E : LPool.PtrRep) (dflt : Option α)
      (hK : 8 * LPool.nodeWords .doubly K + 8 < 2 ^ 31) : Container (queues K E dflt) (queueMeaning K E dflt)
  | listStacks {α : Type} (K : Pool.Layout α) (E : LPool.PtrRep) (dflt : Option α)
      (hK : 8 * LPool.nodeWords .doubly K + 8 < 2 ^ 31) : Container (listStacks K E dflt) (listStackMeaning K E dflt)
  | slists {α : Type} (K : Pool.Layout α) (E : LPool.PtrRep) (dflt : Option α)
      (hK : 8 * LPool.nodeWords .singly K + 8 < 2 ^ 31) : Container (slists K E dflt) (slistMeaning K E dflt)
  | bsts {α : Type} (K : Pool.Layout α) (E : TPool.PtrRep) (lt : α → α → Bool)
      (hK : 8 * TPool.nodeWords K + 8 < 2 ^ 31) (hw : AVL.StrictWeak lt) : Container (bsts K E lt) (bstMeaning K E lt)
  | avls {α : Type} (K : Pool.Layout (AVL.D α)) (E : TPool.PtrRep) (lt : α → α → Bool)
      (hK : 8 * TPool.nodeWords K + 8 < 2 ^ 31) (hw : AVL.StrictWeak lt) : Container (avls K E lt) (avlMeaning K E lt)
  | maps {κ V : Type} (K : Pool.Layout (AVL.D (κ × V))) (E : TPool.PtrRep) (lt : κ → κ → Bool) (dflt : V)
      (hK : 8 * TPool.nodeWords K + 8 < 2 ^ 31) (hw : AVL.StrictWeak lt) :
      Container (maps K E lt dflt) (mapMeaning K E lt dflt)
  | deques {α : Type} (A size : Nat) (d : α) (hA : 0 < A) (hsz : 0 < size) (hfit : size * A + 8 < 2 ^ 31)
      (hodd : size * A % 8 ≠ 0) : Container (deques A size d) (dequeMeaning A size d)

variable {n : Nat} {cls : Fin n → Class}

/-- The operations of a history on the objects of one group. -/
def proj (i : Fin n) (ops : List (Op cls)) : List (cls i).Op :=
  ops.filterMap fun o => if h : o.group = i then some (h ▸ o.op) else none

/-- What the operations on the objects of one group returned. -/
def replies (i : Fin n) (rs : List (Reply cls)) : List (cls i).Out :=
  rs.filterMap fun r => if h : r.group = i then some (h ▸ r.out) else none

/-- The blocks of all groups. -/
def blocks (bs : Fin n → List Sma.Block) : List Sma.Block := (List.finRange n).flatMap bs

end Verif.Shared
