import Verif.HeapPool
import Verif.Spec.Heap
import Verif.Spec.VectorPool

/-!
# Specification vocabulary for heaps in the static pool

A heap is a multiset (`Verif.Spec.Heap`), blocks are address and size (`Verif.Spec.SMA`).
-/

namespace Verif.HPool

open Vec Pool

variable {α : Type}

/-- Precondition of an operation: objects are constructed once, used while they live, and nothing is
removed from an empty heap.  Unlike `Heap.Pre` this puts no bound on the number of elements. -/
def Allowed : Heap.Op α → Heap.Spec α → Prop
  | .new k _, w | .newRange k _ _, w => w k = none
  | .push k _, w => w k ≠ none
  | .pop k, w => ∃ s, w k = some s ∧ s ≠ 0
  | .newCopy k s, w | .newMove k s, w => w k = none ∧ w s ≠ none
  | .copy d s, w | .move d s, w => w d ≠ none ∧ w s ≠ none
  | .drop k, w => w k ≠ none

/-- Every operation of the history is called with its precondition satisfied. -/
def Legal (R : α → α → Prop) : List (Heap.Op α) → Heap.Spec α → Prop
  | [], _ => True
  | op :: ops, w => Allowed op w ∧ ∀ w', Heap.specStep R op w w' → Legal R ops w'

/-- The ranges given to the range constructor are such that the number of bytes they need and the
indices of the heap (`Heap.Pre`) can be computed in an `int`. -/
def Sized (size : Nat) : Heap.Op α → Prop
  | .newRange _ _ xs => size * (xs.length + 1) + 8 < 2 ^ 31 ∧ xs.length + 1 ≤ 2 ^ 30
  | _ => True

/-- What the public observers show of every heap, as for heaps with memory of their own
(`Heap.Shows`). -/
def Shows (md : Sma.Mode) (c : Sma.Cfg) (K : Elem α) (R : α → α → Prop) (w : PWorld) (sw : Heap.Spec α) :
    Prop :=
  ∀ k, (sw k = none → w.obj k = none) ∧
    ∀ s, sw k = some s → ∃ v l, w.obj k = some v ∧ v.sz - 1 = s.card ∧ (v.sz = 1 ↔ s = 0) ∧
      Returns (iterate (poolOps md c K) v) w.pool l w.pool ∧ (l : Multiset α) = s ∧
      (s ≠ 0 → ∃ x, Returns (top (poolOps md c K) v) w.pool x w.pool ∧ x ∈ s ∧ ∀ y ∈ s, R x y)

/-- The block of a heap: its address and its size in bytes (the sentinel included). -/
def block (size : Nat) (v : Vec) : Sma.Block := (v.c, taken8 size v.cap)

/-- Every heap has its storage in the pool, away from that of the other heaps and from the free
blocks. -/
def Placed (c : Sma.Cfg) (K : Elem α) (w : PWorld) : Prop :=
  ∀ k v, w.obj k = some v → Sma.InPool c (block K.size v) ∧
    (∀ j u, j ≠ k → w.obj j = some u → Sma.Disj (block K.size v) (block K.size u)) ∧
    ∀ b, Sma.FreeBlock c w.pool b → Sma.Disj (block K.size v) b

/-- The number of bytes of the heaps named in the list. -/
def storage (size : Nat) (w : PWorld) : List Nat → Nat
  | [] => 0
  | k :: ks => (match w.obj k with
    | none => 0
    | some v => (block size v).2) + storage size w ks

/-- `free_mem_size()` is the size of the pool without the storage of the heaps alive. -/
def Accounted (c : Sma.Cfg) (K : Elem α) (w : PWorld) (sw : Heap.Spec α) : Prop :=
  ∃ ks : List Nat, ks.Nodup ∧ (∀ k, k ∈ ks ↔ sw k ≠ none) ∧
    Returns Sma.freeMemSize w.pool ((c.M : Int) - storage K.size w ks) w.pool

end Verif.HPool
