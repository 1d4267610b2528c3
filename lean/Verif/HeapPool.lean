import Verif.Heap
import Verif.VectorPool

/-!
# Heaps whose elements live in the static pool

`smemory::PriorityQueue`, `smemory::MinHeap` and `smemory::MaxHeap` (dstruct-static.hpp:80-81, 91-95) and, with
`ENABLE_SMA`, every heap.  The functions of `Heap` are written over an arbitrary memory (`Pool.MemOps`);
instantiated with the blocks of `Verif.Vector` they are those of `Verif.Heap`
(`Verif/HeapPoolSim.lean`).
-/

namespace Verif.HPool

open Prog Vec Pool

variable {σ α : Type}

section
variable (I : MemOps σ α)

/-- `dstruct::swap(v[i], v[j])` (core/utils.hpp:99-104). -/
def swapAt (v : Vec) (i j : Int) : Prog σ Unit := do
  let c ← index I v i
  let y ← index I v j
  setIndex I v i (.val y)
  setIndex I v j (.val c)

/-- The loop of `Heap::_adjust_up` (Heap.hpp:137-145). -/
def adjustUpLoop (cmp : α → α → Bool) (v : Vec) (node : Int) : Prog σ Unit :=
  if node > 1 then do
    let parent := node / 2
    let a ← index I v parent
    let b ← index I v node
    if cmp a b then pure ()
    else do
      swapAt I v parent node
      adjustUpLoop cmp v parent
  else pure ()
partial_fixpoint

/-- `Heap::_adjust_up` (Heap.hpp:135-146). -/
def adjustUp (cmp : α → α → Bool) (v : Vec) : Prog σ Unit :=
  adjustUpLoop I cmp v (Int.bmod (v.sz - 1) (2 ^ 32))

/-- The loop of `Heap::_adjust_down` (Heap.hpp:153-170). -/
def adjustDownLoop (cmp : α → α → Bool) (v : Vec) (heapSize parent : Int) : Prog σ Unit := do
  check (2 * parent + 1 < 2 ^ 31) .overflow
  let left := 2 * parent
  let right := left + 1
  let target ← (if left < heapSize then do
      let a ← index I v parent
      let b ← index I v left
      pure (if cmp a b then parent else left)
    else pure parent)
  let target ← (if right < heapSize then do
      let a ← index I v target
      let b ← index I v right
      pure (if cmp a b then target else right)
    else pure target)
  if target = parent then pure ()
  else do
    swapAt I v parent target
    adjustDownLoop cmp v heapSize target
partial_fixpoint

/-- `Heap::_adjust_down` (Heap.hpp:148-171). -/
def adjustDown (cmp : α → α → Bool) (v : Vec) (node : Int) : Prog σ Unit :=
  adjustDownLoop I cmp v (Int.bmod v.sz (2 ^ 32)) node

/-- `Heap(cmp, obj)` (Heap.hpp:28-29). -/
def ctor (obj : α) : Prog σ Vec := ctorFill I 1 (.val obj)

/-- `Heap(begin, end)` (Heap.hpp:31-42), see `Heap.ctorRange`. -/
def ctorRange (cmp : α → α → Bool) (obj : α) (n : Nat) (src : Nat → Arg α) : Prog σ Vec := do
  let v ← ctor I obj
  let v ← resize I v (n + 1)
  let v ← forRange n 0 v fun i v => pushBack I v (src i)
  let k := (v.sz - 1) / 2
  forRange k 0 () fun i _ => adjustDown I cmp v ((k - i : Nat) : Int)
  pure v

/-- `Heap::top()` (Heap.hpp:77-79). -/
def top (v : Vec) : Prog σ α := index I v 1

/-- `Heap::push` (Heap.hpp:87-90). -/
def push (cmp : α → α → Bool) (v : Vec) (e : Arg α) : Prog σ Vec := do
  let v ← pushBack I v e
  adjustUp I cmp v
  pure v

/-- `Heap::pop` (Heap.hpp:92-101). -/
def pop (cmp : α → α → Bool) (v : Vec) : Prog σ Vec := do
  let x ← back I v
  setIndex I v 1 (.val x)
  let v ← popBack I v
  adjustDown I cmp v 1
  pure v

/-- Reading `[begin(), end())` (Heap.hpp:105-111). -/
def iterate (v : Vec) : Prog σ (List α) :=
  forRange (v.sz - 1) 1 [] fun i acc => do
    let x ← I.read v.c i
    pure (acc ++ [x])

/-- `Heap::sort(begin, end)` (Heap.hpp:124-129), see `Heap.sort`. -/
def sort (cmp : α → α → Bool) (obj : α) (b lo n : Nat) : Prog σ Unit := do
  let h ← ctorRange I cmp obj n (fun i => .ref b ((lo + i : Nat) : Int))
  let h ← forRange n 0 h fun i h => do
    let x ← top I h
    I.assign b ((lo + i : Nat) : Int) (.val x)
    pop I cmp h
  let _ ← clear I h
  pure ()

end

/-! ## A world of heaps in the pool -/

section
variable (md : Sma.Mode) (c : Sma.Cfg) (K : Elem α)

/-- Move assignment `d = move(s)` (Heap.hpp:52-57), see `Heap.moveHeap`. -/
def moveHeap (d s : Nat) : Prog PWorld Unit := do
  Pool.step md c K (.move d s)
  let v ← getObj d
  dassert (0 < Int.bmod v.sz (2 ^ 32))
  let u ← getObj s
  putObj s (some (← lift (resizeFill (poolOps md c K) u 1 (.ref v.c 0))))

/-- One operation (compare `Heap.step`). -/
def step (cmp : α → α → Bool) : Heap.Op α → Prog PWorld Unit
  | .new k obj => do putObj k (some (← lift (ctor (poolOps md c K) obj)))
  | .newRange k obj xs => do
    putObj k (some (← lift (ctorRange (poolOps md c K) cmp obj xs.length
      (fun i => .val (xs.getD i obj)))))
  | .push k x => do
    let v ← getObj k
    putObj k (some (← lift (push (poolOps md c K) cmp v (.val x))))
  | .pop k => do
    let v ← getObj k
    putObj k (some (← lift (pop (poolOps md c K) cmp v)))
  | .newCopy k s => do
    Pool.step md c K (.new k)
    Pool.step md c K (.copy k s)
  | .copy d s => Pool.step md c K (.copy d s)
  | .newMove k s => do
    Pool.step md c K (.new k)
    moveHeap md c K k s
  | .move d s => moveHeap md c K d s
  | .drop k => Pool.step md c K (.drop k)

/-- `Heap::sort(k.begin(), k.end())` (Heap.hpp:124-129) for the vector named `k`. -/
def sortVec (cmp : α → α → Bool) (obj : α) (k : Nat) : Prog PWorld Unit := do
  let v ← getObj k
  lift (sort (poolOps md c K) cmp obj v.c 0 v.sz)

/-- A history of operations. -/
def run (cmp : α → α → Bool) (ops : List (Heap.Op α)) : Prog PWorld Unit :=
  seqAll (ops.map (step md c K cmp))

end

end Verif.HPool
