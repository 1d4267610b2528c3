import Verif.Vector

/-!
# Model of `core/ds/Heap.hpp`

A `Heap<T, Compare>` object is its vector `mHeap_d`; slot 0 holds a sentinel and the elements
are in slots `1 … size`.  The comparator object is a function `cmp`.
-/

namespace Verif.Heap

open Prog Vec

variable {α : Type}

/-- `dstruct::swap(v[i], v[j])` (core/utils.hpp:99-104).  Simplification: moving an element
transfers its value. -/
def swapAt (v : Vec) (i j : Int) : Prog (Mem α) Unit := do
  let c ← index v i
  let y ← index v j
  setIndex v i (.val y)
  setIndex v j (.val c)

/-- The loop of `Heap::_adjust_up` (Heap.hpp:137-145). -/
def adjustUpLoop (cmp : α → α → Bool) (v : Vec) (node : Int) : Prog (Mem α) Unit :=
  if node > 1 then do
    let parent := node / 2
    let a ← index v parent
    let b ← index v node
    if cmp a b then pure ()
    else do
      swapAt v parent node
      adjustUpLoop cmp v parent
  else pure ()
partial_fixpoint

/-- `Heap::_adjust_up` (Heap.hpp:135-146); `mHeap_d.size() - 1` is converted to `int`. -/
def adjustUp (cmp : α → α → Bool) (v : Vec) : Prog (Mem α) Unit :=
  adjustUpLoop cmp v (Int.bmod (v.sz - 1) (2 ^ 32))

/-- The loop of `Heap::_adjust_down` (Heap.hpp:153-170).  `2 * parent` and `left + 1` are
computed in `int`. -/
def adjustDownLoop (cmp : α → α → Bool) (v : Vec) (heapSize parent : Int) : Prog (Mem α) Unit := do
  check (2 * parent + 1 < 2 ^ 31) .overflow
  let left := 2 * parent
  let right := left + 1
  let target ← (if left < heapSize then do
      let a ← index v parent
      let b ← index v left
      pure (if cmp a b then parent else left)
    else pure parent)
  let target ← (if right < heapSize then do
      let a ← index v target
      let b ← index v right
      pure (if cmp a b then target else right)
    else pure target)
  if target = parent then pure ()
  else do
    swapAt v parent target
    adjustDownLoop cmp v heapSize target
partial_fixpoint

/-- `Heap::_adjust_down` (Heap.hpp:148-171). -/
def adjustDown (cmp : α → α → Bool) (v : Vec) (node : Int) : Prog (Mem α) Unit :=
  adjustDownLoop cmp v (Int.bmod v.sz (2 ^ 32)) node

/-- `Heap(cmp, obj)` (Heap.hpp:28-29): one slot holding the sentinel. -/
def ctor (triv : Bool) (obj : α) : Prog (Mem α) Vec := ctorFill triv 1 (.val obj)

/-- `Heap(begin, end)` (Heap.hpp:31-42) over a range of `n` elements whose `i`-th element is
`src i`; `obj` is the value `T()` of the default sentinel. -/
def ctorRange (triv : Bool) (cmp : α → α → Bool) (obj : α) (n : Nat) (src : Nat → Arg α) :
    Prog (Mem α) Vec := do
  let v ← ctor triv obj
  let v ← resize triv v (n + 1)
  let v ← forRange n 0 v fun i v => pushBack triv v (src i)
  let k := (v.sz - 1) / 2
  forRange k 0 () fun i _ => adjustDown cmp v ((k - i : Nat) : Int)
  pure v

/-- `Heap::top()` (Heap.hpp:77-79). -/
def top (v : Vec) : Prog (Mem α) α := index v 1

/-- `Heap::push` (Heap.hpp:87-90). -/
def push (triv : Bool) (cmp : α → α → Bool) (v : Vec) (e : Arg α) : Prog (Mem α) Vec := do
  let v ← pushBack triv v e
  adjustUp cmp v
  pure v

/-- `Heap::pop` (Heap.hpp:92-101). -/
def pop (triv : Bool) (cmp : α → α → Bool) (v : Vec) : Prog (Mem α) Vec := do
  let x ← back v
  setIndex v 1 (.val x)
  let v ← popBack triv v
  adjustDown cmp v 1
  pure v

/-- `size()` (Heap.hpp:63-65); the difference is unsigned. -/
def size (v : Vec) : Nat := (v.sz + (2 ^ 64 - 1)) % 2 ^ 64

/-- `capacity()` (Heap.hpp:67-69). -/
def capacity (v : Vec) : Nat := (v.cap + (2 ^ 64 - 1)) % 2 ^ 64

/-- `empty()` (Heap.hpp:71-73). -/
def empty (v : Vec) : Bool := v.sz == 1

/-- `operator[]` (Heap.hpp:81-83). -/
def at_ (v : Vec) (i : Int) : Prog (Mem α) α := index v i

/-- Reading `[begin(), end())` (Heap.hpp:105-111). -/
def iterate (v : Vec) : Prog (Mem α) (List α) :=
  forRange (v.sz - 1) 1 [] fun i acc => do
    let x ← read v.c i
    pure (acc ++ [x])

/-- `Heap::sort(begin, end)` (Heap.hpp:124-129) on the `n` elements from slot `lo` of block
`b`.  The temporary heap is destroyed at the end. -/
def sort (triv : Bool) (cmp : α → α → Bool) (obj : α) (b lo n : Nat) : Prog (Mem α) Unit := do
  let h ← ctorRange triv cmp obj n (fun i => .ref b ((lo + i : Nat) : Int))
  let h ← forRange n 0 h fun i h => do
    let x ← top h
    assign b ((lo + i : Nat) : Int) (.val x)
    pop triv cmp h
  let _ ← clear triv h
  pure ()

/-- `Heap::build(begin, end)` (Heap.hpp:115-122) on the `n` elements from slot `lo` of block
`b`; returns the heap. -/
def build (triv : Bool) (cmp : α → α → Bool) (obj : α) (b lo n : Nat) : Prog (Mem α) Vec := do
  let h ← ctorRange triv cmp obj n (fun i => .ref b ((lo + i : Nat) : Int))
  forRange n 0 () fun i _ => assign b ((lo + i : Nat) : Int) (.ref h.c ((1 + i : Nat) : Int))
  pure h

/-! ## A world of heaps -/

/-- Public operations on heaps (`obj` is the sentinel value given to a constructor). -/
inductive Op (α : Type)
  /-- `Heap k(cmp, obj);` -/
  | new (k : Nat) (obj : α)
  /-- `Heap k(begin, end);` over the elements `xs` -/
  | newRange (k : Nat) (obj : α) (xs : List α)
  /-- `k.push(x)` -/
  | push (k : Nat) (x : α)
  /-- `k.pop()` -/
  | pop (k : Nat)
  /-- `Heap k(s);` -/
  | newCopy (k s : Nat)
  /-- `d = s` -/
  | copy (d s : Nat)
  /-- `Heap k(move(s));` -/
  | newMove (k s : Nat)
  /-- `d = move(s)` -/
  | move (d s : Nat)
  /-- end of the lifetime of `k` -/
  | drop (k : Nat)

/-- Move assignment `d = move(s)` (Heap.hpp:52-57): the vector is moved (with its own self test)
and the source is then given a new sentinel, copied from the destination's. -/
def moveHeap (triv : Bool) (d s : Nat) : Prog (World α) Unit := do
  Vec.step triv (.move d s)
  let v ← getObj d
  dassert (0 < Int.bmod v.sz (2 ^ 32))
  let u ← getObj s
  putObj s (some (← lift (resizeFill triv u 1 (.ref v.c 0))))

/-- One operation.  Copying (Heap.hpp:45-49) copies the vector; the copy and move constructors
(44, 51) assign to an object whose vector is empty. -/
def step (triv : Bool) (cmp : α → α → Bool) : Op α → Prog (World α) Unit
  | .new k obj => do putObj k (some (← lift (ctor triv obj)))
  | .newRange k obj xs => do
    putObj k (some (← lift (ctorRange triv cmp obj xs.length
      (fun i => .val (xs.getD i obj)))))
  | .push k x => do
    let v ← getObj k
    putObj k (some (← lift (Heap.push triv cmp v (.val x))))
  | .pop k => do
    let v ← getObj k
    putObj k (some (← lift (Heap.pop triv cmp v)))
  | .newCopy k s => do
    Vec.step triv (.new k)
    Vec.step triv (.copy k s)
  | .copy d s => Vec.step triv (.copy d s)
  | .newMove k s => do
    Vec.step triv (.new k)
    moveHeap triv k s
  | .move d s => moveHeap triv d s
  | .drop k => Vec.step triv (.drop k)

/-- A history of operations. -/
def run (triv : Bool) (cmp : α → α → Bool) (ops : List (Op α)) : Prog (World α) Unit :=
  seqAll (ops.map (step triv cmp))

end Verif.Heap
