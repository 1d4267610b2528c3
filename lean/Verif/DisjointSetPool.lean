import Verif.DisjointSet
import Verif.Props.VectorPool

/-!
# Disjoint sets whose parent arrays live in the static pool

`smemory::UFSet` (dstruct-static.hpp:103) and, with `ENABLE_SMA`, every `DisjointSet`.  The functions of
`DisjointSet` are written over an arbitrary memory of `int`s (`Pool.MemOps`), compare
`Verif.DisjointSet`.  `Verif.DisjointSet` stores numbers in the array; here the array consists of bytes,
four for each `int` (`Pool.intElem`), and numbers are converted at every access (`asInt`).
-/

namespace Verif.DSUPool

open Prog Vec Pool
open DSU (Op WOp)

variable {σ : Type}

/-- Memory of `int`s, used as numbers: storing a number keeps its lowest 32 bits, reading yields the
number they mean in two's complement. -/
def asInt (I : MemOps σ (BitVec 32)) : MemOps σ Int where
  alloc := I.alloc
  dealloc := I.dealloc
  read p i := do
    let x ← I.read p i
    pure x.toInt
  construct p i e := I.construct p i (match e with
    | .val x => .val (BitVec.ofInt 32 x)
    | .ref q j => .ref q j)
  destroy := I.destroy
  assign p i e := I.assign p i (match e with
    | .val x => .val (BitVec.ofInt 32 x)
    | .ref q j => .ref q j)

section
variable (I : MemOps σ Int)

/-- Read through a `const int &`. -/
def get : Arg Int → Prog σ Int
  | .val x => pure x
  | .ref b i => I.read b i

/-- The reference `mArray_d[i]` (Vector.hpp:122-127), not read yet. -/
def refAt (v : Vec) (i : Int) : Prog σ (Arg Int) := do
  let j := normIndex v i
  dassert (j < Int.bmod v.sz (2 ^ 32))
  pure (.ref v.c j)

/-- `find(const int &index)` (DisjointSet.hpp:48-52), with the order of evaluation of `DSU.find`. -/
def find (v : Vec) (a : Arg Int) : Prog σ (Arg Int) := do
  let i ← get I a
  let s ← refAt v i
  let x ← get I s
  if x < 0 then pure a
  else do
    let i ← get I a
    let s ← refAt v i
    let r ← find v s
    let y ← get I r
    let i ← get I a
    setIndex I v i (.val y)
    refAt v i
partial_fixpoint

/-- `int r = find(i);` -/
def findVal (v : Vec) (i : Int) : Prog σ Int := do
  let r ← find I v (.val i)
  get I r

/-- `count()` (DisjointSet.hpp:54-61). -/
def count (v : Vec) : Prog σ Nat :=
  forRange v.sz 0 0 fun i n => do
    let x ← I.read v.c i
    pure (if x < 0 then n + 1 else n)

/-- `connected(e1, e2)` (DisjointSet.hpp:64-66), with the order of evaluation of `DSU.connected`. -/
def connected (v : Vec) (e1 e2 : Int) : Prog σ Bool := do
  let r1 ← find I v (.val e1)
  let r2 ← find I v (.val e2)
  let x1 ← get I r1
  let x2 ← get I r2
  pure (x1 == x2)

/-- `union_set(root1, root2)` (DisjointSet.hpp:74-82). -/
def unionSet (v : Vec) (r1 r2 : Int) : Prog σ Unit := do
  if r1 < r2 then setIndex I v r2 (.val r1)
  else do
    let x1 ← index I v r1
    let x2 ← index I v r2
    when (x1 = x2) do
      let y ← index I v r1
      check (-(2 ^ 31) ≤ y - 1) .overflow
      setIndex I v r1 (.val (y - 1))
    setIndex I v r2 (.val r1)

/-- `connect(e1, e2)` (DisjointSet.hpp:68-72). -/
def connect (v : Vec) (e1 e2 : Int) : Prog σ Unit := do
  let r1 ← findVal I v e1
  let r2 ← findVal I v e2
  unionSet I v r1 r2

/-- One operation on an object, results discarded. -/
def step (v : Vec) : Op → Prog σ Unit
  | .find i => do
    let _ ← findVal I v i
    pure ()
  | .connected i j => do
    let _ ← connected I v i j
    pure ()
  | .connect i j => connect I v i j

end

/-- The bytes of the static allocator, used as `int`s. -/
def ints (md : Sma.Mode) (c : Sma.Cfg) : MemOps Sma.St Int := asInt (poolOps md c intElem)

/-! ## Several objects

The objects are those of a world of vectors in the pool. -/

/-- One operation (compare `DSU.wstep`); `DisjointSet(int n)` (DisjointSet.hpp:27) is
`Vector(n, -1)`. -/
def wstep (md : Sma.Mode) (c : Sma.Cfg) : WOp → Prog PWorld Unit
  | .new k n => do Pool.putObj k (some (← Pool.lift (ctorFill (ints md c) n (.val (-1)))))
  | .op k p => do
    let v ← Pool.getObj k
    Pool.lift (step (ints md c) v p)
  | .newCopy d s => do
    Pool.step md c intElem (.new d)
    Pool.step md c intElem (.copy d s)
  | .newMove d s => do
    Pool.step md c intElem (.new d)
    Pool.step md c intElem (.move d s)
  | .copy d s => Pool.step md c intElem (.copy d s)
  | .move d s => Pool.step md c intElem (.move d s)
  | .drop k => Pool.step md c intElem (.drop k)

/-- A history of operations on any number of objects. -/
def wrun (md : Sma.Mode) (c : Sma.Cfg) (ops : List WOp) : Prog PWorld Unit :=
  seqAll (ops.map (wstep md c))

end Verif.DSUPool
