import Verif.Vector

/-!
# Model of `core/ds/set/DisjointSet.hpp`

Elements are `int`s; the parent array is a `Vector<int>` (modelled in `Verif.Vector`).
References returned by `find` are kept as references into the vector's buffer.
-/

namespace Verif.DSU

open Prog Vec

/-- `DisjointSet(int n)` (DisjointSet.hpp:27).  Simplification: `n` is not negative. -/
def ctor (n : Nat) : Prog (Mem Int) Vec := ctorFill true n (.val (-1))

/-- The reference `mArray_d[i]` (Vector.hpp:122-127), not read yet. -/
def refAt (v : Vec) (i : Int) : Prog (Mem Int) (Arg Int) := do
  let j := normIndex v i
  dassert (j < Int.bmod v.sz (2 ^ 32))
  pure (.ref v.c j)

/-- `find(const int &index)` (DisjointSet.hpp:48-52): takes and returns a reference.  In
`mArray_d[index] = find(mArray_d[index])` the right operand is evaluated first; `Verif.DisjointSetOrder` treats the
other order, which C++11 also allows (C104). -/
def find (v : Vec) (a : Arg Int) : Prog (Mem Int) (Arg Int) := do
  let i ← a.get
  let s ← refAt v i
  let x ← s.get
  if x < 0 then pure a
  else do
    let i ← a.get
    let s ← refAt v i
    let r ← find v s
    let y ← r.get
    let i ← a.get
    setIndex v i (.val y)
    refAt v i
partial_fixpoint

/-- `int r = find(i);` -/
def findVal (v : Vec) (i : Int) : Prog (Mem Int) Int := do
  let r ← find v (.val i)
  r.get

/-- `count()` (DisjointSet.hpp:54-61). -/
def count (v : Vec) : Prog (Mem Int) Nat :=
  forRange v.sz 0 0 fun i n => do
    let x ← Vec.read v.c i
    pure (if x < 0 then n + 1 else n)

/-- `connected(e1, e2)` (DisjointSet.hpp:64-66): both references are read after both calls, the first of which is
`find(e1)`; `Verif.DisjointSetOrder` treats the other orders (C104). -/
def connected (v : Vec) (e1 e2 : Int) : Prog (Mem Int) Bool := do
  let r1 ← find v (.val e1)
  let r2 ← find v (.val e2)
  let x1 ← r1.get
  let x2 ← r2.get
  pure (x1 == x2)

/-- `union_set(root1, root2)` (DisjointSet.hpp:74-82). -/
def unionSet (v : Vec) (r1 r2 : Int) : Prog (Mem Int) Unit := do
  if r1 < r2 then setIndex v r2 (.val r1)
  else do
    let x1 ← index v r1
    let x2 ← index v r2
    when (x1 = x2) do
      let y ← index v r1
      check (-(2 ^ 31) ≤ y - 1) .overflow
      setIndex v r1 (.val (y - 1))
    setIndex v r2 (.val r1)

/-- `connect(e1, e2)` (DisjointSet.hpp:68-72). -/
def connect (v : Vec) (e1 e2 : Int) : Prog (Mem Int) Unit := do
  let r1 ← findVal v e1
  let r2 ← findVal v e2
  unionSet v r1 r2

/-- Public operations of a history, results discarded. -/
inductive Op
  | find (i : Nat)
  | connected (i j : Nat)
  | connect (i j : Nat)

def step (v : Vec) : Op → Prog (Mem Int) Unit
  | .find i => do
    let _ ← findVal v i
    pure ()
  | .connected i j => do
    let _ ← connected v i j
    pure ()
  | .connect i j => connect v i j

/-- A history of operations on one object. -/
def run (v : Vec) (ops : List Op) : Prog (Mem Int) Unit := seqAll (ops.map (step v))

/-! ## Several objects

A `DisjointSet` object is its `mArray_d` (DisjointSet.hpp:85), so a world of disjoint sets is a world
of vectors. -/

/-- `size()` (DisjointSet.hpp:38-40). -/
def size (v : Vec) : Nat := v.sz

/-- `empty()` (DisjointSet.hpp:34-36). -/
def empty (v : Vec) : Bool := v.sz == 0

/-- `capacity()` (DisjointSet.hpp:42-44). -/
def capacity (v : Vec) : Nat := v.cap

/-- Operations on named objects. -/
inductive WOp
  /-- `DisjointSet k(n);` -/
  | new (k n : Nat)
  /-- `k.find(i)`, `k.connected(i, j)` or `k.connect(i, j)` -/
  | op (k : Nat) (p : Op)
  /-- `DisjointSet d(s);` (DisjointSet.hpp:28) -/
  | newCopy (d s : Nat)
  /-- `DisjointSet d(move(s));` (DisjointSet.hpp:30) -/
  | newMove (d s : Nat)
  /-- `d = s` (DisjointSet.hpp:29) -/
  | copy (d s : Nat)
  /-- `d = move(s)` (DisjointSet.hpp:31) -/
  | move (d s : Nat)
  /-- end of the lifetime of `k` (DisjointSet.hpp:32) -/
  | drop (k : Nat)

/-- One operation.  The defaulted copy/move members are those of the vector; its copy and move
constructors are default construction followed by assignment (core/common.hpp:35 and 43). -/
def wstep : WOp → Prog (World Int) Unit
  | .new k n => do putObj k (some (← lift (ctor n)))
  | .op k p => do
    let v ← getObj k
    lift (step v p)
  | .newCopy d s => do
    Vec.step true (.new d)
    Vec.step true (.copy d s)
  | .newMove d s => do
    Vec.step true (.new d)
    Vec.step true (.move d s)
  | .copy d s => Vec.step true (.copy d s)
  | .move d s => Vec.step true (.move d s)
  | .drop k => Vec.step true (.drop k)

/-- A history of operations on any number of objects. -/
def wrun (ops : List WOp) : Prog (World Int) Unit := seqAll (ops.map wstep)

end Verif.DSU
