import Verif.Vector

/-! # Model of `core/algorithm.hpp` and of `PrimitiveIterator` (core/Iterator.hpp) -/

namespace Verif.Alg

open Prog

variable {σ ι α : Type}

/-- What the algorithms use of an iterator type: `!=`, `++` (which may read memory) and
`*it`. -/
structure Iter (σ ι α : Type) where
  ne : ι → ι → Bool
  next : ι → Prog σ ι
  deref : ι → Prog σ α

/-- `algorithm::for_each(begin, end, cb)` (algorithm.hpp:18-23).  The callback gets a
reference, so it is a program that knows the position. -/
def forEach (it : Iter σ ι α) (cb : ι → Prog σ Unit) (b e : ι) : Prog σ Unit := do
  if it.ne b e then
    cb b
    let b' ← it.next b
    forEach it cb b' e
  else pure ()
partial_fixpoint

/-- `algorithm::find(begin, end, obj)` (algorithm.hpp:25-33); `eq` is the element type's
`==`. -/
def find (it : Iter σ ι α) (eq : α → α → Bool) (obj : α) (b e : ι) : Prog σ ι := do
  if it.ne b e then
    let x ← it.deref b
    if eq x obj then pure b
    else
      let b' ← it.next b
      find it eq obj b' e
  else pure e
partial_fixpoint

/-- `PrimitiveIterator<T>` (Iterator.hpp:35-62): a pointer, here block and offset.  `it++` is
pointer increment, `!=` compares the pointers (spec/DStructSpec.hpp:89). -/
def primitive : Iter (Vec.Mem α) (Nat × Nat) α where
  ne p q := p ≠ q
  next p := pure (p.1, p.2 + 1)
  deref p := Vec.read p.1 p.2

/-- `Vector::begin()` (Vector.hpp:142-148). -/
def vecBegin (v : Vec.Vec) : Nat × Nat := (v.c, 0)

/-- `Vector::end()` (Vector.hpp:150-156). -/
def vecEnd (v : Vec.Vec) : Nat × Nat := (v.c, v.sz)

/-- The callback `[](T &x) { x = f(x); }`. -/
def updateWith (f : α → α) (p : Nat × Nat) : Prog (Vec.Mem α) Unit := do
  let x ← Vec.read p.1 p.2
  Vec.assign p.1 p.2 (.val (f x))

end Verif.Alg
