import Verif.Vector
import Verif.FixedArray

/-!
# Model of `PrimitiveIterator` and `distance` (core/Iterator.hpp)

A `PrimitiveIterator<T>` is a `T *`: an array object and an offset into it.  Forming a pointer
outside the array (or more than one past its end) and subtracting pointers into different
arrays are undefined in C++ and are faults here.
-/

namespace Verif.Iter

open Prog

variable {σ α : Type}

/-- What pointer arithmetic and dereferencing need to know about a memory: how many elements the
array `b` has (`none` when there is no such array any more), and how to read and write one. -/
structure Arrays (σ α : Type) where
  extent : σ → Nat → Option Nat
  read : Nat → Int → Prog σ α
  write : Nat → Int → α → Prog σ Unit

/-- `PrimitiveIterator<T>` (Iterator.hpp:35-49): the member `mPointer_d`
(spec/DStructSpec.hpp:118). -/
structure PIter where
  blk : Nat
  off : Int
  deriving DecidableEq, Repr

variable (A : Arrays σ α)

/-- `mPointer_d + n` (pointer arithmetic). -/
def shift (p : PIter) (n : Int) : Prog σ PIter := fun s =>
  match A.extent s p.blk with
  | none => some (.error .useAfterFree)
  | some len =>
    if 0 ≤ p.off + n ∧ p.off + n ≤ len then some (.ok (⟨p.blk, p.off + n⟩, s))
    else some (.error .outOfBounds)

/-- `++it` (Iterator.hpp:52): the iterator afterwards, which is also the value. -/
def inc (p : PIter) : Prog σ PIter := shift A p 1

/-- `it++` (Iterator.hpp:53): value and iterator afterwards. -/
def postInc (p : PIter) : Prog σ (PIter × PIter) := do
  let q ← shift A p 1
  pure (p, q)

/-- `--it` (Iterator.hpp:55). -/
def dec (p : PIter) : Prog σ PIter := shift A p (-1)

/-- `it--` (Iterator.hpp:56): value and iterator afterwards. -/
def postDec (p : PIter) : Prog σ (PIter × PIter) := do
  let q ← shift A p (-1)
  pure (p, q)

/-- `it + n` (Iterator.hpp:58). -/
def plus (p : PIter) (n : Int) : Prog σ PIter := shift A p n

/-- `it - n` (Iterator.hpp:59). -/
def minus (p : PIter) (n : Int) : Prog σ PIter := shift A p (-n)

/-- `last - first` (Iterator.hpp:65-69): pointer subtraction. -/
def diff (last first : PIter) : Prog σ Int := fun s =>
  match A.extent s last.blk with
  | none => some (.error .useAfterFree)
  | some _ =>
    if last.blk = first.blk then some (.ok (last.off - first.off, s))
    else some (.error .outOfBounds)

/-- `distance(first, last)` (Iterator.hpp:17-20). -/
def distance (first last : PIter) : Prog σ Int := diff A last first

/-- `it == it'` (spec/DStructSpec.hpp:94); `!=` (93) is its negation. -/
def eq (p q : PIter) : Bool := p == q

/-- `*it` used to read (spec/DStructSpec.hpp:91). -/
def deref (p : PIter) : Prog σ α := A.read p.blk p.off

/-- `*it = x` (spec/DStructSpec.hpp:91). -/
def store (p : PIter) (x : α) : Prog σ Unit := A.write p.blk p.off x

/-- The element memory of vectors.  `nullptr` behaves as an array without elements: `nullptr + 0`
and `nullptr - nullptr` are defined. -/
def vecArrays : Arrays (Vec.Mem α) α where
  extent m b := if b = 0 then some 0 else (m.blk b).map (·.len)
  read b i := Vec.read b i
  write b i x := Vec.assign b i (.val x)

/-- `Vector::begin()` (Vector.hpp:142-148). -/
def vecBegin (v : Vec.Vec) : PIter := ⟨v.c, 0⟩

/-- `Vector::end()` (Vector.hpp:150-156). -/
def vecEnd (v : Vec.Vec) : Prog (Vec.Mem α) PIter := shift vecArrays ⟨v.c, 0⟩ v.sz

/-- `Array` objects as arrays. -/
def arrArrays : Arrays (Arr.World α) α where
  extent w k := (w.obj k).map (·.length)
  read k i := Arr.read k i
  write k i x := Arr.write k i x

/-- `Array::begin()` (Array.hpp:84-90). -/
def arrBegin (k : Nat) : PIter := ⟨k, 0⟩

/-- `Array::end()` (Array.hpp:92-98). -/
def arrEnd (N k : Nat) : Prog (Arr.World α) PIter := shift arrArrays ⟨k, 0⟩ N

end Verif.Iter
