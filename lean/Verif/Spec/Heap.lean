import Mathlib.Data.Multiset.Basic
import Verif.Heap

/-!
# Specification of `Heap`: a priority queue is a multiset

`Order R cmp` says what is assumed of the comparator: `R` is a reflexive
transitive relation, `cmp a b` implies `R a b`, and `¬ cmp a b` implies `R b a`.  `greater`,
`less` and their non-strict versions on any linear order satisfy it.
-/

namespace Verif.Heap

open Prog Vec

variable {α : Type}

/-- The comparator and the order it implements: `R a b` reads "`a` may be the parent of `b`". -/
structure Order (R : α → α → Prop) (cmp : α → α → Bool) : Prop where
  refl : ∀ a, R a a
  trans : ∀ a b c, R a b → R b c → R a c
  pos : ∀ a b, cmp a b = true → R a b
  neg : ∀ a b, cmp a b = false → R b a

abbrev Spec (α : Type) := Nat → Option (Multiset α)

def Spec.put (w : Spec α) (k : Nat) (v : Option (Multiset α)) : Spec α :=
  fun x => if x = k then v else w x

/-- Precondition of an operation.  Sizes are bounded because the code computes child indices in
`int`. -/
def Pre : Op α → Spec α → Prop
  | .new k _, w => w k = none
  | .newRange k _ xs, w => w k = none ∧ xs.length + 1 ≤ 2 ^ 30
  | .push k _, w => ∃ s, w k = some s ∧ s.card < 2 ^ 30
  | .pop k, w => ∃ s, w k = some s ∧ s ≠ 0
  | .newCopy k s, w => w k = none ∧ w s ≠ none
  | .copy d s, w => w d ≠ none ∧ w s ≠ none
  | .newMove k s, w => w k = none ∧ w s ≠ none
  | .move d s, w => w d ≠ none ∧ w s ≠ none
  | .drop k, w => w k ≠ none

/-- Effect of an operation.  `pop` removes one element that precedes or ties with all others. -/
def specStep (R : α → α → Prop) : Op α → Spec α → Spec α → Prop
  | .new k _, w, w' => w' = w.put k (some 0)
  | .newRange k _ xs, w, w' => w' = w.put k (some ↑xs)
  | .push k x, w, w' => ∃ s, w k = some s ∧ w' = w.put k (some (x ::ₘ s))
  | .pop k, w, w' => ∃ x s, w k = some (x ::ₘ s) ∧ (∀ y ∈ s, R x y) ∧ w' = w.put k (some s)
  | .newCopy k s, w, w' => w' = w.put k (w s)
  | .copy d s, w, w' => w' = w.put d (w s)
  | .newMove k s, w, w' => w' = (w.put k (w s)).put s (some 0)
  | .move d s, w, w' => w' = (w.put d (w s)).put s (some 0)
  | .drop k, w, w' => w' = w.put k none

def specRun (R : α → α → Prop) : List (Op α) → Spec α → Spec α → Prop
  | [], w, w' => w' = w
  | op :: ops, w, w'' => ∃ w', specStep R op w w' ∧ specRun R ops w' w''

/-- Every operation of the history is called with its precondition satisfied. -/
def Legal (R : α → α → Prop) : List (Op α) → Spec α → Prop
  | [], _ => True
  | op :: ops, w => Pre op w ∧ ∀ w', specStep R op w w' → Legal R ops w'

/-- What the public observers show of every heap: `size()`, `empty()`, `top()` and iteration. -/
def Shows (R : α → α → Prop) (w : World α) (sw : Spec α) : Prop :=
  ∀ k, (sw k = none → w.obj k = none) ∧
    ∀ s, sw k = some s → ∃ v l, w.obj k = some v ∧ v.sz - 1 = s.card ∧ (v.sz = 1 ↔ s = 0) ∧
      Returns (iterate v) w.mem l w.mem ∧ (l : Multiset α) = s ∧
      (s ≠ 0 → ∃ x, Returns (top v) w.mem x w.mem ∧ x ∈ s ∧ ∀ y ∈ s, R x y)

/-- A heap's vector is never empty (it holds the sentinel), so copying a heap of a type with a
non-trivial destructor always hits the `Vector` copy defect (C04). -/
def Avoids (triv : Bool) : Op α → Prop
  | .newCopy _ _ => triv = true
  | .copy d s => d = s ∨ triv = true
  | _ => True

/-- The number of elements an operation adds. -/
def adds : Op α → Nat
  | .push _ _ => 1
  | .newRange _ _ xs => xs.length
  | _ => 0

/-- What an operation may be charged for (objects constructed and assigned) when no heap ever
holds more than `n` elements. -/
def charge (n : Nat) : Op α → Nat
  | .push _ _ | .pop _ => 4 + 2 * n.log2
  | .newRange _ _ xs => 4 * xs.length + 3
  | .newCopy _ _ | .copy _ _ => 2 * n + 4
  | .new _ _ | .newMove _ _ | .move _ _ => 2
  | .drop _ => 0

end Verif.Heap
