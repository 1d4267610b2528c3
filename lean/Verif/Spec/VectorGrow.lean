import Verif.Spec.VectorPool

/-!
# Specification vocabulary for vectors that grow in the static pool
-/

namespace Verif.Pool

open Vec

/-- `n` elements can be reached by doubling the capacity 2, 4, 8, …, when the storage of capacity
`cap` is obtained while the storage of capacity `cap / 2` is still held, and the storage used before
lies in pieces in front of it: this takes space for `2 + 4 + … + cap = 2 * cap - 2` objects. -/
def Grows (size pool n : Nat) : Prop :=
  ∃ k, n ≤ 2 ^ (k + 1) ∧ size * (2 * 2 ^ (k + 1) - 2) ≤ pool

/-- The vector named `k` has the elements `l`. -/
def Holds {α : Type} (md : Sma.Mode) (c : Sma.Cfg) (K : Elem α) (w : PWorld) (k : Nat) (l : List α) : Prop :=
  ∃ v, w.obj k = some v ∧ v.sz = l.length ∧ Returns (iterate (poolOps md c K) v) w.pool l w.pool

end Verif.Pool
