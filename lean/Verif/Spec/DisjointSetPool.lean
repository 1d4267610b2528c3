import Verif.DisjointSetPool
import Verif.Spec.DisjointSet
import Verif.Spec.XStackPool

/-!
# Specification vocabulary for disjoint sets in the static pool

Elements and connections: `Verif.Spec.DisjointSet`.  Where storage lies and how much is free
(`XPool.Placed`, `XPool.Accounted`): `Verif.Spec.XStackPool`.
-/

namespace Verif.DSUPool

open Vec Pool
open DSU (Op WOp Conn Transversal)

/-- The number of bytes of every array requested by a constructor can be computed in an `int`. -/
def Small (ops : List WOp) : Prop := ∀ k n, WOp.new k n ∈ ops → 4 * n + 8 < 2 ^ 31

/-- Every object shows its own size, number of classes and connections, as with memory of its own
(`DSU.WShows`). -/
def Shows (md : Sma.Mode) (c : Sma.Cfg) (w : PWorld) (sw : DSU.SWorld) : Prop :=
  ∀ k, (sw k = none → w.obj k = none) ∧
    ∀ o, sw k = some o → ∃ v, w.obj k = some v ∧ DSU.size v = o.n ∧ (DSU.empty v = true ↔ o.n = 0) ∧
      (∀ i j, i < o.n → j < o.n → ∃ b s', Returns (connected (ints md c) v i j) w.pool b s' ∧
        (b = true ↔ Conn o.ps i j)) ∧
      ∃ n, Returns (count (ints md c) v) w.pool n w.pool ∧
        ∃ reps, Transversal o.n o.ps reps ∧ reps.length = n

end Verif.DSUPool
