import Verif.Spec.SMA

/-! # Specification of what clients of the static allocator read back -/

namespace Verif.Sma

/-- The clients take permitted steps `ops` and get from `w` to `w'`. -/
inductive Trace (c : Cfg) : World → List Op → World → Prop
  | nil {w : World} : Trace c w [] w
  | cons {w w1 w' : World} {op : Op} {ops : List Op} {a : Nat} :
      Safe w op → Returns (step c op) w a w1 → Trace c w1 ops w' → Trace c w (op :: ops) w'

/-- What was last written to the `k`-th eight bytes of the block at `a`, `x` if nothing was. -/
def lastWrite (a k : Nat) : List Op → Cell → Cell
  | [], x => x
  | .write a' _ k' y :: ops, x => lastWrite a k ops (if a' = a ∧ k' = k then y else x)
  | _ :: ops, x => lastWrite a k ops x

end Verif.Sma
