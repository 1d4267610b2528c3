import Verif.Spec.SMA

/-! # Vocabulary for clients that never merge -/

namespace Verif.Sma

/-- The states that clients bring about from the state `w` without calling `memory_merge()`. -/
inductive NoMerge (c : Cfg) (w : World) : World → Prop
  | refl : NoMerge c w w
  | step {w1 w2 : World} {op : Op} {a : Nat} : NoMerge c w w1 → Safe w1 op → op ≠ .merge →
      Returns (step c op) w1 a w2 → NoMerge c w w2

/-- `b` is a piece of the pool: a free block or a block that a client holds. -/
def Piece (c : Cfg) (w : World) (b : Block) : Prop := FreeBlock c w.st b ∨ b ∈ taken w.live

/-- All bytes of `b` are in `d`. -/
def Inside (b d : Block) : Prop := d.1 ≤ b.1 ∧ b.1 + b.2 ≤ d.1 + d.2

end Verif.Sma
