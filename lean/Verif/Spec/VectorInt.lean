import Verif.Spec.Vector

/-!
# Specification vocabulary for the `int` arithmetic of `Vector`
-/

namespace Verif.Vec

variable {α : Type}

/-- The storage of every vector, with elements of `w` bytes, has fewer than `2^31` bytes. -/
def Room (w : Nat) (sw : SWorld α) : Prop := ∀ k v, sw k = some v → v.cap * w < 2 ^ 31

/-- `Room` after every operation of a history. -/
def RoomAll (w : Nat) : List (Op α) → SWorld α → Prop
  | [], _ => True
  | op :: ops, sw => ∀ sw', specStep op sw = some sw' → Room w sw' ∧ RoomAll w ops sw'

/-- The number of elements for which a request for `n` elements of `w` bytes really gets storage: the
number of bytes is reduced modulo `2^32` and taken for a signed number; a negative request gets none. -/
def granted (w n : Nat) : Nat := if n * w % 2 ^ 32 < 2 ^ 31 then n * w % 2 ^ 32 / w else 0

end Verif.Vec
