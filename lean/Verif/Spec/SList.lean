import Verif.SList
import Verif.Spec.DList

/-! # Specification of a collection of singly linked lists: each is a sequence -/

namespace Verif.SL

open Prog Verif.LL

variable {α : Type}

/-- The lists alive in a program. -/
abbrev SWorld (α : Type) := DL.SWorld α

/-- The meaning of one operation; `none` when its precondition fails. -/
def specStep : Op α → SWorld α → Option (SWorld α)
  | .new k, w => if (w k).isNone then some (w.put k (some [])) else none
  | .newFill k n x, w => if (w k).isNone then some (w.put k (some (List.replicate n x))) else none
  | .pushFront k x, w => (w k).bind fun l => some (w.put k (some (x :: l)))
  | .pushBack k x, w => (w k).bind fun l => some (w.put k (some (l ++ [x])))
  | .popFront k, w => (w k).bind fun l =>
      if l = [] then none else some (w.put k (some l.tail))
  | .popBack k, w => (w k).bind fun l =>
      if l = [] then none else some (w.put k (some l.dropLast))
  | .push k x, w => (w k).bind fun l => some (w.put k (some (x :: l)))
  | .pop k, w => (w k).bind fun l =>
      if l = [] then none else some (w.put k (some l.tail))
  | .clear k, w => (w k).bind fun _ => some (w.put k (some []))
  | .copy d s, w => (w d).bind fun _ => (w s).bind fun l => some (w.put d (some l))
  | .move d s, w => (w d).bind fun _ => (w s).bind fun l =>
      if d = s then some w else some ((w.put d (some l)).put s (some []))
  | .drop k, w => (w k).bind fun _ => some (w.put k none)

/-- The meaning of a history. -/
def specRun : List (Op α) → SWorld α → Option (SWorld α)
  | [], w => some w
  | op :: ops, w => (specStep op w).bind (specRun ops)

/-- What the public observers show of every list: iteration, `size()`, `empty()`, `front()` and
`back()`; observing changes nothing. -/
def Shows (m : Mem α) (w : SWorld α) : Prop :=
  ∀ k, (w k = none → m.cell (.head k) = none) ∧ ∀ l, w k = some l →
    Returns (iterate k) m l m ∧
    Returns (size k) m l.length m ∧ Returns (empty k) m (l.length == 0) m ∧
    (∀ x, l.head? = some x → Returns (front k) m x m) ∧
    (∀ x, l.getLast? = some x → Returns (back k) m x m)

/-- The operation avoids the four defects: moving from an empty list, copying a non-empty one,
the inherited `push` on an empty list and the inherited `pop` of the only element. -/
def Avoids : Op α → SWorld α → Prop
  | .move d s, w => d = s ∨ w s ≠ some []
  | .copy d s, w => d = s ∨ w s = some []
  | .push k _, w => w k ≠ some []
  | .pop k, w => ∀ x, w k ≠ some [x]
  | _, _ => True

/-- Every operation of the history does. -/
def AvoidsAll : List (Op α) → SWorld α → Prop
  | [], _ => True
  | op :: ops, w => Avoids op w ∧ ∀ w', specStep op w = some w' → AvoidsAll ops w'

end Verif.SL
