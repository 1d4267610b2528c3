import Verif.DList

/-! # Specification of a collection of doubly linked lists: each is a sequence -/

namespace Verif.DL

open Prog Verif.LL

variable {α : Type}

/-- The lists alive in a program. -/
abbrev SWorld (α : Type) := Nat → Option (List α)

def SWorld.put (w : SWorld α) (k : Nat) (v : Option (List α)) : SWorld α :=
  fun x => if x = k then v else w x

/-- The meaning of one operation; `none` when its precondition fails. -/
def specStep : Op α → SWorld α → Option (SWorld α)
  | .new k, w => if (w k).isNone then some (w.put k (some [])) else none
  | .newFill k n x, w => if (w k).isNone then some (w.put k (some (List.replicate n x))) else none
  | .pushFront k x, w => (w k).bind fun l => some (w.put k (some (x :: l)))
  | .pushBack k x, w => (w k).bind fun l => some (w.put k (some (l ++ [x])))
  | .pushFrontElem k j i, w => (w k).bind fun l => (w j).bind fun u => u[i]?.bind fun x =>
      some (w.put k (some (x :: l)))
  | .pushBackElem k j i, w => (w k).bind fun l => (w j).bind fun u => u[i]?.bind fun x =>
      some (w.put k (some (l ++ [x])))
  | .set k i x, w => (w k).bind fun l =>
      if i < l.length then some (w.put k (some (l.set i x))) else none
  | .popFront k, w => (w k).bind fun l =>
      if l = [] then none else some (w.put k (some l.tail))
  | .popBack k, w => (w k).bind fun l =>
      if l = [] then none else some (w.put k (some l.dropLast))
  | .clear k, w => (w k).bind fun _ => some (w.put k (some []))
  | .copy d s, w => (w d).bind fun _ => (w s).bind fun l => some (w.put d (some l))
  | .move d s, w => (w d).bind fun _ => (w s).bind fun l =>
      if d = s then some w else some ((w.put d (some l)).put s (some []))
  | .drop k, w => (w k).bind fun _ => some (w.put k none)

/-- The meaning of a history. -/
def specRun : List (Op α) → SWorld α → Option (SWorld α)
  | [], w => some w
  | op :: ops, w => (specStep op w).bind (specRun ops)

/-- What the public observers show of every list: forward and backward iteration, `size()`,
`empty()`, `front()` and `back()`; observing changes nothing. -/
def Shows (m : Mem α) (w : SWorld α) : Prop :=
  ∀ k, (w k = none → m.cell (.head k) = none) ∧ ∀ l, w k = some l →
    Returns (iterate k) m l m ∧ Returns (backward k) m l.reverse m ∧
    Returns (size k) m l.length m ∧ Returns (empty k) m (l.length == 0) m ∧
    (∀ x, l.head? = some x → Returns (front k) m x m) ∧
    (∀ x, l.getLast? = some x → Returns (back k) m x m)

/-- The operation does not move from an empty list (into another one). -/
def Avoids : Op α → SWorld α → Prop
  | .move d s, w => d = s ∨ w s ≠ some []
  | _, _ => True

/-- No operation of the history moves from an empty list. -/
def AvoidsAll : List (Op α) → SWorld α → Prop
  | [], _ => True
  | op :: ops, w => Avoids op w ∧ ∀ w', specStep op w = some w' → AvoidsAll ops w'

/-- Where the element at position `p.2` of list `p.1` is after an operation; `none` when the
operation removes it.  Moving a list takes its elements along. -/
def follow : Op α → SWorld α → Nat × Nat → Option (Nat × Nat)
  | .pushFront k _, _, p | .pushFrontElem k _ _, _, p => if p.1 = k then some (p.1, p.2 + 1) else some p
  | .popFront k, _, p =>
      if p.1 = k then (if p.2 = 0 then none else some (p.1, p.2 - 1)) else some p
  | .popBack k, w, p =>
      if p.1 = k ∧ (w k).map List.length = some (p.2 + 1) then none else some p
  | .clear k, _, p | .drop k, _, p => if p.1 = k then none else some p
  | .copy d s, _, p => if p.1 = d ∧ d ≠ s then none else some p
  | .move d s, _, p =>
      if d = s then some p else if p.1 = d then none else if p.1 = s then some (d, p.2) else some p
  | .new _, _, p | .newFill _ _ _, _, p | .pushBack _ _, _, p | .pushBackElem _ _ _, _, p
  | .set _ _ _, _, p => some p

/-- The same for a history. -/
def followAll : List (Op α) → SWorld α → Nat × Nat → Option (Nat × Nat)
  | [], _, p => some p
  | op :: ops, w, p => (specStep op w).bind fun w' => (follow op w p).bind (followAll ops w')

/-- Nodes that are allocated. -/
def Allocated (m : Mem α) (n : Nat) : Prop := m.cell (.node n) ≠ none

end Verif.DL
