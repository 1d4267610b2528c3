import Verif.FixedArray

/-!
# Specification of fixed-length arrays

An array of length `N` is a function from positions to values; a position holds `none`
while its value is indeterminate.
-/

namespace Verif.Arr

variable {α : Type}

/-- What the user sees of an array: `a i` is the value at position `i < N`. -/
abbrev SArr (α : Type) := Nat → Option α

abbrev SWorld (α : Type) := Nat → Option (SArr α)

def SWorld.put (w : SWorld α) (k : Nat) (a : Option (SArr α)) : SWorld α :=
  fun x => if x = k then a else w x

/-- Every position of an array of length `N` has a value. -/
def Full (N : Nat) (a : SArr α) : Prop := ∀ i < N, (a i).isSome

instance (N : Nat) (a : SArr α) : Decidable (Full N a) := inferInstanceAs (Decidable (∀ i < N, _))

/-- The meaning of one operation on arrays of length `N`.  `none`: a precondition is violated
(unknown object, index out of range, copying indeterminate values). -/
def specStep (N : Nat) (dflt : Option α) (mv : α → α) : Op α → SWorld α → Option (SWorld α)
  | .new k, w => if (w k).isNone then some (w.put k (some fun _ => dflt)) else none
  | .newFill k x, w => if (w k).isNone then some (w.put k (some fun _ => some x)) else none
  | .set k i x, w => do
    let a ← w k
    if -(N : Int) ≤ i ∧ i < N then
      some (w.put k (some fun j => if (j : Int) = (if i < 0 then N + i else i) then some x else a j))
    else none
  | .copy d s, w => do
    let _ ← w d
    let a ← w s
    if Full N a then some (w.put d (some a)) else none
  | .move d s, w => do
    let _ ← w d
    let a ← w s
    if Full N a then
      some (if d = s then w else (w.put s (some fun j => (a j).map mv)).put d (some a))
    else none
  | .drop k, w => do
    let _ ← w k
    some (w.put k none)

/-- The meaning of a history. -/
def specRun (N : Nat) (dflt : Option α) (mv : α → α) : List (Op α) → SWorld α → Option (SWorld α)
  | [], w => some w
  | op :: ops, w => (specStep N dflt mv op w).bind (specRun N dflt mv ops)

/-- What the public observers of a world of arrays show: the arrays that should be alive are;
`size()` is `N`; each position with a value is read by its index from the front and by its index from the
back; the first and last one by `front()` and `back()`; and iterating over an array all of
whose positions have a value visits exactly those, in order.  Observing changes nothing. -/
def Shows (N : Nat) (w : World α) (sw : SWorld α) : Prop :=
  ∀ k, (sw k = none → w.obj k = none) ∧
    ∀ a, sw k = some a → (w.obj k).isSome ∧ size N = N ∧ (empty N = true ↔ N = 0) ∧
      (∀ i x, i < N → a i = some x →
        Returns (index N k (i : Int)) w x w ∧ Returns (index N k ((i : Int) - N)) w x w ∧
        (i = 0 → Returns (front k) w x w) ∧ (i = N - 1 → Returns (back N k) w x w)) ∧
      (∀ l : List α, l.length = N → (∀ i (h : i < l.length), a i = some l[i]) →
        Returns (iterate N k) w l w)

end Verif.Arr
