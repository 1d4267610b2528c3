import Verif.Vector

/-!
# Specification of a collection of vectors

A vector is a list together with a capacity.  Nothing here refers to memory.
-/

namespace Verif.Vec

variable {α : Type}

/-- What the user sees of a vector: its elements and its capacity. -/
structure SVec (α : Type) where
  data : List α
  cap : Nat

/-- The vectors alive in a program. -/
abbrev SWorld (α : Type) := Nat → Option (SVec α)

def SWorld.put (w : SWorld α) (k : Nat) (v : Option (SVec α)) : SWorld α :=
  fun x => if x = k then v else w x

/-- Position meant by a (possibly negative) index into a list of length `n`. -/
def pyIndex (n : Nat) (i : Int) : Option Nat :=
  if 0 ≤ i ∧ i < n then some i.toNat
  else if -(n : Int) ≤ i ∧ i < 0 then some (n + i).toNat
  else none

/-- Capacity after appending to a vector with `len` elements and capacity `cap`. -/
def capAfterPush (len cap : Nat) : Nat := if len < cap then cap else max 2 (2 * len)

/-- Capacity after removing the last of `len` elements. -/
def capAfterPop (len cap : Nat) : Nat := if len - 1 < cap / 3 then cap / 2 else cap

/-- The meaning of one operation.  `none`: the operation's precondition is violated
(unknown object, `pop_back` on an empty vector, index out of range, …). -/
def specStep : Op α → SWorld α → Option (SWorld α)
  | .new k, w => if (w k).isNone then some (w.put k (some ⟨[], 0⟩)) else none
  | .newFill k n x, w =>
    if (w k).isNone ∧ n ≠ 0 then some (w.put k (some ⟨List.replicate n x, n⟩)) else none
  | .push k x, w => do
    let v ← w k
    some (w.put k (some ⟨v.data ++ [x], capAfterPush v.data.length v.cap⟩))
  | .pushElem k j i, w => do
    let v ← w k
    let u ← w j
    let x ← u.data[i]?
    some (w.put k (some ⟨v.data ++ [x], capAfterPush v.data.length v.cap⟩))
  | .pop k, w => do
    let v ← w k
    if v.data = [] then none
    else some (w.put k (some ⟨v.data.dropLast, capAfterPop v.data.length v.cap⟩))
  | .set k i x, w => do
    let v ← w k
    let p ← pyIndex v.data.length i
    if v.data.length < 2 ^ 31 then some (w.put k (some ⟨v.data.set p x, v.cap⟩)) else none
  | .resize k n, w => do
    let v ← w k
    some (w.put k (some ⟨v.data.take n, n⟩))
  | .resizeFill k n x, w => do
    let v ← w k
    some (w.put k (some ⟨v.data.take n ++ List.replicate (n - v.data.length) x, n⟩))
  | .clear k, w => do
    let _ ← w k
    some (w.put k (some ⟨[], 0⟩))
  | .copy d s, w => do
    let _ ← w d
    let u ← w s
    some (w.put d (some u))
  | .move d s, w => do
    let _ ← w d
    let u ← w s
    if d = s then some w else some ((w.put d (some u)).put s (some ⟨[], 0⟩))
  | .drop k, w => do
    let _ ← w k
    some (w.put k none)

/-- The meaning of a history. -/
def specRun : List (Op α) → SWorld α → Option (SWorld α)
  | [], w => some w
  | op :: ops, w => (specStep op w).bind (specRun ops)

/-- Which vector holds, after the operation, the storage that vector `k` had before it;
`none` when that storage has been given up.  Storage is given up by growing when full, by
shrinking, by every `resize`, by `clear`, by being assigned to and at the end of the lifetime;
moving from a vector hands its storage on. -/
def storage : Op α → SWorld α → Nat → Option Nat
  | .push j _, w, k | .pushElem j _ _, w, k =>
    if j = k ∧ ∃ s, w k = some s ∧ s.data.length = s.cap then none else some k
  | .pop j, w, k =>
    if j = k ∧ ∃ s, w k = some s ∧ s.data.length - 1 < s.cap / 3 then none else some k
  | .resize j _, _, k | .resizeFill j _ _, _, k | .clear j, _, k | .drop j, _, k =>
    if j = k then none else some k
  | .copy d s, _, k => if d = k ∧ d ≠ s then none else some k
  | .move d s, _, k =>
    if d = s then some k else if k = d then none else if k = s then some d else some k
  | .new _, _, k | .newFill _ _ _, _, k | .set _ _ _, _, k => some k

/-- `storage` along a history. -/
def storageAll : List (Op α) → SWorld α → Nat → Option Nat
  | [], _, k => some k
  | op :: ops, w, k =>
    (storage op w k).bind fun k' => (specStep op w).bind fun w' => storageAll ops w' k'

/-- What one operation may be charged for in constructed objects: a constant for `push_back` and
`pop_back`, a multiple of the requested size or of the size and capacity of the source for the
operations that fill storage, nothing for the others. -/
def charge : Op α → SWorld α → Nat
  | .push _ _, _ | .pushElem _ _ _, _ => 4
  | .pop _, _ => 2
  | .newFill _ n _, _ | .resize _ n, _ | .resizeFill _ n _, _ => 2 * n
  | .copy _ s, w => match w s with
    | some u => u.data.length + u.cap
    | none => 0
  | .new _, _ | .set _ _ _, _ | .clear _, _ | .move _ _, _ | .drop _, _ => 0

/-- What a history may be charged for. -/
def chargeAll : List (Op α) → SWorld α → Nat
  | [], _ => 0
  | op :: ops, w => charge op w + match specStep op w with
    | some w' => chargeAll ops w'
    | none => 0

/-- What the public observers of a world show: every vector that should be alive is, with
the right size, capacity, elements by iteration, by index from the front and from the back,
`front()` and `back()`, and observing changes nothing. -/
def Shows (w : World α) (sw : SWorld α) : Prop :=
  ∀ k, (sw k = none → w.obj k = none) ∧
    ∀ s, sw k = some s → ∃ v, w.obj k = some v ∧ v.sz = s.data.length ∧ v.cap = s.cap ∧
      Returns (iterate v) w.mem s.data w.mem ∧
      (s.data.length < 2 ^ 31 → ∀ i (h : i < s.data.length),
        Returns (index v (i : Int)) w.mem s.data[i] w.mem ∧
        Returns (index v ((i : Int) - s.data.length)) w.mem s.data[i] w.mem) ∧
      (∀ h : s.data ≠ [], Returns (front v) w.mem (s.data.head h) w.mem ∧
        Returns (back v) w.mem (s.data.getLast h) w.mem)

end Verif.Vec
