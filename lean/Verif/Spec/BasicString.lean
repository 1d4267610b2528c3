import Verif.BasicString

/-! # Specification of a collection of strings -/

namespace Verif.Str

open Vec

variable {α : Type}

/-- What a string should hold; `hollow` records that it was moved from and not written since. -/
structure SStr (α : Type) where
  chars : List α
  hollow : Bool

abbrev Spec (α : Type) := Nat → Option (SStr α)

def Spec.put (w : Spec α) (k : Nat) (v : Option (SStr α)) : Spec α := fun x => if x = k then v else w x

/-- Sizes the code can index with an `int`. -/
def Fits (n : Nat) : Prop := n + 1 < 2 ^ 31

instance (n : Nat) : Decidable (Fits n) := inferInstanceAs (Decidable (_ < _))

/-- The string a C string denotes: everything before the first NUL. -/
def cVal [DecidableEq α] (nul : α) (str : List α) : List α := str.takeWhile (fun c => c ≠ nul)

/-- The intended meaning of an operation; `none`: precondition violated (unknown object, no
terminator, index out of range, result too long). -/
def specStep [DecidableEq α] (nul : α) : Op α → Spec α → Option (Spec α)
  | .new k, w => if (w k).isNone then some (w.put k (some ⟨[], false⟩)) else none
  | .newC k str, w =>
    if (w k).isNone ∧ nul ∈ str ∧ Fits (cVal nul str).length then
      some (w.put k (some ⟨cVal nul str, false⟩)) else none
  | .push k c, w => (w k).bind fun s =>
    if Fits (s.chars.length + 1) then some (w.put k (some ⟨s.chars ++ [c], false⟩)) else none
  | .pushElem k j i, w => (w k).bind fun s => (w j).bind fun t => (t.chars[i]?).bind fun c =>
    if Fits (s.chars.length + 1) then some (w.put k (some ⟨s.chars ++ [c], false⟩)) else none
  | .set k i c, w => (w k).bind fun s =>
    if i < s.chars.length then some (w.put k (some ⟨s.chars.set i c, false⟩)) else none
  | .clear k, w => (w k).bind fun _ => some (w.put k (some ⟨[], false⟩))
  | .copy d s, w => (w d).bind fun _ => (w s).bind fun t => some (w.put d (some t))
  | .move d s, w => (w d).bind fun _ => (w s).bind fun t =>
    if d = s then some w else some ((w.put d (some t)).put s (some ⟨[], true⟩))
  | .append d s, w => (w d).bind fun u => (w s).bind fun t =>
    if Fits (u.chars.length + t.chars.length) then
      some (w.put d (some ⟨u.chars ++ t.chars, false⟩)) else none
  | .drop k, w => (w k).bind fun _ => some (w.put k none)

def specRun [DecidableEq α] (nul : α) : List (Op α) → Spec α → Option (Spec α)
  | [], w => some w
  | op :: ops, w => (specStep nul op w).bind (specRun nul ops)

/-- `k` names a string that was not moved from (or has been written since). -/
def Sound (w : Spec α) (k : Nat) : Prop := ∀ s, w k = some s → s.hollow = false

/-- The situations in which the code is known to go wrong: constructing from `""`, appending a
non-empty string to itself, and using a moved-from string other than by assigning, clearing,
moving, copying or dropping it. -/
def Avoids [DecidableEq α] (nul : α) : Op α → Spec α → Prop
  | .newC _ str, _ => cVal nul str ≠ []
  | .push k _, w => Sound w k
  | .pushElem k _ _, w => Sound w k
  | .append d s, w => Sound w d ∧ Sound w s ∧ (d = s → ∀ t, w d = some t → t.chars = [])
  | _, _ => True

def AvoidsAll [DecidableEq α] (nul : α) : List (Op α) → Spec α → Prop
  | [], _ => True
  | op :: ops, w => Avoids nul op w ∧ ∀ w', specStep nul op w = some w' → AvoidsAll nul ops w'

/-- The bytes reachable from the pointer `p` in memory `m` are exactly `l` followed by NUL. -/
def Terminated (nul : α) (m : Mem α) (p : Nat × Int) (l : List α) : Prop :=
  (∀ i (h : i < l.length), Returns (Vec.read p.1 (p.2 + i)) m l[i] m) ∧
  Returns (Vec.read p.1 (p.2 + l.length)) m nul m

/-- What the public observers show: every string that is not moved-from has the right `size()`,
`empty()`, iteration, characters by index, `front()`, `back()`, and `c_str()` points to exactly its
characters followed by NUL. -/
def Shows (nul : α) (w : World α) (sw : Spec α) : Prop :=
  ∀ k, (sw k = none → w.obj k = none) ∧
    ∀ s, sw k = some s → ∃ v, w.obj k = some v ∧ (s.hollow = false →
      size v = s.chars.length ∧ (empty v = true ↔ s.chars = []) ∧
      Returns (iterate v) w.mem s.chars w.mem ∧
      (∀ i (h : i < s.chars.length), Returns (index v (i : Int)) w.mem s.chars[i] w.mem) ∧
      (∀ h : s.chars ≠ [], Returns (front v) w.mem (s.chars.head h) w.mem ∧
        Returns (back v) w.mem (s.chars.getLast h) w.mem) ∧
      ∃ p, Returns (cStr v) w.mem p w.mem ∧ Terminated nul w.mem p s.chars)

end Verif.Str
