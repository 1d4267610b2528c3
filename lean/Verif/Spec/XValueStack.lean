import Verif.XValueStack
import Verif.Spec.Heap

/-! # Specification of `XValueStack` -/

namespace Verif.XStack

open Prog Vec
open Heap (Order)

variable {α : Type}

/-! ## Specification: a list with its top first -/

def specStep : Op α → List α → Option (List α)
  | .push v, s => some (v :: s)
  | .pop, _ :: s => some s
  | .pop, [] => none
  | .clear, _ => some []

def specRun : List (Op α) → List α → Option (List α)
  | [], s => some s
  | op :: ops, s => (specStep op s).bind (specRun ops)

/-- `x` is an extremum of the elements. -/
def Ext (R : α → α → Prop) (s : List α) (x : α) : Prop := x ∈ s ∧ ∀ y ∈ s, R x y

/-- The defective situation: pushing a value equal to the current extremum under a strict
comparator. -/
def Avoids (R : α → α → Prop) (cmp : α → α → Bool) : Op α → List α → Prop
  | .push v, s => cmp v v = true ∨ ¬ Ext R s v
  | _, _ => True

def AvoidsAll (R : α → α → Prop) (cmp : α → α → Bool) : List (Op α) → List α → Prop
  | [], _ => True
  | op :: ops, s => Avoids R cmp op s ∧ ∀ s', specStep op s = some s' → AvoidsAll R cmp ops s'

/-- What the observers show: `empty()`, `top()`, `getXValue()`. -/
def Shows (R : α → α → Prop) (m : Mem α) (o : XS α) (s : List α) : Prop :=
  (empty o = true ↔ s = []) ∧
  (∀ y t, s = y :: t → Returns (top o) m y m) ∧
  (s ≠ [] → Ext R s (getXValue o))

/-! ## Several objects -/

/-- What an object should be: its comparator and its elements, top first. -/
structure SObj (ι α : Type) where
  c : ι
  s : List α

abbrev SWorld (ι α : Type) := Nat → Option (SObj ι α)

def SWorld.put {ι : Type} (w : SWorld ι α) (k : Nat) (v : Option (SObj ι α)) : SWorld ι α :=
  fun x => if x = k then v else w x

/-- Value semantics: a copy has the comparator and elements of its source and is independent of it;
a moved-from object is empty and keeps its comparator. -/
def wspecStep {ι : Type} : WOp ι α → SWorld ι α → Option (SWorld ι α)
  | .new k c _, w => if (w k).isNone then some (w.put k (some ⟨c, []⟩)) else none
  | .op k p, w => (w k).bind fun v => (specStep p v.s).bind fun s => some (w.put k (some ⟨v.c, s⟩))
  | .copy d s, w => (w d).bind fun _ => (w s).bind fun u => some (w.put d (some u))
  | .move d s, w => (w d).bind fun _ => (w s).bind fun u =>
    if d = s then some w else some ((w.put d (some u)).put s (some ⟨u.c, []⟩))
  | .drop k, w => (w k).bind fun _ => some (w.put k none)

def wspecRun {ι : Type} : List (WOp ι α) → SWorld ι α → Option (SWorld ι α)
  | [], w => some w
  | op :: ops, w => (wspecStep op w).bind (wspecRun ops)

/-- The defective situations: the one of C11/C12, and copying a non-empty stack of a type with a
non-trivial destructor (C04). -/
def WAvoids {ι : Type} (R : ι → α → α → Prop) (cmp : ι → α → α → Bool) (triv : Bool) :
    WOp ι α → SWorld ι α → Prop
  | .op k p, w => ∀ v, w k = some v → Avoids (R v.c) (cmp v.c) p v.s
  | .copy d s, w => d = s ∨ triv = true ∨ ∀ u, w s = some u → u.s = []
  | _, _ => True

def WAvoidsAll {ι : Type} (R : ι → α → α → Prop) (cmp : ι → α → α → Bool) (triv : Bool) :
    List (WOp ι α) → SWorld ι α → Prop
  | [], _ => True
  | op :: ops, w => WAvoids R cmp triv op w ∧
    ∀ w', wspecStep op w = some w' → WAvoidsAll R cmp triv ops w'

/-- Every object that should be alive is, shows its elements and extremum, and has its comparator. -/
def WShows {ι : Type} (R : ι → α → α → Prop) (w : World ι α) (sw : SWorld ι α) : Prop :=
  ∀ k, (sw k = none → w.obj k = none) ∧
    ∀ v, sw k = some v → ∃ u, w.obj k = some u ∧ u.c = v.c ∧ Shows (R v.c) w.mem u.o v.s

end Verif.XStack
