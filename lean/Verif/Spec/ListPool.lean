import Verif.ListPool
import Verif.Spec.DList
import Verif.Spec.SList

/-!
# Specification vocabulary for linked lists in the static pool

Lists are sequences (`Verif.Spec.DList`, `Verif.Spec.SList`).
-/

namespace Verif.LPool

variable {α : Type}

/-- A pool, no lists. -/
def PMem.init (s : Sma.St) : PMem α := ⟨s, fun _ => none, fun _ => 0, fun _ => .null⟩

/-- All lists together have `n` elements. -/
def Total (sw : DL.SWorld α) (n : Nat) : Prop :=
  ∃ ks : List Nat, ks.Nodup ∧ (∀ k, k ∈ ks ↔ sw k ≠ none) ∧
    n = (ks.map fun k => ((sw k).getD []).length).sum

/-- The lists have at most `cap` elements in all after every operation of the history. -/
def D.FitsAll (cap : Nat) : List (DL.Op α) → DL.SWorld α → Prop
  | [], _ => True
  | op :: ops, w => ∀ w', DL.specStep op w = some w' → (∃ n, Total w' n ∧ n ≤ cap) ∧ FitsAll cap ops w'

/-- The same for singly linked lists. -/
def S.FitsAll (cap : Nat) : List (SL.Op α) → DL.SWorld α → Prop
  | [], _ => True
  | op :: ops, w => ∀ w', SL.specStep op w = some w' → (∃ n, Total w' n ∧ n ≤ cap) ∧ FitsAll cap ops w'

section
variable (md : Sma.Mode) (c : Sma.Cfg) (K : Pool.Layout α) (E : PtrRep)

/-- What the public observers show, as for lists with memory of their own (`DL.Shows`). -/
def D.Shows (w : PMem α) (sw : DL.SWorld α) : Prop :=
  ∀ k, (sw k = none → w.head k = none) ∧ ∀ l, sw k = some l →
    Returns (iterate (poolNodes md c .doubly K E) k) w l w ∧
    Returns (D.backward (poolNodes md c .doubly K E) k) w l.reverse w ∧
    Returns ((poolNodes md c .doubly K E).getSize k) w l.length w ∧
    Returns (empty (poolNodes md c .doubly K E) k) w (l.length == 0) w ∧
    (∀ x, l.head? = some x → Returns (front (poolNodes md c .doubly K E) k) w x w) ∧
    (∀ x, l.getLast? = some x → Returns (D.back (poolNodes md c .doubly K E) k) w x w)

/-- The same for singly linked lists (`SL.Shows`). -/
def S.Shows (w : PMem α) (sw : DL.SWorld α) : Prop :=
  ∀ k, (sw k = none → w.head k = none) ∧ ∀ l, sw k = some l →
    Returns (iterate (poolNodes md c .singly K E) k) w l w ∧
    Returns ((poolNodes md c .singly K E).getSize k) w l.length w ∧
    Returns (empty (poolNodes md c .singly K E) k) w (l.length == 0) w ∧
    (∀ x, l.head? = some x → Returns (front (poolNodes md c .singly K E) k) w x w) ∧
    (∀ x, l.getLast? = some x → Returns (S.back (poolNodes md c .singly K E) k) w x w)

/-- `free_mem_size()` is the pool size minus one node per element. -/
def Accounted (kd : LL.Kind) (w : PMem α) (sw : DL.SWorld α) : Prop :=
  ∃ n, Total sw n ∧
    Returns Sma.freeMemSize w.pool ((c.M - n * (8 * nodeWords kd K) : Nat) : Int) w.pool ∧
    n * (8 * nodeWords kd K) ≤ c.M

end

end Verif.LPool
