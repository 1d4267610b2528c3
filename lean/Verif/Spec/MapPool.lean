import Verif.MapPool
import Verif.Spec.Map
import Verif.Spec.TreePool

/-!
# Specification vocabulary for maps in the static pool

Maps are lists of key/value pairs with ascending keys (`Verif.Spec.Map`).
-/

namespace Verif.Map

variable {K V : Type} (lt : K → K → Bool) (dflt : V)

/-- The results of the statements of a program. -/
def specOuts : List (Op K V) → SWorld K V → List (Option V)
  | [], _ => []
  | op :: ops, sw => specOut lt dflt op sw :: specOuts ops ((specStep lt dflt op sw).getD sw)

end Verif.Map

namespace Verif.TPool.M

open Prog
open Verif.LPool (Total)

variable {K V : Type}

/-- The maps have at most `cap` keys in all after every statement of the program. -/
def KeysFit (lt : K → K → Bool) (dflt : V) (cap : Nat) : List (Map.Op K V) → Map.SWorld K V → Prop
  | [], _ => True
  | op :: ops, sw => ∀ sw', Map.specStep lt dflt op sw = some sw' →
      (∃ n, Total sw' n ∧ n ≤ cap) ∧ KeysFit lt dflt cap ops sw'

/-- What the public observers show, as for maps with memory of their own (`Map.Shows`). -/
def Shows (md : Sma.Mode) (c : Sma.Cfg) (L : Pool.Layout (AVL.D (K × V))) (E : PtrRep) (lt : K → K → Bool) (dflt : V)
    (pw : World) (sw : Map.SWorld K V) : Prop :=
  ∀ k, (sw k = none → pw.obj k = none) ∧ ∀ l, sw k = some l →
    l.Pairwise (fun a b => lt a.1 b.1 = true) ∧
    Returns (on k (poolTree md c L E).getSize) pw l.length pw ∧
    Returns (on k (empty (poolTree md c L E))) pw (l.length == 0) pw ∧
    (l ≠ [] → Returns (on k (A.elements (poolTree md c L E))) pw l pw) ∧
    ∀ key, Returns (on k (do let it ← find (poolTree md c L E) lt dflt key; A.readIt (poolTree md c L E) it)) pw
      (l.find? fun e => Map.same lt key e.1) pw

end Verif.TPool.M
