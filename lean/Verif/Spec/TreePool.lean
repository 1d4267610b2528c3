import Verif.TreePool
import Verif.Spec.BST
import Verif.Spec.ListPool

/-!
# Specification vocabulary for trees in the static pool

Trees are ordered sets (`Verif.Spec.AVLTree`, `Verif.Spec.BST`).
-/

namespace Verif.BST

open Verif.Tree

variable {α : Type} (lt : α → α → Bool)

/-- From `w` the statements `ops` lead to `w'`, with the results `outs`; each of them is applied to
objects that are alive. -/
inductive Runs : World α → List (Op α) → List (Option α) → World α → Prop
  | nil {w : World α} : Runs w [] [] w
  | cons {op : Op α} {ops : List (Op α)} {out : Option α} {outs : List (Option α)} {w w1 w2 : World α} :
      Alive op w → Returns (step lt op) w out w1 → Runs w1 ops outs w2 → Runs w (op :: ops) (out :: outs) w2

/-- `Steps lt w sw ops w' sw'`: from the state `w`, which means `sw`, the statements `ops` lead to
`w'`, which means `sw'`; each of them meets its precondition and is not a defective use. -/
inductive Steps : World α → SWorld α → List (Op α) → World α → SWorld α → Prop
  | nil {w : World α} {sw : SWorld α} : Steps w sw [] w sw
  | cons {op : Op α} {ops : List (Op α)} {w w1 w2 : World α} {sw sw1 sw2 : SWorld α} {out : Option α} :
      specStep lt op sw = some sw1 → Safe lt op w sw → Returns (step lt op) w out w1 →
      Steps w1 sw1 ops w2 sw2 → Steps w sw (op :: ops) w2 sw2

/-- The results of the statements of a program. -/
def specOuts : List (Op α) → SWorld α → List (Option α)
  | [], _ => []
  | op :: ops, sw => specOut lt op sw :: specOuts ops ((specStep lt op sw).getD sw)

/-- The elements without the surplus pushes. -/
def SWorld.sets (sw : SWorld α) : Nat → Option (List α) := fun k => (sw k).map Prod.fst

end Verif.BST

namespace Verif.AVL

variable {α : Type} (lt : α → α → Bool)

/-- The results of the statements of a program. -/
def specOuts : List (Op α) → SWorld α → List (Option α)
  | [], _ => []
  | op :: ops, sw => specOut lt op sw :: specOuts ops ((specStep lt op sw).getD sw)

end Verif.AVL

namespace Verif.TPool

open Prog
open Verif.Tree (Ptr Order Allocated)
open Verif.AVL (Ascending same)
open Verif.LPool (Total)

variable {α δ : Type}

/-- A pool, no trees. -/
def World.init (s : Sma.St) : World := ⟨s, fun _ => none⟩

/-- `n` nodes are allocated. -/
def Nodes (w : Tree.World δ) (n : Nat) : Prop :=
  ∃ ns : List Nat, ns.Nodup ∧ (∀ x, x ∈ ns ↔ Allocated w.mem x) ∧ ns.length = n

section
variable (md : Sma.Mode) (c : Sma.Cfg) (K : Pool.Layout δ)

/-- `free_mem_size()` is the pool size minus `n` nodes. -/
def FreeWithout (n : Nat) (pw : World) : Prop :=
  Returns Sma.freeMemSize pw.pool ((c.M - n * (8 * nodeWords K) : Nat) : Int) pw.pool ∧ n * (8 * nodeWords K) ≤ c.M

end

namespace B

/-- At most `cap` nodes are allocated after every statement of the program. -/
def FitsAll (lt : α → α → Bool) (cap : Nat) : List (BST.Op α) → BST.World α → Prop
  | [], _ => True
  | op :: ops, w => ∀ out w', Returns (BST.step lt op) w out w' → (∃ n, Nodes w' n ∧ n ≤ cap) ∧ FitsAll lt cap ops w'

/-- The trees have at most `cap` elements in all after every statement of the program. -/
def SetsFit (lt : α → α → Bool) (cap : Nat) : List (BST.Op α) → BST.SWorld α → Prop
  | [], _ => True
  | op :: ops, sw => ∀ sw', BST.specStep lt op sw = some sw' →
      (∃ n, Total sw'.sets n ∧ n ≤ cap) ∧ SetsFit lt cap ops sw'

variable (md : Sma.Mode) (c : Sma.Cfg) (K : Pool.Layout α) (E : PtrRep) (lt : α → α → Bool)

/-- Whatever a public observer shows of an object in `w`, it shows in `pw`; it changes nothing. -/
def Same (pw : World) (w : BST.World α) : Prop :=
  ∀ k, (pw.obj k = none ↔ w.obj k = none) ∧
    (∀ n, Returns (Tree.on k Tree.getSize) w n w → Returns (on k (poolTree md c K E).getSize) pw n pw) ∧
    (∀ b, Returns (Tree.on k Tree.empty) w b w → Returns (on k (empty (poolTree md c K E))) pw b pw) ∧
    (∀ o l, Returns (Tree.on k (BST.elements o)) w l w → Returns (on k (elements (poolTree md c K E) o)) pw l pw) ∧
    (∀ x v, Returns (Tree.on k (do let it ← BST.find lt x; BST.readIt it)) w v w →
      Returns (on k (do let it ← find (poolTree md c K E) lt x; readIt (poolTree md c K E) it)) pw v pw)

/-- What the public observers show, as for trees with memory of their own (`BST.Shows`). -/
def Shows (pw : World) (sw : BST.SWorld α) : Prop :=
  ∀ k, (sw k = none → pw.obj k = none) ∧ ∀ l n, sw k = some (l, n) → Ascending lt l ∧
    Returns (on k (poolTree md c K E).getSize) pw (l.length + n) pw ∧
    Returns (on k (empty (poolTree md c K E))) pw (l.length + n == 0) pw ∧
    (l ≠ [] → Returns (on k (elements (poolTree md c K E) .ino)) pw l pw) ∧
    ∀ x, Returns (on k (do let it ← find (poolTree md c K E) lt x; readIt (poolTree md c K E) it)) pw
      (l.find? (same lt x)) pw

end B

namespace A

/-- The trees have at most `cap` elements in all after every statement of the program. -/
def SetsFit (lt : α → α → Bool) (cap : Nat) : List (AVL.Op α) → AVL.SWorld α → Prop
  | [], _ => True
  | op :: ops, sw => ∀ sw', AVL.specStep lt op sw = some sw' → (∃ n, Total sw' n ∧ n ≤ cap) ∧ SetsFit lt cap ops sw'

variable (md : Sma.Mode) (c : Sma.Cfg) (K : Pool.Layout (AVL.D α)) (E : PtrRep) (lt : α → α → Bool)

/-- What the public observers show, as for trees with memory of their own (`AVL.Shows`); the height is
logarithmic. -/
def Shows (pw : World) (sw : AVL.SWorld α) : Prop :=
  ∀ k, (sw k = none → pw.obj k = none) ∧ ∀ l, sw k = some l → Ascending lt l ∧
    Returns (on k (poolTree md c K E).getSize) pw l.length pw ∧
    Returns (on k (empty (poolTree md c K E))) pw (l.length == 0) pw ∧
    (l ≠ [] → Returns (on k (elements (poolTree md c K E))) pw l pw) ∧
    (∃ h : Nat, Returns (on k (height (poolTree md c K E))) pw (h : Int) pw ∧ l.length < 2 ^ h ∧
      AVL.fib (h + 2) ≤ l.length + 1) ∧
    ∀ x, Returns (on k (do let it ← find (poolTree md c K E) lt x; readIt (poolTree md c K E) it)) pw
      (l.find? (same lt x)) pw

end A

end Verif.TPool
