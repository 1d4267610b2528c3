import Verif.AVLTree
import Verif.TreeWorld

/-! # Programs over AVL trees -/

namespace Verif.AVL

open Prog Verif.Tree

variable {α : Type}

/-- The nodes in memory and the members of every AVL tree object. -/
abbrev World (α : Type) := Tree.World (D α)

/-- One statement of a program.  `AVLTree` declares no copy or move members
(AVLTree.hpp:108-109): its copy members copy the base, which is memberwise, and its move members
do the same, because `BinaryTree` declares a destructor (BinaryTree.hpp:118) and so has no move
members.  `copy`/`copyNew` stand for both. -/
inductive Op (α : Type)
  /-- `AVLTree t;` (AVLTree.hpp:109) -/
  | new (k : Nat)
  /-- `t.push(x)` -/
  | push (k : Nat) (x : α)
  /-- `t.pop(x)` -/
  | pop (k : Nat) (x : α)
  /-- `t.pop(*u.find(x))`: the argument refers to an element of a tree, maybe of `t` itself -/
  | popAt (k j : Nat) (x : α)
  /-- `t.erase(t.find(x))` -/
  | erase (k : Nat) (x : α)
  /-- `t.clear()` -/
  | clear (k : Nat)
  /-- `d = s` -/
  | copy (d s : Nat)
  /-- `AVLTree d(s)` -/
  | copyNew (d s : Nat)
  /-- end of the life of `t` -/
  | drop (k : Nat)

/-- The element an iterator refers to; `none` for `end()`. -/
def readIt (it : Ptr) : Prog (St α) (Option α) := do
  if it = none then pure none
  else
    let x ← deref it
    pure (some x)

variable (lt : α → α → Bool)

/-- Running one statement.  `erase` results in the element the returned iterator refers to. -/
def step : Op α → Prog (World α) (Option α)
  | .new k => do newObj k; pure none
  | .push k x => do on k (push lt x); pure none
  | .pop k x => do on k (pop lt (.val x)); pure none
  | .popAt k j x => do
    let it ← on j (find lt x)
    on k (pop lt (.ref it))
    pure none
  | .erase k x => on k (do
    let it ← find lt x
    let next ← erase lt it
    readIt next)
  | .clear k => do on k Tree.clear; pure none
  | .copy d s => do copyObj d s; pure none
  | .copyNew d s => do copyObj d s; pure none
  | .drop k => do dropObj k; pure none

/-- Running a program. -/
def run : List (Op α) → Prog (World α) Unit
  | [] => pure ()
  | op :: ops => do
    let _ ← step lt op
    run ops

end Verif.AVL
