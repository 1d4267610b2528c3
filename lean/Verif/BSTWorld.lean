import Verif.BST
import Verif.TreeWorld

/-! # Programs over binary search trees -/

namespace Verif.BST

open Prog Verif.Tree

variable {α : Type}

/-- The nodes in memory and the members of every tree object. -/
abbrev World (α : Type) := Tree.World α

/-- One statement of a program. -/
inductive Op (α : Type)
  /-- `BinarySearchTree t;` (BinarySearchTree.hpp:33) -/
  | new (k : Nat)
  /-- `BinarySearchTree t(begin, end);` over these elements (BinarySearchTree.hpp:35-40) -/
  | newFrom (k : Nat) (xs : List α)
  /-- `t.push(x)` -/
  | push (k : Nat) (x : α)
  /-- `t.push(*u.find(x))`: the argument refers to an element of a tree, maybe of `t` itself -/
  | pushAt (k j : Nat) (x : α)
  /-- `t.pop(x)` -/
  | pop (k : Nat) (x : α)
  /-- `t.pop(*u.find(x))` -/
  | popAt (k j : Nat) (x : α)
  /-- `t.erase(t.find(x))` -/
  | erase (k : Nat) (x : α)
  /-- `t.clear()` -/
  | clear (k : Nat)
  /-- `d = move(s)` -/
  | move (d s : Nat)
  /-- `BinarySearchTree d(move(s))` -/
  | moveNew (d s : Nat)
  /-- end of the life of `t` -/
  | drop (k : Nat)

/-- The element an iterator refers to; `none` for `end()`. -/
def readIt (it : Ptr) : Prog (St α) (Option α) := do
  if it = none then pure none
  else
    let x ← getData it
    pure (some x)

/-- `d` gets the members of `s`, which is reset (BinarySearchTree.hpp:54-60). -/
def takeObj (d s : Nat) : Prog (World α) Unit := fun w =>
  match w.obj s with
  | none => some (.error .useAfterFree)
  | some h => some (.ok ((), { w with obj := upd (upd w.obj d (some h)) s (some (none, 0)) }))

/-- `operator=(BinarySearchTree &&)` (BinarySearchTree.hpp:50-63; the test for self-assignment is
in common.hpp:44-47). -/
def moveObj (d s : Nat) : Prog (World α) Unit := do
  if d = s then pure ()
  else
    on d clear
    takeObj d s

variable (lt : α → α → Bool)

/-- The loop of the range constructor (BinarySearchTree.hpp:37-39). -/
def pushAll (k : Nat) : List α → Prog (World α) Unit
  | [] => pure ()
  | x :: xs => do
    on k (push lt (.val x))
    pushAll k xs

/-- Running one statement.  `erase` results in the element the returned iterator refers to. -/
def step : Op α → Prog (World α) (Option α)
  | .new k => do newObj k; pure none
  | .newFrom k xs => do newObj k; pushAll lt k xs; pure none
  | .push k x => do on k (push lt (.val x)); pure none
  | .pushAt k j x => do
    let it ← on j (find lt x)
    on k (push lt (.ref it))
    pure none
  | .pop k x => do on k (pop lt (.val x)); pure none
  | .popAt k j x => do
    let it ← on j (find lt x)
    on k (pop lt (.ref it))
    pure none
  | .erase k x => on k (do
    let it ← find lt x
    let next ← erase lt it
    readIt next)
  | .clear k => do on k Tree.clear; pure none
  | .move d s => do moveObj d s; pure none
  | .moveNew d s => do newObj d; moveObj d s; pure none
  | .drop k => do dropObj k; pure none

/-- Running a program. -/
def run : List (Op α) → Prog (World α) Unit
  | [] => pure ()
  | op :: ops => do
    let _ ← step lt op
    run ops

end Verif.BST
