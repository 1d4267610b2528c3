import Verif.Tree

/-!
# Several tree objects in one memory

Models of programs with any number of tree objects.  `BinaryTree` has two members, `mRootPtr_d`
and `mSize_d` (/repo/core/ds/tree/BinaryTree.hpp:223-224); its subclasses add only a stateless
comparison object.
-/

namespace Verif.Tree

open Prog

variable {δ β : Type}

/-- The nodes in memory (`root` and `size` of `mem` are not used) and the members of every tree
object that is alive. -/
structure World (δ : Type) where
  mem : St δ
  obj : Nat → Option (Ptr × Nat)

namespace World

/-- The state a method of an object with these members starts in. -/
def load (w : World δ) (h : Ptr × Nat) : St δ := { w.mem with root := h.1, size := h.2 }

/-- The world after a method of object `k` has finished. -/
def store (w : World δ) (k : Nat) (s : St δ) : World δ where
  mem := { s with root := w.mem.root, size := w.mem.size }
  obj := upd w.obj k (some (s.root, s.size))

/-- No object and no node. -/
def init : World δ where
  mem := { dat := fun _ => none, par := fun _ => none, lft := fun _ => none, rgt := fun _ => none,
           next := 0, lost := 0, root := none, size := 0 }
  obj := fun _ => none

end World

/-- A method call on object `k`.  Using an object that is not alive is a fault. -/
def on (k : Nat) (p : Prog (St δ) β) : Prog (World δ) β := fun w =>
  match w.obj k with
  | none => some (.error .useAfterFree)
  | some h =>
    match p (w.load h) with
    | none => none
    | some (.error e) => some (.error e)
    | some (.ok (a, s)) => some (.ok (a, w.store k s))

/-- Construction of an empty tree: `BinaryTree(nullptr, 0)` (BinaryTree.hpp:112;
AVLTree.hpp:109; BinarySearchTree.hpp:33). -/
def newObj (k : Nat) : Prog (World δ) Unit := modify fun w => { w with obj := upd w.obj k (some (none, 0)) }

/-- End of the life of object `k`: the destructor (BinaryTree.hpp:118-121) runs on it. -/
def dropObj (k : Nat) : Prog (World δ) Unit := do
  on k clear
  modify fun w => { w with obj := upd w.obj k none }

/-- The implicitly defined copy constructor or copy assignment: `d` gets the values of both
members of `s`. -/
def copyObj (d s : Nat) : Prog (World δ) Unit := fun w =>
  match w.obj s with
  | none => some (.error .useAfterFree)
  | some h => some (.ok ((), { w with obj := upd w.obj d (some h) }))

end Verif.Tree
