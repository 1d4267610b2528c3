import Verif.TreeLemmas
import Verif.AVLTree

/-!
# Specification of the exchange of two nodes

`_swap_node` is the helper with which deletion moves a node to the place of another one.  The
specification is the renaming of the two nodes: every link of the new tree is the corresponding link
of the old tree with the two names exchanged.
-/

namespace Verif.AVL

open Tree

variable {α : Type}

/-- Exchange the names `a` and `b`. -/
def ren (a b x : Nat) : Nat := if x = a then b else if x = b then a else x

/-- The constructed nodes are linked as trees: child and parent links agree, the two children of a
node differ, and no node is its own parent or grandparent. -/
structure Linked (s : St α) : Prop where
  left : ∀ p c, Live s.dat p → s.lft p = some c → Live s.dat c ∧ s.par c = some p
  right : ∀ p c, Live s.dat p → s.rgt p = some c → Live s.dat c ∧ s.par c = some p
  up : ∀ c p, Live s.dat c → s.par c = some p → Live s.dat p ∧ (s.lft p = some c ∨ s.rgt p = some c)
  ne : ∀ p c, Live s.dat p → s.lft p = some c → s.rgt p ≠ some c
  acyclic : ∀ c p, Live s.dat c → s.par c = some p → s.par p ≠ some c

/-- `s'` is `s` with the nodes `a` and `b` in each other's place: links and root pointer are renamed,
each value stays in its node and each height in its place, and nothing else changes. -/
structure Exchanged (a b : Nat) (s s' : St α) : Prop where
  par : ∀ x, Live s.dat x → s'.par x = (s.par (ren a b x)).map (ren a b)
  lft : ∀ x, Live s.dat x → s'.lft x = (s.lft (ren a b x)).map (ren a b)
  rgt : ∀ x, Live s.dat x → s'.rgt x = (s.rgt (ren a b x)).map (ren a b)
  root : s'.root = s.root.map (ren a b)
  dat : ∀ x d e, s.dat x = some (some d) → s.dat (ren a b x) = some (some e) →
    s'.dat x = some (some ⟨e.height, d.val⟩)
  other : ∀ x, ¬ Live s.dat x → s'.dat x = s.dat x
  size : s'.size = s.size
  next : s'.next = s.next
  lost : s'.lost = s.lost

/-- The root pointer of the tree belongs to the nodes without parent. -/
def RootOf (s : St α) (a : Nat) : Prop := s.par a = none ↔ s.root = some a

/-- Nodes to which child links lead from `r`. -/
inductive Below (s : St α) (r : Nat) : Nat → Prop
  | refl : Below s r r
  | left {p c : Nat} : Below s r p → s.lft p = some c → Below s r c
  | right {p c : Nat} : Below s r p → s.rgt p = some c → Below s r c

end Verif.AVL
