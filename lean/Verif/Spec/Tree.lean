import Verif.TreeWorld

/-!
# Specification of binary trees in memory

`T δ` is a binary tree each of whose nodes carries an address and data.  `Rep s pa t` says that
memory holds exactly this tree: every node is a constructed node with this data, its child links
lead to its subtrees and its parent link to its parent (`pa` for the root).
-/

namespace Verif.Tree

variable {δ : Type}

/-- A binary tree whose nodes carry an address and data. -/
inductive T (δ : Type)
  | nil
  | node (l : T δ) (p : Nat) (d : δ) (r : T δ)
  deriving DecidableEq

namespace T

/-- Address of the root. -/
def root : T δ → Ptr
  | nil => none
  | node _ p _ _ => some p

/-- Left subtree, node, right subtree. -/
def inorder : T δ → List (Nat × δ)
  | nil => []
  | node l p d r => l.inorder ++ (p, d) :: r.inorder

/-- Node, left subtree, right subtree. -/
def preorder : T δ → List (Nat × δ)
  | nil => []
  | node l p d r => (p, d) :: (l.preorder ++ r.preorder)

/-- Left subtree, right subtree, node. -/
def postorder : T δ → List (Nat × δ)
  | nil => []
  | node l p d r => l.postorder ++ r.postorder ++ [(p, d)]

/-- The nodes in a given order. -/
def order : Order → T δ → List (Nat × δ)
  | .pre, t => t.preorder
  | .ino, t => t.inorder
  | .post, t => t.postorder

/-- The addresses of the nodes, from left to right. -/
def ptrs : T δ → List Nat
  | nil => []
  | node l p _ r => l.ptrs ++ p :: r.ptrs

/-- Number of nodes on the longest path from the root. -/
def height : T δ → Nat
  | nil => 0
  | node l _ _ r => max l.height r.height + 1

/-- Number of nodes. -/
def count : T δ → Nat
  | nil => 0
  | node l _ _ r => l.count + r.count + 1

/-- No node has a right child. -/
def leftOnly : T δ → Prop
  | nil => True
  | node l _ _ r => r = nil ∧ l.leftOnly

end T

/-- Memory holds the tree `t`; the parent link of its root is `pa`. -/
def Rep (s : St δ) (pa : Ptr) : T δ → Prop
  | .nil => True
  | .node l p d r => s.dat p = some (some d) ∧ s.par p = pa ∧ s.lft p = l.root ∧
      s.rgt p = r.root ∧ Rep s (some p) l ∧ Rep s (some p) r

/-- `mRootPtr_d` of the object is the root of the tree `t` in memory. -/
structure IsTree (s : St δ) (t : T δ) : Prop where
  root : s.root = t.root
  rep : Rep s none t
  nodup : t.ptrs.Nodup

/-- Node `n` can be reached from `p` along child links. -/
inductive Below (s : St δ) : Ptr → Nat → Prop
  | here (n : Nat) : Below s (some n) n
  | left {m n : Nat} : Below s (s.lft m) n → Below s (some m) n
  | right {m n : Nat} : Below s (s.rgt m) n → Below s (some m) n

/-- The node `n` is allocated. -/
def Allocated (s : St δ) (n : Nat) : Prop := s.dat n ≠ none

/-- The nodes in memory are exactly the nodes of the live objects, and consistent. -/
structure MemoryOk (w : World δ) : Prop where
  /-- a node is allocated exactly if it belongs to an object -/
  owned : ∀ n, Allocated w.mem n ↔ ∃ k r c, w.obj k = some (r, c) ∧ Below w.mem r n
  /-- no node belongs to two objects -/
  alone : ∀ k j r c r' c' n, w.obj k = some (r, c) → w.obj j = some (r', c') → Below w.mem r n →
    Below w.mem r' n → k = j
  /-- every allocated node is constructed -/
  built : ∀ n, Allocated w.mem n → ∃ d, w.mem.dat n = some (some d)
  /-- no node was released without being destroyed or overwritten -/
  lost : w.mem.lost = 0
  /-- a child's parent link leads back -/
  child : ∀ n m, Allocated w.mem n → w.mem.lft n = some m ∨ w.mem.rgt n = some m →
    w.mem.par m = some n ∧ Allocated w.mem m
  /-- a parent has the node as a child -/
  parent : ∀ n m, Allocated w.mem n → w.mem.par n = some m →
    Allocated w.mem m ∧ (w.mem.lft m = some n ∨ w.mem.rgt m = some n)
  /-- a node without parent is the root of an object -/
  top : ∀ n, Allocated w.mem n → w.mem.par n = none → ∃ k c, w.obj k = some (some n, c)

/-- `c` is the number of nodes that belong to an object with root `r`. -/
def Counts (s : St δ) (r : Ptr) (c : Nat) : Prop :=
  ∃ ns : List Nat, ns.Nodup ∧ ns.length = c ∧ ∀ n, n ∈ ns ↔ Below s r n

end Verif.Tree
