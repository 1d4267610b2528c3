import Verif.Base

/-!
# Model of `core/ds/tree/EmbeddedBinaryTree.hpp` and `BinaryTree.hpp`

A node is addressed by a number; `nullptr` is `none`.  The link is the first member of a node
(tree-base.hpp:18-20), so `to_node`/`to_link` (tree-base.hpp:28-34) do not change an address and
a `Link *` and a `Node_ *` are both a `Ptr`.
-/

namespace Verif.Tree

open Prog

variable {δ β : Type}

/-- A `BinaryTreeLink_ *` or `Node_ *`. -/
abbrev Ptr := Option Nat

/-- The nodes in memory together with the members of the tree object a method runs on.
`dat n` tells whether address `n` is unallocated (`none`), raw storage (`some none`) or a
constructed node with the given data; `par`, `lft`, `rgt` are the links of the constructed nodes
(EmbeddedBinaryTree.hpp:27-33) and are meaningless elsewhere. -/
structure St (δ : Type) where
  dat : Nat → Option (Option δ)
  par : Nat → Ptr
  lft : Nat → Ptr
  rgt : Nat → Ptr
  /-- every address `≥ next` is unused so far -/
  next : Nat
  /-- nodes whose storage was released or reused while they were constructed -/
  lost : Nat
  /-- `mRootPtr_d` (BinaryTree.hpp:224) -/
  root : Ptr
  /-- `mSize_d` (BinaryTree.hpp:223).  Simplification: an unbounded number, decrementing `0`
  gives `0`. -/
  size : Nat

/-- Change a function at one point. -/
def upd {γ : Type} (f : Nat → γ) (n : Nat) (v : γ) : Nat → γ := fun x => if x = n then v else f x

/-- Access through a pointer: it has to point to a constructed node. -/
def touch (p : Ptr) : Prog (St δ) Nat := fun s =>
  match p with
  | none => some (.error .nullDeref)
  | some n =>
    match s.dat n with
    | none => some (.error .useAfterFree)
    | some none => some (.error .uninit)
    | some (some _) => some (.ok (n, s))

/-- `p->parent` -/
def getParent (p : Ptr) : Prog (St δ) Ptr := do
  let n ← touch p
  let s ← Prog.get
  pure (s.par n)

/-- `p->left` -/
def getLeft (p : Ptr) : Prog (St δ) Ptr := do
  let n ← touch p
  let s ← Prog.get
  pure (s.lft n)

/-- `p->right` -/
def getRight (p : Ptr) : Prog (St δ) Ptr := do
  let n ← touch p
  let s ← Prog.get
  pure (s.rgt n)

/-- `p->parent = q` -/
def setParent (p q : Ptr) : Prog (St δ) Unit := do
  let n ← touch p
  modify fun s => { s with par := upd s.par n q }

/-- `p->left = q` -/
def setLeft (p q : Ptr) : Prog (St δ) Unit := do
  let n ← touch p
  modify fun s => { s with lft := upd s.lft n q }

/-- `p->right = q` -/
def setRight (p q : Ptr) : Prog (St δ) Unit := do
  let n ← touch p
  modify fun s => { s with rgt := upd s.rgt n q }

/-- `to_node(p)->data` -/
def getData (p : Ptr) : Prog (St δ) δ := fun s =>
  match p with
  | none => some (.error .nullDeref)
  | some n =>
    match s.dat n with
    | none => some (.error .useAfterFree)
    | some none => some (.error .uninit)
    | some (some d) => some (.ok (d, s))

/-- `to_node(p)->data = d` -/
def setData (p : Ptr) (d : δ) : Prog (St δ) Unit := do
  let n ← touch p
  modify fun s => { s with dat := upd s.dat n (some (some d)) }

/-- `AllocNode_::allocate()` (BinaryTree.hpp:110; spec/DStructSpec.hpp:47-49).
Simplification: the underlying allocator succeeds. -/
def allocNode : Prog (St δ) Nat := fun s =>
  some (.ok (s.next, { s with dat := upd s.dat s.next (some none), next := s.next + 1 }))

/-- `dstruct::construct(nodePtr, Node_(d))` (core/common.hpp:52-57; tree-base.hpp:24-26 and
EmbeddedBinaryTree.hpp:32: all three links start as `nullptr`). -/
def constructNode (n : Nat) (d : δ) : Prog (St δ) Unit := fun s =>
  match s.dat n with
  | none => some (.error .useAfterFree)
  | some o => some (.ok ((), { s with
      dat := upd s.dat n (some (some d))
      par := upd s.par n none
      lft := upd s.lft n none
      rgt := upd s.rgt n none
      lost := s.lost + (if o.isSome then 1 else 0) }))

/-- `dstruct::destroy(nPtr)` (core/common.hpp:76-85). -/
def destroyNode (p : Ptr) : Prog (St δ) Unit := fun s =>
  match p with
  | none => some (.error .crash)
  | some n =>
    match s.dat n with
    | none => some (.error .useAfterFree)
    | some none => some (.error .badDestroy)
    | some (some _) => some (.ok ((), { s with dat := upd s.dat n (some none) }))

/-- `AllocNode_::deallocate(nPtr)` (BinaryTree.hpp:110; spec/DStructSpec.hpp:51-53). -/
def freeNode (p : Ptr) : Prog (St δ) Unit := fun s =>
  match p with
  | none => some (.ok ((), s))
  | some n =>
    match s.dat n with
    | none => some (.error .badFree)
    | some o => some (.ok ((), { s with
        dat := upd s.dat n none
        lost := s.lost + (if o.isSome then 1 else 0) }))

/-! ## Links (EmbeddedBinaryTree.hpp) -/

/-- `left_rotate` (EmbeddedBinaryTree.hpp:35-48). -/
def leftRotate (root : Ptr) : Prog (St δ) Ptr := do
  let newRoot ← getRight root
  let pa ← getParent root
  setParent newRoot pa
  let l ← getLeft newRoot
  setRight root l
  let l ← getLeft newRoot
  when (l ≠ none) (setParent l root)
  setParent root newRoot
  setLeft newRoot root
  pure newRoot

/-- `right_rotate` (EmbeddedBinaryTree.hpp:50-63). -/
def rightRotate (root : Ptr) : Prog (St δ) Ptr := do
  let newRoot ← getLeft root
  let pa ← getParent root
  setParent newRoot pa
  let r ← getRight newRoot
  setLeft root r
  let r ← getRight newRoot
  when (r ≠ none) (setParent r root)
  setParent root newRoot
  setRight newRoot root
  pure newRoot

/-- `tree::height` (EmbeddedBinaryTree.hpp:65-74).  Simplification: `int` does not overflow. -/
def height (root : Ptr) : Prog (St δ) Int := do
  if root = none then pure 0
  else
    let l ← getLeft root
    let lH ← height l
    let r ← getRight root
    let rH ← height r
    pure ((if lH > rH then lH else rH) + 1)
partial_fixpoint

/-- The loop of `next_preorder` (EmbeddedBinaryTree.hpp:91-97). -/
def preClimb (link : Ptr) : Prog (St δ) Ptr := do
  let pa ← getParent link
  if pa ≠ none then
    let r ← getRight pa
    if r ≠ none ∧ r ≠ link then pure r
    else preClimb pa
  else pure none
partial_fixpoint

/-- `next_preorder` (EmbeddedBinaryTree.hpp:76-98). -/
def nextPre (link : Ptr) : Prog (St δ) Ptr := do
  if link = none then pure none
  else
    let l ← getLeft link
    if l ≠ none then pure l
    else
      let r ← getRight link
      if r ≠ none then pure r
      else preClimb link

/-- `while (link->left != nullptr) link = link->left;` (EmbeddedBinaryTree.hpp:116-118 and
BinaryTree.hpp:215-217). -/
def leftmost (link : Ptr) : Prog (St δ) Ptr := do
  let l ← getLeft link
  if l ≠ none then leftmost l else pure link
partial_fixpoint

/-- The climbing loop of `next_inorder` (EmbeddedBinaryTree.hpp:122-126). -/
def inClimb (link : Ptr) : Prog (St δ) Ptr := do
  let pa ← getParent link
  if pa ≠ none then
    let l ← getLeft pa
    if l ≠ link then inClimb pa
    else pure pa
  else pure pa
partial_fixpoint

/-- `next_inorder` (EmbeddedBinaryTree.hpp:109-127). -/
def nextIn (link : Ptr) : Prog (St δ) Ptr := do
  if link = none then pure none
  else
    let r ← getRight link
    if r ≠ none then leftmost r
    else inClimb link

/-- The descending loop of `next_postorder` (EmbeddedBinaryTree.hpp:145-151). -/
def postDescend (link : Ptr) : Prog (St δ) Ptr := do
  let l ← getLeft link
  if l ≠ none then postDescend l
  else
    let r ← getRight link
    if r ≠ none then postDescend r
    else pure link
partial_fixpoint

/-- The climbing loop of `next_postorder` (EmbeddedBinaryTree.hpp:156-159). -/
def postClimb (link : Ptr) : Prog (St δ) Ptr := do
  let pa ← getParent link
  if pa ≠ none then
    let r ← getRight pa
    if r = link then postClimb pa
    else pure pa
  else pure pa
partial_fixpoint

/-- `next_postorder` (EmbeddedBinaryTree.hpp:138-160). -/
def nextPost (link : Ptr) : Prog (St δ) Ptr := do
  if link = none then pure none
  else
    let r ← getRight link
    if r ≠ none then postDescend r
    else postClimb link

/-- `preorder_traversal` (EmbeddedBinaryTree.hpp:100-107).  The callback is a program that
returns what it appends to an output list. -/
def preTraversal (root : Ptr) (cb : Ptr → Prog (St δ) (List β)) : Prog (St δ) (List β) := do
  if root = none then pure []
  else
    let o ← cb root
    let l ← getLeft root
    let a ← preTraversal l cb
    let r ← getRight root
    let b ← preTraversal r cb
    pure (o ++ a ++ b)
partial_fixpoint

/-- `inorder_traversal` (EmbeddedBinaryTree.hpp:129-136). -/
def inTraversal (root : Ptr) (cb : Ptr → Prog (St δ) (List β)) : Prog (St δ) (List β) := do
  if root = none then pure []
  else
    let l ← getLeft root
    let a ← inTraversal l cb
    let o ← cb root
    let r ← getRight root
    let b ← inTraversal r cb
    pure (a ++ o ++ b)
partial_fixpoint

/-- `postorder_traversal` (EmbeddedBinaryTree.hpp:162-169). -/
def postTraversal (root : Ptr) (cb : Ptr → Prog (St δ) (List β)) : Prog (St δ) (List β) := do
  if root = none then pure []
  else
    let l ← getLeft root
    let a ← postTraversal l cb
    let r ← getRight root
    let b ← postTraversal r cb
    let o ← cb root
    pure (a ++ b ++ o)
partial_fixpoint

/-! ## `BinaryTree` (BinaryTree.hpp) -/

/-- `TraversalType` (BinaryTree.hpp:101-105). -/
inductive Order
  | pre
  | ino
  | post
  deriving DecidableEq, Repr

/-- `mRootPtr_d` -/
def getRoot : Prog (St δ) Ptr := do
  let s ← Prog.get
  pure s.root

/-- `mSize_d` -/
def getSize : Prog (St δ) Nat := do
  let s ← Prog.get
  pure s.size

/-- `mSize_d = n` -/
def setSize (n : Nat) : Prog (St δ) Unit := modify fun s => { s with size := n }

/-- `empty()` (BinaryTree.hpp:124-126). -/
def empty : Prog (St δ) Bool := do
  let n ← getSize
  pure (decide (n = 0))

/-- `first_node` (BinaryTree.hpp:212-220). -/
def firstNode (root : Ptr) (o : Order) : Prog (St δ) Ptr :=
  if o ≠ .pre then leftmost root else pure root

/-- `_update_root` (BinaryTree.hpp:226-231). -/
def updateRoot (root : Ptr) : Prog (St δ) Unit := do
  modify fun s => { s with root := root }
  when (root ≠ none) (setParent root none)

/-- The callback of `clear` (BinaryTree.hpp:203-207). -/
def releaseNode (p : Ptr) : Prog (St δ) (List Unit) := do
  destroyNode p
  freeNode p
  pure []

/-- `static clear(Node_ * &root)` applied to `mRootPtr_d` (BinaryTree.hpp:201-210). -/
def clearRoot : Prog (St δ) Unit := do
  let root ← getRoot
  when (root ≠ none) (do
    let _ ← postTraversal root releaseNode
    pure ())
  modify fun s => { s with root := none }

/-- `clear()` (BinaryTree.hpp:138-141), also the body of the destructor (118-121). -/
def clear : Prog (St δ) Unit := do
  clearRoot
  setSize 0

/-- The callback `cbWrapper` of `traversal` (BinaryTree.hpp:151-154) for a `cb` that appends the
element it is given, with its address, to a list. -/
def visit (p : Ptr) : Prog (St δ) (List (Nat × δ)) := do
  let n ← touch p
  let d ← getData p
  pure [(n, d)]

/-- `traversal(cb, ttype)` (BinaryTree.hpp:149-169). -/
def traversal (o : Order) : Prog (St δ) (List (Nat × δ)) := do
  let root ← getRoot
  let f ← firstNode root o
  match o with
  | .pre => preTraversal f visit
  | .ino => inTraversal f visit
  | .post => postTraversal f visit

/-- The `NextFunc` of an iterator (BinaryTree.hpp:233-250). -/
def nextFn : Order → Ptr → Prog (St δ) Ptr
  | .pre => nextPre
  | .ino => nextIn
  | .post => nextPost

/-- `begin(ttype)` (BinaryTree.hpp:173-175).  An iterator is modelled by its
`mTreeNodeLinkPtr_d`; the cached data address `mPointer_d` is a fixed offset from it
(BinaryTree.hpp:88-90), also for `nullptr`, so comparing iterators compares these pointers.
`end()` (177-179) is `none`. -/
def begin_ (o : Order) : Prog (St δ) Ptr := do
  let root ← getRoot
  firstNode root o

/-- `for (; it != end(); ++it)` collecting the elements with their addresses
(BinaryTree.hpp:69-73). -/
def iterFrom (o : Order) (it : Ptr) : Prog (St δ) (List (Nat × δ)) := do
  if it = none then pure []
  else
    let n ← touch it
    let d ← getData it
    let it' ← nextFn o it
    let ds ← iterFrom o it'
    pure ((n, d) :: ds)
partial_fixpoint

/-- Iteration from `begin(ttype)` to `end(ttype)`. -/
def iterate (o : Order) : Prog (St δ) (List (Nat × δ)) := do
  let b ← begin_ o
  iterFrom o b

end Verif.Tree
