import Verif.AVLWorld
import Verif.BSTWorld
import Verif.VectorPool
import Verif.SMAMode

/-!
# Trees whose nodes live in the static pool

The models in `Verif.Tree`, `Verif.BST` and `Verif.AVLTree` give every node an identifier that is
never used again.  With the static allocator (`Verif.SMAMode`) nodes are parts of one array of bytes,
addresses are used again, and nothing but the code keeps the nodes apart.  Here the functions of the
trees are written once more, over an arbitrary memory (`TreeOps`): with `poolTree` they work on the
bytes of the static allocator.  `Verif/TreePoolSim.lean` and the files after it prove that they do there what
the functions of the other models do.  The tree objects themselves, with root pointer and size, are not
in the pool.
-/

namespace Verif.TPool

open Prog
open Verif.Tree (Ptr Order)

variable {σ δ β : Type}

/-- What the trees need from memory and from the object a method runs on. -/
structure TreeOps (σ δ : Type) where
  /-- access to a node: its address -/
  touch : Ptr → Prog σ Nat
  getParent : Ptr → Prog σ Ptr
  getLeft : Ptr → Prog σ Ptr
  getRight : Ptr → Prog σ Ptr
  setParent : Ptr → Ptr → Prog σ Unit
  setLeft : Ptr → Ptr → Prog σ Unit
  setRight : Ptr → Ptr → Prog σ Unit
  getData : Ptr → Prog σ δ
  setData : Ptr → δ → Prog σ Unit
  /-- `AllocNode_::allocate()` -/
  alloc : Prog σ Nat
  /-- `dstruct::construct(nodePtr, Node_(d))` -/
  construct : Nat → δ → Prog σ Unit
  destroy : Ptr → Prog σ Unit
  /-- `AllocNode_::deallocate(nPtr)` -/
  free : Ptr → Prog σ Unit
  /-- `mRootPtr_d` -/
  getRoot : Prog σ Ptr
  setRoot : Ptr → Prog σ Unit
  /-- `mSize_d` -/
  getSize : Prog σ Nat
  setSize : Nat → Prog σ Unit

/-! ## Links and `BinaryTree` -/

section
variable (I : TreeOps σ δ)

/-- `left_rotate` (EmbeddedBinaryTree.hpp:35-48). -/
def leftRotate (root : Ptr) : Prog σ Ptr := do
  let newRoot ← I.getRight root
  let pa ← I.getParent root
  I.setParent newRoot pa
  let l ← I.getLeft newRoot
  I.setRight root l
  let l ← I.getLeft newRoot
  when (l ≠ none) (I.setParent l root)
  I.setParent root newRoot
  I.setLeft newRoot root
  pure newRoot

/-- `right_rotate` (EmbeddedBinaryTree.hpp:50-63). -/
def rightRotate (root : Ptr) : Prog σ Ptr := do
  let newRoot ← I.getLeft root
  let pa ← I.getParent root
  I.setParent newRoot pa
  let r ← I.getRight newRoot
  I.setLeft root r
  let r ← I.getRight newRoot
  when (r ≠ none) (I.setParent r root)
  I.setParent root newRoot
  I.setRight newRoot root
  pure newRoot

/-- `tree::height` (EmbeddedBinaryTree.hpp:65-74).  Simplification: `int` does not overflow. -/
def height (root : Ptr) : Prog σ Int := do
  if root = none then pure 0
  else
    let l ← I.getLeft root
    let lH ← height l
    let r ← I.getRight root
    let rH ← height r
    pure ((if lH > rH then lH else rH) + 1)
partial_fixpoint

/-- The loop of `next_preorder` (EmbeddedBinaryTree.hpp:91-97). -/
def preClimb (link : Ptr) : Prog σ Ptr := do
  let pa ← I.getParent link
  if pa ≠ none then
    let r ← I.getRight pa
    if r ≠ none ∧ r ≠ link then pure r
    else preClimb pa
  else pure none
partial_fixpoint

/-- `next_preorder` (EmbeddedBinaryTree.hpp:76-98). -/
def nextPre (link : Ptr) : Prog σ Ptr := do
  if link = none then pure none
  else
    let l ← I.getLeft link
    if l ≠ none then pure l
    else
      let r ← I.getRight link
      if r ≠ none then pure r
      else preClimb I link

/-- `while (link->left != nullptr) link = link->left;` (EmbeddedBinaryTree.hpp:116-118 and
BinaryTree.hpp:215-217). -/
def leftmost (link : Ptr) : Prog σ Ptr := do
  let l ← I.getLeft link
  if l ≠ none then leftmost l else pure link
partial_fixpoint

/-- The climbing loop of `next_inorder` (EmbeddedBinaryTree.hpp:122-126). -/
def inClimb (link : Ptr) : Prog σ Ptr := do
  let pa ← I.getParent link
  if pa ≠ none then
    let l ← I.getLeft pa
    if l ≠ link then inClimb pa
    else pure pa
  else pure pa
partial_fixpoint

/-- `next_inorder` (EmbeddedBinaryTree.hpp:109-127). -/
def nextIn (link : Ptr) : Prog σ Ptr := do
  if link = none then pure none
  else
    let r ← I.getRight link
    if r ≠ none then leftmost I r
    else inClimb I link

/-- The descending loop of `next_postorder` (EmbeddedBinaryTree.hpp:145-151). -/
def postDescend (link : Ptr) : Prog σ Ptr := do
  let l ← I.getLeft link
  if l ≠ none then postDescend l
  else
    let r ← I.getRight link
    if r ≠ none then postDescend r
    else pure link
partial_fixpoint

/-- The climbing loop of `next_postorder` (EmbeddedBinaryTree.hpp:156-159). -/
def postClimb (link : Ptr) : Prog σ Ptr := do
  let pa ← I.getParent link
  if pa ≠ none then
    let r ← I.getRight pa
    if r = link then postClimb pa
    else pure pa
  else pure pa
partial_fixpoint

/-- `next_postorder` (EmbeddedBinaryTree.hpp:138-160). -/
def nextPost (link : Ptr) : Prog σ Ptr := do
  if link = none then pure none
  else
    let r ← I.getRight link
    if r ≠ none then postDescend I r
    else postClimb I link

/-- `preorder_traversal` (EmbeddedBinaryTree.hpp:100-107).  The callback is a program that
returns what it appends to an output list. -/
def preTraversal (root : Ptr) (cb : Ptr → Prog σ (List β)) : Prog σ (List β) := do
  if root = none then pure []
  else
    let o ← cb root
    let l ← I.getLeft root
    let a ← preTraversal l cb
    let r ← I.getRight root
    let b ← preTraversal r cb
    pure (o ++ a ++ b)
partial_fixpoint

/-- `inorder_traversal` (EmbeddedBinaryTree.hpp:129-136). -/
def inTraversal (root : Ptr) (cb : Ptr → Prog σ (List β)) : Prog σ (List β) := do
  if root = none then pure []
  else
    let l ← I.getLeft root
    let a ← inTraversal l cb
    let o ← cb root
    let r ← I.getRight root
    let b ← inTraversal r cb
    pure (a ++ o ++ b)
partial_fixpoint

/-- `postorder_traversal` (EmbeddedBinaryTree.hpp:162-169). -/
def postTraversal (root : Ptr) (cb : Ptr → Prog σ (List β)) : Prog σ (List β) := do
  if root = none then pure []
  else
    let l ← I.getLeft root
    let a ← postTraversal l cb
    let r ← I.getRight root
    let b ← postTraversal r cb
    let o ← cb root
    pure (a ++ b ++ o)
partial_fixpoint

/-- `empty()` (BinaryTree.hpp:124-126). -/
def empty : Prog σ Bool := do
  let n ← I.getSize
  pure (decide (n = 0))

/-- `first_node` (BinaryTree.hpp:212-220). -/
def firstNode (root : Ptr) (o : Order) : Prog σ Ptr :=
  if o ≠ .pre then leftmost I root else pure root

/-- `_update_root` (BinaryTree.hpp:226-231). -/
def updateRoot (root : Ptr) : Prog σ Unit := do
  I.setRoot root
  when (root ≠ none) (I.setParent root none)

/-- The callback of `clear` (BinaryTree.hpp:203-207). -/
def releaseNode (p : Ptr) : Prog σ (List Unit) := do
  I.destroy p
  I.free p
  pure []

/-- `static clear(Node_ * &root)` applied to `mRootPtr_d` (BinaryTree.hpp:201-210). -/
def clearRoot : Prog σ Unit := do
  let root ← I.getRoot
  when (root ≠ none) (do
    let _ ← postTraversal I root (releaseNode I)
    pure ())
  I.setRoot none

/-- `clear()` (BinaryTree.hpp:138-141), also the body of the destructor (118-121). -/
def clear : Prog σ Unit := do
  clearRoot I
  I.setSize 0

/-- The callback `cbWrapper` of `traversal` (BinaryTree.hpp:151-154) for a `cb` that appends the
element it is given, with its address, to a list. -/
def visit (p : Ptr) : Prog σ (List (Nat × δ)) := do
  let n ← I.touch p
  let d ← I.getData p
  pure [(n, d)]

/-- `traversal(cb, ttype)` (BinaryTree.hpp:149-169). -/
def traversal (o : Order) : Prog σ (List (Nat × δ)) := do
  let root ← I.getRoot
  let f ← firstNode I root o
  match o with
  | .pre => preTraversal I f (visit I)
  | .ino => inTraversal I f (visit I)
  | .post => postTraversal I f (visit I)

/-- The `NextFunc` of an iterator (BinaryTree.hpp:233-250). -/
def nextFn : Order → Ptr → Prog σ Ptr
  | .pre => nextPre I
  | .ino => nextIn I
  | .post => nextPost I

/-- `begin(ttype)` (BinaryTree.hpp:173-175).  An iterator is modelled by its
`mTreeNodeLinkPtr_d`; the cached data address `mPointer_d` is a fixed offset from it
(BinaryTree.hpp:88-90), also for `nullptr`, so comparing iterators compares these pointers.
`end()` (177-179) is `none`. -/
def begin_ (o : Order) : Prog σ Ptr := do
  let root ← I.getRoot
  firstNode I root o

/-- `for (; it != end(); ++it)` collecting the elements with their addresses
(BinaryTree.hpp:69-73). -/
def iterFrom (o : Order) (it : Ptr) : Prog σ (List (Nat × δ)) := do
  if it = none then pure []
  else
    let n ← I.touch it
    let d ← I.getData it
    let it' ← nextFn I o it
    let ds ← iterFrom o it'
    pure ((n, d) :: ds)
partial_fixpoint

/-- Iteration from `begin(ttype)` to `end(ttype)`. -/
def iterate (o : Order) : Prog σ (List (Nat × δ)) := do
  let b ← begin_ I o
  iterFrom I o b

end

/-! ## `BinarySearchTree` -/

namespace B

variable {α : Type} (I : TreeOps σ α) (lt : α → α → Bool)

/-- Reading an argument `const T &` (`BST.Arg`). -/
def readArg : BST.Arg α → Prog σ α
  | .val x => pure x
  | .ref p => I.getData p

/-- The loop of `_insert` that looks for the parent of the new node
(BinarySearchTree.hpp:152-163).  The result is the final `target` (the node that holds `obj`
already, or `nullptr`) and the final `parent`. -/
def insertLoop (obj : BST.Arg α) (target parent : Ptr) : Prog σ (Ptr × Ptr) := do
  if target = none then pure (none, parent)
  else
    let x ← readArg I obj
    let d ← I.getData target
    if lt x d then
      let l ← I.getLeft target
      insertLoop obj l target
    else if lt d x then
      let r ← I.getRight target
      insertLoop obj r target
    else pure (target, target)
partial_fixpoint

/-- `_insert` (BinarySearchTree.hpp:146-187). -/
def insert (obj : BST.Arg α) : Prog σ Ptr := do
  let root ← I.getRoot
  let (target, parent) ← insertLoop I lt obj root none
  if target ≠ none then pure target
  else
    let n ← I.alloc
    let x ← readArg I obj
    I.construct n x
    when (parent ≠ none) (do
      I.setParent (some n) parent
      let x ← readArg I obj
      let d ← I.getData parent
      let subTree ← (if lt x d then do
          let sub ← I.getLeft parent
          I.setLeft parent (some n)
          I.setLeft (some n) sub
          pure sub
        else do
          let sub ← I.getRight parent
          I.setRight parent (some n)
          I.setRight (some n) sub
          pure sub)
      when (subTree ≠ none) (I.setParent subTree (some n)))
    pure (some n)

/-- `push` (BinarySearchTree.hpp:69-74). -/
def push (obj : BST.Arg α) : Prog σ Unit := do
  let tree ← insert I lt obj
  let root ← I.getRoot
  when (root = none) (updateRoot I tree)
  let n ← I.getSize
  I.setSize (n + 1)

/-- `while (nullptr == tmp->left) tmp = tmp->left;` (BinarySearchTree.hpp:212-214). -/
def stuckLoop (tmp : Ptr) : Prog σ Ptr := do
  let l ← I.getLeft tmp
  if l = none then
    let l ← I.getLeft tmp
    stuckLoop l
  else pure tmp
partial_fixpoint

/-- The end of `_try_to_delete` (BinarySearchTree.hpp:227-236). -/
def spliceOut (linkPtr subTree : Ptr) : Prog σ Ptr := do
  when (subTree ≠ none) (do
    let pa ← I.getParent linkPtr
    I.setParent subTree pa)
  I.destroy linkPtr
  I.free linkPtr
  let n ← I.getSize
  I.setSize (n - 1)
  pure subTree

mutual

/-- `_delete` (BinarySearchTree.hpp:189-200). -/
def delete (root : Ptr) (obj : BST.Arg α) : Prog σ Ptr := do
  let x ← readArg I obj
  let d ← I.getData root
  if lt x d then
    let l ← I.getLeft root
    let l' ← delete l obj
    I.setLeft root l'
    pure root
  else if lt d x then
    let r ← I.getRight root
    let r' ← delete r obj
    I.setRight root r'
    pure root
  else tryDelete root
partial_fixpoint

/-- `_try_to_delete` (BinarySearchTree.hpp:202-237). -/
def tryDelete (linkPtr : Ptr) : Prog σ Ptr := do
  let l ← I.getLeft linkPtr
  if l = none then
    let sub ← I.getRight linkPtr
    spliceOut I linkPtr sub
  else
    let r ← I.getRight linkPtr
    if r = none then
      let sub ← I.getLeft linkPtr
      spliceOut I linkPtr sub
    else
      let tmp ← I.getRight linkPtr
      let tmp ← stuckLoop I tmp
      let d ← I.getData tmp
      I.setData linkPtr d
      let r ← I.getRight linkPtr
      let r' ← delete r (.ref tmp)
      I.setRight linkPtr r'
      pure linkPtr
partial_fixpoint

end

/-- `pop` (BinarySearchTree.hpp:76-83).  Simplification: comparing `mRootPtr_d` with the result
compares addresses even when the node `mRootPtr_d` pointed to has been released. -/
def pop (obj : BST.Arg α) : Prog σ Unit := do
  let n ← I.getSize
  if n = 0 then pure ()
  else
    let root ← I.getRoot
    let root ← delete I lt root obj
    let old ← I.getRoot
    when (old ≠ root) (updateRoot I root)

/-- The loop of `_find` (BinarySearchTreeBase.hpp:25-36). -/
def findFrom (target : Ptr) (obj : α) : Prog σ Ptr := do
  if target = none then pure none
  else
    let d ← I.getData target
    if lt obj d then
      let l ← I.getLeft target
      findFrom l obj
    else if lt d obj then
      let r ← I.getRight target
      findFrom r obj
    else pure target
partial_fixpoint

/-- `find` (BinarySearchTree.hpp:86-93). -/
def find (obj : α) : Prog σ Ptr := do
  let root ← I.getRoot
  findFrom I lt root obj

/-- `erase` (BinarySearchTree.hpp:95-120).  Simplification: comparing `target` with `tree` and
with `parent->left` compares addresses even when `target` has been released. -/
def erase (it : Ptr) : Prog σ Ptr := do
  let parent ← I.getParent it
  let succ ← nextIn I it
  let tree ← tryDelete I lt it
  if it ≠ tree then
    if parent = none then
      updateRoot I tree
      pure succ
    else
      let l ← I.getLeft parent
      if l = it then
        I.setLeft parent tree
        pure succ
      else
        I.setRight parent tree
        pure succ
  else pure it

/-- Reading the elements from `begin(ttype)` to `end(ttype)` (BinarySearchTree.hpp:124-141). -/
def elements (o : Order) : Prog σ (List α) := do
  let ds ← iterate I o
  pure (ds.map (·.2))

/-- The element an iterator refers to; `none` for `end()`. -/
def readIt (it : Ptr) : Prog σ (Option α) := do
  if it = none then pure none
  else
    let x ← I.getData it
    pure (some x)

end B

/-! ## `AVLTree` -/

namespace A

variable {α : Type} (I : TreeOps σ (AVL.D α)) (lt : α → α → Bool)

/-- Reading an argument `const T &` (`AVL.Arg`). -/
def readArg : AVL.Arg α → Prog σ α
  | .val x => pure x
  | .ref p => do
    let d ← I.getData p
    pure d.val

/-- `_height` (AVLTree.hpp:339-343). -/
def heightOf (root : Ptr) : Prog σ Int := do
  if root = none then pure 0
  else
    let d ← I.getData root
    pure d.height

/-- `to_node(p)->data.height = h` -/
def setHeight (p : Ptr) (h : Int) : Prog σ Unit := do
  let d ← I.getData p
  I.setData p { d with height := h }

/-- `_update_height` (AVLTree.hpp:345-348). -/
def updateHeight (node : Ptr) : Prog σ Unit := do
  let l ← I.getLeft node
  let lh ← heightOf I l
  let r ← I.getRight node
  let rh ← heightOf I r
  setHeight I node (AVL.maxI lh rh + 1)

/-- `_balance_factor` (AVLTree.hpp:350-352). -/
def balanceFactor (root : Ptr) : Prog σ Int := do
  if root = none then pure 0
  else
    let l ← I.getLeft root
    let lh ← heightOf I l
    let r ← I.getRight root
    let rh ← heightOf I r
    pure (lh - rh)

/-- `_left_rotate` (AVLTree.hpp:443-450).  The new height of the root is computed from its left
child twice; the right child is not looked at. -/
def leftRotate (root : Ptr) : Prog σ Ptr := do
  let root ← TPool.leftRotate I root
  let leftNode ← I.getLeft root
  let a ← I.getLeft leftNode
  let ah ← heightOf I a
  let b ← I.getRight leftNode
  let bh ← heightOf I b
  setHeight I leftNode (AVL.maxI ah bh + 1)
  let d ← I.getData leftNode
  let l ← I.getLeft root
  let lh ← heightOf I l
  setHeight I root (AVL.maxI d.height lh + 1)
  pure root

/-- `_right_rotate` (AVLTree.hpp:452-459). -/
def rightRotate (root : Ptr) : Prog σ Ptr := do
  let root ← TPool.rightRotate I root
  let rightNode ← I.getRight root
  let a ← I.getLeft rightNode
  let ah ← heightOf I a
  let b ← I.getRight rightNode
  let bh ← heightOf I b
  setHeight I rightNode (AVL.maxI ah bh + 1)
  let l ← I.getLeft root
  let lh ← heightOf I l
  let d ← I.getData rightNode
  setHeight I root (AVL.maxI lh d.height + 1)
  pure root

/-- `_check_and_balance` (AVLTree.hpp:176-190). -/
def checkAndBalance (root : Ptr) : Prog σ Ptr := do
  let balance ← balanceFactor I root
  if balance > 1 then
    let l ← I.getLeft root
    let lb ← balanceFactor I l
    when (lb < 0) (do
      let l ← I.getLeft root
      let l' ← leftRotate I l
      I.setLeft root l')
    rightRotate I root
  else if balance < -1 then
    let r ← I.getRight root
    let rb ← balanceFactor I r
    when (rb > 0) (do
      let r ← I.getRight root
      let r' ← rightRotate I r
      I.setRight root r')
    leftRotate I root
  else pure root

/-- `_rebalance_after_delete` (AVLTree.hpp:192-211). -/
def rebalanceAfterDelete (root : Ptr) : Prog σ Unit := do
  if root = none then pure ()
  else
    let parent ← I.getParent root
    let newRoot ← checkAndBalance I root
    (if parent ≠ none then do
      let l ← I.getLeft parent
      (if l = root then I.setLeft parent newRoot else I.setRight parent newRoot)
      updateHeight I parent
    else when (newRoot ≠ root) (updateRoot I newRoot))
    rebalanceAfterDelete parent
partial_fixpoint

/-- `_insert` (AVLTree.hpp:213-248).  Simplification: the element is passed by value.  (A
reference into this tree reaches the assertion at the node it refers to; nodes of other trees
are not written to.)  `stop` is what the assertion in line 241 does; it is a parameter so that
one can speak about the state in which the assertion is reached. -/
def insert (stop : Prog σ Ptr) (root : Ptr) (element : α) (parent : Ptr) : Prog σ Ptr := do
  if root = none then
    let n ← I.alloc
    I.construct n { height := 0, val := element }
    I.setParent (some n) parent
    updateHeight I (some n)
    pure (some n)
  else
    let d ← I.getData root
    if lt element d.val then
      let l ← I.getLeft root
      let l' ← insert stop l element root
      I.setLeft root l'
      let l ← I.getLeft root
      let lh ← heightOf I l
      let r ← I.getRight root
      let rh ← heightOf I r
      let root' ← (if lh - rh = 2 then do
          let l ← I.getLeft root
          let e ← I.getData l
          when (lt e.val element) (do
            let l ← I.getLeft root
            let l' ← leftRotate I l
            I.setLeft root l')
          rightRotate I root
        else pure root)
      updateHeight I root'
      pure root'
    else if lt d.val element then
      let r ← I.getRight root
      let r' ← insert stop r element root
      I.setRight root r'
      let r ← I.getRight root
      let rh ← heightOf I r
      let l ← I.getLeft root
      let lh ← heightOf I l
      let root' ← (if rh - lh = 2 then do
          let r ← I.getRight root
          let e ← I.getData r
          when (lt element e.val) (do
            let r ← I.getRight root
            let r' ← rightRotate I r
            I.setRight root r')
          leftRotate I root
        else pure root)
      updateHeight I root'
      pure root'
    else stop
partial_fixpoint

/-- `push` (AVLTree.hpp:113-117) with `stop` for the assertion. -/
def pushOr (stop : Prog σ Ptr) (element : α) : Prog σ Unit := do
  let root ← I.getRoot
  let root ← insert I lt stop root element none
  updateRoot I root
  let n ← I.getSize
  I.setSize (n + 1)

/-- `push` (AVLTree.hpp:113-117). -/
def push (element : α) : Prog σ Unit := pushOr I lt (fail .assert) element

/-- `_real_delete` (AVLTree.hpp:354-359). -/
def realDelete (p : Ptr) : Prog σ Unit := do
  I.destroy p
  I.free p
  let n ← I.getSize
  I.setSize (n - 1)

/-- `if (p && p->left == a) p->left = b; if (p && p->right == a) p->right = b;`
(AVLTree.hpp:399-400, 413-414, 418-419). -/
def replaceChild (p a b : Ptr) : Prog σ Unit := do
  when (p ≠ none) (do
    let l ← I.getLeft p
    when (l = a) (I.setLeft p b))
  when (p ≠ none) (do
    let r ← I.getRight p
    when (r = a) (I.setRight p b))

/-- The links in `_swap_node` when `b` is a child of `a` (AVLTree.hpp:376-403). -/
def swapAdjacent (a b aParent aLeft aRight bLeft bRight : Ptr) : Prog σ Unit := do
  I.setParent b aParent
  let ar ← I.getRight a
  (if ar = b then do
    I.setLeft b aLeft
    I.setRight b a
    when (aLeft ≠ none) (I.setParent aLeft b)
  else do
    I.setLeft b a
    I.setRight b aRight
    when (aRight ≠ none) (I.setParent aRight b))
  I.setRight a bRight
  I.setLeft a bLeft
  I.setParent a b
  replaceChild I aParent a b
  when (bRight ≠ none) (I.setParent bRight a)
  when (bLeft ≠ none) (I.setParent bLeft a)

/-- The links in `_swap_node` otherwise (AVLTree.hpp:412-430). -/
def swapApart (a b aParent aLeft aRight bParent bLeft bRight : Ptr) : Prog σ Unit := do
  replaceChild I aParent a b
  I.setParent b aParent
  replaceChild I bParent b a
  I.setParent a bParent
  when (aLeft ≠ none) (I.setParent aLeft b)
  when (aRight ≠ none) (I.setParent aRight b)
  I.setLeft b aLeft
  I.setRight b aRight
  when (bLeft ≠ none) (I.setParent bLeft a)
  when (bRight ≠ none) (I.setParent bRight a)
  I.setLeft a bLeft
  I.setRight a bRight

/-- The end of `_swap_node` (AVLTree.hpp:433-439); `swap(a, b)` in line 435 exchanges the two
references. -/
def swapFinish (a b : Ptr) : Prog σ (Ptr × Ptr) := do
  let da ← I.getData a
  let db ← I.getData b
  setHeight I a db.height
  setHeight I b da.height
  let pb ← I.getParent b
  when (pb = none) (updateRoot I b)
  let pa ← I.getParent a
  when (pa = none) (updateRoot I a)
  pure (b, a)

/-- `_swap_node(a, b)` (AVLTree.hpp:362-441); returns the new values of the two references. -/
def swapNode (a b : Ptr) : Prog σ (Ptr × Ptr) := do
  let ap ← I.getParent a
  let (a, b) := if ap = b then (b, a) else (a, b)
  let aParent ← I.getParent a
  let aLeft ← I.getLeft a
  let aRight ← I.getRight a
  let bParent ← I.getParent b
  let bLeft ← I.getLeft b
  let bRight ← I.getRight b
  (if bParent = a then swapAdjacent I a b aParent aLeft aRight bLeft bRight
    else swapApart I a b aParent aLeft aRight bParent bLeft bRight)
  swapFinish I a b

/-- Case 1 and 2 of `_delete_by_target` (AVLTree.hpp:261-269 and 283-291): the parent of
`target` gets `child` in its place, then the path to the root is rebalanced. -/
def relink (parent target child : Ptr) : Prog σ Unit :=
  when (parent ≠ none) (do
    let l ← I.getLeft parent
    (if l = target then I.setLeft parent child else I.setRight parent child)
    updateHeight I parent
    rebalanceAfterDelete I parent)

/-- `_delete_by_target` (AVLTree.hpp:250-297). -/
def deleteByTarget (target : Ptr) : Prog σ Ptr := do
  if target = none then pure none
  else
    let parent ← I.getParent target
    let leftChild ← I.getLeft target
    let rightChild ← I.getRight target
    if leftChild = none ∧ rightChild = none then
      relink I parent target none
      realDelete I target
      pure none
    else if leftChild ≠ none ∧ rightChild ≠ none then
      let successor ← firstNode I rightChild .ino
      let (_, successor) ← swapNode I target successor
      deleteByTarget successor
    else
      let child := if leftChild ≠ none then leftChild else rightChild
      I.setParent child parent
      relink I parent target child
      realDelete I target
      pure child
partial_fixpoint

/-- `_delete` (AVLTree.hpp:299-336). -/
def delete (root : Ptr) (obj : AVL.Arg α) : Prog σ Ptr := do
  let d ← I.getData root
  let x ← readArg I obj
  if lt x d.val then
    let l ← I.getLeft root
    let l' ← delete l obj
    I.setLeft root l'
    updateHeight I root
    checkAndBalance I root
  else if lt d.val x then
    let r ← I.getRight root
    let r' ← delete r obj
    I.setRight root r'
    updateHeight I root
    checkAndBalance I root
  else
    let l ← I.getLeft root
    let r ← I.getRight root
    if l ≠ none ∧ r ≠ none then
      let target ← firstNode I r .ino
      let (root, _) ← swapNode I root target
      let r ← I.getRight root
      let r' ← delete r obj
      I.setRight root r'
      updateHeight I root
      checkAndBalance I root
    else
      let subTree := if l = none then r else l
      when (subTree ≠ none) (do
        let p ← I.getParent root
        I.setParent subTree p)
      realDelete I root
      pure subTree
partial_fixpoint

/-- `pop` (AVLTree.hpp:119-125).  Simplification: comparing `mRootPtr_d` with the result
compares addresses even when the node `mRootPtr_d` pointed to has been released. -/
def pop (obj : AVL.Arg α) : Prog σ Unit := do
  let n ← I.getSize
  if n = 0 then pure ()
  else
    let root ← I.getRoot
    let root ← delete I lt root obj
    let old ← I.getRoot
    when (old ≠ root) (updateRoot I root)

/-- The loop of `_find` (BinarySearchTreeBase.hpp:25-36), with the comparison of
`AVLDataCMP_` (AVLTree.hpp:34-36). -/
def findFrom (target : Ptr) (obj : α) : Prog σ Ptr := do
  if target = none then pure none
  else
    let d ← I.getData target
    if lt obj d.val then
      let l ← I.getLeft target
      findFrom l obj
    else if lt d.val obj then
      let r ← I.getRight target
      findFrom r obj
    else pure target
partial_fixpoint

/-- `find` (AVLTree.hpp:129-138). -/
def find (obj : α) : Prog σ Ptr := do
  let root ← I.getRoot
  findFrom I lt root obj

/-- `erase` (AVLTree.hpp:140-155). -/
def erase (it : Ptr) : Prog σ Ptr := do
  let next ← nextIn I it
  if next ≠ none then
    let d ← I.getData next
    let _ ← deleteByTarget I it
    find I lt d.val
  else
    let _ ← deleteByTarget I it
    pure next

/-- `height()` (AVLTree.hpp:157-159). -/
def height : Prog σ Int := do
  let root ← I.getRoot
  if root ≠ none then
    let d ← I.getData root
    pure d.height
  else pure 0

/-- `*it` (AVLTree.hpp:74-79). -/
def deref (it : Ptr) : Prog σ α := do
  let d ← I.getData it
  pure d.val

/-- Reading the elements from `begin()` to `end()` (AVLTree.hpp:163-171; both ignore their
argument and are `InOrder`). -/
def elements : Prog σ (List α) := do
  let ds ← iterate I .ino
  pure (ds.map fun d => d.2.val)

/-- The element an iterator refers to; `none` for `end()`. -/
def readIt (it : Ptr) : Prog σ (Option α) := do
  if it = none then pure none
  else
    let x ← deref I it
    pure (some x)

end A

/-! ## The bytes of the static allocator -/

/-- How pointers are represented in eight bytes: the bytes determine the pointer. -/
structure PtrRep where
  enc : Ptr → Sma.Cell
  dec : Sma.Cell → Option Ptr
  dec_enc : ∀ p, dec (enc p) = some p

/-- The number of times eight bytes in a node: three links (EmbeddedBinaryTree.hpp:27-30) are followed
by the data (tree-base.hpp:18-20). -/
def nodeWords (K : Pool.Layout δ) : Nat := 3 + K.words

/-- The allocator's memory and the members of the object a method runs on. -/
structure PSt where
  pool : Sma.St
  root : Ptr
  size : Nat

/-- Run a program on the pool. -/
def onPool (p : Prog Sma.St β) : Prog PSt β := fun w =>
  match p w.pool with
  | none => none
  | some (.error f) => some (.error f)
  | some (.ok (a, s)) => some (.ok (a, { w with pool := s }))

section
variable (md : Sma.Mode) (c : Sma.Cfg)

/-- Access to eight bytes at address `a`: not through the null pointer and only to the pool.  The
machine does not know which bytes of the pool are in use. -/
def touchWord (a : Nat) : Prog Sma.St Unit := do
  check (a ≠ 0) .nullDeref
  check (c.inPool a) .outOfBounds

/-- Read a pointer.  Bytes that are no pointer are a fault. -/
def loadPtr (E : PtrRep) (a : Nat) : Prog Sma.St Ptr := do
  touchWord c a
  let s ← Prog.get
  match E.dec (s.mem a) with
  | some p => pure p
  | none => fail .uninit

/-- Write a pointer. -/
def savePtr (E : PtrRep) (a : Nat) (p : Ptr) : Prog Sma.St Unit := do
  touchWord c a
  Prog.modify fun s => { s with mem := Sma.upd s.mem a (E.enc p) }

variable (K : Pool.Layout δ) (E : PtrRep)

/-- Nodes in the static pool: a pointer to a node is its address.  `AllocSpec<Node_>::allocate()` and
`deallocate(ptr)` (spec/DStructSpec.hpp:47-53) go to the port of the static allocator
(port/static-memory/sma-dstruct-port.hpp:30-61) or to the allocator itself (dstruct-static.hpp:93-94),
see `Sma.Mode`; `construct` and `destroy` are those of core/common.hpp:52-57 and 76-85.  The
destructor of a node is that of its data; if that is not trivial, it goes wrong on bytes that are no
object.
Simplifications: those of `Pool.poolOps`; an assignment to `data.height` of an AVL tree writes the
bytes of the whole `data` again. -/
def poolTree : TreeOps PSt δ where
  touch
    | none => fail .nullDeref
    | some a => onPool do
      touchWord c a
      pure a
  getParent
    | none => fail .nullDeref
    | some a => onPool (loadPtr c E a)
  getLeft
    | none => fail .nullDeref
    | some a => onPool (loadPtr c E (a + 8))
  getRight
    | none => fail .nullDeref
    | some a => onPool (loadPtr c E (a + 16))
  setParent
    | none, _ => fail .nullDeref
    | some a, q => onPool (savePtr c E a q)
  setLeft
    | none, _ => fail .nullDeref
    | some a, q => onPool (savePtr c E (a + 8) q)
  setRight
    | none, _ => fail .nullDeref
    | some a, q => onPool (savePtr c E (a + 16) q)
  getData
    | none => fail .nullDeref
    | some a => onPool (Pool.load c K (a + 24))
  setData
    | none, _ => fail .nullDeref
    | some a, d => onPool (Pool.save c K (a + 24) (K.enc d))
  alloc := onPool (Sma.getBlock md c (AllocSpec.byteCount (8 * nodeWords K) 1))
  construct a d := onPool do
    check (a ≠ 0) .crash
    savePtr c E a none
    savePtr c E (a + 8) none
    savePtr c E (a + 16) none
    Pool.save c K (a + 24) (K.enc d)
  destroy
    | none => fail .crash
    | some a => onPool do
      check (a ≠ 0) .crash
      Pool.touchObj c K (a + 24)
      let s ← Prog.get
      check (K.triv = true ∨ (K.dec fun j => s.mem (a + 24 + 8 * j)).isSome) .badDestroy
      Pool.save c K (a + 24) (K.fin fun j => s.mem (a + 24 + 8 * j))
  free
    | none => onPool (Sma.giveBlock md c 0 (AllocSpec.byteCount (8 * nodeWords K) 1))
    | some a => onPool (Sma.giveBlock md c a (AllocSpec.byteCount (8 * nodeWords K) 1))
  getRoot := do
    let w ← Prog.get
    pure w.root
  setRoot p := modify fun w => { w with root := p }
  getSize := do
    let w ← Prog.get
    pure w.size
  setSize n := modify fun w => { w with size := n }

end

/-! ## Programs with any number of objects -/

/-- The pool and the members of every tree object that is alive (compare `Tree.World`). -/
structure World where
  pool : Sma.St
  obj : Nat → Option (Ptr × Nat)

/-- A method call on object `k`.  Using an object that is not alive is a fault. -/
def on (k : Nat) (p : Prog PSt β) : Prog World β := fun w =>
  match w.obj k with
  | none => some (.error .useAfterFree)
  | some h =>
    match p ⟨w.pool, h.1, h.2⟩ with
    | none => none
    | some (.error e) => some (.error e)
    | some (.ok (a, s)) => some (.ok (a, ⟨s.pool, Tree.upd w.obj k (some (s.root, s.size))⟩))

/-- Construction of an empty tree (BinaryTree.hpp:112; AVLTree.hpp:109; BinarySearchTree.hpp:33). -/
def newObj (k : Nat) : Prog World Unit := modify fun w => { w with obj := Tree.upd w.obj k (some (none, 0)) }

/-- End of the life of object `k`: the destructor (BinaryTree.hpp:118-121) runs on it. -/
def dropObj (I : TreeOps PSt δ) (k : Nat) : Prog World Unit := do
  on k (clear I)
  modify fun w => { w with obj := Tree.upd w.obj k none }

/-- The implicitly defined copy constructor or copy assignment: `d` gets the values of both members of
`s`. -/
def copyObj (d s : Nat) : Prog World Unit := fun w =>
  match w.obj s with
  | none => some (.error .useAfterFree)
  | some h => some (.ok ((), { w with obj := Tree.upd w.obj d (some h) }))

/-- `d` gets the members of `s`, which is reset (BinarySearchTree.hpp:54-60). -/
def takeObj (d s : Nat) : Prog World Unit := fun w =>
  match w.obj s with
  | none => some (.error .useAfterFree)
  | some h => some (.ok ((), { w with obj := Tree.upd (Tree.upd w.obj d (some h)) s (some (none, 0)) }))

/-- `operator=(BinarySearchTree &&)` (BinarySearchTree.hpp:50-63; the test for self-assignment is
in common.hpp:44-47). -/
def moveObj (I : TreeOps PSt δ) (d s : Nat) : Prog World Unit := do
  if d = s then pure ()
  else
    on d (clear I)
    takeObj d s

namespace B

variable {α : Type} (I : TreeOps PSt α) (lt : α → α → Bool)

/-- The loop of the range constructor (BinarySearchTree.hpp:37-39). -/
def pushAll (k : Nat) : List α → Prog World Unit
  | [] => pure ()
  | x :: xs => do
    on k (push I lt (.val x))
    pushAll k xs

/-- Running one statement (compare `Verif.BST.step`). -/
def step : BST.Op α → Prog World (Option α)
  | .new k => do newObj k; pure none
  | .newFrom k xs => do newObj k; pushAll I lt k xs; pure none
  | .push k x => do on k (push I lt (.val x)); pure none
  | .pushAt k j x => do
    let it ← on j (find I lt x)
    on k (push I lt (.ref it))
    pure none
  | .pop k x => do on k (pop I lt (.val x)); pure none
  | .popAt k j x => do
    let it ← on j (find I lt x)
    on k (pop I lt (.ref it))
    pure none
  | .erase k x => on k (do
    let it ← find I lt x
    let next ← erase I lt it
    readIt I next)
  | .clear k => do on k (clear I); pure none
  | .move d s => do moveObj I d s; pure none
  | .moveNew d s => do newObj d; moveObj I d s; pure none
  | .drop k => do dropObj I k; pure none

/-- Running a program: the results of its statements. -/
def run : List (BST.Op α) → Prog World (List (Option α))
  | [] => pure []
  | op :: ops => do
    let out ← step I lt op
    let outs ← run ops
    pure (out :: outs)

end B

namespace A

variable {α : Type} (I : TreeOps PSt (AVL.D α)) (lt : α → α → Bool)

/-- Running one statement (compare `Verif.AVL.step`). -/
def step : AVL.Op α → Prog World (Option α)
  | .new k => do newObj k; pure none
  | .push k x => do on k (push I lt x); pure none
  | .pop k x => do on k (pop I lt (.val x)); pure none
  | .popAt k j x => do
    let it ← on j (find I lt x)
    on k (pop I lt (.ref it))
    pure none
  | .erase k x => on k (do
    let it ← find I lt x
    let next ← erase I lt it
    readIt I next)
  | .clear k => do on k (TPool.clear I); pure none
  | .copy d s => do copyObj d s; pure none
  | .copyNew d s => do copyObj d s; pure none
  | .drop k => do dropObj I k; pure none

/-- Running a program: the results of its statements. -/
def run : List (AVL.Op α) → Prog World (List (Option α))
  | [] => pure []
  | op :: ops => do
    let out ← step I lt op
    let outs ← run ops
    pure (out :: outs)

end A

end Verif.TPool
