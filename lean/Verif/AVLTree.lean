import Verif.Tree
import Verif.Utils

/-!
# Model of `core/ds/tree/AVLTree.hpp` and `BinarySearchTreeBase.hpp`

`lt` is the comparator `CMP`.  Simplification: copies and comparisons of elements do not fail.
Heights are `int`s in the code; they are unbounded integers here (an `int` overflows only for a
tree of height 2³¹, and by C38 such a tree has more than 2³¹ nodes; see DESIGN.md).
-/

namespace Verif.AVL

open Prog Verif.Tree

variable {α : Type}

/-- `AVLData_<T>` (AVLTree.hpp:18-27). -/
structure D (α : Type) where
  height : Int
  val : α
  deriving DecidableEq

/-- The nodes in memory and the members of one tree object. -/
abbrev St (α : Type) := Tree.St (D α)

/-- An argument `const T &`: an object outside the trees, or the element of a node (for example
`*it`), which is read again at each use. -/
inductive Arg (α : Type)
  | val (x : α)
  | ref (p : Ptr)

/-- Reading such an argument. -/
def readArg : Arg α → Prog (St α) α
  | .val x => pure x
  | .ref p => do
    let d ← getData p
    pure d.val

/-- `dstruct::max` on `int`. -/
def maxI (a b : Int) : Int := Utils.max (fun a b => decide (a > b)) a b

/-- `_height` (AVLTree.hpp:339-343). -/
def heightOf (root : Ptr) : Prog (St α) Int := do
  if root = none then pure 0
  else
    let d ← getData root
    pure d.height

/-- `to_node(p)->data.height = h` -/
def setHeight (p : Ptr) (h : Int) : Prog (St α) Unit := do
  let d ← getData p
  setData p { d with height := h }

/-- `_update_height` (AVLTree.hpp:345-348). -/
def updateHeight (node : Ptr) : Prog (St α) Unit := do
  let l ← getLeft node
  let lh ← heightOf l
  let r ← getRight node
  let rh ← heightOf r
  setHeight node (maxI lh rh + 1)

/-- `_balance_factor` (AVLTree.hpp:350-352). -/
def balanceFactor (root : Ptr) : Prog (St α) Int := do
  if root = none then pure 0
  else
    let l ← getLeft root
    let lh ← heightOf l
    let r ← getRight root
    let rh ← heightOf r
    pure (lh - rh)

/-- `_left_rotate` (AVLTree.hpp:443-450).  The new height of the root is computed from its left
child twice; the right child is not looked at. -/
def leftRotate (root : Ptr) : Prog (St α) Ptr := do
  let root ← Tree.leftRotate root
  let leftNode ← getLeft root
  let a ← getLeft leftNode
  let ah ← heightOf a
  let b ← getRight leftNode
  let bh ← heightOf b
  setHeight leftNode (maxI ah bh + 1)
  let d ← getData leftNode
  let l ← getLeft root
  let lh ← heightOf l
  setHeight root (maxI d.height lh + 1)
  pure root

/-- `_right_rotate` (AVLTree.hpp:452-459). -/
def rightRotate (root : Ptr) : Prog (St α) Ptr := do
  let root ← Tree.rightRotate root
  let rightNode ← getRight root
  let a ← getLeft rightNode
  let ah ← heightOf a
  let b ← getRight rightNode
  let bh ← heightOf b
  setHeight rightNode (maxI ah bh + 1)
  let l ← getLeft root
  let lh ← heightOf l
  let d ← getData rightNode
  setHeight root (maxI lh d.height + 1)
  pure root

/-- `_check_and_balance` (AVLTree.hpp:176-190). -/
def checkAndBalance (root : Ptr) : Prog (St α) Ptr := do
  let balance ← balanceFactor root
  if balance > 1 then
    let l ← getLeft root
    let lb ← balanceFactor l
    when (lb < 0) (do
      let l ← getLeft root
      let l' ← leftRotate l
      setLeft root l')
    rightRotate root
  else if balance < -1 then
    let r ← getRight root
    let rb ← balanceFactor r
    when (rb > 0) (do
      let r ← getRight root
      let r' ← rightRotate r
      setRight root r')
    leftRotate root
  else pure root

/-- `_rebalance_after_delete` (AVLTree.hpp:192-211). -/
def rebalanceAfterDelete (root : Ptr) : Prog (St α) Unit := do
  if root = none then pure ()
  else
    let parent ← getParent root
    let newRoot ← checkAndBalance root
    (if parent ≠ none then do
      let l ← getLeft parent
      (if l = root then setLeft parent newRoot else setRight parent newRoot)
      updateHeight parent
    else when (newRoot ≠ root) (updateRoot newRoot))
    rebalanceAfterDelete parent
partial_fixpoint

section
variable (lt : α → α → Bool)

/-- `_insert` (AVLTree.hpp:213-248).  Simplification: the element is passed by value.  (A
reference into this tree reaches the assertion at the node it refers to; nodes of other trees
are not written to.)  `stop` is what the assertion in line 241 does; it is a parameter so that
one can speak about the state in which the assertion is reached. -/
def insert (stop : Prog (St α) Ptr) (root : Ptr) (element : α) (parent : Ptr) : Prog (St α) Ptr := do
  if root = none then
    let n ← allocNode
    constructNode n { height := 0, val := element }
    setParent (some n) parent
    updateHeight (some n)
    pure (some n)
  else
    let d ← getData root
    if lt element d.val then
      let l ← getLeft root
      let l' ← insert stop l element root
      setLeft root l'
      let l ← getLeft root
      let lh ← heightOf l
      let r ← getRight root
      let rh ← heightOf r
      let root' ← (if lh - rh = 2 then do
          let l ← getLeft root
          let e ← getData l
          when (lt e.val element) (do
            let l ← getLeft root
            let l' ← leftRotate l
            setLeft root l')
          rightRotate root
        else pure root)
      updateHeight root'
      pure root'
    else if lt d.val element then
      let r ← getRight root
      let r' ← insert stop r element root
      setRight root r'
      let r ← getRight root
      let rh ← heightOf r
      let l ← getLeft root
      let lh ← heightOf l
      let root' ← (if rh - lh = 2 then do
          let r ← getRight root
          let e ← getData r
          when (lt element e.val) (do
            let r ← getRight root
            let r' ← rightRotate r
            setRight root r')
          leftRotate root
        else pure root)
      updateHeight root'
      pure root'
    else stop
partial_fixpoint

/-- `push` (AVLTree.hpp:113-117) with `stop` for the assertion. -/
def pushOr (stop : Prog (St α) Ptr) (element : α) : Prog (St α) Unit := do
  let root ← getRoot
  let root ← insert lt stop root element none
  updateRoot root
  let n ← getSize
  setSize (n + 1)

/-- `push` (AVLTree.hpp:113-117). -/
def push (element : α) : Prog (St α) Unit := pushOr lt (fail .assert) element
end

/-- `_real_delete` (AVLTree.hpp:354-359). -/
def realDelete (p : Ptr) : Prog (St α) Unit := do
  destroyNode p
  freeNode p
  let n ← getSize
  setSize (n - 1)

/-- `if (p && p->left == a) p->left = b; if (p && p->right == a) p->right = b;`
(AVLTree.hpp:399-400, 413-414, 418-419). -/
def replaceChild (p a b : Ptr) : Prog (St α) Unit := do
  when (p ≠ none) (do
    let l ← getLeft p
    when (l = a) (setLeft p b))
  when (p ≠ none) (do
    let r ← getRight p
    when (r = a) (setRight p b))

/-- The links in `_swap_node` when `b` is a child of `a` (AVLTree.hpp:376-403). -/
def swapAdjacent (a b aParent aLeft aRight bLeft bRight : Ptr) : Prog (St α) Unit := do
  setParent b aParent
  let ar ← getRight a
  (if ar = b then do
    setLeft b aLeft
    setRight b a
    when (aLeft ≠ none) (setParent aLeft b)
  else do
    setLeft b a
    setRight b aRight
    when (aRight ≠ none) (setParent aRight b))
  setRight a bRight
  setLeft a bLeft
  setParent a b
  replaceChild aParent a b
  when (bRight ≠ none) (setParent bRight a)
  when (bLeft ≠ none) (setParent bLeft a)

/-- The links in `_swap_node` otherwise (AVLTree.hpp:412-430). -/
def swapApart (a b aParent aLeft aRight bParent bLeft bRight : Ptr) : Prog (St α) Unit := do
  replaceChild aParent a b
  setParent b aParent
  replaceChild bParent b a
  setParent a bParent
  when (aLeft ≠ none) (setParent aLeft b)
  when (aRight ≠ none) (setParent aRight b)
  setLeft b aLeft
  setRight b aRight
  when (bLeft ≠ none) (setParent bLeft a)
  when (bRight ≠ none) (setParent bRight a)
  setLeft a bLeft
  setRight a bRight

/-- The end of `_swap_node` (AVLTree.hpp:433-439); `swap(a, b)` in line 435 exchanges the two
references. -/
def swapFinish (a b : Ptr) : Prog (St α) (Ptr × Ptr) := do
  let da ← getData a
  let db ← getData b
  setHeight a db.height
  setHeight b da.height
  let pb ← getParent b
  when (pb = none) (updateRoot b)
  let pa ← getParent a
  when (pa = none) (updateRoot a)
  pure (b, a)

/-- `_swap_node(a, b)` (AVLTree.hpp:362-441); returns the new values of the two references. -/
def swapNode (a b : Ptr) : Prog (St α) (Ptr × Ptr) := do
  let ap ← getParent a
  let (a, b) := if ap = b then (b, a) else (a, b)
  let aParent ← getParent a
  let aLeft ← getLeft a
  let aRight ← getRight a
  let bParent ← getParent b
  let bLeft ← getLeft b
  let bRight ← getRight b
  (if bParent = a then swapAdjacent a b aParent aLeft aRight bLeft bRight
    else swapApart a b aParent aLeft aRight bParent bLeft bRight)
  swapFinish a b

/-- Case 1 and 2 of `_delete_by_target` (AVLTree.hpp:261-269 and 283-291): the parent of
`target` gets `child` in its place, then the path to the root is rebalanced. -/
def relink (parent target child : Ptr) : Prog (St α) Unit :=
  when (parent ≠ none) (do
    let l ← getLeft parent
    (if l = target then setLeft parent child else setRight parent child)
    updateHeight parent
    rebalanceAfterDelete parent)

/-- `_delete_by_target` (AVLTree.hpp:250-297). -/
def deleteByTarget (target : Ptr) : Prog (St α) Ptr := do
  if target = none then pure none
  else
    let parent ← getParent target
    let leftChild ← getLeft target
    let rightChild ← getRight target
    if leftChild = none ∧ rightChild = none then
      relink parent target none
      realDelete target
      pure none
    else if leftChild ≠ none ∧ rightChild ≠ none then
      let successor ← firstNode rightChild .ino
      let (_, successor) ← swapNode target successor
      deleteByTarget successor
    else
      let child := if leftChild ≠ none then leftChild else rightChild
      setParent child parent
      relink parent target child
      realDelete target
      pure child
partial_fixpoint

section
variable (lt : α → α → Bool)

/-- `_delete` (AVLTree.hpp:299-336). -/
def delete (root : Ptr) (obj : Arg α) : Prog (St α) Ptr := do
  let d ← getData root
  let x ← readArg obj
  if lt x d.val then
    let l ← getLeft root
    let l' ← delete l obj
    setLeft root l'
    updateHeight root
    checkAndBalance root
  else if lt d.val x then
    let r ← getRight root
    let r' ← delete r obj
    setRight root r'
    updateHeight root
    checkAndBalance root
  else
    let l ← getLeft root
    let r ← getRight root
    if l ≠ none ∧ r ≠ none then
      let target ← firstNode r .ino
      let (root, _) ← swapNode root target
      let r ← getRight root
      let r' ← delete r obj
      setRight root r'
      updateHeight root
      checkAndBalance root
    else
      let subTree := if l = none then r else l
      when (subTree ≠ none) (do
        let p ← getParent root
        setParent subTree p)
      realDelete root
      pure subTree
partial_fixpoint

/-- `pop` (AVLTree.hpp:119-125).  Simplification: comparing `mRootPtr_d` with the result
compares addresses even when the node `mRootPtr_d` pointed to has been released. -/
def pop (obj : Arg α) : Prog (St α) Unit := do
  let n ← getSize
  if n = 0 then pure ()
  else
    let root ← getRoot
    let root ← delete lt root obj
    let old ← getRoot
    when (old ≠ root) (updateRoot root)

/-- The loop of `_find` (BinarySearchTreeBase.hpp:25-36), with the comparison of
`AVLDataCMP_` (AVLTree.hpp:34-36). -/
def findFrom (target : Ptr) (obj : α) : Prog (St α) Ptr := do
  if target = none then pure none
  else
    let d ← getData target
    if lt obj d.val then
      let l ← getLeft target
      findFrom l obj
    else if lt d.val obj then
      let r ← getRight target
      findFrom r obj
    else pure target
partial_fixpoint

/-- `find` (AVLTree.hpp:129-138). -/
def find (obj : α) : Prog (St α) Ptr := do
  let root ← getRoot
  findFrom lt root obj

/-- `erase` (AVLTree.hpp:140-155). -/
def erase (it : Ptr) : Prog (St α) Ptr := do
  let next ← nextIn it
  if next ≠ none then
    let d ← getData next
    let _ ← deleteByTarget it
    find lt d.val
  else
    let _ ← deleteByTarget it
    pure next
end

/-- `height()` (AVLTree.hpp:157-159). -/
def height : Prog (St α) Int := do
  let root ← getRoot
  if root ≠ none then
    let d ← getData root
    pure d.height
  else pure 0

/-- `*it` (AVLTree.hpp:74-79). -/
def deref (it : Ptr) : Prog (St α) α := do
  let d ← getData it
  pure d.val

/-- Reading the elements from `begin()` to `end()` (AVLTree.hpp:163-171; both ignore their
argument and are `InOrder`). -/
def elements : Prog (St α) (List α) := do
  let ds ← iterate .ino
  pure (ds.map fun d => d.2.val)

end Verif.AVL
