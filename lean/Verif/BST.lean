import Verif.Tree

/-!
# Model of `core/ds/tree/BinarySearchTree.hpp` and `BinarySearchTreeBase.hpp`

`lt` is the comparator `CMP`.  Simplifications: copies and comparisons of elements do not fail;
`alignof(T)` is at most that of a pointer, so that `data_to_link` (tree-base.hpp:36-39), which
subtracts `sizeof(Link)`, inverts `&node->data`.

The copy members (BinarySearchTree.hpp:42-48) are not modelled: they do not compile, because
`BinaryTree::copy` (BinaryTree.hpp:182-199) uses members `parent`, `left` and `right` that a
`Node_` (tree-base.hpp:17-45) does not have.
-/

namespace Verif.BST

open Prog Verif.Tree

variable {α : Type}

/-- The nodes in memory and the members of one tree object. -/
abbrev St (α : Type) := Tree.St α

/-- An argument `const T &`: an object outside the trees, or the element of a node (for example
`*it`), which is read again at each use. -/
inductive Arg (α : Type)
  | val (x : α)
  | ref (p : Ptr)

/-- Reading such an argument. -/
def readArg : Arg α → Prog (St α) α
  | .val x => pure x
  | .ref p => getData p

variable (lt : α → α → Bool)

/-- The loop of `_insert` that looks for the parent of the new node
(BinarySearchTree.hpp:152-163).  The result is the final `target` (the node that holds `obj`
already, or `nullptr`) and the final `parent`. -/
def insertLoop (obj : Arg α) (target parent : Ptr) : Prog (St α) (Ptr × Ptr) := do
  if target = none then pure (none, parent)
  else
    let x ← readArg obj
    let d ← getData target
    if lt x d then
      let l ← getLeft target
      insertLoop obj l target
    else if lt d x then
      let r ← getRight target
      insertLoop obj r target
    else pure (target, target)
partial_fixpoint

/-- `_insert` (BinarySearchTree.hpp:146-187). -/
def insert (obj : Arg α) : Prog (St α) Ptr := do
  let root ← getRoot
  let (target, parent) ← insertLoop lt obj root none
  if target ≠ none then pure target
  else
    let n ← allocNode
    let x ← readArg obj
    constructNode n x
    when (parent ≠ none) (do
      setParent (some n) parent
      let x ← readArg obj
      let d ← getData parent
      let subTree ← (if lt x d then do
          let sub ← getLeft parent
          setLeft parent (some n)
          setLeft (some n) sub
          pure sub
        else do
          let sub ← getRight parent
          setRight parent (some n)
          setRight (some n) sub
          pure sub)
      when (subTree ≠ none) (setParent subTree (some n)))
    pure (some n)

/-- `push` (BinarySearchTree.hpp:69-74). -/
def push (obj : Arg α) : Prog (St α) Unit := do
  let tree ← insert lt obj
  let root ← getRoot
  when (root = none) (updateRoot tree)
  let n ← getSize
  setSize (n + 1)

/-- `while (nullptr == tmp->left) tmp = tmp->left;` (BinarySearchTree.hpp:212-214). -/
def stuckLoop (tmp : Ptr) : Prog (St α) Ptr := do
  let l ← getLeft tmp
  if l = none then
    let l ← getLeft tmp
    stuckLoop l
  else pure tmp
partial_fixpoint

/-- The end of `_try_to_delete` (BinarySearchTree.hpp:227-236). -/
def spliceOut (linkPtr subTree : Ptr) : Prog (St α) Ptr := do
  when (subTree ≠ none) (do
    let pa ← getParent linkPtr
    setParent subTree pa)
  destroyNode linkPtr
  freeNode linkPtr
  let n ← getSize
  setSize (n - 1)
  pure subTree

mutual

/-- `_delete` (BinarySearchTree.hpp:189-200). -/
def delete (root : Ptr) (obj : Arg α) : Prog (St α) Ptr := do
  let x ← readArg obj
  let d ← getData root
  if lt x d then
    let l ← getLeft root
    let l' ← delete l obj
    setLeft root l'
    pure root
  else if lt d x then
    let r ← getRight root
    let r' ← delete r obj
    setRight root r'
    pure root
  else tryDelete root
partial_fixpoint

/-- `_try_to_delete` (BinarySearchTree.hpp:202-237). -/
def tryDelete (linkPtr : Ptr) : Prog (St α) Ptr := do
  let l ← getLeft linkPtr
  if l = none then
    let sub ← getRight linkPtr
    spliceOut linkPtr sub
  else
    let r ← getRight linkPtr
    if r = none then
      let sub ← getLeft linkPtr
      spliceOut linkPtr sub
    else
      let tmp ← getRight linkPtr
      let tmp ← stuckLoop tmp
      let d ← getData tmp
      setData linkPtr d
      let r ← getRight linkPtr
      let r' ← delete r (.ref tmp)
      setRight linkPtr r'
      pure linkPtr
partial_fixpoint

end

/-- `pop` (BinarySearchTree.hpp:76-83).  Simplification: comparing `mRootPtr_d` with the result
compares addresses even when the node `mRootPtr_d` pointed to has been released. -/
def pop (obj : Arg α) : Prog (St α) Unit := do
  let n ← getSize
  if n = 0 then pure ()
  else
    let root ← getRoot
    let root ← delete lt root obj
    let old ← getRoot
    when (old ≠ root) (updateRoot root)

/-- The loop of `_find` (BinarySearchTreeBase.hpp:25-36). -/
def findFrom (target : Ptr) (obj : α) : Prog (St α) Ptr := do
  if target = none then pure none
  else
    let d ← getData target
    if lt obj d then
      let l ← getLeft target
      findFrom l obj
    else if lt d obj then
      let r ← getRight target
      findFrom r obj
    else pure target
partial_fixpoint

/-- `find` (BinarySearchTree.hpp:86-93). -/
def find (obj : α) : Prog (St α) Ptr := do
  let root ← getRoot
  findFrom lt root obj

/-- `erase` (BinarySearchTree.hpp:95-120).  Simplification: comparing `target` with `tree` and
with `parent->left` compares addresses even when `target` has been released. -/
def erase (it : Ptr) : Prog (St α) Ptr := do
  let parent ← getParent it
  let succ ← nextIn it
  let tree ← tryDelete lt it
  if it ≠ tree then
    if parent = none then
      updateRoot tree
      pure succ
    else
      let l ← getLeft parent
      if l = it then
        setLeft parent tree
        pure succ
      else
        setRight parent tree
        pure succ
  else pure it

/-- Reading the elements from `begin(ttype)` to `end(ttype)` (BinarySearchTree.hpp:124-141). -/
def elements (o : Order) : Prog (St α) (List α) := do
  let ds ← iterate o
  pure (ds.map (·.2))

end Verif.BST
