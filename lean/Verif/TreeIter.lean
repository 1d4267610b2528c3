import Verif.Tree

/-!
# Model of tree iterators as objects (BinaryTree.hpp:18-95, AVLTree.hpp:42-83)

`Verif.Tree` and `Verif.AVLTree` identify an iterator with the node it is at.  Here it is an object with
all its members, which programs copy, move, advance and compare.  The tree does not change meanwhile.
-/

namespace Verif.TreeIter

open Prog Verif.Tree

variable {δ I : Type}

/-- A `BinaryTreeIterator_` (BinaryTree.hpp:92-94, spec/DStructSpec.hpp:112).  `fn` is the function pointer
`mNextFunc_d`, `none` when null.  The cached data address `mPointer_d` is a fixed offset from a link
pointer (BinaryTree.hpp:88-90), by which `ptr` represents it. -/
structure It where
  link : Ptr
  fn : Option Order
  ptr : Ptr
  deriving DecidableEq

/-- `_sync()` (BinaryTree.hpp:88-90). -/
def It.sync (it : It) : It := { it with ptr := it.link }

/-- The constructor from a link and a function (BinaryTree.hpp:30-31); the conversion to a `const` iterator
(BinaryTree.hpp:61-66) has the same effect. -/
def It.mk' (p : Ptr) (o : Order) : It := It.sync ⟨p, some o, none⟩

/-- Copy construction and copy assignment (BinaryTree.hpp:33-39), also from itself: the new value of the target. -/
def It.copy (it : It) : It := It.sync { it with ptr := none }

/-- Move construction and move assignment from another object (BinaryTree.hpp:41-53): the new values of the
target and of the source, whose `mPointer_d` is not reset. -/
def It.moveFrom (it : It) : It × It := (It.sync { it with ptr := none }, { it with link := none, fn := none })

/-- Move assignment from itself (BinaryTree.hpp:42-53): the members are reset, then the pointer is synchronised. -/
def It.selfMove (it : It) : It := It.sync { it with link := none, fn := none }

/-- Calling `mNextFunc_d` (BinaryTree.hpp:70). -/
def It.call (it : It) : Prog (St δ) Ptr :=
  match it.fn with
  | some o => nextFn o it.link
  | none => fail .crash

/-- `++it` (BinaryTree.hpp:69-73). -/
def It.inc (it : It) : Prog (St δ) It := do
  let l ← it.call
  pure (It.sync { it with link := l })

/-- `it++` (BinaryTree.hpp:75-80): the returned iterator and the new value of `it`. -/
def It.postInc (it : It) : Prog (St δ) (It × It) := do
  let old := it.copy
  let l ← it.call
  pure (old, It.sync { it with link := l })

/-- An `AVLTreeIterator_` (AVLTree.hpp:82, spec/DStructSpec.hpp:112): its own `mPointer_d` and the wrapped
iterator. -/
structure AIt where
  it : It
  ptr : Ptr
  deriving DecidableEq

/-- `_sync()` (AVLTree.hpp:74-79): the address of the value inside the node's data; for `end()` either null or a fixed
offset from null, represented by `none`. -/
def AIt.sync (a : AIt) : AIt := { a with ptr := a.it.ptr }

/-- The converting constructor (AVLTree.hpp:50-52) from a freshly made iterator. -/
def AIt.mk' (p : Ptr) (o : Order) : AIt := AIt.sync ⟨(It.mk' p o).copy, none⟩

/-- The implicit copy operations: memberwise. -/
def AIt.copy (a : AIt) : AIt := ⟨a.it.copy, a.ptr⟩

/-- The implicit move operations: memberwise. -/
def AIt.moveFrom (a : AIt) : AIt × AIt := (⟨a.it.moveFrom.1, a.ptr⟩, ⟨a.it.moveFrom.2, a.ptr⟩)

/-- The implicit move assignment from itself: memberwise. -/
def AIt.selfMove (a : AIt) : AIt := ⟨a.it.selfMove, a.ptr⟩

/-- `++it` (AVLTree.hpp:55-59). -/
def AIt.inc (a : AIt) : Prog (St δ) AIt := do
  let (_, i) ← a.it.postInc
  pure (AIt.sync ⟨i, a.ptr⟩)

/-- `it++` (AVLTree.hpp:61-66). -/
def AIt.postInc (a : AIt) : Prog (St δ) (AIt × AIt) := do
  let old := a.copy
  let (_, i) ← a.it.postInc
  pure (old, AIt.sync ⟨i, a.ptr⟩)

/-- What a class of iterators provides. -/
structure Impl (δ I : Type) where
  make : Ptr → Order → I
  copy : I → I
  moveFrom : I → I × I
  selfMove : I → I
  inc : I → Prog (St δ) I
  postInc : I → Prog (St δ) (I × I)
  ptr : I → Ptr

/-- `BinaryTreeIterator_` -/
def plain (δ : Type) : Impl δ It := ⟨It.mk', It.copy, It.moveFrom, It.selfMove, It.inc, It.postInc, It.ptr⟩

/-- `AVLTreeIterator_` -/
def avl (δ : Type) : Impl δ AIt := ⟨AIt.mk', AIt.copy, AIt.moveFrom, AIt.selfMove, AIt.inc, AIt.postInc, AIt.ptr⟩

/-- A tree and named iterators. -/
structure World (δ I : Type) where
  mem : St δ
  its : Nat → Option I

def World.put (w : World δ I) (k : Nat) (v : Option I) : World δ I :=
  { w with its := fun x => if x = k then v else w.its x }

/-- Statements about iterators; `d`, `s`, `k` name them. -/
inductive Op
  /-- `auto k = t.begin(o);` -/
  | begin_ (k : Nat) (o : Order)
  /-- `auto k = t.end(o);` -/
  | end_ (k : Nat) (o : Order)
  /-- `auto d = s;` -/
  | newCopy (d s : Nat)
  /-- `auto d = move(s);` -/
  | newMove (d s : Nat)
  /-- `d = s;` -/
  | copy (d s : Nat)
  /-- `d = move(s);` -/
  | move (d s : Nat)
  /-- `++k;` -/
  | inc (k : Nat)
  /-- `auto d = k++;` -/
  | newPostInc (d k : Nat)
  /-- `d = k++;` -/
  | postInc (d k : Nat)
  /-- end of the lifetime of `k` -/
  | drop (k : Nat)

/-- A tree function that changes nothing. -/
def onTree {β : Type} (p : Prog (St δ) β) : Prog (World δ I) β := fun w =>
  match p w.mem with
  | some (.ok (a, m)) => some (.ok (a, { w with mem := m }))
  | some (.error e) => some (.error e)
  | none => none

def getIt (k : Nat) : Prog (World δ I) I := fun w =>
  match w.its k with
  | some i => some (.ok (i, w))
  | none => some (.error .useAfterFree)

def putIt (k : Nat) (v : Option I) : Prog (World δ I) Unit := modify fun w => w.put k v

/-- One statement.  `begin` and `end`: BinaryTree.hpp:173-179 and 233-250, AVLTree.hpp:163-171. -/
def step (c : Impl δ I) : Op → Prog (World δ I) Unit
  | .begin_ k o => do
    let p ← onTree (Tree.begin_ o)
    putIt k (some (c.make p o))
  | .end_ k o => putIt k (some (c.make none o))
  | .newCopy d s => do
    let i ← getIt s
    putIt d (some (c.copy i))
  | .newMove d s => do
    let i ← getIt s
    putIt d (some (c.moveFrom i).1)
    putIt s (some (c.moveFrom i).2)
  | .copy d s => do
    let _ ← getIt d
    let i ← getIt s
    putIt d (some (c.copy i))
  | .move d s => do
    let _ ← getIt d
    let i ← getIt s
    if d = s then putIt d (some (c.selfMove i))
    else do
      putIt d (some (c.moveFrom i).1)
      putIt s (some (c.moveFrom i).2)
  | .inc k => do
    let i ← getIt k
    let j ← onTree (c.inc i)
    putIt k (some j)
  | .newPostInc d k => do
    let i ← getIt k
    let (old, j) ← onTree (c.postInc i)
    putIt k (some j)
    putIt d (some old)
  | .postInc d k => do
    let _ ← getIt d
    let i ← getIt k
    let (old, j) ← onTree (c.postInc i)
    putIt k (some j)
    putIt d (some (c.moveFrom old).1)
  | .drop k => do
    let _ ← getIt k
    putIt k none

/-- A history of statements. -/
def run (c : Impl δ I) (ops : List Op) : Prog (World δ I) Unit := seqAll (ops.map (step c))

/-- `*k` (spec/DStructSpec.hpp:91): the node and its data. -/
def deref (c : Impl δ I) (k : Nat) : Prog (World δ I) (Nat × δ) := do
  let i ← getIt k
  let n ← onTree (touch (c.ptr i))
  let d ← onTree (getData (c.ptr i))
  pure (n, d)

/-- `j == k` (spec/DStructSpec.hpp:94); `!=` (93) is its negation. -/
def eq (c : Impl δ I) (j k : Nat) : Prog (World δ I) Bool := do
  let a ← getIt j
  let b ← getIt k
  pure (decide (c.ptr a = c.ptr b))

end Verif.TreeIter
