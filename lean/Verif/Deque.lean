import Verif.Base

/-!
# Model of `core/ds/queue/DoubleEndedQueue.hpp`

Elements live in blocks of `A` slots (`ARR_SIZE`), reached through a table of block
pointers.  The table is a `Vector<Array_ *>`; it is modelled by the sequence it holds (that
`Vector` behaves as a sequence is proved in `Verif.Props.Vector`), `0` being `nullptr`.
Simplification: table indices are mathematical integers, that is, a deque has fewer than
`2^31` blocks.
The code asks the table for its `capacity()` where the model uses its length.  They agree: the
table only ever gets its contents from `resize(n, e)` (Vector.hpp:183-210), which makes both `n`,
from `clear()`, which makes both 0, or by copying or moving such a table.
-/

namespace Verif.Deq

open Prog

variable {α : Type}

/-- A slot of a block: raw storage, an object default-constructed together with the block, or
an element. -/
inductive Slot (α : Type)
  | raw
  | dflt (x : α)
  | elem (x : α)
  deriving DecidableEq

/-- A `T *`: null, or the address of slot `o` of block `b`. -/
inductive CPtr
  | null
  | at (b o : Nat)
  deriving DecidableEq

/-- A `DoubleEndedQueueIterator_` (DoubleEndedQueue.hpp:151-153): `mCurrMapIndex_d`, `mCurr_d`
(`none`: indeterminate) and `mArrMapTablePtr_d`, the table of a deque object (`none`:
`nullptr`).  `mPointer_d` equals `mCurr_d` (it is copied from it by `_sync`, 146-148, after every
change of `mCurr_d`).
Simplification: an iterator that was moved from keeps its `mPointer_d` (59-73 synchronise the target
only), in the model it is null like `mCurr_d`.  Such iterators occur in a deque that was moved from;
its members replace them before reading `mPointer_d`, except `pop_front()` (281), which must not be
called on that empty deque. -/
structure Iter where
  idx : Option Int
  cur : Option CPtr
  tbl : Option Nat

/-- The members of a deque (DoubleEndedQueue.hpp:306-308). -/
structure Deque where
  sz : Nat
  cap : Nat
  tbl : List Nat
  beg : Iter
  fin : Iter

/-- Blocks and deque objects of a program.  `lostElem`/`lostDflt` count the objects of either
kind whose storage was reused or released while they were alive. -/
structure World (α : Type) where
  blk : Nat → Option (Nat → Slot α)
  next : Nat
  lostElem : Nat
  lostDflt : Nat
  obj : Nat → Option Deque

/-- No object exists yet. -/
def World.init : World α :=
  { blk := fun _ => none, next := 1, lostElem := 0, lostDflt := 0, obj := fun _ => none }

/-- What the element type and the platform contribute: `A` is `ARR_SIZE`, `d` the value of a
default-constructed `T`, and `adj b c` tells whether the end of block `b` and the begin of block
`c` are the same address (C++ leaves the comparison of these pointers unspecified). -/
structure Cfg (α : Type) where
  A : Nat
  d : α
  adj : Nat → Nat → Bool

variable (cfg : Cfg α)

/-- `==` on `T *`. -/
def ptrEq : CPtr → CPtr → Bool
  | .at b o, .at c p =>
    (b == c && o == p) || (o == cfg.A && p == 0 && cfg.adj b c) || (p == cfg.A && o == 0 && cfg.adj c b)
  | .null, .null => true
  | _, _ => false

/-- The pointer is null or leads into a live block or to its end. -/
def CPtr.live (w : World α) : CPtr → Bool
  | .null => true
  | .at b o => (w.blk b).isSome && decide (o ≤ cfg.A)

/-- The comparison `p == q`.  A pointer into a block that was released is an invalid value, and comparing
it to another pointer an error; that it is equal to itself is granted, a deque that was cleared while
empty relies on it. -/
def cmp (p q : CPtr) : Prog (World α) Bool := fun w =>
  if p = q then some (.ok (true, w))
  else if p.live cfg w && q.live cfg w then some (.ok (ptrEq cfg p q, w))
  else some (.error .useAfterFree)

/-- The deque named `k`; naming one that does not exist is a misuse. -/
def getObj (k : Nat) : Prog (World α) Deque := fun w =>
  match w.obj k with
  | none => some (.error .useAfterFree)
  | some d => some (.ok (d, w))

/-- Replace (or end) the deque named `k`. -/
def putObj (k : Nat) (d : Option Deque) : Prog (World α) Unit :=
  modify fun w => { w with obj := fun x => if x = k then d else w.obj x }

/-- Change members of the deque named `k`. -/
def updObj (k : Nat) (f : Deque → Deque) : Prog (World α) Unit := do
  let d ← getObj k
  putObj k (some (f d))

/-! ## Blocks -/

/-- `AllocArray_::allocate()` followed by `construct(…, Array_())` (DoubleEndedQueue.hpp:340-341
and 378-379): the block is filled with copies of a value-initialised `T`.
Simplification: the underlying allocator succeeds. -/
def newBlock : Prog (World α) Nat := fun w =>
  some (.ok (w.next, { w with
    blk := fun b => if b = w.next then some (fun _ => .dflt cfg.d) else w.blk b
    next := w.next + 1 }))

def Slot.isElem : Slot α → Bool
  | .elem _ => true
  | _ => false

def Slot.isDflt : Slot α → Bool
  | .dflt _ => true
  | _ => false

/-- `AllocArray_::deallocate(arrPtr)`; no destructor is run. -/
def freeBlock (b : Nat) : Prog (World α) Unit := fun w =>
  match w.blk b with
  | none => some (.error .badFree)
  | some f => some (.ok ((), { w with
      blk := fun x => if x = b then none else w.blk x
      lostElem := w.lostElem + (List.range cfg.A).countP (fun i => (f i).isElem)
      lostDflt := w.lostDflt + (List.range cfg.A).countP (fun i => (f i).isDflt) }))

/-- Resolve a `T *` to a slot of a live block. -/
def access : CPtr → Prog (World α) (Nat × Nat × (Nat → Slot α))
  | .null => fail .nullDeref
  | .at b o => fun w =>
    match w.blk b with
    | none => some (.error .useAfterFree)
    | some f => if o < cfg.A then some (.ok ((b, o, f), w)) else some (.error .outOfBounds)

/-- Read `*p`. -/
def readPtr (p : CPtr) : Prog (World α) α := do
  let (_, o, f) ← access cfg p
  match f o with
  | .raw => fail .uninit
  | .dflt x => pure x
  | .elem x => pure x

/-- Store into a slot. -/
def World.put (w : World α) (b o : Nat) (f : Nat → Slot α) (s : Slot α) : World α :=
  { w with blk := fun x => if x = b then some (fun y => if y = o then s else f y) else w.blk x }

/-- A `const T &` argument: an object outside all blocks or a slot. -/
inductive Arg (α : Type)
  | val (x : α)
  | ref (p : CPtr)

/-- Read through a `const T &`. -/
def Arg.get : Arg α → Prog (World α) α
  | .val x => pure x
  | .ref p => readPtr cfg p

/-- `dstruct::construct(p, obj)` (core/common.hpp:52-57, 70-74). -/
def construct (p : CPtr) (obj : Arg α) : Prog (World α) Unit := do
  check (p ≠ .null) .crash
  let x ← obj.get cfg
  let (b, o, f) ← access cfg p
  modify fun w => { w.put b o f (.elem x) with
    lostElem := w.lostElem + (if (f o).isElem then 1 else 0)
    lostDflt := w.lostDflt + (if (f o).isDflt then 1 else 0) }

/-- `dstruct::destroy(p)` (core/common.hpp:76-85). -/
def destroy (p : CPtr) : Prog (World α) Unit := do
  check (p ≠ .null) .crash
  let (b, o, f) ← access cfg p
  check ((f o).isElem ∨ (f o).isDflt) .badDestroy
  modify fun w => w.put b o f .raw

/-! ## The table -/

/-- `t[i]` (Vector.hpp:86-91): negative indices count from the end. -/
def listAt (t : List Nat) (i : Int) : Prog (World α) Nat := do
  let j := if i < 0 then t.length + i else i
  dassert (j < t.length)
  check (0 ≤ j) .outOfBounds
  match t[j.toNat]? with
  | some b => pure b
  | none => fail .outOfBounds

/-- `*mArrMapTablePtr_d` of an iterator. -/
def table : Option Nat → Prog (World α) (List Nat)
  | none => fail .nullDeref
  | some k => do return (← getObj k).tbl

/-- `(*mArrMapTablePtr_d)[i]` -/
def tblAt (t : Option Nat) (i : Int) : Prog (World α) Nat := do listAt (← table t) i

/-- `arrPtr->begin()` (Array.hpp:84-90). -/
def arrBegin (b : Nat) : Prog (World α) CPtr := fun w =>
  if b = 0 then some (.error .nullDeref) else
  match w.blk b with
  | none => some (.error .useAfterFree)
  | some _ => some (.ok (.at b 0, w))

/-- `arrPtr->end()` (Array.hpp:92-98). -/
def arrEnd (b : Nat) : Prog (World α) CPtr := do
  let _ ← arrBegin b
  pure (.at b cfg.A)

/-! ## Iterators -/

/-- Read `mCurrMapIndex_d`. -/
def Iter.getIdx (it : Iter) : Prog (World α) Int :=
  match it.idx with
  | none => fail .uninit
  | some i => pure i

/-- Read `mCurr_d`. -/
def Iter.getCur (it : Iter) : Prog (World α) CPtr :=
  match it.cur with
  | none => fail .uninit
  | some c => pure c

/-- Copying an iterator (DoubleEndedQueue.hpp:47-57), also the conversion to a const iterator
(76-88). -/
def copyIter (it : Iter) : Prog (World α) Iter := do
  let _ ← it.getIdx
  let _ ← it.getCur
  pure it

/-- The state of an iterator after it was moved from (DoubleEndedQueue.hpp:59-73); `mPointer_d` is
simplified, see `Iter`. -/
def Iter.movedFrom : Iter := { idx := some 0, cur := some .null, tbl := none }

/-- `mCurr_d++`: going past the end of a block is undefined. -/
def CPtr.incr : CPtr → Prog (World α) CPtr
  | .null => fail .nullDeref
  | .at b o => do
    check (o < cfg.A) .outOfBounds
    pure (.at b (o + 1))

/-- `mCurr_d--` -/
def CPtr.decr : CPtr → Prog (World α) CPtr
  | .null => fail .nullDeref
  | .at b o => do
    check (0 < o) .outOfBounds
    pure (.at b (o - 1))

/-- `operator++()` (DoubleEndedQueue.hpp:91-101); the postfix form (103-107) differs only in its
result. -/
def incr (it : Iter) : Prog (World α) Iter := do
  let c ← (← it.getCur).incr cfg
  let i ← it.getIdx
  let e ← arrEnd cfg (← tblAt it.tbl i)
  if ← cmp cfg c e then do
    let n := (← table it.tbl).length
    if i + 1 < n then do
      let c' ← arrBegin (← tblAt it.tbl (i + 1))
      pure { it with idx := some (i + 1), cur := some c' }
    else pure { it with cur := some c }
  else pure { it with cur := some c }

/-- `operator--()` (DoubleEndedQueue.hpp:110-117); the postfix form is 119-123. -/
def decr (it : Iter) : Prog (World α) Iter := do
  let c ← it.getCur
  let i ← it.getIdx
  let s ← arrBegin (← tblAt it.tbl i)
  if ← cmp cfg c s then do
    let e ← arrEnd cfg (← tblAt it.tbl (i - 1))
    let c' ← e.decr
    pure { it with idx := some (i - 1), cur := some c' }
  else do
    let c' ← c.decr
    pure { it with cur := some c' }

/-- `n` times `self++` -/
def incrN : Nat → Iter → Prog (World α) Iter
  | 0, it => pure it
  | n + 1, it => do incrN n (← incr cfg it)

/-- `n` times `self--` -/
def decrN : Nat → Iter → Prog (World α) Iter
  | 0, it => pure it
  | n + 1, it => do decrN n (← decr cfg it)

/-- `it + n` and, for negative `n`, `it - (-n)` (DoubleEndedQueue.hpp:126-142). -/
def plus (it : Iter) (n : Int) : Prog (World α) Iter := do
  let it ← copyIter it
  if n < 0 then decrN cfg (-n).toNat it else incrN cfg n.toNat it

/-! ## Construction, growth, release -/

/-- A new iterator (DoubleEndedQueue.hpp:34): index and position are indeterminate. -/
def Iter.fresh : Iter := { idx := none, cur := none, tbl := none }

/-- `DoubleEndedQueue()` (DoubleEndedQueue.hpp:174). -/
def Deque.fresh : Deque := { sz := 0, cap := 0, tbl := [], beg := .fresh, fin := .fresh }

/-- `mArrMapTable_d[i] = b` -/
def setTbl (k i b : Nat) : Prog (World α) Unit := do
  let d ← getObj k
  dassert (i < d.tbl.length)
  putObj k (some { d with tbl := d.tbl.set i b })

/-- `_only_init()` (DoubleEndedQueue.hpp:331-346). -/
def onlyInit (k : Nat) : Prog (World α) Unit := do
  let d ← getObj k
  dassert (d.tbl = [] ∧ d.cap = 0)
  updObj k fun d => { d with sz := 0, cap := 2 * cfg.A, tbl := [0, 0] }
  forRange 2 0 () fun i _ => do
    let b ← newBlock cfg
    setTbl k i b
  let c ← arrBegin (← tblAt (some k) 1)
  let it : Iter := { idx := some 1, cur := some c, tbl := some k }
  updObj k fun d => { d with beg := it, fin := it }

/-- The body of the loop that builds the new table (DoubleEndedQueue.hpp:376-383). -/
def fillStep (k : Nat) (old : List Nat) (oldStart newStart newEnd : Int) (i : Nat) :
    Prog (World α) Unit := do
  if (i : Int) < newStart ∨ newEnd < i then do
    let b ← newBlock cfg
    setTbl k i b
  else do
    let b ← listAt old (oldStart + (i - newStart))
    setTbl k i b

/-- The body of the loop that releases blocks of the old table (DoubleEndedQueue.hpp:386-391). -/
def releaseStep (old : List Nat) (oldStart oldEnd : Int) (i : Nat) : Prog (World α) Unit :=
  when ((i : Int) < oldStart ∨ oldEnd < i) do
    let b ← listAt old i
    freeBlock cfg b

/-- The boundary check of `_resize` (DoubleEndedQueue.hpp:398-407). -/
def resizeFix (k : Nat) (newEnd : Int) : Prog (World α) Unit := do
  let d ← getObj k
  let e ← arrEnd cfg (← tblAt (some k) newEnd)
  let c ← d.fin.getCur
  let q ← cmp cfg c e
  when (q = true) do
    let c' ← arrBegin (← tblAt (some k) (newEnd + 1))
    updObj k fun d => { d with fin := { d.fin with idx := some (newEnd + 1), cur := some c' } }
    let cb ← d.beg.getCur
    let r ← cmp cfg cb e
    when (r = true) (updObj k fun d => { d with beg := d.fin })

/-- `_resize(n)`.  Simplification: `oldArrEndIndex - oldArrStartIndex` and `n - mSize_d` are taken
not to wrap around (they do not unless an empty deque was popped) (DoubleEndedQueue.hpp:353-410). -/
def resize (k n : Nat) : Prog (World α) Unit := do
  let d ← getObj k
  let newN := n / cfg.A
  let oldStart ← d.beg.getIdx
  let oldEnd ← d.fin.getIdx
  let arrNum := oldEnd - oldStart
  let newStart : Int := (((n - d.sz) / 2 / cfg.A : Nat) : Int)
  let newEnd := newStart + arrNum
  if ¬ d.cap < n ∧ (newN : Int) ≥ arrNum then pure ()
  else do
    updObj k fun d => { d with tbl := d.tbl.take newN ++ List.replicate (newN - d.tbl.length) 0 }
    forRange newN 0 () fun i _ => fillStep cfg k d.tbl oldStart newStart newEnd i
    forRange d.tbl.length 0 () fun i _ => releaseStep cfg d.tbl oldStart oldEnd i
    updObj k fun d => { d with beg := { d.beg with idx := some newStart }
                               fin := { d.fin with idx := some newEnd } }
    resizeFix cfg k newEnd
    updObj k fun d => { d with cap := n }

/-- `mSize_d--` on `size_t`. -/
def decSize (n : Nat) : Nat := if n = 0 then 2 ^ 64 - 1 else n - 1

/-- The loop of `_only_clear` that destroys the elements (DoubleEndedQueue.hpp:314-316). -/
def destroyLoop (it fin : Iter) : Prog (World α) Unit := do
  if ← cmp cfg (← it.getCur) (← fin.getCur) then pure ()
  else do
    destroy cfg (← it.getCur)
    destroyLoop (← incr cfg it) fin
partial_fixpoint

/-- `_only_clear()` (DoubleEndedQueue.hpp:310-328). -/
def onlyClear (k : Nat) : Prog (World α) Unit := do
  let d ← getObj k
  when (d.tbl ≠ []) do
    dassert (d.cap ≠ 0)
    let it ← copyIter d.beg
    destroyLoop cfg it d.fin
    seqAll (d.tbl.map (freeBlock cfg))
    updObj k fun d => { d with sz := 0, cap := 0, tbl := [] }

/-! ## Public operations -/

/-- `empty()` (DoubleEndedQueue.hpp:217-219). -/
def empty (k : Nat) : Prog (World α) Bool := do return (← getObj k).sz == 0

/-- `size()` (DoubleEndedQueue.hpp:209-211). -/
def size (k : Nat) : Prog (World α) Nat := do return (← getObj k).sz

/-- `capacity()` (DoubleEndedQueue.hpp:213-215). -/
def capacity (k : Nat) : Prog (World α) Nat := do return (← getObj k).cap

/-- `back()` (DoubleEndedQueue.hpp:222-225). -/
def back (k : Nat) : Prog (World α) α := do
  let it ← plus cfg (← getObj k).fin (-1)
  readPtr cfg (← it.getCur)

/-- `front()` (DoubleEndedQueue.hpp:227-230). -/
def front (k : Nat) : Prog (World α) α := do
  readPtr cfg (← (← getObj k).beg.getCur)

/-- The reference `k[i]` (DoubleEndedQueue.hpp:232-236). -/
def indexRef (k : Nat) (i : Int) : Prog (World α) CPtr := do
  let d ← getObj k
  let it ← (if i < 0 then plus cfg d.fin i else plus cfg d.beg i)
  it.getCur

/-- `k[i]` used to read. -/
def index (k : Nat) (i : Int) : Prog (World α) α := do readPtr cfg (← indexRef cfg k i)

/-- `push_back(obj)` (DoubleEndedQueue.hpp:243-253), also `push` (239-241). -/
def pushBack (k : Nat) (obj : Arg α) : Prog (World α) Unit := do
  let d ← getObj k
  (if d.cap = 0 then do
      dassert (d.tbl = [])
      onlyInit cfg k
    else do
      dassert (0 < d.tbl.length)
      let e ← arrEnd cfg (← listAt d.tbl ((d.tbl.length : Int) - 1))
      let c ← d.fin.getCur
      let q ← cmp cfg c e
      when (q = true) (resize cfg k (d.cap * 2)))
  let d ← getObj k
  construct cfg (← d.fin.getCur) obj
  let it ← incr cfg d.fin
  updObj k fun d => { d with fin := it, sz := d.sz + 1 }

/-- `push_front(obj)` (DoubleEndedQueue.hpp:255-265). -/
def pushFront (k : Nat) (obj : Arg α) : Prog (World α) Unit := do
  let d ← getObj k
  (if d.cap = 0 then do
      dassert (d.tbl = [])
      onlyInit cfg k
    else do
      let s ← arrBegin (← listAt d.tbl 0)
      let c ← d.beg.getCur
      let q ← cmp cfg c s
      when (q = true) (resize cfg k (d.cap * 2)))
  let d ← getObj k
  let it ← decr cfg d.beg
  updObj k fun d => { d with beg := it }
  construct cfg (← it.getCur) obj
  updObj k fun d => { d with sz := d.sz + 1 }

/-- The shrink test at the end of both pops (DoubleEndedQueue.hpp:275-277, 284-286). -/
def maybeShrink (k : Nat) : Prog (World α) Unit := do
  let d ← getObj k
  when (d.sz ≤ d.cap / 3 ∧ d.tbl.length > 2) (resize cfg k (d.cap / 2))

/-- `pop_back()` (DoubleEndedQueue.hpp:271-278). -/
def popBack (k : Nat) : Prog (World α) Unit := do
  let d ← getObj k
  let it ← decr cfg d.fin
  updObj k fun d => { d with fin := it, sz := decSize d.sz }
  destroy cfg (← it.getCur)
  maybeShrink cfg k

/-- `pop_front()` (DoubleEndedQueue.hpp:280-287), also `pop` (267-269). -/
def popFront (k : Nat) : Prog (World α) Unit := do
  let d ← getObj k
  destroy cfg (← d.beg.getCur)
  let it ← incr cfg d.beg
  updObj k fun d => { d with beg := it, sz := decSize d.sz }
  maybeShrink cfg k

/-- `for (it = b; it != e; ++it)` collecting the elements. -/
def iterateFrom (it e : Iter) : Prog (World α) (List α) := do
  if ← cmp cfg (← it.getCur) (← e.getCur) then pure []
  else do
    let x ← readPtr cfg (← it.getCur)
    let xs ← iterateFrom (← incr cfg it) e
    pure (x :: xs)
partial_fixpoint

/-- Range-for over a deque (`begin()`, `end()`: DoubleEndedQueue.hpp:296-302). -/
def iterate (k : Nat) : Prog (World α) (List α) := do
  let d ← getObj k
  let b ← copyIter d.beg
  let e ← copyIter d.fin
  iterateFrom cfg b e

/-- `begin()` (DoubleEndedQueue.hpp:296-298). -/
def begin_ (k : Nat) : Prog (World α) Iter := do copyIter (← getObj k).beg

/-- `end()` (DoubleEndedQueue.hpp:300-302). -/
def end_ (k : Nat) : Prog (World α) Iter := do copyIter (← getObj k).fin

/-- `a == b` on iterators (spec/DStructSpec.hpp:94), which compares `mPointer_d`. -/
def iterEq (a b : Iter) : Prog (World α) Bool := do cmp cfg (← a.getCur) (← b.getCur)

/-- `*it` (spec/DStructSpec.hpp:91) used to read. -/
def deref (it : Iter) : Prog (World α) α := do readPtr cfg (← it.getCur)

/-- `*p = x`: assignment to the object in a slot. -/
def writePtr (p : CPtr) (x : α) : Prog (World α) Unit := do
  let (b, o, f) ← access cfg p
  match f o with
  | .raw => fail .uninit
  | .dflt _ => modify fun w => w.put b o f (.dflt x)
  | .elem _ => modify fun w => w.put b o f (.elem x)

/-- `*(k.begin() + i) = x` (`*it` is a `T &`, spec/DStructSpec.hpp:91). -/
def setElem (k i : Nat) (x : α) : Prog (World α) Unit := do
  let it ← plus cfg (← begin_ k) i
  writePtr cfg (← it.getCur) x

/-- The loop `for (it = end(); it != begin(); ) { --it; use(*it); }`, collecting the elements. -/
def backwardFrom (it b : Iter) : Prog (World α) (List α) := do
  if ← iterEq cfg it b then pure []
  else do
    let it ← decr cfg it
    let x ← deref cfg it
    let xs ← backwardFrom it b
    pure (x :: xs)
partial_fixpoint

/-- Reading a deque from its end to its begin. -/
def backward (k : Nat) : Prog (World α) (List α) := do
  let e ← end_ k
  let b ← begin_ k
  backwardFrom cfg e b

/-- The loop of copy assignment (DoubleEndedQueue.hpp:179-181). -/
def copyLoop (d : Nat) (it e : Iter) : Prog (World α) Unit := do
  if ← cmp cfg (← it.getCur) (← e.getCur) then pure ()
  else do
    pushBack cfg d (.ref (← it.getCur))
    copyLoop d (← incr cfg it) e
partial_fixpoint

/-- Copy assignment for distinct objects (DoubleEndedQueue.hpp:176-184). -/
def copyAssign (d s : Nat) : Prog (World α) Unit := do
  onlyClear cfg d
  let src ← getObj s
  let b ← copyIter src.beg
  let e ← copyIter src.fin
  copyLoop cfg d b e

/-- Move assignment for distinct objects (DoubleEndedQueue.hpp:186-201). -/
def moveAssign (d s : Nat) : Prog (World α) Unit := do
  onlyClear cfg d
  let src ← getObj s
  updObj d fun x => { x with sz := src.sz, cap := src.cap, tbl := src.tbl }
  updObj s fun x => { x with tbl := [] }
  let b ← copyIter src.beg
  updObj d fun x => { x with beg := b }
  updObj s fun x => { x with beg := .movedFrom }
  let e ← copyIter src.fin
  updObj d fun x => { x with fin := e }
  updObj s fun x => { x with fin := .movedFrom }
  updObj s fun x => { x with sz := 0, cap := 0, tbl := [] }

/-- Operations of a history; `k`, `d`, `s`, `j` name deques. -/
inductive Op (α : Type)
  /-- `DoubleEndedQueue<T, A> k;` -/
  | new (k : Nat)
  | pushBack (k : Nat) (x : α)
  | pushFront (k : Nat) (x : α)
  /-- `k.push_back(j[i])` -/
  | pushBackElem (k j : Nat) (i : Int)
  /-- `k.push_front(j[i])` -/
  | pushFrontElem (k j : Nat) (i : Int)
  | popBack (k : Nat)
  | popFront (k : Nat)
  | clear (k : Nat)
  /-- `*(k.begin() + i) = x` -/
  | set (k i : Nat) (x : α)
  /-- `d = s` -/
  | copy (d s : Nat)
  /-- `d = move(s)` -/
  | move (d s : Nat)
  /-- end of the lifetime of `k` -/
  | drop (k : Nat)

/-- One operation.  A copy/move *constructor* is `new` followed by `copy`/`move`; the
self-assignment tests are in core/common.hpp:34-48. -/
def step : Op α → Prog (World α) Unit
  | .new k => putObj k (some .fresh)
  | .pushBack k x => pushBack cfg k (.val x)
  | .pushFront k x => pushFront cfg k (.val x)
  | .pushBackElem k j i => do pushBack cfg k (.ref (← indexRef cfg j i))
  | .pushFrontElem k j i => do pushFront cfg k (.ref (← indexRef cfg j i))
  | .popBack k => popBack cfg k
  | .popFront k => popFront cfg k
  | .clear k => onlyClear cfg k
  | .set k i x => setElem cfg k i x
  | .copy d s => do
    let _ ← getObj d
    let _ ← getObj s
    if d = s then pure () else copyAssign cfg d s
  | .move d s => do
    let _ ← getObj d
    let _ ← getObj s
    if d = s then pure () else moveAssign cfg d s
  | .drop k => do -- destructor, DoubleEndedQueue.hpp:203-205
    onlyClear cfg k
    putObj k none

/-- A history of operations. -/
def run (ops : List (Op α)) : Prog (World α) Unit := seqAll (ops.map (step cfg))

end Verif.Deq
