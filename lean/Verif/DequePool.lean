import Verif.Deque
import Verif.SMAMode
import Verif.AllocSpec

/-!
# Deques in the static pool

With `ENABLE_SMA` the default allocator is the port over a static allocator (port/dstruct-port.h:20-33,
port/static-memory/sma-dstruct-port.hpp:28-61); blocks and tables of a `DoubleEndedQueue` then lie in the
pool.  (`smemory::Deque`, whose template argument is the static allocator itself, cannot be used: the
iterator befriends `DoubleEndedQueue<T, ARR_SIZE, dstruct::Alloc>` only, DoubleEndedQueue.hpp:25.)

The code is that of `Verif.Deque`, function by function, but blocks and tables are requested from and
given back to the allocator, and pointers are compared by their addresses.

Simplification: what a block or a table holds is kept in the memory of `Verif.Deque`, not in the bytes
of the pool; that the allocator does not touch the bytes of a block in use is C51 (`sma_contents`).
-/

namespace Verif.DeqPool

open Prog
open Deq (CPtr Iter Deque Arg Op)

variable {α : Type}

/-- The pool, `ARR_SIZE`, `sizeof(T)` and the value of a default-constructed `T`. -/
structure Cfg (α : Type) where
  sma : Sma.Cfg
  A : Nat
  size : Nat
  d : α

/-- What the deques see of it.  Pointers are not compared by `Deq.ptrEq` here, so `adj` has no meaning. -/
def Cfg.deq (P : Cfg α) : Deq.Cfg α := { A := P.A, d := P.d, adj := fun _ _ => false }

/-- Deques, the pool, the address of every block and the address of the table of every deque (`mC_d` of
`mArrMapTable_d`; 0: `nullptr`).  `hit` is not part of the program: it records whether a new block was ever
placed directly in front of an older one that was in use. -/
structure PWorld (α : Type) where
  deq : Deq.World α
  pool : Sma.St
  blk : Nat → Nat
  tab : Nat → Nat
  hit : Bool

/-- No deque exists yet, the pool is in the state `s`. -/
def PWorld.init (s : Sma.St) : PWorld α := ⟨.init, s, fun _ => 0, fun _ => 0, false⟩

variable (P : Cfg α)

/-- Do something to the deques only. -/
def on {β : Type} (p : Prog (Deq.World α) β) : Prog (PWorld α) β := fun w =>
  match p w.deq with
  | none => none
  | some (.error e) => some (.error e)
  | some (.ok (a, m)) => some (.ok (a, { w with deq := m }))

/-- Do something to the pool only. -/
def inPool {β : Type} (p : Prog Sma.St β) : Prog (PWorld α) β := fun w =>
  match p w.pool with
  | none => none
  | some (.error e) => some (.error e)
  | some (.ok (a, s)) => some (.ok (a, { w with pool := s }))

/-- The address a pointer holds. -/
def addr (w : PWorld α) : CPtr → Nat
  | .null => 0
  | .at b o => w.blk b + P.size * o

/-- The comparison `p == q`, as in `Deq.cmp`, but of addresses. -/
def cmp (p q : CPtr) : Prog (PWorld α) Bool := fun w =>
  if p = q then some (.ok (true, w))
  else if p.live P.deq w.deq && q.live P.deq w.deq then
    some (.ok (decide (addr P w p = addr P w q), w))
  else some (.error .useAfterFree)

/-- `sizeof(Array_)` as an `int`; `Array` holds `ARR_SIZE` objects (Array.hpp:121). -/
def blockBytes : Int := AllocSpec.byteCount (P.A * P.size) 1

/-- Some block in use starts at `a`. -/
def startsAt (w : PWorld α) (a : Nat) : Bool :=
  (List.range w.deq.next).any fun b => (w.deq.blk b).isSome && w.blk b == a

/-- `AllocArray_::allocate()` and the construction of the block, see `Deq.newBlock`. -/
def newBlock : Prog (PWorld α) Nat := do
  let a ← inPool (Sma.getBlock .port P.sma (blockBytes P))
  modify fun w => { w with blk := fun x => if x = w.deq.next then a else w.blk x
                           hit := w.hit || startsAt w (a + P.size * P.A) }
  on (Deq.newBlock P.deq)

/-- `AllocArray_::deallocate(arrPtr)`, see `Deq.freeBlock`. -/
def freeBlock (b : Nat) : Prog (PWorld α) Unit := do
  on (Deq.freeBlock P.deq b)
  let w ← Prog.get
  inPool (Sma.giveBlock .port P.sma (w.blk b) (blockBytes P))

/-! ## The storage of tables -/

/-- `Alloc_::allocate(n)` for a table of `n` pointers (Vector.hpp:165 and 192). -/
def newTable (n : Nat) : Prog (PWorld α) Nat :=
  inPool (Sma.getBlock .port P.sma (AllocSpec.byteCount 8 n))

/-- `if (mC_d) Alloc_::deallocate(mC_d, n)` (Vector.hpp:129-139, 174, 201). -/
def freeTable (a n : Nat) : Prog (PWorld α) Unit :=
  when (a ≠ 0) (inPool (Sma.giveBlock .port P.sma a (AllocSpec.byteCount 8 n)))

/-- Set `mC_d` of the table of `k`. -/
def setTab (k a : Nat) : Prog (PWorld α) Unit :=
  modify fun w => { w with tab := fun x => if x = k then a else w.tab x }

/-- `mArrMapTable_d.resize(n, nullptr)` (Vector.hpp:183-210), the capacity before being `len`, with its
storage; `f` is what it does to the table (and to the members assigned next to it). -/
def resizeTable (k len n : Nat) (f : Deque → Deque) : Prog (PWorld α) Unit := do
  (if n = 0 then do
      freeTable P ((← Prog.get).tab k) len
      setTab k 0
    else do
      let a ← newTable P n
      freeTable P ((← Prog.get).tab k) len
      setTab k a)
  on (Deq.updObj k f)

/-- The end of the table of `k`, that is `clear()` (Vector.hpp:129-139), the capacity being `len`, with its
storage; `f` is what it does to the table (and to the members assigned next to it). -/
def clearTable (k len : Nat) (f : Deque → Deque) : Prog (PWorld α) Unit := do
  freeTable P ((← Prog.get).tab k) len
  setTab k 0
  on (Deq.updObj k f)

/-! ## Iterators -/

/-- `operator++()`, as `Deq.incr`. -/
def incr (it : Iter) : Prog (PWorld α) Iter := do
  let c ← on it.getCur
  let c ← on (c.incr P.deq)
  let i ← on it.getIdx
  let b ← on (Deq.tblAt it.tbl i)
  let e ← on (Deq.arrEnd P.deq b)
  if ← cmp P c e then do
    let t ← on (Deq.table it.tbl)
    if i + 1 < t.length then do
      let b' ← on (Deq.tblAt it.tbl (i + 1))
      let c' ← on (Deq.arrBegin b')
      pure { it with idx := some (i + 1), cur := some c' }
    else pure { it with cur := some c }
  else pure { it with cur := some c }

/-- `operator--()`, as `Deq.decr`. -/
def decr (it : Iter) : Prog (PWorld α) Iter := do
  let c ← on it.getCur
  let i ← on it.getIdx
  let b ← on (Deq.tblAt it.tbl i)
  let s ← on (Deq.arrBegin b)
  if ← cmp P c s then do
    let b' ← on (Deq.tblAt it.tbl (i - 1))
    let e ← on (Deq.arrEnd P.deq b')
    let c' ← on e.decr
    pure { it with idx := some (i - 1), cur := some c' }
  else do
    let c' ← on c.decr
    pure { it with cur := some c' }

/-- `n` times `self++` -/
def incrN : Nat → Iter → Prog (PWorld α) Iter
  | 0, it => pure it
  | n + 1, it => do incrN n (← incr P it)

/-- `n` times `self--` -/
def decrN : Nat → Iter → Prog (PWorld α) Iter
  | 0, it => pure it
  | n + 1, it => do decrN n (← decr P it)

/-- `it + n`, as `Deq.plus`. -/
def plus (it : Iter) (n : Int) : Prog (PWorld α) Iter := do
  let it ← on (Deq.copyIter it)
  if n < 0 then decrN P (-n).toNat it else incrN P n.toNat it

/-! ## Construction, growth, release -/

/-- `_only_init()`, as `Deq.onlyInit` (DoubleEndedQueue.hpp:331-346). -/
def onlyInit (k : Nat) : Prog (PWorld α) Unit := do
  let d ← on (Deq.getObj k)
  dassert (d.tbl = [] ∧ d.cap = 0)
  resizeTable P k 0 2 fun d => { d with sz := 0, cap := 2 * P.A, tbl := [0, 0] }
  forRange 2 0 () fun i _ => do
    let b ← newBlock P
    on (Deq.setTbl k i b)
  let b ← on (Deq.tblAt (some k) 1)
  let c ← on (Deq.arrBegin b)
  let it : Iter := { idx := some 1, cur := some c, tbl := some k }
  on (Deq.updObj k fun d => { d with beg := it, fin := it })

/-- The body of the loop that builds the new table, as `Deq.fillStep`. -/
def fillStep (k : Nat) (old : List Nat) (oldStart newStart newEnd : Int) (i : Nat) :
    Prog (PWorld α) Unit := do
  if (i : Int) < newStart ∨ newEnd < i then do
    let b ← newBlock P
    on (Deq.setTbl k i b)
  else do
    let b ← on (Deq.listAt old (oldStart + (i - newStart)))
    on (Deq.setTbl k i b)

/-- The body of the loop that releases blocks, as `Deq.releaseStep`. -/
def releaseStep (old : List Nat) (oldStart oldEnd : Int) (i : Nat) : Prog (PWorld α) Unit :=
  when ((i : Int) < oldStart ∨ oldEnd < i) do
    let b ← on (Deq.listAt old i)
    freeBlock P b

/-- The boundary check of `_resize`, as `Deq.resizeFix`. -/
def resizeFix (k : Nat) (newEnd : Int) : Prog (PWorld α) Unit := do
  let d ← on (Deq.getObj k)
  let b ← on (Deq.tblAt (some k) newEnd)
  let e ← on (Deq.arrEnd P.deq b)
  let c ← on d.fin.getCur
  let q ← cmp P c e
  when (q = true) do
    let b' ← on (Deq.tblAt (some k) (newEnd + 1))
    let c' ← on (Deq.arrBegin b')
    on (Deq.updObj k fun d => { d with fin := { d.fin with idx := some (newEnd + 1), cur := some c' } })
    let cb ← on d.beg.getCur
    let r ← cmp P cb e
    when (r = true) (on (Deq.updObj k fun d => { d with beg := d.fin }))

/-- `_resize(n)`, as `Deq.resize` (DoubleEndedQueue.hpp:353-410).  The copy of the old table (372,
Vector.hpp:34-43) has its own storage, which is given back at the end of the function. -/
def resize (k n : Nat) : Prog (PWorld α) Unit := do
  let d ← on (Deq.getObj k)
  let newN := n / P.A
  let oldStart ← on d.beg.getIdx
  let oldEnd ← on d.fin.getIdx
  let arrNum := oldEnd - oldStart
  let newStart : Int := (((n - d.sz) / 2 / P.A : Nat) : Int)
  let newEnd := newStart + arrNum
  if ¬ d.cap < n ∧ (newN : Int) ≥ arrNum then pure ()
  else do
    let old ← (if d.tbl.length = 0 then pure 0 else newTable P d.tbl.length)
    resizeTable P k d.tbl.length newN fun d =>
      { d with tbl := d.tbl.take newN ++ List.replicate (newN - d.tbl.length) 0 }
    forRange newN 0 () fun i _ => fillStep P k d.tbl oldStart newStart newEnd i
    forRange d.tbl.length 0 () fun i _ => releaseStep P d.tbl oldStart oldEnd i
    on (Deq.updObj k fun d => { d with beg := { d.beg with idx := some newStart }
                                       fin := { d.fin with idx := some newEnd } })
    resizeFix P k newEnd
    on (Deq.updObj k fun d => { d with cap := n })
    freeTable P old d.tbl.length

/-- The loop of `_only_clear` that destroys the elements, as `Deq.destroyLoop`. -/
def destroyLoop (it fin : Iter) : Prog (PWorld α) Unit := do
  let c ← on it.getCur
  let e ← on fin.getCur
  if ← cmp P c e then pure ()
  else do
    on (Deq.destroy P.deq c)
    destroyLoop (← incr P it) fin
partial_fixpoint

/-- `_only_clear()`, as `Deq.onlyClear` (DoubleEndedQueue.hpp:310-328). -/
def onlyClear (k : Nat) : Prog (PWorld α) Unit := do
  let d ← on (Deq.getObj k)
  when (d.tbl ≠ []) do
    dassert (d.cap ≠ 0)
    let it ← on (Deq.copyIter d.beg)
    destroyLoop P it d.fin
    seqAll (d.tbl.map (freeBlock P))
    clearTable P k d.tbl.length fun d => { d with sz := 0, cap := 0, tbl := [] }

/-! ## Public operations -/

/-- `back()`, as `Deq.back`. -/
def back (k : Nat) : Prog (PWorld α) α := do
  let d ← on (Deq.getObj k)
  let it ← plus P d.fin (-1)
  let c ← on it.getCur
  on (Deq.readPtr P.deq c)

/-- The reference `k[i]`, as `Deq.indexRef`. -/
def indexRef (k : Nat) (i : Int) : Prog (PWorld α) CPtr := do
  let d ← on (Deq.getObj k)
  let it ← (if i < 0 then plus P d.fin i else plus P d.beg i)
  on it.getCur

/-- `k[i]` used to read. -/
def index (k : Nat) (i : Int) : Prog (PWorld α) α := do
  let c ← indexRef P k i
  on (Deq.readPtr P.deq c)

/-- `push_back(obj)`, as `Deq.pushBack`. -/
def pushBack (k : Nat) (obj : Arg α) : Prog (PWorld α) Unit := do
  let d ← on (Deq.getObj k)
  (if d.cap = 0 then do
      dassert (d.tbl = [])
      onlyInit P k
    else do
      dassert (0 < d.tbl.length)
      let b ← on (Deq.listAt d.tbl ((d.tbl.length : Int) - 1))
      let e ← on (Deq.arrEnd P.deq b)
      let c ← on d.fin.getCur
      let q ← cmp P c e
      when (q = true) (resize P k (d.cap * 2)))
  let d ← on (Deq.getObj k)
  let c ← on d.fin.getCur
  on (Deq.construct P.deq c obj)
  let it ← incr P d.fin
  on (Deq.updObj k fun d => { d with fin := it, sz := d.sz + 1 })

/-- `push_front(obj)`, as `Deq.pushFront`. -/
def pushFront (k : Nat) (obj : Arg α) : Prog (PWorld α) Unit := do
  let d ← on (Deq.getObj k)
  (if d.cap = 0 then do
      dassert (d.tbl = [])
      onlyInit P k
    else do
      let b ← on (Deq.listAt d.tbl 0)
      let s ← on (Deq.arrBegin b)
      let c ← on d.beg.getCur
      let q ← cmp P c s
      when (q = true) (resize P k (d.cap * 2)))
  let d ← on (Deq.getObj k)
  let it ← decr P d.beg
  on (Deq.updObj k fun d => { d with beg := it })
  let c ← on it.getCur
  on (Deq.construct P.deq c obj)
  on (Deq.updObj k fun d => { d with sz := d.sz + 1 })

/-- The shrink test at the end of both pops, as `Deq.maybeShrink`. -/
def maybeShrink (k : Nat) : Prog (PWorld α) Unit := do
  let d ← on (Deq.getObj k)
  when (d.sz ≤ d.cap / 3 ∧ d.tbl.length > 2) (resize P k (d.cap / 2))

/-- `pop_back()`, as `Deq.popBack`. -/
def popBack (k : Nat) : Prog (PWorld α) Unit := do
  let d ← on (Deq.getObj k)
  let it ← decr P d.fin
  on (Deq.updObj k fun d => { d with fin := it, sz := Deq.decSize d.sz })
  let c ← on it.getCur
  on (Deq.destroy P.deq c)
  maybeShrink P k

/-- `pop_front()`, as `Deq.popFront`. -/
def popFront (k : Nat) : Prog (PWorld α) Unit := do
  let d ← on (Deq.getObj k)
  let c ← on d.beg.getCur
  on (Deq.destroy P.deq c)
  let it ← incr P d.beg
  on (Deq.updObj k fun d => { d with beg := it, sz := Deq.decSize d.sz })
  maybeShrink P k

/-- `for (it = b; it != e; ++it)` collecting the elements. -/
def iterateFrom (it e : Iter) : Prog (PWorld α) (List α) := do
  let c ← on it.getCur
  let c' ← on e.getCur
  if ← cmp P c c' then pure []
  else do
    let x ← on (Deq.readPtr P.deq c)
    let it ← incr P it
    let xs ← iterateFrom it e
    pure (x :: xs)
partial_fixpoint

/-- Range-for over a deque. -/
def iterate (k : Nat) : Prog (PWorld α) (List α) := do
  let d ← on (Deq.getObj k)
  let b ← on (Deq.copyIter d.beg)
  let e ← on (Deq.copyIter d.fin)
  iterateFrom P b e

/-- `*(k.begin() + i) = x`, as `Deq.setElem`. -/
def setElem (k i : Nat) (x : α) : Prog (PWorld α) Unit := do
  let b ← on (Deq.begin_ k)
  let it ← plus P b i
  let c ← on it.getCur
  on (Deq.writePtr P.deq c x)

/-- The loop of copy assignment, as `Deq.copyLoop`. -/
def copyLoop (d : Nat) (it e : Iter) : Prog (PWorld α) Unit := do
  let c ← on it.getCur
  let c' ← on e.getCur
  if ← cmp P c c' then pure ()
  else do
    pushBack P d (.ref c)
    let it ← incr P it
    copyLoop d it e
partial_fixpoint

/-- Copy assignment for distinct objects, as `Deq.copyAssign`. -/
def copyAssign (d s : Nat) : Prog (PWorld α) Unit := do
  onlyClear P d
  let src ← on (Deq.getObj s)
  let b ← on (Deq.copyIter src.beg)
  let e ← on (Deq.copyIter src.fin)
  copyLoop P d b e

/-- Move assignment of the table, of `mSize_d` and of `mCapacity_d` (DoubleEndedQueue.hpp:190-192), the
capacity of the target's table being `len`: the storage of the table goes from `s` to `d`
(Vector.hpp:45-57). -/
def moveTable (d s len : Nat) (src : Deque) : Prog (PWorld α) Unit := do
  freeTable P ((← Prog.get).tab d) len
  setTab d ((← Prog.get).tab s)
  setTab s 0
  on do
    Deq.updObj d fun x => { x with sz := src.sz, cap := src.cap, tbl := src.tbl }
    Deq.updObj s fun x => { x with tbl := [] }

/-- Move assignment for distinct objects, as `Deq.moveAssign`. -/
def moveAssign (d s : Nat) : Prog (PWorld α) Unit := do
  onlyClear P d
  let src ← on (Deq.getObj s)
  let x ← on (Deq.getObj d)
  moveTable P d s x.tbl.length src
  let b ← on (Deq.copyIter src.beg)
  on (Deq.updObj d fun x => { x with beg := b })
  on (Deq.updObj s fun x => { x with beg := .movedFrom })
  let e ← on (Deq.copyIter src.fin)
  on (Deq.updObj d fun x => { x with fin := e })
  on (Deq.updObj s fun x => { x with fin := .movedFrom })
  on (Deq.updObj s fun x => { x with sz := 0, cap := 0, tbl := [] })

/-- The end of a deque after `_only_clear()`: the table is empty, its destructor (Vector.hpp:59-61) has
storage to release only if there is any. -/
def dropTable (k : Nat) : Prog (PWorld α) Unit := do
  let x ← on (Deq.getObj k)
  freeTable P ((← Prog.get).tab k) x.tbl.length
  setTab k 0
  on (Deq.putObj k none)

/-- One operation, as `Deq.step`. -/
def step : Op α → Prog (PWorld α) Unit
  | .new k => do
    on (Deq.putObj k (some .fresh))
    setTab k 0
  | .pushBack k x => pushBack P k (.val x)
  | .pushFront k x => pushFront P k (.val x)
  | .pushBackElem k j i => do
    let c ← indexRef P j i
    pushBack P k (.ref c)
  | .pushFrontElem k j i => do
    let c ← indexRef P j i
    pushFront P k (.ref c)
  | .popBack k => popBack P k
  | .popFront k => popFront P k
  | .clear k => onlyClear P k
  | .set k i x => setElem P k i x
  | .copy d s => do
    let _ ← on (Deq.getObj d)
    let _ ← on (Deq.getObj s)
    if d = s then pure () else copyAssign P d s
  | .move d s => do
    let _ ← on (Deq.getObj d)
    let _ ← on (Deq.getObj s)
    if d = s then pure () else moveAssign P d s
  | .drop k => do
    onlyClear P k
    dropTable P k

/-- A history of operations. -/
def run (ops : List (Op α)) : Prog (PWorld α) Unit := seqAll (ops.map (step P))

end Verif.DeqPool
