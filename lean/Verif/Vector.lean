import Verif.Base

/-!
# Model of `core/ds/array/Vector.hpp`

Memory is a collection of blocks of element slots.  A slot holds a constructed object
(`some x`) or is raw storage (`none`).  Block identifiers are never reused and `0` is
`nullptr`.

Simplification: the loops of the code count with `int`, and element and byte counts reach the allocator as
`int`; here they are natural numbers.  `Verif.VectorInt` writes them as in the code and shows that the two
agree as long as the storage of each vector has fewer than `2^31` bytes (C102).
-/

namespace Verif.Vec

open Prog

variable {α : Type}

/-- A live block obtained from `AllocSpec<T>::allocate(len)`. -/
structure Blk (α : Type) where
  /-- number of elements requested from the allocator -/
  len : Nat
  /-- the objects currently constructed in the block -/
  slot : Nat → Option α

/-- Element memory. -/
structure Mem (α : Type) where
  blk : Nat → Option (Blk α)
  /-- every identifier `≥ next` is unused so far -/
  next : Nat
  /-- number of objects whose storage was overwritten or released while they were alive
  (their destructor never ran) -/
  lost : Nat
  /-- number of objects constructed so far; only counted, never consulted -/
  built : Nat
  /-- number of assignments to objects so far; only counted, never consulted -/
  moved : Nat

/-- Memory before any allocation. -/
def Mem.init : Mem α := { blk := fun _ => none, next := 1, lost := 0, built := 0, moved := 0 }

/-- `AllocSpec<T>::allocate(n)` (spec/DStructSpec.hpp:47-49), `n > 0`, when the underlying
allocator has memory left. -/
def alloc (n : Nat) : Prog (Mem α) Nat := fun m =>
  some (.ok (m.next,
    { m with blk := fun b => if b = m.next then some ⟨n, fun _ => none⟩ else m.blk b
             next := m.next + 1 }))

/-- `AllocSpec<T>::allocate(n)` over an allocator that may run out of memory
(port/libc/libc-dstruct-port.hpp:25-27 hands on the null pointer of `malloc`): `grant` says which
requests are satisfied, requests being numbered in the order in which they are made. -/
def allocOr (grant : Nat → Bool) (n : Nat) : Prog (Mem α) Nat := fun m =>
  if grant m.next = true then alloc n m else some (.ok (0, { m with next := m.next + 1 }))

/-- Number of constructed objects in a block. -/
def Blk.live (b : Blk α) : Nat := (List.range b.len).countP (fun i => (b.slot i).isSome)

/-- `AllocSpec<T>::deallocate(ptr, n)` (spec/DStructSpec.hpp:51-53).  The count must be the
one the block was allocated with (the static allocator relies on it). -/
def dealloc (b n : Nat) : Prog (Mem α) Unit := fun m =>
  match m.blk b with
  | none => some (.error .badFree)
  | some k =>
    if k.len = n then
      some (.ok ((), { m with blk := fun x => if x = b then none else m.blk x
                              lost := m.lost + k.live }))
    else some (.error .badFree)

/-- Resolve the address `b + i` (pointer arithmetic on `T *`) to a live slot. -/
def access (b : Nat) (i : Int) : Prog (Mem α) (Blk α × Nat) := fun m =>
  if b = 0 then some (.error .nullDeref) else
  match m.blk b with
  | none => some (.error .useAfterFree)
  | some k =>
    if 0 ≤ i ∧ i < k.len then some (.ok ((k, i.toNat), m)) else some (.error .outOfBounds)

/-- Read the object at `b[i]`. -/
def read (b : Nat) (i : Int) : Prog (Mem α) α := do
  let (k, j) ← access b i
  match k.slot j with
  | some x => pure x
  | none => fail .uninit

/-- Store into a slot of a block, keeping everything else. -/
def Mem.put (m : Mem α) (b : Nat) (k : Blk α) (j : Nat) (o : Option α) : Mem α :=
  { m with blk := fun x =>
      if x = b then some { k with slot := fun y => if y = j then o else k.slot y } else m.blk x }

/-- A `const T &` argument: an object outside all vector buffers, or a reference to
element `i` of block `b`. -/
inductive Arg (α : Type)
  | val (x : α)
  | ref (b : Nat) (i : Int)

/-- Read through a `const T &`. -/
def Arg.get : Arg α → Prog (Mem α) α
  | .val x => pure x
  | .ref b i => read b i

/-- `dstruct::construct(b + i, obj)` (core/common.hpp:52-57 and the `int` overload 70-74):
copy-constructs `obj` in the slot.  An object already living there is lost.  The test is for the
address, which is null only if both the base pointer and the offset are. -/
def construct (b : Nat) (i : Int) (obj : Arg α) : Prog (Mem α) Unit := do
  check (b ≠ 0 ∨ i ≠ 0) .crash
  let x ← obj.get
  let (k, j) ← access b i
  modify fun m =>
    { m.put b k j (some x) with lost := m.lost + (if (k.slot j).isSome then 1 else 0)
                                built := m.built + 1 }

/-- `dstruct::destroy(b + i)` (core/common.hpp:76-85): runs the destructor.  `triv` says
whether `T`'s destructor is trivial; a trivial destructor may be run on raw storage. -/
def destroy (triv : Bool) (b : Nat) (i : Int) : Prog (Mem α) Unit := do
  check (b ≠ 0 ∨ i ≠ 0) .crash
  let (k, j) ← access b i
  check (triv = true ∨ (k.slot j).isSome) .badDestroy
  modify fun m => m.put b k j none

/-- Copy-assignment `b[i] = obj` through a reference. -/
def assign (b : Nat) (i : Int) (obj : Arg α) : Prog (Mem α) Unit := do
  let x ← obj.get
  let (k, j) ← access b i
  check ((k.slot j).isSome) .uninit
  modify fun m => { m.put b k j (some x) with moved := m.moved + 1 }

/-- A `Vector<T>` object (Vector.hpp:213-214): `mSize_d`, `mCapacity_d`, `mC_d`. -/
structure Vec where
  sz : Nat
  cap : Nat
  c : Nat
  deriving DecidableEq, Repr

/-- `Vector()` (Vector.hpp:23). -/
def Vec.empty : Vec := { sz := 0, cap := 0, c := 0 }

/-- `Vector::resize(size_t n)` (Vector.hpp:159-181), with the allocator it uses as a parameter. -/
def resizeWith (al : Nat → Prog (Mem α) Nat) (triv : Bool) (v : Vec) (n : Nat) : Prog (Mem α) Vec := do
  let c ← (if n = 0 then pure 0 else al n)
  when (v.c ≠ 0) do
    dassert (v.cap ≠ 0)
    forRange v.sz 0 () fun i _ => do
      when (i < n) (construct c i (.ref v.c i))
      destroy triv v.c i
    dealloc v.c v.cap
  pure { sz := if n < v.sz then n else v.sz, cap := n, c := c }

/-- `Vector::resize(size_t n)` (Vector.hpp:159-181) over an allocator that succeeds. -/
def resize (triv : Bool) (v : Vec) (n : Nat) : Prog (Mem α) Vec := resizeWith alloc triv v n

/-- `Vector::resize(size_t n, const T &element)` (Vector.hpp:183-210), with its allocator as a
parameter. -/
def resizeFillWith (al : Nat → Prog (Mem α) Nat) (triv : Bool) (v : Vec) (n : Nat) (e : Arg α) :
    Prog (Mem α) Vec := do
  if n = 0 then resizeWith al triv v 0
  else
    let c ← al n
    when (v.c ≠ 0) do
      forRange v.sz 0 () fun i _ => do
        when (i < n) (construct c i (.ref v.c i))
        destroy triv v.c i
      dealloc v.c v.cap
    forRange (n - v.sz) v.sz () fun i _ => construct c i e
    pure { sz := n, cap := n, c := c }

/-- `Vector::resize(size_t n, const T &element)` (Vector.hpp:183-210) over an allocator that
succeeds. -/
def resizeFill (triv : Bool) (v : Vec) (n : Nat) (e : Arg α) : Prog (Mem α) Vec :=
  resizeFillWith alloc triv v n e

/-- `Vector(size_t n, const T &element)` (Vector.hpp:25-32), with its allocator as a parameter. -/
def ctorFillWith (al : Nat → Prog (Mem α) Nat) (triv : Bool) (n : Nat) (e : Arg α) :
    Prog (Mem α) Vec := do
  dassert (n ≠ 0)
  let v ← resizeWith al triv Vec.empty n
  forRange n 0 () fun i _ => construct v.c i e
  pure { sz := n, cap := n, c := v.c }

/-- `Vector(size_t n, const T &element)` (Vector.hpp:25-32) over an allocator that succeeds. -/
def ctorFill (triv : Bool) (n : Nat) (e : Arg α) : Prog (Mem α) Vec := ctorFillWith alloc triv n e

/-- `Vector::clear()` (Vector.hpp:129-139), also the destructor (59-61). -/
def clear (triv : Bool) (v : Vec) : Prog (Mem α) Vec := do
  when (v.c ≠ 0) do
    forRange v.sz 0 () fun i _ => destroy triv v.c i
    dealloc v.c v.cap
  pure Vec.empty

/-- `Vector::push_back(const T &element)` (Vector.hpp:98-107); `push` (94-96) is the same.  With its
allocator as a parameter. -/
def pushBackWith (al : Nat → Prog (Mem α) Nat) (triv : Bool) (v : Vec) (e : Arg α) :
    Prog (Mem α) Vec := do
  let v ← (if v.sz + 1 > v.cap then
      (if v.sz ≠ 0 then resizeWith al triv v (2 * v.sz) else resizeWith al triv v 2)
    else pure v)
  construct v.c v.sz e
  pure { v with sz := v.sz + 1 }

/-- `Vector::push_back(const T &element)` (Vector.hpp:98-107) over an allocator that succeeds. -/
def pushBack (triv : Bool) (v : Vec) (e : Arg α) : Prog (Mem α) Vec := pushBackWith alloc triv v e

/-- `Vector::pop_back()` (Vector.hpp:113-120); `pop` (109-111) is the same.  With its allocator as a
parameter. -/
def popBackWith (al : Nat → Prog (Mem α) Nat) (triv : Bool) (v : Vec) : Prog (Mem α) Vec := do
  dassert (v.sz > 0)
  let v := { v with sz := v.sz - 1 }
  destroy triv v.c v.sz
  if v.sz < v.cap / 3 then resizeWith al triv v (v.cap / 2) else pure v

/-- `Vector::pop_back()` (Vector.hpp:113-120) over an allocator that succeeds. -/
def popBack (triv : Bool) (v : Vec) : Prog (Mem α) Vec := popBackWith alloc triv v

/-- The index computation of `Vector::operator[](int)` (Vector.hpp:86-91 and 122-127):
`index = mSize_d + index` is computed in `size_t` and converted back to `int`. -/
def normIndex (v : Vec) (index : Int) : Int :=
  if index < 0 then Int.bmod (v.sz + index) (2 ^ 32) else index

/-- `Vector::operator[](int)` used to read (Vector.hpp:86-91). -/
def index (v : Vec) (i : Int) : Prog (Mem α) α := do
  let j := normIndex v i
  dassert (j < Int.bmod v.sz (2 ^ 32))
  read v.c j

/-- `v[i] = e` through the reference of `Vector::operator[](int)` (Vector.hpp:122-127). -/
def setIndex (v : Vec) (i : Int) (e : Arg α) : Prog (Mem α) Unit := do
  let j := normIndex v i
  dassert (j < Int.bmod v.sz (2 ^ 32))
  assign v.c j e

/-- `Vector::back()` (Vector.hpp:77-80). -/
def back (v : Vec) : Prog (Mem α) α := do
  dassert (v.sz > 0)
  read v.c ((v.sz : Int) - 1)

/-- `Vector::front()` (Vector.hpp:82-84). -/
def front (v : Vec) : Prog (Mem α) α := read v.c 0

/-- `&v[i]`, the address of element `i`: slot `i` of the buffer (`return mC_d[index]`,
Vector.hpp:90 and 126; `begin() + i` points to the same slot, 142-156). -/
def elemAddr (v : Vec) (i : Nat) : Nat × Nat := (v.c, i)

/-- `*p`, reading through an element's address or reference. -/
def deref (p : Nat × Nat) : Prog (Mem α) α := read p.1 (p.2 : Int)

/-- `*p = e`, writing through an element's address or reference. -/
def store (p : Nat × Nat) (e : Arg α) : Prog (Mem α) Unit := assign p.1 (p.2 : Int) e

/-- Reading all elements with `for (it = begin(); it != end(); ++it)` (Vector.hpp:142-156,
core/Iterator.hpp:49-50). -/
def iterate (v : Vec) : Prog (Mem α) (List α) :=
  forRange v.sz 0 [] fun i acc => do
    let x ← read v.c i
    pure (acc ++ [x])

/-- Copy assignment for distinct objects (Vector.hpp:34-43; the self-assignment test is in
the macro, core/common.hpp:34-40), with its allocator as a parameter.  Returns the new
destination. -/
def copyAssignWith (al : Nat → Prog (Mem α) Nat) (triv : Bool) (dst src : Vec) :
    Prog (Mem α) Vec := do
  let d ← clear triv dst
  let d ← resizeWith al triv d src.cap
  let d := { d with sz := src.sz }
  forRange d.sz 0 () fun i _ => do
    destroy triv d.c i
    construct d.c i (.ref src.c i)
  pure d

/-- Copy assignment for distinct objects (Vector.hpp:34-43) over an allocator that succeeds. -/
def copyAssign (triv : Bool) (dst src : Vec) : Prog (Mem α) Vec := copyAssignWith alloc triv dst src

/-- Move assignment for distinct objects (Vector.hpp:45-57; self-test in the macro,
core/common.hpp:42-48).  Returns the new destination and the new source. -/
def moveAssign (triv : Bool) (dst src : Vec) : Prog (Mem α) (Vec × Vec) := do
  let _ ← clear triv dst
  pure (src, Vec.empty)

/-! ## A world of vectors -/

/-- A program state with any number of live `Vector` objects. -/
structure World (α : Type) where
  mem : Mem α
  obj : Nat → Option Vec

/-- No object exists yet. -/
def World.init : World α := { mem := Mem.init, obj := fun _ => none }

/-- Public operations on vectors, `k`, `d`, `s`, `j` naming objects. -/
inductive Op (α : Type)
  /-- `Vector<T> k;` -/
  | new (k : Nat)
  /-- `Vector<T> k(n, x);` -/
  | newFill (k n : Nat) (x : α)
  /-- `k.push_back(x)` -/
  | push (k : Nat) (x : α)
  /-- `k.push_back(j[i])` -/
  | pushElem (k j : Nat) (i : Nat)
  /-- `k.pop_back()` -/
  | pop (k : Nat)
  /-- `k[i] = x` -/
  | set (k : Nat) (i : Int) (x : α)
  /-- `k.resize(n)` -/
  | resize (k n : Nat)
  /-- `k.resize(n, x)` -/
  | resizeFill (k n : Nat) (x : α)
  /-- `k.clear()` -/
  | clear (k : Nat)
  /-- `d = s` -/
  | copy (d s : Nat)
  /-- `d = move(s)` -/
  | move (d s : Nat)
  /-- end of the lifetime of `k` -/
  | drop (k : Nat)

/-- Run a memory program inside the world. -/
def lift {β : Type} (p : Prog (Mem α) β) : Prog (World α) β := fun w =>
  match p w.mem with
  | none => none
  | some (.error f) => some (.error f)
  | some (.ok (a, m)) => some (.ok (a, { w with mem := m }))

/-- The object named `k`; naming an object that does not exist is a misuse. -/
def getObj (k : Nat) : Prog (World α) Vec := fun w =>
  match w.obj k with
  | none => some (.error .useAfterFree)
  | some v => some (.ok (v, w))

/-- Update (or end) the object named `k`. -/
def putObj (k : Nat) (v : Option Vec) : Prog (World α) Unit :=
  modify fun w => { w with obj := fun x => if x = k then v else w.obj x }

/-- One operation.  A copy/move *constructor* is `new` followed by `copy`/`move`
(core/common.hpp:35 and 43).  With the allocator as a parameter. -/
def stepWith (al : Nat → Prog (Mem α) Nat) (triv : Bool) : Op α → Prog (World α) Unit
  | .new k => putObj k (some Vec.empty)
  | .newFill k n x => do putObj k (some (← lift (ctorFillWith al triv n (.val x))))
  | .push k x => do
    let v ← getObj k
    putObj k (some (← lift (pushBackWith al triv v (.val x))))
  | .pushElem k j i => do
    let v ← getObj k
    let u ← getObj j
    dassert (i < u.sz)
    putObj k (some (← lift (pushBackWith al triv v (.ref u.c i))))
  | .pop k => do
    let v ← getObj k
    putObj k (some (← lift (popBackWith al triv v)))
  | .set k i x => do
    let v ← getObj k
    lift (setIndex v i (.val x))
  | .resize k n => do
    let v ← getObj k
    putObj k (some (← lift (Vec.resizeWith al triv v n)))
  | .resizeFill k n x => do
    let v ← getObj k
    putObj k (some (← lift (Vec.resizeFillWith al triv v n (.val x))))
  | .clear k => do
    let v ← getObj k
    putObj k (some (← lift (Vec.clear triv v)))
  | .copy d s => do
    let v ← getObj d
    let u ← getObj s
    if d = s then pure () else
    putObj d (some (← lift (copyAssignWith al triv v u)))
  | .move d s => do
    let v ← getObj d
    let u ← getObj s
    if d = s then pure () else
    let (v', u') ← lift (moveAssign triv v u)
    putObj d (some v')
    putObj s (some u')
  | .drop k => do
    let v ← getObj k
    let _ ← lift (Vec.clear triv v)
    putObj k none

/-- One operation, over an allocator that succeeds. -/
def step (triv : Bool) (op : Op α) : Prog (World α) Unit := stepWith alloc triv op

/-- A history of operations, with the allocator as a parameter. -/
def runWith (al : Nat → Prog (Mem α) Nat) (triv : Bool) (ops : List (Op α)) : Prog (World α) Unit :=
  seqAll (ops.map (stepWith al triv))

/-- A history of operations, over an allocator that succeeds. -/
def run (triv : Bool) (ops : List (Op α)) : Prog (World α) Unit :=
  seqAll (ops.map (step triv))

end Verif.Vec
