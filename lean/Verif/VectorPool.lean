import Verif.Vector
import Verif.SMAMode
import Verif.AllocSpec

/-!
# Vectors whose elements live in the static pool

The model of `Vector` in `Verif.Vector` gives every buffer a block of its own.  With the static
allocator (`ENABLE_SMA`) all buffers are parts of one array of bytes, and nothing but the
code keeps them apart.  Here the functions of `Vector` are written over an arbitrary memory
(`MemOps`); instantiated with the blocks of `Verif.Vector` they are the functions modelled there
(`Verif/VectorPoolSim.lean`, by `rfl`), and instantiated with `poolOps` they work on the bytes of the
static allocator.
-/

namespace Verif.Pool

open Prog Vec

variable {σ α : Type}

/-- What `Vector` needs from memory: `AllocSpec<T>`, `construct`, `destroy` and access through
pointers, which are numbers here.  `read p i` is `p[i]`. -/
structure MemOps (σ α : Type) where
  alloc : Nat → Prog σ Nat
  dealloc : Nat → Nat → Prog σ Unit
  read : Nat → Int → Prog σ α
  construct : Nat → Int → Arg α → Prog σ Unit
  destroy : Nat → Int → Prog σ Unit
  assign : Nat → Int → Arg α → Prog σ Unit

section
variable (I : MemOps σ α)

/-- `Vector::resize(size_t n)` (Vector.hpp:159-181). -/
def resize (v : Vec) (n : Nat) : Prog σ Vec := do
  let c ← (if n = 0 then pure 0 else I.alloc n)
  when (v.c ≠ 0) do
    dassert (v.cap ≠ 0)
    forRange v.sz 0 () fun i _ => do
      when (i < n) (I.construct c i (.ref v.c i))
      I.destroy v.c i
    I.dealloc v.c v.cap
  pure { sz := if n < v.sz then n else v.sz, cap := n, c := c }

/-- `Vector::resize(size_t n, const T &element)` (Vector.hpp:183-210). -/
def resizeFill (v : Vec) (n : Nat) (e : Arg α) : Prog σ Vec := do
  if n = 0 then resize I v 0
  else
    let c ← I.alloc n
    when (v.c ≠ 0) do
      forRange v.sz 0 () fun i _ => do
        when (i < n) (I.construct c i (.ref v.c i))
        I.destroy v.c i
      I.dealloc v.c v.cap
    forRange (n - v.sz) v.sz () fun i _ => I.construct c i e
    pure { sz := n, cap := n, c := c }

/-- `Vector(size_t n, const T &element)` (Vector.hpp:25-32). -/
def ctorFill (n : Nat) (e : Arg α) : Prog σ Vec := do
  dassert (n ≠ 0)
  let v ← resize I Vec.empty n
  forRange n 0 () fun i _ => I.construct v.c i e
  pure { sz := n, cap := n, c := v.c }

/-- `Vector::clear()` (Vector.hpp:129-139), also the destructor (59-61). -/
def clear (v : Vec) : Prog σ Vec := do
  when (v.c ≠ 0) do
    forRange v.sz 0 () fun i _ => I.destroy v.c i
    I.dealloc v.c v.cap
  pure Vec.empty

/-- `Vector::push_back(const T &element)` (Vector.hpp:98-107). -/
def pushBack (v : Vec) (e : Arg α) : Prog σ Vec := do
  let v ← (if v.sz + 1 > v.cap then
      (if v.sz ≠ 0 then resize I v (2 * v.sz) else resize I v 2)
    else pure v)
  I.construct v.c v.sz e
  pure { v with sz := v.sz + 1 }

/-- `Vector::pop_back()` (Vector.hpp:113-120). -/
def popBack (v : Vec) : Prog σ Vec := do
  dassert (v.sz > 0)
  let v := { v with sz := v.sz - 1 }
  I.destroy v.c v.sz
  if v.sz < v.cap / 3 then resize I v (v.cap / 2) else pure v

/-- `Vector::operator[](int)` used to read (Vector.hpp:86-91). -/
def index (v : Vec) (i : Int) : Prog σ α := do
  let j := normIndex v i
  dassert (j < Int.bmod v.sz (2 ^ 32))
  I.read v.c j

/-- `v[i] = e` through the reference of `Vector::operator[](int)` (Vector.hpp:122-127). -/
def setIndex (v : Vec) (i : Int) (e : Arg α) : Prog σ Unit := do
  let j := normIndex v i
  dassert (j < Int.bmod v.sz (2 ^ 32))
  I.assign v.c j e

/-- `Vector::back()` (Vector.hpp:77-80). -/
def back (v : Vec) : Prog σ α := do
  dassert (v.sz > 0)
  I.read v.c ((v.sz : Int) - 1)

/-- `Vector::front()` (Vector.hpp:82-84). -/
def front (v : Vec) : Prog σ α := I.read v.c 0

/-- `for (it = begin(); it != end(); ++it)` (Vector.hpp:142-156). -/
def iterate (v : Vec) : Prog σ (List α) :=
  forRange v.sz 0 [] fun i acc => do
    let x ← I.read v.c i
    pure (acc ++ [x])

/-- Copy assignment for distinct objects (Vector.hpp:34-43). -/
def copyAssign (dst src : Vec) : Prog σ Vec := do
  let d ← clear I dst
  let d ← resize I d src.cap
  let d := { d with sz := src.sz }
  forRange d.sz 0 () fun i _ => do
    I.destroy d.c i
    I.construct d.c i (.ref src.c i)
  pure d

/-- Move assignment for distinct objects (Vector.hpp:45-57). -/
def moveAssign (dst src : Vec) : Prog σ (Vec × Vec) := do
  let _ ← clear I dst
  pure (src, Vec.empty)

end

/-! ## The bytes of the static allocator -/

/-- How objects that begin on a cell are laid out: `words` times eight bytes with the content
`enc x`, which determines the object; `fin` is what the destructor leaves of the bytes, and `triv`
says whether the destructor is trivial.  Used for the data in the nodes of lists and trees.
Simplification: the size of an object is a multiple of eight. -/
structure Layout (α : Type) where
  words : Nat
  triv : Bool
  enc : α → Nat → Sma.Cell
  dec : (Nat → Sma.Cell) → Option α
  fin : (Nat → Sma.Cell) → Nat → Sma.Cell
  pos : 0 < words
  dec_enc : ∀ x g, (∀ j, j < words → g j = enc x j) → dec g = some x

section
variable (c : Sma.Cfg) (K : Layout α)

/-- Access to an object at address `p`: not through the null pointer and only to bytes of the pool.
The machine does not know which bytes of the pool are in use. -/
def touchObj (p : Nat) : Prog Sma.St Unit := do
  check (p ≠ 0) .nullDeref
  check (∀ j, j < K.words → c.inPool (p + 8 * j)) .outOfBounds

/-- Read the object at address `p`.  Bytes that are no object are a fault. -/
def load (p : Nat) : Prog Sma.St α := do
  touchObj c K p
  let s ← Prog.get
  match K.dec (fun j => s.mem (p + 8 * j)) with
  | some x => pure x
  | none => fail .uninit

/-- The bytes of memory after storing `g` at address `p`. -/
def poke (m : Nat → Sma.Cell) (p : Nat) (g : Nat → Sma.Cell) : Nat → Sma.Cell := fun y =>
  if p ≤ y ∧ y < p + 8 * K.words ∧ (y - p) % 8 = 0 then g ((y - p) / 8) else m y

/-- Overwrite the bytes of the object at address `p`. -/
def save (p : Nat) (g : Nat → Sma.Cell) : Prog Sma.St Unit := do
  touchObj c K p
  Prog.modify fun s => { s with mem := poke K s.mem p g }

end

/-! ## Single bytes

The memory of the allocator model consists of cells of eight bytes; the elements of a vector need
not begin or end at the border of a cell. -/

/-- The value of a byte. -/
abbrev Byte := Fin 256

/-- The byte at distance `j` from the beginning of a cell: the lowest byte of a number or an address
comes first. -/
def byteOf : Sma.Cell → Nat → Byte
  | .raw x, j => Fin.ofNat 256 (x / 256 ^ j)
  | .link p, j => Fin.ofNat 256 (p / 256 ^ j)
  | .size d, j => Fin.ofNat 256 ((d % 2 ^ 64).toNat / 256 ^ j)

/-- The number with the lowest `n` bytes `g`. -/
def byteSum (g : Nat → Byte) : Nat → Nat
  | 0 => 0
  | n + 1 => byteSum g n + (g n).val * 256 ^ n

/-- A cell made of eight bytes.  Simplification: a client that assembles a link or a size of the
allocator from bytes obtains a cell that the allocator does not accept (see `Sma.Cell`). -/
def ofBytes (g : Nat → Byte) : Sma.Cell := .raw (byteSum g 8)

/-- The byte at address `a`, which lies in the pool. -/
def byteAt (c : Sma.Cfg) (m : Nat → Sma.Cell) (a : Nat) : Byte :=
  byteOf (m (c.base + (a - c.base) / 8 * 8)) ((a - c.base) % 8)

/-- Memory after storing the `n` bytes `g` at address `p`: cells that are overwritten in part keep
their other bytes. -/
def pokeBytes (c : Sma.Cfg) (m : Nat → Sma.Cell) (p n : Nat) (g : Nat → Byte) : Nat → Sma.Cell := fun y =>
  if c.base ≤ y ∧ (y - c.base) % 8 = 0 ∧ y < p + n ∧ p < y + 8 then
    ofBytes fun j => if p ≤ y + j ∧ y + j < p + n then g (y + j - p) else byteOf (m y) j
  else m y

/-- How objects of the element type are laid out: `size` is `sizeof(T)`, the bytes of `x` are
`enc x`, which determine the object; `fin` is what the destructor leaves of the bytes, and `triv`
says whether the destructor is trivial. -/
structure Elem (α : Type) where
  size : Nat
  triv : Bool
  enc : α → Nat → Byte
  dec : (Nat → Byte) → Option α
  fin : (Nat → Byte) → Nat → Byte
  pos : 0 < size
  dec_enc : ∀ x g, (∀ j, j < size → g j = enc x j) → dec g = some x

section
variable (md : Sma.Mode) (c : Sma.Cfg) (K : Elem α)

/-- The address `p + i` of pointer arithmetic on `T *`. -/
def addr (p : Nat) (i : Int) : Nat := ((p : Int) + K.size * i).toNat

/-- Access to an element at address `p`: not through the null pointer and only to bytes of the pool.
The machine does not know which bytes of the pool are in use. -/
def touchElem (p : Nat) : Prog Sma.St Unit := do
  check (p ≠ 0) .nullDeref
  check (c.base ≤ p ∧ p + K.size ≤ c.base + c.M) .outOfBounds

/-- Read the element at address `p`.  Bytes that are no object are a fault. -/
def loadElem (p : Nat) : Prog Sma.St α := do
  touchElem c K p
  let s ← Prog.get
  match K.dec (fun j => byteAt c s.mem (p + j)) with
  | some x => pure x
  | none => fail .uninit

/-- Overwrite the bytes of the element at address `p`. -/
def saveElem (p : Nat) (g : Nat → Byte) : Prog Sma.St Unit := do
  touchElem c K p
  Prog.modify fun s => { s with mem := pokeBytes c s.mem p K.size g }

/-- Read through a `const T &`; references are addresses. -/
def getArg : Arg α → Prog Sma.St α
  | .val x => pure x
  | .ref p i => loadElem c K (addr K p i)

/-- Element memory in the static pool: `AllocSpec<T>::allocate` and `deallocate`
(spec/DStructSpec.hpp:47-53) over the static allocator, reached through its port
(port/static-memory/sma-dstruct-port.hpp:30-61) or directly (dstruct-static.hpp:49-57), `construct` and `destroy`
(core/common.hpp:52-57 and 76-85).  A destructor that is not trivial goes wrong on bytes that are no
object.  Simplification: bytes are the only thing an object consists of, and misaligned accesses
work (see `Sma.touch`). -/
def poolOps : MemOps Sma.St α where
  alloc n := Sma.getBlock md c (AllocSpec.byteCount K.size n)
  dealloc p n := Sma.giveBlock md c p (AllocSpec.byteCount K.size n)
  read p i := loadElem c K (addr K p i)
  construct p i e := do
    check (addr K p i ≠ 0) .crash
    let x ← getArg c K e
    saveElem c K (addr K p i) (K.enc x)
  destroy p i := do
    check (addr K p i ≠ 0) .crash
    touchElem c K (addr K p i)
    let s ← Prog.get
    check (K.triv = true ∨ (K.dec fun j => byteAt c s.mem (addr K p i + j)).isSome) .badDestroy
    saveElem c K (addr K p i) (K.fin fun j => byteAt c s.mem (addr K p i + j))
  assign p i e := do
    let x ← getArg c K e
    saveElem c K (addr K p i) (K.enc x)

end

/-! ## A world of vectors -/

/-- The allocator's memory and the vector objects. -/
structure PWorld where
  pool : Sma.St
  obj : Nat → Option Vec

/-- Run a program on the pool. -/
def lift {β : Type} (p : Prog Sma.St β) : Prog PWorld β := fun w =>
  match p w.pool with
  | none => none
  | some (.error f) => some (.error f)
  | some (.ok (a, s)) => some (.ok (a, { w with pool := s }))

/-- The object named `k`. -/
def getObj (k : Nat) : Prog PWorld Vec := fun w =>
  match w.obj k with
  | none => some (.error .useAfterFree)
  | some v => some (.ok (v, w))

/-- Update (or end) the object named `k`. -/
def putObj (k : Nat) (v : Option Vec) : Prog PWorld Unit :=
  modify fun w => { w with obj := fun x => if x = k then v else w.obj x }

section
variable (md : Sma.Mode) (c : Sma.Cfg) (K : Elem α)

/-- One operation (compare `Verif.Vec.stepWith`). -/
def step : Op α → Prog PWorld Unit
  | .new k => putObj k (some Vec.empty)
  | .newFill k n x => do putObj k (some (← lift (ctorFill (poolOps md c K) n (.val x))))
  | .push k x => do
    let v ← getObj k
    putObj k (some (← lift (pushBack (poolOps md c K) v (.val x))))
  | .pushElem k j i => do
    let v ← getObj k
    let u ← getObj j
    dassert (i < u.sz)
    putObj k (some (← lift (pushBack (poolOps md c K) v (.ref u.c i))))
  | .pop k => do
    let v ← getObj k
    putObj k (some (← lift (popBack (poolOps md c K) v)))
  | .set k i x => do
    let v ← getObj k
    lift (setIndex (poolOps md c K) v i (.val x))
  | .resize k n => do
    let v ← getObj k
    putObj k (some (← lift (resize (poolOps md c K) v n)))
  | .resizeFill k n x => do
    let v ← getObj k
    putObj k (some (← lift (resizeFill (poolOps md c K) v n (.val x))))
  | .clear k => do
    let v ← getObj k
    putObj k (some (← lift (clear (poolOps md c K) v)))
  | .copy d s => do
    let v ← getObj d
    let u ← getObj s
    if d = s then pure () else
    putObj d (some (← lift (copyAssign (poolOps md c K) v u)))
  | .move d s => do
    let v ← getObj d
    let u ← getObj s
    if d = s then pure () else
    let (v', u') ← lift (moveAssign (poolOps md c K) v u)
    putObj d (some v')
    putObj s (some u')
  | .drop k => do
    let v ← getObj k
    let _ ← lift (clear (poolOps md c K) v)
    putObj k none

/-- A history of operations. -/
def run (ops : List (Op α)) : Prog PWorld Unit := seqAll (ops.map (step md c K))

end

end Verif.Pool
