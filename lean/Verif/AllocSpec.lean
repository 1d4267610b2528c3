import Verif.Base

/-!
# Model of `AllocSpec` (spec/DStructSpec.hpp), `Alloc` (port/dstruct-port.h) and the libc port
(port/libc/libc-dstruct-port.hpp)
-/

namespace Verif.AllocSpec

open Prog

/-- A call received by the underlying allocator (`Alloc`, port/dstruct-port.h:20-28). -/
inductive Call
  | allocate (bytes : Int)
  | deallocate (addr : Nat) (bytes : Int)
  deriving DecidableEq, Repr

/-- The C heap: `blk p` is the size of the live block at `p`, and `calls` records the calls
that reached `Alloc`, oldest first. -/
structure Heap where
  blk : Nat → Option Nat
  next : Nat
  calls : List Call

/-- The C heap at program start. -/
def Heap.init : Heap := { blk := fun _ => none, next := 1, calls := [] }

/-- `malloc(bytes)` called with an `int` (port/libc/libc-dstruct-port.hpp:25-27): the argument
is converted to `size_t`, so a negative one becomes at least `2^63`, which no heap can serve.
Simplification: `malloc` succeeds for every other size. -/
def malloc (bytes : Int) : Prog Heap Nat := fun h =>
  if bytes < 0 then some (.ok (0, h))
  else some (.ok (h.next, { h with
    blk := fun p => if p = h.next then some bytes.toNat else h.blk p
    next := h.next + 1 }))

/-- `free(addr)` (port/libc/libc-dstruct-port.hpp:29-31). -/
def free (addr : Nat) : Prog Heap Unit := fun h =>
  if addr = 0 then some (.ok ((), h)) else
  match h.blk addr with
  | none => some (.error .badFree)
  | some _ => some (.ok ((), { h with blk := fun p => if p = addr then none else h.blk p }))

/-- `Alloc::allocate(int bytes)` (port/dstruct-port.h:21-23). -/
def Alloc.allocate (bytes : Int) : Prog Heap Nat := do
  modify fun h => { h with calls := h.calls ++ [.allocate bytes] }
  malloc bytes

/-- `Alloc::deallocate(void *addr, int bytes)` (port/dstruct-port.h:25-27). -/
def Alloc.deallocate (addr : Nat) (bytes : Int) : Prog Heap Unit := do
  modify fun h => { h with calls := h.calls ++ [.deallocate addr bytes] }
  free addr

/-- `n * sizeof(T)` passed as an `int` (spec/DStructSpec.hpp:48 and 52): `n` is converted to
`size_t`, the product is taken modulo `2^64` and converted to `int`. -/
def byteCount (sizeofT : Nat) (n : Int) : Int :=
  Int.bmod ((n % 2 ^ 64 * sizeofT) % 2 ^ 64) (2 ^ 32)

/-- `AllocSpec<T>::allocate(int n)` (spec/DStructSpec.hpp:47-49). -/
def allocate (sizeofT : Nat) (n : Int) : Prog Heap Nat := Alloc.allocate (byteCount sizeofT n)

/-- `AllocSpec<T>::deallocate(T *ptr, int n)` (spec/DStructSpec.hpp:51-53). -/
def deallocate (sizeofT : Nat) (ptr : Nat) (n : Int) : Prog Heap Unit :=
  Alloc.deallocate ptr (byteCount sizeofT n)

end Verif.AllocSpec
