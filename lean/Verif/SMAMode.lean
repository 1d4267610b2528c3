import Verif.SMA

/-!
# The two ways in which containers use the static allocator

With `ENABLE_SMA` the default allocator of all containers is the port over a static allocator
(port/dstruct-port.h:20-33, port/static-memory/sma-dstruct-port.hpp:28-61): it merges and retries
when a request is refused, and stops the program when this does not help.  The containers of
`dstruct-static.hpp` (namespace `smemory`, 46-101) have the static allocator itself as their
`Alloc`: a refused request gives the null pointer, and the result of `deallocate` is ignored.
-/

namespace Verif.Sma

open Prog

/-- How containers reach the static allocator. -/
inductive Mode
  /-- through the port (`ENABLE_SMA`) -/
  | port
  /-- as template argument (dstruct-static.hpp) -/
  | direct
  deriving DecidableEq

variable (md : Mode) (c : Cfg)

/-- `Alloc::allocate(bytes)` as called by `AllocSpec::allocate` (spec/DStructSpec.hpp:47-49); the
address 0 is the null pointer. -/
def getBlock (bytes : Int) : Prog St Nat :=
  match md with
  | .port => portAlloc c bytes
  | .direct => alloc c bytes

/-- `Alloc::deallocate(addr, bytes)` as called by `AllocSpec::deallocate`
(spec/DStructSpec.hpp:51-53). -/
def giveBlock (addr : Nat) (bytes : Int) : Prog St Unit :=
  match md with
  | .port => portDealloc c addr bytes
  | .direct => do
    let _ ← dealloc c addr bytes
    pure ()

end Verif.Sma
