import Verif.Base

/-! # Model of `StaticMemAllocator::MEM_ALIGN_ROUND_UP` (memory/StaticMemAllocator.hpp:79-81) -/

namespace Verif.Sma

open Prog

/-- `((bytes) + SMA_MEM_ALIGN - 1) & ~(SMA_MEM_ALIGN - 1)` on 32-bit `int`
(StaticMemAllocator.hpp:79-81, `SMA_MEM_ALIGN` is 8).  Adding 8 may overflow. -/
def roundUpBits {σ : Type} (bytes : BitVec 32) : Prog σ (BitVec 32) := do
  check (bytes.toInt + 8 < 2 ^ 31) .overflow
  pure ((bytes + 8#32 - 1#32) &&& ~~~(8#32 - 1#32))

/-- The least multiple of 8 that is at least `n`. -/
def roundUp (n : Int) : Int := (n + 7) / 8 * 8

end Verif.Sma
