import Verif.VectorPool
import Verif.Spec.Vector
import Verif.Spec.SMA

/-!
# Specification vocabulary for vectors in the static pool

Vectors are lists with a capacity (`Verif.Spec.Vector`), blocks are address and size
(`Verif.Spec.SMA`).
-/

namespace Verif.Pool

open Vec

variable {α : Type}

/-- Explicitly requested sizes are such that the number of bytes can be computed in an `int`. -/
def Sized (size : Nat) : Op α → Prop
  | .newFill _ n _ | .resize _ n | .resizeFill _ n _ => size * n + 8 < 2 ^ 31
  | _ => True

/-- The number of bytes of the pool taken by `n` objects of `size` bytes: the next multiple of eight. -/
def taken8 (size n : Nat) : Nat := (size * n + 7) / 8 * 8

/-- The number of bytes of a vector's storage. -/
def storageBytes (size : Nat) (v : SVec α) : Nat := taken8 size v.cap

/-- The sum of the storage of the vectors named in the list. -/
def storageSum (size : Nat) (sw : SWorld α) : List Nat → Nat
  | [] => 0
  | k :: ks => (match sw k with
    | none => 0
    | some v => storageBytes size v) + storageSum size sw ks

/-- What the public observers show, as for vectors with memory of their own (`Vec.Shows`). -/
def Shows (md : Sma.Mode) (c : Sma.Cfg) (K : Elem α) (w : PWorld) (sw : SWorld α) : Prop :=
  ∀ k, (sw k = none → w.obj k = none) ∧
    ∀ s, sw k = some s → ∃ v, w.obj k = some v ∧ v.sz = s.data.length ∧ v.cap = s.cap ∧
      Returns (iterate (poolOps md c K) v) w.pool s.data w.pool ∧
      (s.data.length < 2 ^ 31 → ∀ i (h : i < s.data.length),
        Returns (index (poolOps md c K) v (i : Int)) w.pool s.data[i] w.pool ∧
        Returns (index (poolOps md c K) v ((i : Int) - s.data.length)) w.pool s.data[i] w.pool) ∧
      (∀ h : s.data ≠ [], Returns (front (poolOps md c K) v) w.pool (s.data.head h) w.pool ∧
        Returns (back (poolOps md c K) v) w.pool (s.data.getLast h) w.pool)

/-- Every vector with storage has it in the pool, away from the storage of the other vectors and
from the free blocks. -/
def Placed (c : Sma.Cfg) (K : Elem α) (w : PWorld) (sw : SWorld α) : Prop :=
  ∀ k v s, w.obj k = some v → sw k = some s → s.cap ≠ 0 →
    Sma.InPool c (v.c, storageBytes K.size s) ∧
    (∀ j u t, j ≠ k → w.obj j = some u → sw j = some t → t.cap ≠ 0 →
      Sma.Disj (v.c, storageBytes K.size s) (u.c, storageBytes K.size t)) ∧
    ∀ b, Sma.FreeBlock c w.pool b → Sma.Disj (v.c, storageBytes K.size s) b

/-- `free_mem_size()` is the size of the pool without the storage of the vectors alive. -/
def Accounted (c : Sma.Cfg) (K : Elem α) (w : PWorld) (sw : SWorld α) : Prop :=
  ∃ ks : List Nat, ks.Nodup ∧ (∀ k, k ∈ ks ↔ sw k ≠ none) ∧
    Returns Sma.freeMemSize w.pool ((c.M : Int) - storageSum K.size sw ks) w.pool

/-- Even merging the free blocks yields none of `n` bytes. -/
def Full (c : Sma.Cfg) (s : Sma.St) (n : Nat) : Prop :=
  ∃ t, Returns (Sma.merge c) s () t ∧ ∀ b, Sma.FreeBlock c t b → b.2 < n

/-- The number of objects for which an operation requests storage; 0: none is requested. -/
def request : Op α → SWorld α → Nat
  | .newFill _ n _, _ | .resize _ n, _ | .resizeFill _ n _, _ => n
  | .push k _, w | .pushElem k _ _, w => match w k with
    | some v => if v.data.length < v.cap then 0 else max 2 (2 * v.data.length)
    | none => 0
  | .pop k, w => match w k with
    | some v => if v.data.length - 1 < v.cap / 3 then v.cap / 2 else 0
    | none => 0
  | .copy d s, w => match w s with
    | some u => if d = s then 0 else u.cap
    | none => 0
  | .new _, _ | .set _ _ _, _ | .clear _, _ | .move _ _, _ | .drop _, _ => 0

/-- The operation requests storage before it does anything else. -/
def RequestsFirst : Op α → Prop
  | .pop _ | .copy _ _ => False
  | _ => True

end Verif.Pool
