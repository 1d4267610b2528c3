import Verif.Spec.VectorPool

/-!
# Specification vocabulary for vectors that use the static allocator directly

The same as `Verif.Spec.VectorPool`, except that a vector without elements may have a capacity and
no storage: its request has been refused and nothing has noticed.
-/

namespace Verif.Pool

open Vec

variable {α : Type}

/-- Storage lies in the pool, apart from the storage of the other vectors and from the free blocks;
a vector without storage has no elements. -/
def Stored (c : Sma.Cfg) (size : Nat) (w : PWorld) (sw : SWorld α) : Prop :=
  (∀ k v, w.obj k = some v → v.c ≠ 0 →
    Sma.InPool c (v.c, taken8 size v.cap) ∧
    (∀ j u, j ≠ k → w.obj j = some u → u.c ≠ 0 →
      Sma.Disj (v.c, taken8 size v.cap) (u.c, taken8 size u.cap)) ∧
    ∀ b, Sma.FreeBlock c w.pool b → Sma.Disj (v.c, taken8 size v.cap) b) ∧
  ∀ k v, w.obj k = some v → v.c = 0 → ∃ s, sw k = some s ∧ s.data = []

/-- The sum of the storage held by the vectors named in the list. -/
def heldSum (size : Nat) (w : PWorld) : List Nat → Nat
  | [] => 0
  | k :: ks => (match w.obj k with
    | none => 0
    | some v => if v.c = 0 then 0 else taken8 size v.cap) + heldSum size w ks

/-- `free_mem_size()` is the size of the pool without the storage that the vectors hold. -/
def Balanced (c : Sma.Cfg) (size : Nat) (w : PWorld) (sw : SWorld α) : Prop :=
  ∃ ks : List Nat, ks.Nodup ∧ (∀ k, k ∈ ks ↔ sw k ≠ none) ∧
    Returns Sma.freeMemSize w.pool ((c.M : Int) - heldSum size w ks) w.pool

/-- No free block has `n` bytes. -/
def NoFree (c : Sma.Cfg) (s : Sma.St) (n : Nat) : Prop := ∀ b, Sma.FreeBlock c s b → b.2 < n

/-- When an operation that begins with its request for storage stops: the request is refused and there
is something to put into the storage, or an earlier request for the same vector has been refused. -/
def Stops (c : Sma.Cfg) (size : Nat) (w : PWorld) (sw : SWorld α) (op : Op α) : Prop :=
  match op with
  | .newFill _ n _ | .resizeFill _ n _ => n ≠ 0 ∧ NoFree c w.pool (taken8 size n)
  | .resize k n => n ≠ 0 ∧ NoFree c w.pool (taken8 size n) ∧ ∃ s, sw k = some s ∧ s.data ≠ []
  | .push k _ | .pushElem k _ _ => ∃ s, sw k = some s ∧
      ((s.data.length = s.cap ∧ NoFree c w.pool (taken8 size (max 2 (2 * s.data.length)))) ∨
       (s.cap ≠ 0 ∧ ∃ v, w.obj k = some v ∧ v.c = 0))
  | _ => False

end Verif.Pool
