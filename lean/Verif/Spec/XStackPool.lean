import Verif.XStackPool
import Verif.Spec.XValueStack
import Verif.Spec.VectorPool
import Verif.Props.Stack

/-!
# Specification vocabulary for stacks in the static pool

A stack is a list with its top first (`Stack.Spec` in `Verif.Props.Stack`, `Verif.Spec.XValueStack`),
blocks are address and size (`Verif.Spec.SMA`).
-/

namespace Verif.XPool

open Vec Pool
open XStack (XS Obj WOp SObj)

variable {α ι : Type}

/-- The block of a stack: its address and its size in bytes. -/
def block (size : Nat) (v : Vec) : Sma.Block := (v.c, taken8 size v.cap)

/-- Every stack with storage has it in the pool, away from that of the other stacks and from the free
blocks. -/
def Placed (c : Sma.Cfg) (size : Nat) (pool : Sma.St) (vec : Nat → Option Vec) : Prop :=
  ∀ k v, vec k = some v → v.cap ≠ 0 → Sma.InPool c (block size v) ∧
    (∀ j u, j ≠ k → vec j = some u → u.cap ≠ 0 → Sma.Disj (block size v) (block size u)) ∧
    ∀ b, Sma.FreeBlock c pool b → Sma.Disj (block size v) b

/-- The number of bytes of the stacks named in the list. -/
def storage (size : Nat) (vec : Nat → Option Vec) : List Nat → Nat
  | [] => 0
  | k :: ks => (match vec k with
    | none => 0
    | some v => (block size v).2) + storage size vec ks

/-- `free_mem_size()` is the size of the pool without the storage of the stacks alive. -/
def Accounted (c : Sma.Cfg) (size : Nat) (pool : Sma.St) (vec : Nat → Option Vec) (alive : Nat → Prop) :
    Prop :=
  ∃ ks : List Nat, ks.Nodup ∧ (∀ k, k ∈ ks ↔ alive k) ∧
    Returns Sma.freeMemSize pool ((c.M : Int) - storage size vec ks) pool

/-! ## `Stack` -/

/-- What the public observers show of every stack, as for stacks with memory of their own
(`Stack.Shows`). -/
def StackShows (md : Sma.Mode) (c : Sma.Cfg) (K : Elem α) (w : PWorld) (sw : Stack.Spec α) : Prop :=
  ∀ k, (sw k = none → w.obj k = none) ∧
    ∀ s, sw k = some s → ∃ v, w.obj k = some v ∧ v.sz = s.length ∧
      (∀ x t, s = x :: t → Returns (stTop (poolOps md c K) v) w.pool x w.pool) ∧
      Returns (iterate (poolOps md c K) v) w.pool s.reverse w.pool

/-! ## `XValueStack` -/

/-- The vectors of the objects. -/
def vecs (w : XWorld ι α) : Nat → Option Vec := fun k => (w.obj k).map fun v => v.o.st

/-- What the public observers show of every extremum stack, as for stacks with memory of their own
(`XStack.WShows`). -/
def Shows (md : Sma.Mode) (c : Sma.Cfg) (K : Elem α) (R : ι → α → α → Prop) (w : XWorld ι α)
    (sw : XStack.SWorld ι α) : Prop :=
  ∀ k, (sw k = none → w.obj k = none) ∧
    ∀ v, sw k = some v → ∃ u, w.obj k = some u ∧ u.c = v.c ∧ (XStack.empty u.o = true ↔ v.s = []) ∧
      (∀ y t, v.s = y :: t → Returns (top (poolOps md c K) u.o) w.pool y w.pool) ∧
      (v.s ≠ [] → XStack.Ext (R v.c) v.s (XStack.getXValue u.o))

end Verif.XPool
