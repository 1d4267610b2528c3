import Verif.XValueStack
import Verif.VectorPool

/-!
# Stacks whose elements live in the static pool

`smemory::Stack`, `smemory::MinStack` and `smemory::MaxStack` (dstruct-static.hpp:83-89) and, with
`ENABLE_SMA`, every stack over a vector.  The functions of `Stack` and `XValueStack` are written over an
arbitrary memory (`Pool.MemOps`); instantiated with the blocks of `Verif.Vector` they are those of
`Verif.Stack` and `Verif.XValueStack` (`Verif/XStackPoolSim.lean`).

Not in the pool, as in the code: the members `mXValue_d` and `mCmp_d` (XValueStack.hpp:78-79), which are
part of the object itself.
-/

namespace Verif.XPool

open Prog Vec Pool
open XStack (XS Obj WOp)

variable {σ α ι : Type}

section
variable (I : MemOps σ α)

/-- `Stack::top()` (Stack.hpp:41). -/
def stTop (v : Vec) : Prog σ α := back I v

/-- `Stack::push` (Stack.hpp:44). -/
def stPush (v : Vec) (x : α) : Prog σ Vec := pushBack I v (.val x)

/-- `Stack::pop` (Stack.hpp:45-48). -/
def stPop (v : Vec) : Prog σ Vec := do
  let _ ← back I v
  popBack I v

/-- `Stack::clear` (Stack.hpp:50-52). -/
def stClear (v : Vec) : Prog σ Vec := clear I v

/-- `XValueStack::top()` (XValueStack.hpp:49). -/
def top (s : XS α) : Prog σ α := stTop I s.st

/-- `XValueStack::push(val)` (XValueStack.hpp:53-59). -/
def push (cmp : α → α → Bool) (s : XS α) (val : α) : Prog σ (XS α) := do
  let s ← (if s.st.sz = 0 ∨ cmp val s.x = true then do
      let st ← stPush I s.st s.x
      pure ⟨val, st⟩
    else pure s)
  let st ← stPush I s.st val
  pure { s with st := st }

/-- `XValueStack::pop()` (XValueStack.hpp:61-67). -/
def pop [DecidableEq α] (s : XS α) : Prog σ (XS α) := do
  let data ← stTop I s.st
  let st ← stPop I s.st
  if s.x = data then do
    let x ← stTop I st
    let st ← stPop I st
    pure ⟨x, st⟩
  else pure { s with st := st }

/-- `XValueStack::clear()` (XValueStack.hpp:69-71). -/
def clearX (s : XS α) : Prog σ (XS α) := do
  let st ← stClear I s.st
  pure { s with st := st }

/-- One operation on an object. -/
def step [DecidableEq α] (cmp : α → α → Bool) (s : XS α) : XStack.Op α → Prog σ (XS α)
  | .push v => push I cmp s v
  | .pop => pop I s
  | .clear => clearX I s

/-- Copy assignment of distinct objects (XValueStack.hpp:30-35). -/
def copyObj (v u : Obj ι α) : Prog σ (Obj ι α) := do
  let st ← copyAssign I v.o.st u.o.st
  pure ⟨u.c, ⟨u.o.x, st⟩⟩

/-- Move assignment of distinct objects (XValueStack.hpp:37-42), see `XStack.moveAssign`. -/
def moveObj (gone : α → α) (v u : Obj ι α) : Prog σ (Obj ι α × Obj ι α) := do
  let (st, st') ← moveAssign I v.o.st u.o.st
  pure (⟨u.c, ⟨u.o.x, st⟩⟩, ⟨u.c, ⟨gone u.o.x, st'⟩⟩)

end

/-! ## A world of stacks in the pool -/

/-- The objects of type `Stack` are those of a world of vectors in the pool.  One operation
(compare `Stack.step`). -/
def stackStep (md : Sma.Mode) (c : Sma.Cfg) (K : Elem α) : Stack.Op α → Prog PWorld Unit
  | .new k => Pool.step md c K (.new k)
  | .push k x => do
    let v ← Pool.getObj k
    Pool.putObj k (some (← Pool.lift (stPush (poolOps md c K) v x)))
  | .pop k => do
    let v ← Pool.getObj k
    Pool.putObj k (some (← Pool.lift (stPop (poolOps md c K) v)))
  | .clear k => do
    let v ← Pool.getObj k
    Pool.putObj k (some (← Pool.lift (stClear (poolOps md c K) v)))
  | .copy d s => Pool.step md c K (.copy d s)
  | .move d s => Pool.step md c K (.move d s)
  | .drop k => Pool.step md c K (.drop k)

/-- A history of stack operations. -/
def stackRun (md : Sma.Mode) (c : Sma.Cfg) (K : Elem α) (ops : List (Stack.Op α)) : Prog PWorld Unit :=
  seqAll (ops.map (stackStep md c K))

/-- The static allocator and the `XValueStack` objects. -/
structure XWorld (ι α : Type) where
  pool : Sma.St
  obj : Nat → Option (Obj ι α)

/-- Run a program on the pool. -/
def lift {β : Type} (p : Prog Sma.St β) : Prog (XWorld ι α) β := fun w =>
  match p w.pool with
  | none => none
  | some (.error f) => some (.error f)
  | some (.ok (a, s)) => some (.ok (a, { w with pool := s }))

/-- The object named `k`. -/
def getObj (k : Nat) : Prog (XWorld ι α) (Obj ι α) := fun w =>
  match w.obj k with
  | none => some (.error .useAfterFree)
  | some v => some (.ok (v, w))

/-- Update (or end) the object named `k`. -/
def putObj (k : Nat) (v : Option (Obj ι α)) : Prog (XWorld ι α) Unit :=
  modify fun w => { w with obj := fun x => if x = k then v else w.obj x }

section
variable [DecidableEq α] (md : Sma.Mode) (c : Sma.Cfg) (K : Elem α) (cmp : ι → α → α → Bool) (gone : α → α)

/-- One operation (compare `XStack.wstep`). -/
def wstep : WOp ι α → Prog (XWorld ι α) Unit
  | .new k i x0 => putObj k (some ⟨i, XStack.new x0⟩)
  | .op k p => do
    let v ← getObj k
    let o ← lift (XPool.step (poolOps md c K) (cmp v.c) v.o p)
    putObj k (some ⟨v.c, o⟩)
  | .copy d s => do
    let v ← getObj d
    let u ← getObj s
    if d = s then pure () else
    putObj d (some (← lift (copyObj (poolOps md c K) v u)))
  | .move d s => do
    let v ← getObj d
    let u ← getObj s
    if d = s then pure () else
    let (v', u') ← lift (moveObj (poolOps md c K) gone v u)
    putObj d (some v')
    putObj s (some u')
  | .drop k => do
    let v ← getObj k
    let _ ← lift (clear (poolOps md c K) v.o.st)
    putObj k none

/-- A history of operations on any number of objects. -/
def wrun (ops : List (WOp ι α)) : Prog (XWorld ι α) Unit :=
  seqAll (ops.map (wstep md c K cmp gone))

end

end Verif.XPool
