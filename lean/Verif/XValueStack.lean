import Verif.Stack

/-!
# Model of `core/ds/stack/XValueStack.hpp`

`MinStack`/`MaxStack`: a stack that also remembers the extremum of its elements.
-/

namespace Verif.XStack

open Prog Vec

variable {α : Type}

/-- An `XValueStack` object (XValueStack.hpp:77-80): the saved extremum and the stack of data and
saved extrema. -/
structure XS (α : Type) where
  x : α
  st : Vec

/-- `XValueStack()` (XValueStack.hpp:27).  `x0` is the initial value of `mXValue_d`: `T()` for class
types; for built-in types the member is left uninitialised, modelled as an arbitrary value. -/
def new (x0 : α) : XS α := ⟨x0, Vec.empty⟩

/-- `top()` (XValueStack.hpp:49). -/
def top (s : XS α) : Prog (Mem α) α := Stack.top s.st

/-- `empty()` (XValueStack.hpp:47). -/
def empty (s : XS α) : Bool := s.st.sz == 0

/-- `getXValue()` (XValueStack.hpp:51). -/
def getXValue (s : XS α) : α := s.x

/-- `push(val)` (XValueStack.hpp:53-59). -/
def push (triv : Bool) (cmp : α → α → Bool) (s : XS α) (val : α) : Prog (Mem α) (XS α) := do
  let s ← (if s.st.sz = 0 ∨ cmp val s.x = true then do
      let st ← Stack.push triv s.st s.x
      pure ⟨val, st⟩
    else pure s)
  let st ← Stack.push triv s.st val
  pure { s with st := st }

/-- `pop()` (XValueStack.hpp:61-67). -/
def pop [DecidableEq α] (triv : Bool) (s : XS α) : Prog (Mem α) (XS α) := do
  let data ← Stack.top s.st
  let st ← Stack.pop triv s.st
  if s.x = data then do
    let x ← Stack.top st
    let st ← Stack.pop triv st
    pure ⟨x, st⟩
  else pure { s with st := st }

/-- `clear()` (XValueStack.hpp:69-71). -/
def clear (triv : Bool) (s : XS α) : Prog (Mem α) (XS α) := do
  let st ← Stack.clear triv s.st
  pure { s with st := st }

/-- Operations of a history. -/
inductive Op (α : Type)
  | push (v : α)
  | pop
  | clear

def step [DecidableEq α] (triv : Bool) (cmp : α → α → Bool) (s : XS α) : Op α → Prog (Mem α) (XS α)
  | .push v => push triv cmp s v
  | .pop => pop triv s
  | .clear => clear triv s

/-- A history of operations on one object. -/
def run [DecidableEq α] (triv : Bool) (cmp : α → α → Bool) (s : XS α) :
    List (Op α) → Prog (Mem α) (XS α)
  | [] => pure s
  | op :: ops => do
    let s ← step triv cmp s op
    run triv cmp s ops

/-- The values a range-`for` loop visits, from `begin()` to `end()` (XValueStack.hpp:74-75, which are
those of the wrapped stack, Stack.hpp:55-56). -/
def iterate (s : XS α) : Prog (Mem α) (List α) := Vec.iterate s.st

/-! ## Several objects

`ι` names comparator objects: `cmp c` is the function computed by a comparator in state `c`
(a function pointer or a functor with state). -/

/-- An object with its comparator member `mCmp_d` (XValueStack.hpp:77-80). -/
structure Obj (ι α : Type) where
  c : ι
  o : XS α

/-- A program state with any number of `XValueStack` objects. -/
structure World (ι α : Type) where
  mem : Mem α
  obj : Nat → Option (Obj ι α)

/-- No object exists yet. -/
def World.init {ι : Type} : World ι α := { mem := Mem.init, obj := fun _ => none }

/-- Operations on named objects. -/
inductive WOp (ι α : Type)
  /-- `XValueStack k;` or `XValueStack k(c);` (XValueStack.hpp:27-28), `x0` the initial `mXValue_d` -/
  | new (k : Nat) (c : ι) (x0 : α)
  /-- `k.push(v)`, `k.pop()` or `k.clear()` -/
  | op (k : Nat) (p : Op α)
  /-- `d = s` -/
  | copy (d s : Nat)
  /-- `d = move(s)` -/
  | move (d s : Nat)
  /-- end of the lifetime of `k` (XValueStack.hpp:44) -/
  | drop (k : Nat)

/-- Run a memory program inside the world. -/
def lift {ι β : Type} (p : Prog (Mem α) β) : Prog (World ι α) β := fun w =>
  match p w.mem with
  | none => none
  | some (.error f) => some (.error f)
  | some (.ok (a, m)) => some (.ok (a, { w with mem := m }))

/-- The object named `k`; naming an object that does not exist is a misuse. -/
def getObj {ι : Type} (k : Nat) : Prog (World ι α) (Obj ι α) := fun w =>
  match w.obj k with
  | none => some (.error .useAfterFree)
  | some v => some (.ok (v, w))

/-- Update (or end) the object named `k`. -/
def putObj {ι : Type} (k : Nat) (v : Option (Obj ι α)) : Prog (World ι α) Unit :=
  modify fun w => { w with obj := fun x => if x = k then v else w.obj x }

/-- Copy assignment of distinct objects (XValueStack.hpp:30-35). -/
def copyAssign {ι : Type} (triv : Bool) (v u : Obj ι α) : Prog (Mem α) (Obj ι α) := do
  let st ← Vec.copyAssign triv v.o.st u.o.st
  pure ⟨u.c, ⟨u.o.x, st⟩⟩

/-- Move assignment of distinct objects (XValueStack.hpp:37-42).  `gone x` is what the move assignment
of `T` leaves in place of `x`.  Simplification: moving a comparator copies it. -/
def moveAssign {ι : Type} (triv : Bool) (gone : α → α) (v u : Obj ι α) :
    Prog (Mem α) (Obj ι α × Obj ι α) := do
  let (st, st') ← Vec.moveAssign triv v.o.st u.o.st
  pure (⟨u.c, ⟨u.o.x, st⟩⟩, ⟨u.c, ⟨gone u.o.x, st'⟩⟩)

/-- One operation.  The self-assignment tests are in the macros (core/common.hpp:36-37, 44-45); a
copy/move constructor is `new` followed by `copy`/`move` (core/common.hpp:35 and 43). -/
def wstep {ι : Type} [DecidableEq α] (triv : Bool) (cmp : ι → α → α → Bool) (gone : α → α) :
    WOp ι α → Prog (World ι α) Unit
  | .new k c x0 => putObj k (some ⟨c, new x0⟩)
  | .op k p => do
    let v ← getObj k
    let o ← lift (step triv (cmp v.c) v.o p)
    putObj k (some ⟨v.c, o⟩)
  | .copy d s => do
    let v ← getObj d
    let u ← getObj s
    if d = s then pure () else
    putObj d (some (← lift (copyAssign triv v u)))
  | .move d s => do
    let v ← getObj d
    let u ← getObj s
    if d = s then pure () else
    let (v', u') ← lift (moveAssign triv gone v u)
    putObj d (some v')
    putObj s (some u')
  | .drop k => do
    let v ← getObj k
    let _ ← lift (Vec.clear triv v.o.st)
    putObj k none

/-- A history of operations on any number of objects. -/
def wrun {ι : Type} [DecidableEq α] (triv : Bool) (cmp : ι → α → α → Bool) (gone : α → α)
    (ops : List (WOp ι α)) : Prog (World ι α) Unit :=
  seqAll (ops.map (wstep triv cmp gone))

end Verif.XStack
