import Verif.Vector

/-!
# Model of `core/ds/stack/Stack.hpp` over `Vector`

A `Stack<T, Vector<T>>` object is the vector `mDS_d` it wraps (Stack.hpp:59), so a world of
stacks is a world of vectors.
-/

namespace Verif.Stack

open Prog Vec

variable {α : Type}

/-- `Stack::top()` (Stack.hpp:41). -/
def top (v : Vec) : Prog (Mem α) α := back v

/-- `Stack::push` (Stack.hpp:44). -/
def push (triv : Bool) (v : Vec) (x : α) : Prog (Mem α) Vec := pushBack triv v (.val x)

/-- `Stack::pop` (Stack.hpp:45-48): copies the top into a local and removes it. -/
def pop (triv : Bool) (v : Vec) : Prog (Mem α) Vec := do
  let _ ← back v
  popBack triv v

/-- `Stack::clear` (Stack.hpp:50-52). -/
def clear (triv : Bool) (v : Vec) : Prog (Mem α) Vec := Vec.clear triv v

/-- Public operations on stacks. -/
inductive Op (α : Type)
  | new (k : Nat)
  | push (k : Nat) (x : α)
  | pop (k : Nat)
  | clear (k : Nat)
  | copy (d s : Nat)
  | move (d s : Nat)
  | drop (k : Nat)

/-- One operation.  Construction, copy, move and destruction are the defaulted members
(Stack.hpp:27-32), that is those of the wrapped vector. -/
def step (triv : Bool) : Op α → Prog (World α) Unit
  | .new k => Vec.step triv (.new k)
  | .push k x => do
    let v ← getObj k
    putObj k (some (← lift (Stack.push triv v x)))
  | .pop k => do
    let v ← getObj k
    putObj k (some (← lift (Stack.pop triv v)))
  | .clear k => do
    let v ← getObj k
    putObj k (some (← lift (Stack.clear triv v)))
  | .copy d s => Vec.step triv (.copy d s)
  | .move d s => Vec.step triv (.move d s)
  | .drop k => Vec.step triv (.drop k)

/-- A history of stack operations. -/
def run (triv : Bool) (ops : List (Op α)) : Prog (World α) Unit := seqAll (ops.map (step triv))

end Verif.Stack
