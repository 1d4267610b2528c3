import Verif.LinkedList

/-!
# Model of using `core/ds/linked-list/EmbeddedList.hpp` directly

`EListNode<T, Link>` (dstruct.hpp:64-65) is a node type with static functions; the nodes belong
to the user.  `linkInit`, `linkAdd` and `linkDel` of `Verif/LinkedList.lean` model the functions
of the link types, here they are called on the user's own nodes `Ptr.node n`.
-/

namespace Verif.EL

open Prog Verif.LL

variable {α : Type}

/-- `EmbeddedListNode_::init(list)` (EmbeddedList.hpp:74-76). -/
def init (kd : Kind) (p : Ptr) : Prog (Mem α) Unit := linkInit kd p

/-- `EmbeddedListNode_::empty(list)` (EmbeddedList.hpp:78-80; `Link::empty` 23-25 and 47-49). -/
def empty (p : Ptr) : Prog (Mem α) Bool := do return (← getNext p) = p

/-- `EmbeddedListNode_::add(prev, curr)` (EmbeddedList.hpp:82-84). -/
def add (kd : Kind) (prev curr : Ptr) : Prog (Mem α) Unit := linkAdd kd prev curr

/-- `EmbeddedListNode_::del(prev, curr)` (EmbeddedList.hpp:86-88). -/
def del (kd : Kind) (prev curr : Ptr) : Prog (Mem α) Unit := linkDel kd prev curr

/-- The loop `for (it = b; it != to_link(list); it = it->next)` of
examples/linked-list/embedded_list.cpp:37-42, collecting each node and its data. -/
def walkFrom (h b : Ptr) : Prog (Mem α) (List (Ptr × α)) := do
  if b = h then pure []
  else
    let x ← getData b
    let xs ← walkFrom h (← getNext b)
    pure ((b, x) :: xs)
partial_fixpoint

/-- The whole loop (examples/linked-list/embedded_list.cpp:37). -/
def walk (h : Ptr) : Prog (Mem α) (List (Ptr × α)) := do walkFrom h (← getNext h)

/-- The same loop along `prev` (only with `DoublyLink_`, EmbeddedList.hpp:38-40). -/
def walkBackFrom (h b : Ptr) : Prog (Mem α) (List (Ptr × α)) := do
  if b = h then pure []
  else
    let x ← getData b
    let xs ← walkBackFrom h (← getPrev b)
    pure ((b, x) :: xs)
partial_fixpoint

/-- The whole loop along `prev`. -/
def walkBack (h : Ptr) : Prog (Mem α) (List (Ptr × α)) := do walkBackFrom h (← getPrev h)

/-- What a user of the header can do with nodes they own, `n`, `p`, `c` naming nodes. -/
inductive Op (α : Type)
  /-- a node object comes to life with data `x`; its links hold whatever `nx` and `pv` are -/
  | make (n : Nat) (x : α) (nx pv : Ptr)
  /-- `init(n)` -/
  | init (n : Nat)
  /-- `add(p, c)` -/
  | add (p c : Nat)
  /-- `del(p, c)` -/
  | del (p c : Nat)
  /-- `n->data = x` -/
  | set (n : Nat) (x : α)
  /-- the node object ends -/
  | kill (n : Nat)

/-- One operation. -/
def step (kd : Kind) : Op α → Prog (Mem α) Unit
  | .make n x nx pv => modify fun m => { m with
      cell := fun q => if q = .node n then some (some ⟨nx, pv, some x⟩) else m.cell q }
  | .init n => init kd (.node n)
  | .add p c => add kd (.node p) (.node c)
  | .del p c => del kd (.node p) (.node c)
  | .set n x => setData (.node n) x
  | .kill n => do
    let _ ← get (.node n)
    modify fun m => { m with cell := fun q => if q = .node n then none else m.cell q }

/-- A history of operations. -/
def run (kd : Kind) (ops : List (Op α)) : Prog (Mem α) Unit := seqAll (ops.map (step kd))

end Verif.EL
