import Verif.EmbeddedList

/-!
# Specification of embedded lists

The user's nodes are numbered.  A list is known by its head node and has a sequence of member
nodes.  A node is free when it is neither the head nor a member of a list.
-/

namespace Verif.EL

open Prog Verif.LL

variable {α : Type}

/-- Abstract state: the data of every existing node, and the members of every list. -/
structure SWorld (α : Type) where
  data : Nat → Option α
  list : Nat → Option (List Nat)

/-- No node exists. -/
def SWorld.none : SWorld α := ⟨fun _ => .none, fun _ => .none⟩

def SWorld.setData (w : SWorld α) (n : Nat) (x : Option α) : SWorld α :=
  { w with data := fun k => if k = n then x else w.data k }

def SWorld.setList (w : SWorld α) (h : Nat) (l : Option (List Nat)) : SWorld α :=
  { w with list := fun k => if k = h then l else w.list k }

/-- The node exists and belongs to no list. -/
def SWorld.Free (w : SWorld α) (n : Nat) : Prop :=
  (w.data n).isSome ∧ w.list n = Option.none ∧ ∀ h l, w.list h = some l → n ∉ l

/-- The meaning of one operation used within its precondition. -/
inductive SpecStep : Op α → SWorld α → SWorld α → Prop
  /-- a new node is free -/
  | make {w : SWorld α} {n : Nat} (x : α) (nx pv : Ptr) : w.data n = Option.none →
      SpecStep (.make n x nx pv) w (w.setData n (some x))
  /-- a free node, or the head of an empty list, becomes the head of an empty list -/
  | init {w : SWorld α} {n : Nat} : w.Free n ∨ w.list n = some [] →
      SpecStep (.init n) w (w.setList n (some []))
  /-- a free node is put behind `p`, the head or a member of some list -/
  | add {w : SWorld α} {h p c : Nat} {pre post : List Nat} : w.list h = some (pre ++ post) →
      (h :: pre).getLast? = some p → w.Free c →
      SpecStep (.add p c) w (w.setList h (some (pre ++ c :: post)))
  /-- the member behind `p` is taken out and becomes free -/
  | del {w : SWorld α} {h p c : Nat} {pre post : List Nat} : w.list h = some (pre ++ c :: post) →
      (h :: pre).getLast? = some p →
      SpecStep (.del p c) w (w.setList h (some (pre ++ post)))
  /-- any node's data may be changed -/
  | set {w : SWorld α} {n : Nat} (x : α) : (w.data n).isSome →
      SpecStep (.set n x) w (w.setData n (some x))
  /-- a free node, or the head of an empty list, may end -/
  | kill {w : SWorld α} {n : Nat} : w.Free n ∨ w.list n = some [] →
      SpecStep (.kill n) w ((w.setData n Option.none).setList n Option.none)

/-- The meaning of a history. -/
inductive SpecRun : List (Op α) → SWorld α → SWorld α → Prop
  | nil {w : SWorld α} : SpecRun [] w w
  | cons {op : Op α} {ops : List (Op α)} {w w' w'' : SWorld α} :
      SpecStep op w w' → SpecRun ops w' w'' → SpecRun (op :: ops) w w''

/-- The members of a list with their data. -/
def SWorld.items (w : SWorld α) (l : List Nat) : List (Ptr × α) :=
  l.filterMap fun n => (w.data n).map fun x => (Ptr.node n, x)

/-- What the memory shows: every existing node has its data; every list walked forwards from its
head gives exactly its members, in order, with their data, before it comes back to the head; with
doubly linked nodes walking backwards gives them in reverse; `empty` is right; and observing
changes nothing. -/
def Shows (kd : Kind) (m : Mem α) (w : SWorld α) : Prop :=
  (∀ n x, w.data n = some x → Returns (getData (.node n)) m x m) ∧
  (∀ n, w.data n = Option.none → m.cell (.node n) = Option.none) ∧
  ∀ h l, w.list h = some l →
    (w.items l).map Prod.fst = l.map Ptr.node ∧
    Returns (walk (.node h)) m (w.items l) m ∧
    (kd = .doubly → Returns (walkBack (.node h)) m (w.items l).reverse m) ∧
    Returns (empty (.node h)) m (l.length == 0) m

end Verif.EL
