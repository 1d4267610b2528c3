import Verif.DisjointSet

/-! # Specification of `DisjointSet`: the equivalence closure of the connected pairs -/

namespace Verif.DSU

/-- The least equivalence relation containing the pairs. -/
inductive Conn (ps : List (Nat × Nat)) : Nat → Nat → Prop
  | refl (a : Nat) : Conn ps a a
  | pair {a b : Nat} (h : (a, b) ∈ ps) : Conn ps a b
  | symm {a b : Nat} (h : Conn ps a b) : Conn ps b a
  | trans {a b c : Nat} (h : Conn ps a b) (h' : Conn ps b c) : Conn ps a c

/-- The pair an operation connects. -/
def Op.pair : Op → List (Nat × Nat)
  | .connect i j => [(i, j)]
  | _ => []

/-- All pairs connected by a history. -/
def pairs (ops : List Op) : List (Nat × Nat) := ops.flatMap Op.pair

/-- Every index is one of `0 … n-1`. -/
def Op.Valid (n : Nat) : Op → Prop
  | .find i => i < n
  | .connected i j => i < n ∧ j < n
  | .connect i j => i < n ∧ j < n

/-- The operation is not a `connect` of two elements that are already connected. -/
def Op.Fresh (ps : List (Nat × Nat)) : Op → Prop
  | .connect i j => ¬ Conn ps i j
  | _ => True

/-- All operations of a history (after pairs `ps` were connected) use valid indices and never
connect two elements that are already connected. -/
def Guarded (n : Nat) : List (Nat × Nat) → List Op → Prop
  | _, [] => True
  | ps, op :: ops => op.Valid n ∧ op.Fresh ps ∧ Guarded n (ps ++ op.pair) ops

/-- `reps` picks exactly one element of each class of `0 … n-1`. -/
structure Transversal (n : Nat) (ps : List (Nat × Nat)) (reps : List Nat) : Prop where
  nodup : reps.Nodup
  lt : ∀ r ∈ reps, r < n
  uniq : ∀ r ∈ reps, ∀ s ∈ reps, Conn ps r s → r = s
  cover : ∀ i, i < n → ∃ r ∈ reps, Conn ps i r

/-! ## Connecting connected elements -/

/-- The elements an operation looks up. -/
def Op.args : Op → List Nat
  | .find i => [i]
  | .connected i j => [i, j]
  | .connect i j => [i, j]

/-- At some point of the history, `connect` was called on two connected elements of the class of `x`. -/
def Dead (ops : List Op) (x : Nat) : Prop :=
  ∃ pre i j post, ops = pre ++ .connect i j :: post ∧ Conn (pairs pre) i j ∧ Conn (pairs pre) i x

/-- After the history `pre`, no operation of `ops` looks up a dead element. -/
def Usable (pre ops : List Op) : Prop :=
  ∀ a op b, ops = a ++ op :: b → ∀ x ∈ op.args, ¬ Dead (pre ++ a) x

/-- `reps` picks exactly one element of each class of `0 … n-1` that is not dead. -/
structure LiveTransversal (n : Nat) (ops : List Op) (reps : List Nat) : Prop where
  nodup : reps.Nodup
  lt : ∀ r ∈ reps, r < n
  live : ∀ r ∈ reps, ¬ Dead ops r
  uniq : ∀ r ∈ reps, ∀ s ∈ reps, Conn (pairs ops) r s → r = s
  cover : ∀ i, i < n → ¬ Dead ops i → ∃ r ∈ reps, Conn (pairs ops) i r

/-- `connect(t-1, t); …; connect(0, 1);` -/
def chain : Nat → List Op
  | 0 => []
  | t + 1 => .connect t (t + 1) :: chain t

/-! ## Several objects -/

/-- What an object should be: a number of elements and the pairs connected so far. -/
structure SObj where
  n : Nat
  ps : List (Nat × Nat)

abbrev SWorld := Nat → Option SObj

def SWorld.put (w : SWorld) (k : Nat) (v : Option SObj) : SWorld := fun x => if x = k then v else w x

/-- `Legal ops w w'`: from `w` every operation of the history has its precondition (new names for new
objects, existing ones otherwise, between 1 and 2^31-1 elements, valid indices, no `connect` of
connected elements) and the objects end up as in `w'`.  A copy has the elements and connections
of its source and is independent of it; a moved-from object has no elements. -/
inductive Legal : List WOp → SWorld → SWorld → Prop
  | nil (w : SWorld) : Legal [] w w
  | new {k n : Nat} {ops : List WOp} {w w' : SWorld} (hk : w k = none) (hn : 0 < n) (hs : n < 2 ^ 31)
      (h : Legal ops (w.put k (some ⟨n, []⟩)) w') : Legal (.new k n :: ops) w w'
  | op {k : Nat} {p : Op} {v : SObj} {ops : List WOp} {w w' : SWorld} (hk : w k = some v)
      (hv : p.Valid v.n) (hf : p.Fresh v.ps) (h : Legal ops (w.put k (some ⟨v.n, v.ps ++ p.pair⟩)) w') :
      Legal (.op k p :: ops) w w'
  | newCopy {d s : Nat} {v : SObj} {ops : List WOp} {w w' : SWorld} (hd : w d = none) (hs : w s = some v)
      (h : Legal ops (w.put d (some v)) w') : Legal (.newCopy d s :: ops) w w'
  | newMove {d s : Nat} {v : SObj} {ops : List WOp} {w w' : SWorld} (hd : w d = none) (hs : w s = some v)
      (h : Legal ops ((w.put d (some v)).put s (some ⟨0, []⟩)) w') : Legal (.newMove d s :: ops) w w'
  | copy {d s : Nat} {u v : SObj} {ops : List WOp} {w w' : SWorld} (hd : w d = some u) (hs : w s = some v)
      (h : Legal ops (w.put d (some v)) w') : Legal (.copy d s :: ops) w w'
  | moveSelf {d : Nat} {v : SObj} {ops : List WOp} {w w' : SWorld} (hd : w d = some v)
      (h : Legal ops w w') : Legal (.move d d :: ops) w w'
  | move {d s : Nat} {u v : SObj} {ops : List WOp} {w w' : SWorld} (hds : d ≠ s) (hd : w d = some u)
      (hs : w s = some v) (h : Legal ops ((w.put d (some v)).put s (some ⟨0, []⟩)) w') :
      Legal (.move d s :: ops) w w'
  | drop {k : Nat} {v : SObj} {ops : List WOp} {w w' : SWorld} (hk : w k = some v)
      (h : Legal ops (w.put k none) w') : Legal (.drop k :: ops) w w'

/-- Every object shows its own size, number of classes and connections. -/
def WShows (w : Vec.World Int) (sw : SWorld) : Prop :=
  ∀ k, (sw k = none → w.obj k = none) ∧
    ∀ o, sw k = some o → ∃ v, w.obj k = some v ∧ size v = o.n ∧ (empty v = true ↔ o.n = 0) ∧
      (∀ i j, i < o.n → j < o.n → ∃ c m', Returns (connected v i j) w.mem c m' ∧
        (c = true ↔ Conn o.ps i j)) ∧
      ∃ c, Returns (count v) w.mem c w.mem ∧ ∃ reps, Transversal o.n o.ps reps ∧ reps.length = c

end Verif.DSU
