import Verif.AVLWorld

/-!
# Model of `core/ds/Map.hpp`

`lt` is the comparator `KeyCMP`, `dflt` is `ValueType()`.  A `KeyValue<const K, V>`
(Map.hpp:18-27) is a pair.

Not modelled: `operator[] const` (Map.hpp:97-101) and `erase` (Map.hpp:121-123), which do not
compile when used: the first calls the non-const member `find` on a const object, the second
instantiates `AVLTree::erase`, which assigns to a `KeyValue` with a const member
(AVLTree.hpp:143,147).
-/

namespace Verif.Map

open Prog Verif.Tree

variable {K V : Type}

/-- The nodes in memory and the members of one map object: its only member is the tree
(Map.hpp:148). -/
abbrev St (K V : Type) := AVL.St (K × V)

/-- The nodes in memory and the members of every map object. -/
abbrev World (K V : Type) := AVL.World (K × V)

variable (lt : K → K → Bool) (dflt : V)

/-- `KVCMPKey::operator()` (Map.hpp:34-36). -/
def byKey (a b : K × V) : Bool := lt a.1 b.1

/-- `push` (Map.hpp:89-91). -/
def push (element : K × V) : Prog (St K V) Unit := AVL.push (byKey lt) element

/-- `pop` (Map.hpp:93-95).  The argument of the tree's `pop` is a temporary that holds a copy of
the key. -/
def pop (key : K) : Prog (St K V) Unit := AVL.pop (byKey lt) (.val (key, dflt))

/-- `find` (Map.hpp:117-119). -/
def find (key : K) : Prog (St K V) Ptr := AVL.find (byKey lt) (key, dflt)

/-- `operator[]` (Map.hpp:103-114).  The result stands for a reference to the value in that
node. -/
def index (key : K) : Prog (St K V) Ptr := do
  let target ← find lt dflt key
  if target = none then
    AVL.push (byKey lt) (key, dflt)
    let it ← find lt dflt key
    let _ ← AVL.deref it
    pure it
  else
    let it ← find lt dflt key
    let _ ← AVL.deref it
    pure it

/-- Reading through the reference `operator[]` returned. -/
def readVal (p : Ptr) : Prog (St K V) V := do
  let kv ← AVL.deref p
  pure kv.2

/-- Assigning to the reference `operator[]` returned. -/
def writeVal (p : Ptr) (v : V) : Prog (St K V) Unit := do
  let d ← getData p
  setData p { d with val := (d.val.1, v) }

/-! ## Programs -/

/-- One statement of a program.  All five of copy and move members and destructor are defaulted
(Map.hpp:67-72), so they are those of the tree; see `AVL.Op`. -/
inductive Op (K V : Type)
  /-- `Map m;` -/
  | new (k : Nat)
  /-- `m.push({key, v})` -/
  | push (k : Nat) (key : K) (v : V)
  /-- `m.pop(key)` -/
  | pop (k : Nat) (key : K)
  /-- `x = m[key]`, resulting in `x` -/
  | get (k : Nat) (key : K)
  /-- `m[key] = v` -/
  | set (k : Nat) (key : K) (v : V)
  /-- `m[key] = n[key']`, where both references are taken before the value is copied -/
  | assign (k : Nat) (key : K) (j : Nat) (key' : K)
  /-- `m.clear()` -/
  | clear (k : Nat)
  /-- `d = s` -/
  | copy (d s : Nat)
  /-- `Map d(s)` -/
  | copyNew (d s : Nat)
  /-- end of the life of `m` -/
  | drop (k : Nat)

/-- Running one statement. -/
def step : Op K V → Prog (World K V) (Option V)
  | .new k => do newObj k; pure none
  | .push k key v => do on k (push lt (key, v)); pure none
  | .pop k key => do on k (pop lt dflt key); pure none
  | .get k key => do
    let p ← on k (index lt dflt key)
    let v ← on k (readVal p)
    pure (some v)
  | .set k key v => do
    let p ← on k (index lt dflt key)
    on k (writeVal p v)
    pure none
  | .assign k key j key' => do
    let p ← on k (index lt dflt key)
    let q ← on j (index lt dflt key')
    let v ← on j (readVal q)
    on k (writeVal p v)
    pure none
  | .clear k => do on k Tree.clear; pure none
  | .copy d s => do copyObj d s; pure none
  | .copyNew d s => do copyObj d s; pure none
  | .drop k => do dropObj k; pure none

/-- Running a program. -/
def run : List (Op K V) → Prog (World K V) Unit
  | [] => pure ()
  | op :: ops => do
    let _ ← step lt dflt op
    run ops

end Verif.Map
