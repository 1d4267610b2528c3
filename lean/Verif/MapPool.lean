import Verif.TreePool
import Verif.Map

/-!
# Maps whose nodes live in the static pool

The functions of `core/ds/Map.hpp` (compare `Verif.Map`) over the tree functions of `Verif.TreePool`.
The nodes of the tree come from its allocator: that of the pool if the parameter `DStruct`
(Map.hpp:45-49) names a tree with it, or if the port replaces the default allocator (`Sma.Mode`).
-/

namespace Verif.TPool.M

open Prog
open Verif.Tree (Ptr)
open Verif.Map (byKey)

variable {σ K V : Type} (I : TreeOps σ (AVL.D (K × V))) (lt : K → K → Bool) (dflt : V)

/-- `push` (Map.hpp:89-91). -/
def push (element : K × V) : Prog σ Unit := A.push I (byKey lt) element

/-- `pop` (Map.hpp:93-95). -/
def pop (key : K) : Prog σ Unit := A.pop I (byKey lt) (.val (key, dflt))

/-- `find` (Map.hpp:117-119). -/
def find (key : K) : Prog σ Ptr := A.find I (byKey lt) (key, dflt)

/-- `operator[]` (Map.hpp:103-114).  The result stands for a reference to the value in that
node. -/
def index (key : K) : Prog σ Ptr := do
  let target ← find I lt dflt key
  if target = none then
    A.push I (byKey lt) (key, dflt)
    let it ← find I lt dflt key
    let _ ← A.deref I it
    pure it
  else
    let it ← find I lt dflt key
    let _ ← A.deref I it
    pure it

/-- Reading through the reference `operator[]` returned. -/
def readVal (p : Ptr) : Prog σ V := do
  let kv ← A.deref I p
  pure kv.2

/-- Assigning to the reference `operator[]` returned.  Simplification: that of `poolTree`, the bytes
of the whole `data` are written again. -/
def writeVal (p : Ptr) (v : V) : Prog σ Unit := do
  let d ← I.getData p
  I.setData p { d with val := (d.val.1, v) }

end Verif.TPool.M

namespace Verif.TPool.M

open Prog

variable {K V : Type} (I : TreeOps PSt (AVL.D (K × V))) (lt : K → K → Bool) (dflt : V)

/-- Running one statement (compare `Verif.Map.step`). -/
def step : Map.Op K V → Prog World (Option V)
  | .new k => do newObj k; pure none
  | .push k key v => do on k (push I lt (key, v)); pure none
  | .pop k key => do on k (pop I lt dflt key); pure none
  | .get k key => do
    let p ← on k (index I lt dflt key)
    let v ← on k (readVal I p)
    pure (some v)
  | .set k key v => do
    let p ← on k (index I lt dflt key)
    on k (writeVal I p v)
    pure none
  | .assign k key j key' => do
    let p ← on k (index I lt dflt key)
    let q ← on j (index I lt dflt key')
    let v ← on j (readVal I q)
    on k (writeVal I p v)
    pure none
  | .clear k => do on k (TPool.clear I); pure none
  | .copy d s => do copyObj d s; pure none
  | .copyNew d s => do copyObj d s; pure none
  | .drop k => do dropObj I k; pure none

/-- Running a program: the results of its statements. -/
def run : List (Map.Op K V) → Prog World (List (Option V))
  | [] => pure []
  | op :: ops => do
    let out ← step I lt dflt op
    let outs ← run ops
    pure (out :: outs)

end Verif.TPool.M
