import Verif.DisjointSet

/-!
# The orders of evaluation C++ allows in `DisjointSet`

Two expressions of DisjointSet.hpp have operands with side effects whose order the language leaves open: the
assignment of `find` (line 51; the order is fixed only from C++17 on, and the project is built as C++11, xmake.lua:3)
and the comparison of `connected` (line 65).  `Verif.DisjointSet` fixes one order; here the order is a parameter.
-/

namespace Verif.DSU

open Prog Vec

/-- Store through the reference `l`. -/
def store (l : Arg Int) (y : Int) : Prog (Mem Int) Unit :=
  match l with
  | .ref b j => assign b j (.val y)
  | .val _ => fail .uninit

/-- `find(index)` (DisjointSet.hpp:48-52).  `c k` says whether in the `k`-th nested call the left operand
`mArray_d[index]` of the assignment is evaluated before the right operand `find(mArray_d[index])`.  (Reading the result of
the call after or before `operator[]`, which changes nothing, makes no difference and is not distinguished.) -/
def findC (v : Vec) (c : Nat → Bool) (a : Arg Int) : Prog (Mem Int) (Arg Int) := do
  let i ← a.get
  let s ← refAt v i
  let x ← s.get
  if x < 0 then pure a
  else if c 0 = true then do
    let i ← a.get
    let l ← refAt v i
    let i ← a.get
    let s ← refAt v i
    let r ← findC v (fun k => c (k + 1)) s
    let y ← r.get
    store l y
    pure l
  else do
    let i ← a.get
    let s ← refAt v i
    let r ← findC v (fun k => c (k + 1)) s
    let y ← r.get
    let i ← a.get
    let l ← refAt v i
    store l y
    pure l
partial_fixpoint

/-- The choices made while one operation is carried out. -/
structure Choice where
  /-- the order inside the first call of `find` -/
  c1 : Nat → Bool
  /-- the order inside the second call of `find` -/
  c2 : Nat → Bool
  /-- whether `connected` calls `find(element2)` before `find(element1)` -/
  swap : Bool
  /-- whether `connected` reads the reference the first call returned before it makes the second call -/
  early : Bool

/-- `int r = find(i);` -/
def findValC (c : Nat → Bool) (v : Vec) (i : Int) : Prog (Mem Int) Int := do
  let r ← findC v c (.val i)
  r.get

/-- Call `find(x)` and then `find(y)` and compare the results. -/
def connectedIn (h : Choice) (v : Vec) (x y : Int) : Prog (Mem Int) Bool := do
  let r1 ← findC v h.c1 (.val x)
  if h.early = true then do
    let x1 ← r1.get
    let r2 ← findC v h.c2 (.val y)
    let x2 ← r2.get
    pure (x1 == x2)
  else do
    let r2 ← findC v h.c2 (.val y)
    let x1 ← r1.get
    let x2 ← r2.get
    pure (x1 == x2)

/-- `connected(e1, e2)` (DisjointSet.hpp:64-66). -/
def connectedC (h : Choice) (v : Vec) (e1 e2 : Int) : Prog (Mem Int) Bool :=
  if h.swap = true then connectedIn h v e2 e1 else connectedIn h v e1 e2

/-- `connect(e1, e2)` (DisjointSet.hpp:68-72); the two calls are separate statements. -/
def connectC (h : Choice) (v : Vec) (e1 e2 : Int) : Prog (Mem Int) Unit := do
  let r1 ← findValC h.c1 v e1
  let r2 ← findValC h.c2 v e2
  unionSet v r1 r2

/-- What a caller learns from an operation. -/
inductive Reply
  | root (r : Int)
  | same (b : Bool)
  | done
  deriving DecidableEq, Repr

/-- One operation, carried out in the order `h`. -/
def replyC (h : Choice) (v : Vec) : Op → Prog (Mem Int) Reply
  | .find i => do
    let r ← findValC h.c1 v i
    pure (.root r)
  | .connected i j => do
    let b ← connectedC h v i j
    pure (.same b)
  | .connect i j => do
    connectC h v i j
    pure .done

/-- A history; `h k` are the choices made in its `k`-th operation. -/
def repliesC (v : Vec) (h : Nat → Choice) : List Op → Prog (Mem Int) (List Reply)
  | [] => pure []
  | op :: ops => do
    let r ← replyC (h 0) v op
    let rs ← repliesC v (fun k => h (k + 1)) ops
    pure (r :: rs)

/-- One operation in the order that `Verif.DisjointSet` fixes. -/
def reply (v : Vec) : Op → Prog (Mem Int) Reply
  | .find i => do
    let r ← findVal v i
    pure (.root r)
  | .connected i j => do
    let b ← connected v i j
    pure (.same b)
  | .connect i j => do
    connect v i j
    pure .done

/-- A history in that order. -/
def replies (v : Vec) : List Op → Prog (Mem Int) (List Reply)
  | [] => pure []
  | op :: ops => do
    let r ← reply v op
    let rs ← replies v ops
    pure (r :: rs)

end Verif.DSU
