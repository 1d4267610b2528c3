import Verif.Base

/-!
# Model of `core/ds/array/Array.hpp`

All objects have the same type `Array<T, N>`.  An array object is its storage
`T mC_d[N == 0 ? 1 : N]` (Array.hpp:101); a cell is `none` while its value is
indeterminate.
-/

namespace Verif.Arr

open Prog

variable {α : Type}

/-- The arrays alive in a program. -/
structure World (α : Type) where
  obj : Nat → Option (List (Option α))

/-- No array exists yet. -/
def World.init : World α := { obj := fun _ => none }

/-- Number of cells of the storage (Array.hpp:101). -/
def cells (N : Nat) : Nat := if N = 0 then 1 else N

/-- The array named `k`; naming an array that does not exist is a misuse. -/
def getObj (k : Nat) : Prog (World α) (List (Option α)) := fun w =>
  match w.obj k with
  | none => some (.error .useAfterFree)
  | some a => some (.ok (a, w))

/-- Replace (or end) the array named `k`. -/
def putObj (k : Nat) (a : Option (List (Option α))) : Prog (World α) Unit :=
  modify fun w => { w with obj := fun x => if x = k then a else w.obj x }

/-- Read `k.mC_d[i]`. -/
def read (k : Nat) (i : Int) : Prog (World α) α := do
  let a ← getObj k
  check (0 ≤ i ∧ i < a.length) .outOfBounds
  match a[i.toNat]? with
  | some (some x) => pure x
  | _ => fail .uninit

/-- `k.mC_d[i] = x` -/
def write (k : Nat) (i : Int) (x : α) : Prog (World α) Unit := do
  let a ← getObj k
  check (0 ≤ i ∧ i < a.length) .outOfBounds
  putObj k (some (a.set i.toNat (some x)))

/-- `Array() = default` (Array.hpp:24).  `dflt` is what default-initialisation of a `T`
gives: `none` for a type such as `int`, `some d` for a class with a default constructor. -/
def new (N : Nat) (dflt : Option α) (k : Nat) : Prog (World α) Unit :=
  putObj k (some (List.replicate (cells N) dflt))

/-- `for (int i = 0; i < N; i++) f(i)`: incrementing the last `int` overflows. -/
def intLoop (N : Nat) (f : Nat → Prog (World α) Unit) : Prog (World α) Unit :=
  forRange N 0 () fun i _ => do
    f i
    check (i + 1 < 2 ^ 31) .overflow

/-- `Array(const T &element)` (Array.hpp:26-30), after the storage was default-initialised. -/
def newFill (N : Nat) (dflt : Option α) (k : Nat) (x : α) : Prog (World α) Unit := do
  new N dflt k
  intLoop N fun i => write k i x

/-- Copy assignment (Array.hpp:33-38); there is no self-assignment test. -/
def copyAssign (N : Nat) (d s : Nat) : Prog (World α) Unit :=
  intLoop N fun i => do
    let x ← read s i
    write d i x

/-- Move assignment (Array.hpp:41-44).  `mv x` is the value a `T` holding `x` has after it was
moved from (`mv = id` for types without a move assignment).  Self-move of an element is
taken to leave it unchanged, as the library's own types do (core/common.hpp:42-48). -/
def moveAssign (N : Nat) (mv : α → α) (d s : Nat) : Prog (World α) Unit :=
  intLoop N fun i => do
    let x ← read s i
    write s i (mv x)
    write d i x

/-- The index computation of `operator[](int)` (Array.hpp:70-81): `N + index` is computed in
`size_t` and converted back to `int`. -/
def normIndex (N : Nat) (index : Int) : Int :=
  if index < 0 then Int.bmod (N + index) (2 ^ 32) else index

/-- `k[i]` used to read (Array.hpp:70-74). -/
def index (N : Nat) (k : Nat) (i : Int) : Prog (World α) α := read k (normIndex N i)

/-- `k[i] = x` (Array.hpp:77-81). -/
def setIndex (N : Nat) (k : Nat) (i : Int) (x : α) : Prog (World α) Unit := write k (normIndex N i) x

/-- `back()` (Array.hpp:62-64).  `N - 1` is computed in `size_t`. -/
def back (N : Nat) (k : Nat) : Prog (World α) α := read k (((N : Int) - 1) % 2 ^ 64)

/-- `front()` (Array.hpp:66-68). -/
def front (k : Nat) : Prog (World α) α := read k 0

/-- `size()` (Array.hpp:53-55), also `capacity()` (57-59). -/
def size (N : Nat) : Nat := N

/-- `empty()` (Array.hpp:49-51). -/
def empty (N : Nat) : Bool := N == 0

/-- Reading all elements with `for (it = begin(); it != end(); ++it)` (Array.hpp:84-98). -/
def iterate (N : Nat) (k : Nat) : Prog (World α) (List α) :=
  forRange N 0 [] fun i acc => do
    let x ← read k i
    pure (acc ++ [x])

/-- Public operations, `k`, `d`, `s` naming arrays. -/
inductive Op (α : Type)
  /-- `Array<T, N> k;` -/
  | new (k : Nat)
  /-- `Array<T, N> k(x);` -/
  | newFill (k : Nat) (x : α)
  /-- `k[i] = x` -/
  | set (k : Nat) (i : Int) (x : α)
  /-- `d = s` -/
  | copy (d s : Nat)
  /-- `d = move(s)` -/
  | move (d s : Nat)
  /-- end of the lifetime of `k` -/
  | drop (k : Nat)

/-- One operation.  A copy/move *constructor* is `new` followed by `copy`/`move`
(Array.hpp:32 and 40). -/
def step (N : Nat) (dflt : Option α) (mv : α → α) : Op α → Prog (World α) Unit
  | .new k => new N dflt k
  | .newFill k x => newFill N dflt k x
  | .set k i x => setIndex N k i x
  | .copy d s => do
    let _ ← getObj d
    let _ ← getObj s
    copyAssign N d s
  | .move d s => do
    let _ ← getObj d
    let _ ← getObj s
    moveAssign N mv d s
  | .drop k => do
    let _ ← getObj k
    putObj k none

/-- A history of operations. -/
def run (N : Nat) (dflt : Option α) (mv : α → α) (ops : List (Op α)) : Prog (World α) Unit :=
  seqAll (ops.map (step N dflt mv))

end Verif.Arr
