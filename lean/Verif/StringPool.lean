import Verif.BasicString
import Verif.VectorPool

/-!
# Strings whose characters live in the static pool

`smemory::String` (dstruct-static.hpp:59-60) and, with `ENABLE_SMA`, every string.  The functions of
`BasicString` are written over an arbitrary memory (`Pool.MemOps`); instantiated with the blocks of
`Verif.Vector` they are those of `Verif.BasicString` (`Verif/StringPoolSim.lean`).
-/

namespace Verif.SPool

open Prog Vec Pool

variable {σ α : Type}

section
variable (I : MemOps σ α)

/-- `BasicString()` (BasicString.hpp:26-28). -/
def ctor (nul : α) : Prog σ Vec := do
  let v ← ctorFill I 1 (.val nul)
  resize I v 15

/-- The `while` loop of `BasicString(const char *)` (BasicString.hpp:42-44), see `Str.ctorLoop`. -/
def ctorLoop [DecidableEq α] (nul : α) (str : List α) (v : Vec) (i : Nat) : Prog σ Vec := do
  let c ← Str.cRead str i
  if c ≠ nul then do
    let v ← pushBack I v (.val c)
    ctorLoop nul str v (i + 1)
  else pure v
partial_fixpoint

/-- `BasicString(const char *str)` (BasicString.hpp:40-46). -/
def ctorC [DecidableEq α] (nul : α) (str : List α) : Prog σ Vec := do
  let v ← ctor I nul
  let c ← Str.cRead str 0
  setIndex I v (-1) (.val c)
  let v ← ctorLoop I nul str v 1
  pushBack I v (.val nul)

/-- `back()` (BasicString.hpp:69-71). -/
def back (v : Vec) : Prog σ α := index I v (-2)

/-- `front()` (BasicString.hpp:73-75). -/
def front (v : Vec) : Prog σ α := Pool.front I v

/-- `push_back(const CharType &)` (BasicString.hpp:82-85). -/
def push (nul : α) (v : Vec) (e : Arg α) : Prog σ Vec := do
  setIndex I v (-1) e
  pushBack I v (.val nul)

/-- `clear()` (BasicString.hpp:91-95). -/
def clear (nul : α) (v : Vec) : Prog σ Vec := do
  let v ← Pool.clear I v
  let v ← pushBack I v (.val nul)
  resize I v 15

/-- The characters between `begin()` and `end()` (BasicString.hpp:98-112), see `Str.iterate`. -/
def iterate (v : Vec) : Prog σ (List α) := do
  check (0 < v.sz) .outOfBounds
  forRange (v.sz - 1) 0 [] fun i acc => do
    let x ← I.read v.c i
    pure (acc ++ [x])

/-- The reference `v[i]` (Vector.hpp:86-91) before it is read. -/
def refAt (v : Vec) (i : Int) : Prog σ (Nat × Int) := do
  let j := normIndex v i
  dassert (j < Int.bmod v.sz (2 ^ 32))
  pure (v.c, j)

/-- `c_str()` (BasicString.hpp:115-117): the address of element 0. -/
def cStr (v : Vec) : Prog σ (Nat × Int) := refAt v 0

/-- The `for` loop of `operator+=` (BasicString.hpp:123-125), see `Str.appendLoop`. -/
def appendLoop (v : Vec) (t : Option Vec) (i : Nat) : Prog σ Vec := do
  let u := t.getD v
  if i < u.sz then do
    let (b, j) ← refAt u i
    let v ← pushBack I v (.ref b j)
    appendLoop v t (i + 1)
  else pure v
partial_fixpoint

/-- `operator+=(const BasicString &)` (BasicString.hpp:119-127). -/
def append (v : Vec) (t : Option Vec) : Prog σ Vec := do
  let u := t.getD v
  let need := (v.sz + u.sz + (2 ^ 64 - 1)) % 2 ^ 64
  let v ← (if v.cap < need then resize I v need else pure v)
  let u := t.getD v
  let (b, j) ← refAt u 0
  setIndex I v (-1) (.ref b j)
  appendLoop I v t 1

/-- The loop of `operator==` (BasicString.hpp:161-165). -/
def eqLoop [DecidableEq α] (v u : Vec) : Nat → Nat → Prog σ Bool
  | 0, _ => pure true
  | n + 1, i => do
    let x ← index I v i
    let y ← index I u i
    if x ≠ y then pure false else eqLoop v u n (i + 1)

/-- The body of `operator==` (BasicString.hpp:159-166). -/
def eqBody [DecidableEq α] (v u : Vec) : Prog σ Bool := do
  if Str.size v ≠ Str.size u then pure false else eqLoop I v u (Str.size v) 0

end

/-! ## A world of strings in the pool -/

section
variable (md : Sma.Mode) (c : Sma.Cfg) (K : Elem α)

/-- One operation (compare `Str.step`). -/
def step [DecidableEq α] (nul : α) : Str.Op α → Prog PWorld Unit
  | .new k => do putObj k (some (← lift (ctor (poolOps md c K) nul)))
  | .newC k str => do putObj k (some (← lift (ctorC (poolOps md c K) nul str)))
  | .push k x => do
    let v ← getObj k
    putObj k (some (← lift (push (poolOps md c K) nul v (.val x))))
  | .pushElem k j i => do
    let v ← getObj k
    let u ← getObj j
    let (b, x) ← lift (refAt u i)
    putObj k (some (← lift (push (poolOps md c K) nul v (.ref b x))))
  | .set k i x => do
    let v ← getObj k
    lift (setIndex (poolOps md c K) v i (.val x))
  | .clear k => do
    let v ← getObj k
    putObj k (some (← lift (clear (poolOps md c K) nul v)))
  | .copy d s => Pool.step md c K (.copy d s)
  | .move d s => Pool.step md c K (.move d s)
  | .append d s => do
    let v ← getObj d
    let u ← getObj s
    putObj d (some (← lift (append (poolOps md c K) v (if d = s then none else some u))))
  | .drop k => Pool.step md c K (.drop k)

/-- A history of operations. -/
def run [DecidableEq α] (nul : α) (ops : List (Str.Op α)) : Prog PWorld Unit :=
  seqAll (ops.map (step md c K nul))

/-- `s1 == s2` (BasicString.hpp:156-167) with by-value parameters `a`, `b` (compare `Str.eq`). -/
def eq [DecidableEq α] (nul : α) (s1 s2 a b : Nat) : Prog PWorld Bool := do
  run md c K nul (Str.newCopy a s1 ++ Str.newCopy b s2)
  let v ← getObj a
  let u ← getObj b
  let r ← lift (eqBody (poolOps md c K) v u)
  run md c K nul [.drop b, .drop a]
  pure r

end

end Verif.SPool
