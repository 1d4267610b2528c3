import Verif.Vector

/-!
# Model of `core/ds/string/BasicString.hpp`

A string is a `Vector<CharType>` (`mCharList_d`, BasicString.hpp:134) that ends with a NUL character; copy, move and
destruction (BasicString.hpp:30-38, 48) are those of the vector, and so are `operator[]` (BasicString.hpp:77-79 and
87-89) and `capacity()` (BasicString.hpp:64-66).  `α` is the character type and
`nul` the value `'\0'`.  Characters have a trivial destructor.
-/

namespace Verif.Str

open Prog Vec

variable {α : Type}

/-- `BasicString()` (BasicString.hpp:26-28). -/
def ctor (nul : α) : Prog (Mem α) Vec := do
  let v ← ctorFill true 1 (.val nul)
  resize true v 15

/-- `str[i]` for a `const char *` argument; `str` lists the characters of the array it points
into.  Reading past the array is undefined. -/
def cRead {σ : Type} (str : List α) (i : Nat) : Prog σ α :=
  match str[i]? with
  | some c => pure c
  | none => fail .outOfBounds

/-- The `while` loop of `BasicString(const char *)` (BasicString.hpp:42-44), `i` being the
current offset of `str`. -/
def ctorLoop [DecidableEq α] (nul : α) (str : List α) (v : Vec) (i : Nat) : Prog (Mem α) Vec := do
  let c ← cRead str i
  if c ≠ nul then do
    let v ← pushBack true v (.val c)
    ctorLoop nul str v (i + 1)
  else pure v
partial_fixpoint

/-- `BasicString(const char *str)` (BasicString.hpp:40-46). -/
def ctorC [DecidableEq α] (nul : α) (str : List α) : Prog (Mem α) Vec := do
  let v ← ctor nul
  let c ← cRead str 0
  setIndex v (-1) (.val c)
  let v ← ctorLoop nul str v 1
  pushBack true v (.val nul)

/-- `size()` (BasicString.hpp:60-62), computed in `size_t`. -/
def size (v : Vec) : Nat := (v.sz + (2 ^ 64 - 1)) % 2 ^ 64

/-- `empty()` (BasicString.hpp:56-58). -/
def empty (v : Vec) : Bool := size v == 0

/-- `back()` (BasicString.hpp:69-71). -/
def back (v : Vec) : Prog (Mem α) α := index v (-2)

/-- `front()` (BasicString.hpp:73-75). -/
def front (v : Vec) : Prog (Mem α) α := Vec.front v

/-- `push_back(const CharType &)` (BasicString.hpp:82-85). -/
def push (nul : α) (v : Vec) (e : Arg α) : Prog (Mem α) Vec := do
  setIndex v (-1) e
  pushBack true v (.val nul)

/-- `clear()` (BasicString.hpp:91-95). -/
def clear (nul : α) (v : Vec) : Prog (Mem α) Vec := do
  let v ← Vec.clear true v
  let v ← pushBack true v (.val nul)
  resize true v 15

/-- The characters between `begin()` and `end()` (BasicString.hpp:98-112).  `end()` of a string
without buffer computes `nullptr - 1`. -/
def iterate (v : Vec) : Prog (Mem α) (List α) := do
  check (0 < v.sz) .outOfBounds
  forRange (v.sz - 1) 0 [] fun i acc => do
    let x ← Vec.read v.c i
    pure (acc ++ [x])

/-- The reference `v[i]` (Vector.hpp:86-91) before it is read. -/
def refAt (v : Vec) (i : Int) : Prog (Mem α) (Nat × Int) := do
  let j := normIndex v i
  dassert (j < Int.bmod v.sz (2 ^ 32))
  pure (v.c, j)

/-- `c_str()` (BasicString.hpp:115-117): the address of element 0. -/
def cStr (v : Vec) : Prog (Mem α) (Nat × Int) := refAt v 0

/-- The `for` loop of `operator+=` (BasicString.hpp:123-125).  `t = none` means that `str` is the
same object as `*this`. -/
def appendLoop (v : Vec) (t : Option Vec) (i : Nat) : Prog (Mem α) Vec := do
  let u := t.getD v
  if i < u.sz then do
    let (b, j) ← refAt u i
    let v ← pushBack true v (.ref b j)
    appendLoop v t (i + 1)
  else pure v
partial_fixpoint

/-- `operator+=(const BasicString &)` (BasicString.hpp:119-127). -/
def append (v : Vec) (t : Option Vec) : Prog (Mem α) Vec := do
  let u := t.getD v
  let need := (v.sz + u.sz + (2 ^ 64 - 1)) % 2 ^ 64
  let v ← (if v.cap < need then resize true v need else pure v)
  let u := t.getD v
  let (b, j) ← refAt u 0
  setIndex v (-1) (.ref b j)
  appendLoop v t 1

/-- The comparison of `operator==` (BasicString.hpp:158-166) on its two by-value parameters. -/
def eqLoop [DecidableEq α] (v u : Vec) : Nat → Nat → Prog (Mem α) Bool
  | 0, _ => pure true
  | n + 1, i => do
    let x ← index v i
    let y ← index u i
    if x ≠ y then pure false else eqLoop v u n (i + 1)

def eqBody [DecidableEq α] (v u : Vec) : Prog (Mem α) Bool := do
  if size v ≠ size u then pure false else eqLoop v u (size v) 0

/-- Operations on named strings.  `t…` name the temporaries the C++ code creates. -/
inductive Op (α : Type)
  /-- `String k;` -/
  | new (k : Nat)
  /-- `String k(str);` -/
  | newC (k : Nat) (str : List α)
  /-- `k.push_back(c)` -/
  | push (k : Nat) (c : α)
  /-- `k.push_back(j[i])` -/
  | pushElem (k j : Nat) (i : Nat)
  /-- `k[i] = c` -/
  | set (k : Nat) (i : Nat) (c : α)
  /-- `k.clear()` -/
  | clear (k : Nat)
  /-- `d = s` -/
  | copy (d s : Nat)
  /-- `d = move(s)` -/
  | move (d s : Nat)
  /-- `d += s` -/
  | append (d s : Nat)
  /-- end of the lifetime of `k` -/
  | drop (k : Nat)

def step [DecidableEq α] (nul : α) : Op α → Prog (World α) Unit
  | .new k => do putObj k (some (← lift (ctor nul)))
  | .newC k str => do putObj k (some (← lift (ctorC nul str)))
  | .push k c => do
    let v ← getObj k
    putObj k (some (← lift (push nul v (.val c))))
  | .pushElem k j i => do
    let v ← getObj k
    let u ← getObj j
    let (b, x) ← lift (refAt u i)
    putObj k (some (← lift (push nul v (.ref b x))))
  | .set k i c => do
    let v ← getObj k
    lift (setIndex v i (.val c))
  | .clear k => do
    let v ← getObj k
    putObj k (some (← lift (clear nul v)))
  | .copy d s => Vec.step true (.copy d s)
  | .move d s => Vec.step true (.move d s)
  | .append d s => do
    let v ← getObj d
    let u ← getObj s
    putObj d (some (← lift (append v (if d = s then none else some u))))
  | .drop k => Vec.step true (.drop k)

/-- A history of operations. -/
def run [DecidableEq α] (nul : α) (ops : List (Op α)) : Prog (World α) Unit :=
  seqAll (ops.map (step nul))

/-- Copy construction `String d(s);` (core/common.hpp:35). -/
def newCopy (d s : Nat) : List (Op α) := [.new d, .copy d s]

/-- `k = str` for a C string (BasicString.hpp:50-53), `t` being the temporary. -/
def assignC (k t : Nat) (str : List α) : List (Op α) := [.newC t str, .move k t, .drop t]

/-- `k += str` for a C string (BasicString.hpp:129-131). -/
def appendC (k t : Nat) (str : List α) : List (Op α) := [.newC t str, .append k t, .drop t]

/-- `String k = s1 + s2;` (BasicString.hpp:137-142): by-value parameters `a`, `b`, local `c`,
copied into the result. -/
def concat (k s1 s2 a b c : Nat) : List (Op α) :=
  newCopy a s1 ++ newCopy b s2 ++ newCopy c a ++ [.append c b] ++ newCopy k c ++
    [.drop c, .drop b, .drop a]

/-- `s1 == s2` (BasicString.hpp:156-167) with by-value parameters `a`, `b`. -/
def eq [DecidableEq α] (nul : α) (s1 s2 a b : Nat) : Prog (World α) Bool := do
  run nul (newCopy a s1 ++ newCopy b s2)
  let v ← getObj a
  let u ← getObj b
  let r ← lift (eqBody v u)
  run nul [.drop b, .drop a]
  pure r

/-! The operators taking a `const char *`.  Their string parameter is a copy (`a`); they call the operator on two
strings, whose parameters are a further copy and a string constructed in place from the C string. -/

/-- `String k = s1 + str;` (BasicString.hpp:144-148). -/
def concatC (k s1 : Nat) (str : List α) (a b c d : Nat) : List (Op α) :=
  newCopy a s1 ++ newCopy b a ++ [.newC c str] ++ newCopy d b ++ [.append d c] ++ newCopy k d ++
    [.drop d, .drop c, .drop b, .drop a]

/-- `String k = str + s2;` (BasicString.hpp:150-154). -/
def cConcat (k : Nat) (str : List α) (s2 a b c d : Nat) : List (Op α) :=
  newCopy a s2 ++ [.newC b str] ++ newCopy c a ++ newCopy d b ++ [.append d c] ++ newCopy k d ++
    [.drop d, .drop c, .drop b, .drop a]

/-- The body of `operator==` on its parameters `a` and `b` and the end of their lifetime. -/
def eqParams [DecidableEq α] (nul : α) (a b : Nat) : Prog (World α) Bool := do
  let v ← getObj a
  let u ← getObj b
  let r ← lift (eqBody v u)
  run nul [.drop b, .drop a]
  pure r

/-- `s1 == str` (BasicString.hpp:169-173). -/
def eqC [DecidableEq α] (nul : α) (s1 : Nat) (str : List α) (a b c : Nat) : Prog (World α) Bool := do
  run nul (newCopy a s1 ++ newCopy b a ++ [.newC c str])
  let r ← eqParams nul b c
  run nul [.drop a]
  pure r

/-- `str == s2` (BasicString.hpp:175-179). -/
def cEq [DecidableEq α] (nul : α) (str : List α) (s2 a b c : Nat) : Prog (World α) Bool := do
  run nul (newCopy a s2 ++ [.newC b str] ++ newCopy c a)
  let r ← eqParams nul b c
  run nul [.drop a]
  pure r

/-- The body of `operator!=` (BasicString.hpp:184) on its parameters `a` and `b`, `c` and `d` being the parameters
of `operator==`, and the end of their lifetime. -/
def neParams [DecidableEq α] (nul : α) (a b c d : Nat) : Prog (World α) Bool := do
  let r ← eq nul a b c d
  run nul [.drop b, .drop a]
  pure (!r)

/-- `s1 != s2` (BasicString.hpp:181-185). -/
def ne [DecidableEq α] (nul : α) (s1 s2 a b c d : Nat) : Prog (World α) Bool := do
  run nul (newCopy a s1 ++ newCopy b s2)
  neParams nul a b c d

/-- `s1 != str` (BasicString.hpp:187-191). -/
def neC [DecidableEq α] (nul : α) (s1 : Nat) (str : List α) (a b c d e : Nat) : Prog (World α) Bool := do
  run nul (newCopy a s1 ++ newCopy b a ++ [.newC c str])
  let r ← neParams nul b c d e
  run nul [.drop a]
  pure r

/-- `str != s2` (BasicString.hpp:193-197). -/
def cNe [DecidableEq α] (nul : α) (str : List α) (s2 a b c d e : Nat) : Prog (World α) Bool := do
  run nul (newCopy a s2 ++ [.newC b str] ++ newCopy c a)
  let r ← neParams nul b c d e
  run nul [.drop a]
  pure r

end Verif.Str
