import Verif.BSTWorld
import Verif.Spec.AVLTree

/-!
# Specification of binary search trees: each object is an ordered set

An object means the list of its elements in ascending order, together with the number of times an
element was pushed that was present already: `size()` counts these pushes too.
-/

namespace Verif.BST

open Prog Verif.Tree
open Verif.AVL (StrictWeak Ascending Equiv same with_ without)

variable {α : Type}

/-- The objects alive in a program: elements and number of surplus pushes. -/
abbrev SWorld (α : Type) := Nat → Option (List α × Nat)

def SWorld.put (w : SWorld α) (k : Nat) (v : Option (List α × Nat)) : SWorld α :=
  fun x => if x = k then v else w x

variable (lt : α → α → Bool)

/-- Adding `x`: a new element, or one more surplus push. -/
def add (o : List α × Nat) (x : α) : List α × Nat :=
  if o.1.any (same lt x) then (o.1, o.2 + 1) else (with_ lt o.1 x, o.2)

/-- The meaning of one statement; `none` when its precondition fails. -/
def specStep : Op α → SWorld α → Option (SWorld α)
  | .new k, w => if (w k).isNone then some (w.put k (some ([], 0))) else none
  | .newFrom k xs, w => if (w k).isNone then some (w.put k (some (xs.foldl (add lt) ([], 0)))) else none
  | .push k x, w => (w k).bind fun o => some (w.put k (some (add lt o x)))
  | .pushAt k j x, w => (w k).bind fun o => (w j).bind fun o' =>
      (o'.1.find? (same lt x)).bind fun v => some (w.put k (some (add lt o v)))
  | .pop k x, w => (w k).bind fun o => some (w.put k (some (without lt o.1 x, o.2)))
  | .popAt k j x, w => (w k).bind fun o => (w j).bind fun o' =>
      if o'.1.any (same lt x) then some (w.put k (some (without lt o.1 x, o.2))) else none
  | .erase k x, w => (w k).bind fun o => some (w.put k (some (without lt o.1 x, o.2)))
  | .clear k, w => (w k).bind fun _ => some (w.put k (some ([], 0)))
  | .move d s, w => (w d).bind fun _ => (w s).bind fun o =>
      some (if d = s then w else (w.put d (some o)).put s (some ([], 0)))
  | .moveNew d s, w =>
      if (w d).isNone then (w s).bind fun o => some ((w.put d (some o)).put s (some ([], 0))) else none
  | .drop k, w => (w k).bind fun _ => some (w.put k none)

/-- The result of one statement: `erase` results in the next greater element. -/
def specOut : Op α → SWorld α → Option α
  | .erase k x, w => (w k).bind fun o => (o.1.filter (lt x ·)).head?
  | _, _ => none

/-- The node of object `k` that holds an element equivalent to `x` has at most one child. -/
def OneChild (w : World α) (k : Nat) (x : α) : Prop :=
  ∀ r c n d, w.obj k = some (r, c) → Below w.mem r n → w.mem.dat n = some (some d) → Equiv lt x d →
    w.mem.lft n = none ∨ w.mem.rgt n = none

/-- The statement is none of the defective uses: `pop` of an absent element (unless `size()` is 0),
`pop` and `erase` of a node with two children, `erase` of `end()`. -/
def Safe : Op α → World α → SWorld α → Prop
  | .pop k x, w, sw | .popAt k _ x, w, sw =>
      ∀ o, sw k = some o → o = ([], 0) ∨ (o.1.any (same lt x) = true ∧ OneChild lt w k x)
  | .erase k x, w, sw => ∀ o, sw k = some o → o.1.any (same lt x) = true ∧ OneChild lt w k x
  | _, _, _ => True

/-- `w` is a state that a program can reach by statements that meet their preconditions and are
not defective uses; `sw` is what the program means up to there. -/
inductive Reach : World α → SWorld α → Prop
  | init : Reach World.init (fun _ => none)
  | step {op : Op α} {w w' : World α} {sw sw' : SWorld α} {out : Option α} :
      Reach w sw → specStep lt op sw = some sw' → Safe lt op w sw →
      Returns (step lt op) w out w' → Reach w' sw'

/-- The meaning of a program. -/
def specRun : List (Op α) → SWorld α → Option (SWorld α)
  | [], w => some w
  | op :: ops, w => (specStep lt op w).bind (specRun ops)

/-- A condition on the meaning alone that implies `Safe`: elements are removed from trees of at most
two elements only. -/
def SafeIn : Op α → SWorld α → Prop
  | .pop k x, sw | .popAt k _ x, sw =>
      ∀ o, sw k = some o → o = ([], 0) ∨ (o.1.any (same lt x) = true ∧ o.1.length ≤ 2)
  | .erase k x, sw => ∀ o, sw k = some o → o.1.any (same lt x) = true ∧ o.1.length ≤ 2
  | _, _ => True

/-- No statement of the program is a defective use. -/
def SafeAll : List (Op α) → SWorld α → Prop
  | [], _ => True
  | op :: ops, w => SafeIn lt op w ∧ ∀ w', specStep lt op w = some w' → SafeAll ops w'

/-- What the observers show of every object: `size()`, which counts surplus pushes, `empty()`, the
elements from `begin()` to `end()` in ascending order, and for every `x` the element `find(x)`
refers to.  Observing changes nothing.  (`begin()` of an empty tree is a defective use.) -/
def Shows (w : World α) (sw : SWorld α) : Prop :=
  ∀ k, (sw k = none → w.obj k = none) ∧ ∀ l n, sw k = some (l, n) → Ascending lt l ∧
    Returns (on k getSize) w (l.length + n) w ∧ Returns (on k Tree.empty) w (l.length + n == 0) w ∧
    (l ≠ [] → Returns (on k (elements .ino)) w l w) ∧
    ∀ x, Returns (on k (do let it ← find lt x; readIt it)) w (l.find? (same lt x)) w

/-- Node `n` can be reached from `p` along right links. -/
inductive RightOf (s : St α) : Ptr → Nat → Prop
  | here (n : Nat) : RightOf s (some n) n
  | next {m n : Nat} : RightOf s (s.rgt m) n → RightOf s (some m) n

/-- The objects the statement uses are alive and the object it creates is not. -/
def Alive : Op α → World α → Prop
  | .new k, w | .newFrom k _, w => w.obj k = none
  | .push k _, w | .pop k _, w | .erase k _, w | .clear k, w | .drop k, w => w.obj k ≠ none
  | .pushAt k j _, w | .popAt k j _, w => w.obj k ≠ none ∧ w.obj j ≠ none
  | .move d s, w => w.obj d ≠ none ∧ w.obj s ≠ none
  | .moveNew d s, w => w.obj d = none ∧ w.obj s ≠ none

/-- `w` is a state that some program reaches whose every statement returned.  Nothing is required
of the elements, of the comparison, or of the uses. -/
inductive Ran : World α → Prop
  | init : Ran World.init
  | step {op : Op α} {w w' : World α} {out : Option α} :
      Ran w → Alive op w → Returns (step lt op) w out w' → Ran w'

end Verif.BST
