import Verif.AVLWorld
import Verif.Spec.Tree

/-!
# Specification of AVL trees: each object is an ordered set

A set is the list of its elements in ascending order.
-/

namespace Verif.AVL

open Prog Verif.Tree

variable {α : Type}

/-- `lt` is a strict weak order: what `CMP` has to be for an ordered container. -/
structure StrictWeak (lt : α → α → Bool) : Prop where
  irrefl : ∀ a, lt a a = false
  trans : ∀ a b c, lt a b = true → lt b c = true → lt a c = true
  cotrans : ∀ a b c, lt a c = true → lt a b = true ∨ lt b c = true

/-- Strictly ascending: in particular no two elements are equivalent. -/
def Ascending (lt : α → α → Bool) (xs : List α) : Prop := xs.Pairwise fun a b => lt a b = true

/-- Neither is smaller: the container takes the two for the same key. -/
def Equiv (lt : α → α → Bool) (a b : α) : Prop := lt a b = false ∧ lt b a = false

/-- The objects alive in a program. -/
abbrev SWorld (α : Type) := Nat → Option (List α)

def SWorld.put (w : SWorld α) (k : Nat) (v : Option (List α)) : SWorld α :=
  fun x => if x = k then v else w x

variable (lt : α → α → Bool)

/-- The test for `Equiv`. -/
def same (x v : α) : Bool := !lt x v && !lt v x

/-- The set with `x` added. -/
def with_ (l : List α) (x : α) : List α := l.filter (lt · x) ++ x :: l.filter (lt x ·)

/-- The set without the element equivalent to `x`. -/
def without (l : List α) (x : α) : List α := l.filter fun v => !same lt x v

/-- The meaning of one statement; `none` when its precondition fails. -/
def specStep : Op α → SWorld α → Option (SWorld α)
  | .new k, w => if (w k).isNone then some (w.put k (some [])) else none
  | .push k x, w => (w k).bind fun l =>
      if l.any (same lt x) then none else some (w.put k (some (with_ lt l x)))
  | .pop k x, w => (w k).bind fun l => some (w.put k (some (without lt l x)))
  | .popAt k j x, w => (w k).bind fun l => (w j).bind fun l' =>
      if l'.any (same lt x) then some (w.put k (some (without lt l x))) else none
  | .erase k x, w => (w k).bind fun l => some (w.put k (some (without lt l x)))
  | .clear k, w => (w k).bind fun _ => some (w.put k (some []))
  | .copy d s, w => (w d).bind fun _ => (w s).bind fun l => some (w.put d (some l))
  | .copyNew d s, w =>
      if (w d).isNone then (w s).bind fun l => some (w.put d (some l)) else none
  | .drop k, w => (w k).bind fun _ => some (w.put k none)

/-- The result of one statement: `erase` results in the next greater element. -/
def specOut : Op α → SWorld α → Option α
  | .erase k x, w => (w k).bind fun l =>
      if l.any (same lt x) then (l.filter (lt x ·)).head? else none
  | _, _ => none

/-- The root of object `k` is not a node equivalent to `x` with fewer than two children. -/
def RootSafe (w : World α) (k : Nat) (x : α) : Prop :=
  ∀ r n d, w.obj k = some (some r, n) → w.mem.dat r = some (some d) → same lt x d.val = true →
    w.mem.lft r ≠ none ∧ w.mem.rgt r ≠ none

/-- The statement is none of the defective uses: `pop` of an absent element, `erase` of a root
with fewer than two children, copying or moving a non-empty tree, assigning to one. -/
def Safe : Op α → World α → SWorld α → Prop
  | .pop k x, _, sw | .popAt k _ x, _, sw => ∀ l, sw k = some l → l = [] ∨ l.any (same lt x) = true
  | .erase k x, w, _ => RootSafe lt w k x
  | .copy d s, _, sw => d = s ∨ (sw d = some [] ∧ sw s = some [])
  | .copyNew _ s, _, sw => sw s = some []
  | _, _, _ => True

/-- `w` is a state that a program can reach by statements that meet their preconditions and are
not defective uses; `sw` is what the program means up to there. -/
inductive Reach : World α → SWorld α → Prop
  | init : Reach World.init (fun _ => none)
  | step {op : Op α} {w w' : World α} {sw sw' : SWorld α} {out : Option α} :
      Reach w sw → specStep lt op sw = some sw' → Safe lt op w sw →
      Returns (step lt op) w out w' → Reach w' sw'

/-- The meaning of a program. -/
def specRun : List (Op α) → SWorld α → Option (SWorld α)
  | [], w => some w
  | op :: ops, w => (specStep lt op w).bind (specRun ops)

/-- A condition on the meaning alone that implies `Safe`: elements are erased from trees of three
or more elements only. -/
def SafeIn : Op α → SWorld α → Prop
  | .erase k x, sw => ∀ l, sw k = some l → 3 ≤ l.length ∨ l.any (same lt x) = false
  | op, sw => Safe lt op World.init sw

/-- No statement of the program is a defective use. -/
def SafeAll : List (Op α) → SWorld α → Prop
  | [], _ => True
  | op :: ops, w => SafeIn lt op w ∧ ∀ w', specStep lt op w = some w' → SafeAll ops w'

/-- The statement does not remove the element `v` of object `k`. -/
def Keeps (k : Nat) (v : α) : Op α → Prop
  | .pop j y | .popAt j _ y | .erase j y => j ≠ k ∨ same lt y v = false
  | .clear j | .drop j => j ≠ k
  | .copy d s => d ≠ k ∨ d = s
  | _ => True

/-- `Steps lt w sw ops w' sw'`: from the state `w`, which means `sw`, the statements `ops` lead to
`w'`, which means `sw'`; each of them meets its precondition and is not a defective use. -/
inductive Steps : World α → SWorld α → List (Op α) → World α → SWorld α → Prop
  | nil {w : World α} {sw : SWorld α} : Steps w sw [] w sw
  | cons {op : Op α} {ops : List (Op α)} {w w1 w2 : World α} {sw sw1 sw2 : SWorld α} {out : Option α} :
      specStep lt op sw = some sw1 → Safe lt op w sw → Returns (step lt op) w out w1 →
      Steps w1 sw1 ops w2 sw2 → Steps w sw (op :: ops) w2 sw2

/-- What the observers show of every object: `size()`, `empty()`, the elements from `begin()` to
`end()` in ascending order, and for every `x` the element `find(x)` refers to.  Observing changes
nothing.  (`begin()` of an empty tree is a defective use.) -/
def Shows (w : World α) (sw : SWorld α) : Prop :=
  ∀ k, (sw k = none → w.obj k = none) ∧ ∀ l, sw k = some l → Ascending lt l ∧
    Returns (on k getSize) w l.length w ∧ Returns (on k Tree.empty) w (l.length == 0) w ∧
    (l ≠ [] → Returns (on k elements) w l w) ∧
    ∀ x, Returns (on k (do let it ← find lt x; readIt it)) w (l.find? (same lt x)) w

/-- At every node the heights of the two subtrees differ by at most one. -/
def Balanced {δ : Type} : T δ → Prop
  | .nil => True
  | .node l _ _ r => l.height ≤ r.height + 1 ∧ r.height ≤ l.height + 1 ∧ Balanced l ∧ Balanced r

/-- Fibonacci numbers. -/
def fib : Nat → Nat
  | 0 => 0
  | 1 => 1
  | n + 2 => fib n + fib (n + 1)

end Verif.AVL
