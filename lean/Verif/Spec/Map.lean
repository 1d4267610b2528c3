import Verif.Map
import Verif.Spec.AVLTree

/-!
# Specification of `Map`

Each object is a partial function from keys to values (`FWorld`).  The keys an object has, in
order, are specified by a second, more concrete meaning (`SWorld`): the list of its key/value
pairs in ascending order of the keys.
-/

namespace Verif.Map

open Prog Verif.Tree
open Verif.AVL (StrictWeak Equiv)

variable {K V : Type}

section
variable (lt : K → K → Bool) (dflt : V)

/-- The test whether two keys are equivalent. -/
def same (a b : K) : Bool := !lt a b && !lt b a

/-! ## Partial functions -/

/-- What each object maps each key to; objects that are not alive map nothing. -/
abbrev FWorld (K V : Type) := Nat → K → Option V

def FWorld.put (w : FWorld K V) (k : Nat) (f : K → Option V) : FWorld K V :=
  fun x => if x = k then f else w x

/-- The function with a new value at a key. -/
def change (f : K → Option V) (key : K) (v : Option V) : K → Option V :=
  fun x => if same lt key x then v else f x

/-- What one statement does to the functions. -/
def fStep : Op K V → FWorld K V → FWorld K V
  | .new k, w => w.put k fun _ => none
  | .push k key v, w => w.put k (change lt (w k) key (some v))
  | .pop k key, w => w.put k (change lt (w k) key none)
  | .get k key, w => w.put k (change lt (w k) key (some ((w k key).getD dflt)))
  | .set k key v, w => w.put k (change lt (w k) key (some v))
  | .assign k key j key', w =>
    -- `m[key]`, then `n[key']`, each inserting the default value if there is none
    let w1 := w.put k (change lt (w k) key (some ((w k key).getD dflt)))
    let v := (w1 j key').getD dflt
    let w2 := w1.put j (change lt (w1 j) key' (some v))
    w2.put k (change lt (w2 k) key (some v))
  | .clear k, w => w.put k fun _ => none
  | .copy d s, w => w.put d (w s)
  | .copyNew d s, w => w.put d (w s)
  | .drop k, w => w.put k fun _ => none

/-- What a program does to the functions. -/
def fRun : List (Op K V) → FWorld K V → FWorld K V
  | [], w => w
  | op :: ops, w => fRun ops (fStep lt dflt op w)

/-! ## Lists of pairs -/

/-- The objects alive in a program. -/
abbrev SWorld (K V : Type) := Nat → Option (List (K × V))

def SWorld.put (w : SWorld K V) (k : Nat) (v : Option (List (K × V))) : SWorld K V :=
  fun x => if x = k then v else w x

/-- The value of a key. -/
def value (l : List (K × V)) (key : K) : Option V := (l.find? fun e => same lt key e.1).map (·.2)

/-- Whether a key is present. -/
def has (l : List (K × V)) (key : K) : Bool := l.any fun e => same lt key e.1

/-- A pair added. -/
def with_ (l : List (K × V)) (key : K) (v : V) : List (K × V) :=
  l.filter (fun e => lt e.1 key) ++ (key, v) :: l.filter (fun e => lt key e.1)

/-- A key removed. -/
def without (l : List (K × V)) (key : K) : List (K × V) := l.filter fun e => !same lt key e.1

/-- The key inserted with the default value unless it is there. -/
def touch (l : List (K × V)) (key : K) : List (K × V) := if has lt l key then l else with_ lt l key dflt

/-- The value of a key replaced. -/
def write (l : List (K × V)) (key : K) (v : V) : List (K × V) :=
  l.map fun e => if same lt key e.1 then (e.1, v) else e

/-- The meaning of one statement; `none` when its precondition fails. -/
def specStep : Op K V → SWorld K V → Option (SWorld K V)
  | .new k, w => if (w k).isNone then some (w.put k (some [])) else none
  | .push k key v, w => (w k).bind fun l =>
      if has lt l key then none else some (w.put k (some (with_ lt l key v)))
  | .pop k key, w => (w k).bind fun l => some (w.put k (some (without lt l key)))
  | .get k key, w => (w k).bind fun l => some (w.put k (some (touch lt dflt l key)))
  | .set k key v, w => (w k).bind fun l => some (w.put k (some (write lt (touch lt dflt l key) key v)))
  | .assign k key j key', w => (w k).bind fun l =>
      let w1 := w.put k (some (touch lt dflt l key))
      (w1 j).bind fun l1 =>
        let w2 := w1.put j (some (touch lt dflt l1 key'))
        let v := (value lt (touch lt dflt l1 key') key').getD dflt
        (w2 k).bind fun l2 => some (w2.put k (some (write lt l2 key v)))
  | .clear k, w => (w k).bind fun _ => some (w.put k (some []))
  | .copy d s, w => (w d).bind fun _ => (w s).bind fun l => some (w.put d (some l))
  | .copyNew d s, w =>
      if (w d).isNone then (w s).bind fun l => some (w.put d (some l)) else none
  | .drop k, w => (w k).bind fun _ => some (w.put k none)

/-- The result of one statement: reading `m[key]` gives its value, or the default. -/
def specOut : Op K V → SWorld K V → Option V
  | .get k key, w => (w k).bind fun l => some ((value lt l key).getD dflt)
  | _, _ => none

/-- The statement is none of the defective uses: `pop` of an absent key, copying or moving a
non-empty map, assigning to one. -/
def Safe : Op K V → SWorld K V → Prop
  | .pop k key, sw => ∀ l, sw k = some l → l = [] ∨ has lt l key = true
  | .copy d s, sw => d = s ∨ (sw d = some [] ∧ sw s = some [])
  | .copyNew _ s, sw => sw s = some []
  | _, _ => True

/-- `w` is a state that a program can reach by statements that meet their preconditions and are
not defective uses; `sw` is what the program means up to there. -/
inductive Reach : World K V → SWorld K V → Prop
  | init : Reach World.init (fun _ => none)
  | step {op : Op K V} {w w' : World K V} {sw sw' : SWorld K V} {out : Option V} :
      Reach w sw → specStep lt dflt op sw = some sw' → Safe lt op sw →
      Returns (step lt dflt op) w out w' → Reach w' sw'

/-- The meaning of a program. -/
def specRun : List (Op K V) → SWorld K V → Option (SWorld K V)
  | [], w => some w
  | op :: ops, w => (specStep lt dflt op w).bind (specRun ops)

/-- No statement of the program is a defective use. -/
def SafeAll : List (Op K V) → SWorld K V → Prop
  | [], _ => True
  | op :: ops, w => Safe lt op w ∧ ∀ w', specStep lt dflt op w = some w' → SafeAll ops w'

/-- The statement does not remove the key `key` of object `k`. -/
def Keeps (k : Nat) (key : K) : Op K V → Prop
  | .pop j key' => j ≠ k ∨ same lt key' key = false
  | .clear j | .drop j => j ≠ k
  | .copy d s => d ≠ k ∨ d = s
  | _ => True

/-- What the observers show of every object: `size()`, `empty()`, the pairs from `begin()` to
`end()` with strictly ascending keys, and for every key the pair `find` refers to.  Observing
changes nothing.  (`begin()` of an empty map is a defective use.) -/
def Shows (w : World K V) (sw : SWorld K V) : Prop :=
  ∀ k, (sw k = none → w.obj k = none) ∧ ∀ l, sw k = some l →
    l.Pairwise (fun a b => lt a.1 b.1 = true) ∧
    Returns (on k getSize) w l.length w ∧ Returns (on k Tree.empty) w (l.length == 0) w ∧
    (l ≠ [] → Returns (on k AVL.elements) w l w) ∧
    ∀ key, Returns (on k (do let it ← find lt dflt key; AVL.readIt it)) w (l.find? fun e => same lt key e.1) w

end
end Verif.Map
