import Verif.Deque

/-! # Specification of a collection of deques: each is a sequence

Besides its contents a deque has a `Phase`; the ideal meaning of the operations does not depend
on it, only the list of known defects (`Avoids`) does. -/

namespace Verif.Deq

open Prog

variable {α : Type}

/-- Wherever the end of a block is the begin of another one, the latter was allocated later.
Holds in particular when distinct blocks never touch, and when addresses grow from one
allocation to the next. -/
def AdjUp (cfg : Cfg α) : Prop := ∀ b c, cfg.adj b c = true → b < c

/-- What happened to a deque so far. -/
inductive Phase
  /-- nothing was pushed yet -/
  | fresh
  /-- in use -/
  | used
  /-- cleared while empty, or moved from -/
  | null
  /-- cleared while it had elements -/
  | cleared
  /-- the target of a move from a deque in use -/
  | stale
  deriving DecidableEq

structure SD (α : Type) where
  l : List α
  ph : Phase

/-- The deques alive in a program. -/
abbrev SWorld (α : Type) := Nat → Option (SD α)

def SWorld.put (w : SWorld α) (k : Nat) (v : Option (SD α)) : SWorld α :=
  fun x => if x = k then v else w x

/-- `clear()` -/
def SD.clear (s : SD α) : SD α :=
  ⟨[], if s.ph = .used then (if s.l.isEmpty then .null else .cleared) else s.ph⟩

/-- The element `l[i]`, negative indices counting from the end. -/
def elemAt (l : List α) (i : Int) : Option α :=
  if 0 ≤ i then l[i.toNat]? else if 0 ≤ l.length + i then l[(l.length + i).toNat]? else none

/-- The meaning of one operation; `none` when its precondition fails. -/
def specStep : Op α → SWorld α → Option (SWorld α)
  | .new k, w => if (w k).isNone then some (w.put k (some ⟨[], .fresh⟩)) else none
  | .pushBack k x, w => (w k).bind fun s => some (w.put k (some ⟨s.l ++ [x], .used⟩))
  | .pushFront k x, w => (w k).bind fun s => some (w.put k (some ⟨x :: s.l, .used⟩))
  | .pushBackElem k j i, w => (w k).bind fun s => (w j).bind fun t => (elemAt t.l i).bind fun x =>
      some (w.put k (some ⟨s.l ++ [x], .used⟩))
  | .pushFrontElem k j i, w => (w k).bind fun s => (w j).bind fun t => (elemAt t.l i).bind fun x =>
      some (w.put k (some ⟨x :: s.l, .used⟩))
  | .popBack k, w => (w k).bind fun s =>
      if s.l = [] then none else some (w.put k (some ⟨s.l.dropLast, s.ph⟩))
  | .popFront k, w => (w k).bind fun s =>
      if s.l = [] then none else some (w.put k (some ⟨s.l.tail, s.ph⟩))
  | .clear k, w => (w k).bind fun s => some (w.put k (some s.clear))
  | .set k i x, w => (w k).bind fun s =>
      if i < s.l.length then some (w.put k (some ⟨s.l.set i x, s.ph⟩)) else none
  | .copy d s, w => (w d).bind fun t => (w s).bind fun u =>
      if d = s then some w
      else some (w.put d (some (if u.l = [] then t.clear else ⟨u.l, .used⟩)))
  | .move d s, w => (w d).bind fun _ => (w s).bind fun u =>
      if d = s then some w
      else some ((w.put d (some ⟨u.l, if u.ph = .used then .stale else u.ph⟩)).put s
        (some ⟨[], .null⟩))
  | .drop k, w => (w k).bind fun _ => some (w.put k none)

/-- The meaning of a history. -/
def specRun : List (Op α) → SWorld α → Option (SWorld α)
  | [], w => some w
  | op :: ops, w => (specStep op w).bind (specRun ops)

/-- The deque `k` is not the target of a move from a deque in use. -/
def Sound (w : SWorld α) (k : Nat) : Prop := ∀ s, w k = some s → s.ph ≠ .stale

/-- The operation is not one of the defective uses: no use of a deque that was the target of
a move from a deque in use; no copy from a deque that was never used or was cleared while it
had elements; no move from a deque that was never used. -/
def Avoids : Op α → SWorld α → Prop
  | .new _, _ => True
  | .pushBack k _, w | .pushFront k _, w | .popBack k, w | .popFront k, w | .clear k, w
  | .drop k, w | .set k _ _, w => Sound w k
  | .pushBackElem k j _, w | .pushFrontElem k j _, w => Sound w k ∧ Sound w j
  | .copy d s, w => d = s ∨ Sound w d ∧ ∀ u, w s = some u → u.ph = .used ∨ u.ph = .null
  | .move d s, w => d = s ∨ Sound w d ∧ ∀ u, w s = some u → u.ph ≠ .fresh ∧ u.ph ≠ .stale

/-- No operation of the history is a defective use. -/
def AvoidsAll : List (Op α) → SWorld α → Prop
  | [], _ => True
  | op :: ops, w => Avoids op w ∧ ∀ w', specStep op w = some w' → AvoidsAll ops w'

/-- A push or pop on a single deque. -/
inductive Act (α : Type)
  | pushBack (x : α)
  | pushFront (x : α)
  | popBack
  | popFront

def Act.op (k : Nat) : Act α → Op α
  | .pushBack x => .pushBack k x
  | .pushFront x => .pushFront k x
  | .popBack => .popBack k
  | .popFront => .popFront k

def Act.isPush : Act α → Bool
  | .pushBack _ | .pushFront _ => true
  | .popBack | .popFront => false

/-- At the back. -/
def Act.isBack : Act α → Bool
  | .pushBack _ | .popBack => true
  | .pushFront _ | .popFront => false

/-- The number of pushes. -/
def pushes (acts : List (Act α)) : Nat := acts.countP Act.isPush

/-- The sequence after pushes and pops; `none` when an empty sequence is popped. -/
def seqRun : List (Act α) → List α → Option (List α)
  | [], l => some l
  | .pushBack x :: as, l => seqRun as (l ++ [x])
  | .pushFront x :: as, l => seqRun as (x :: l)
  | .popBack :: as, l => if l = [] then none else seqRun as l.dropLast
  | .popFront :: as, l => if l = [] then none else seqRun as l.tail

/-- At no time are there more than `n` elements. -/
def AtMost (n : Nat) (acts : List (Act α)) (l : List α) : Prop :=
  ∀ before after, acts = before ++ after → ∀ l', seqRun before l = some l' → l'.length ≤ n

/-- `n` times: push an element at the back, pop one at the front. -/
def window (x : α) : Nat → List (Act α)
  | 0 => []
  | n + 1 => .pushBack x :: .popFront :: window x n

/-- What the public observers show of a deque with contents `l`: iteration, `size()`, `empty()`,
`front()`, `back()` and indexing from either end; observing changes nothing. -/
structure ShowsSeq (cfg : Cfg α) (m : World α) (k : Nat) (l : List α) : Prop where
  iter : Returns (iterate cfg k) m l m
  size : Returns (size k) m l.length m
  empty : Returns (empty k) m (l.length == 0) m
  front : ∀ x, l.head? = some x → Returns (front cfg k) m x m
  back : ∀ x, l.getLast? = some x → Returns (back cfg k) m x m
  index : ∀ i x, elemAt l i = some x → Returns (index cfg k i) m x m

/-- Every deque shows its contents: in full while it is in use or `null`, only `size()` and
`empty()` otherwise. -/
def Shows (cfg : Cfg α) (m : World α) (w : SWorld α) : Prop :=
  ∀ k, (w k = none → m.obj k = none) ∧ ∀ s, w k = some s →
    Returns (size k) m s.l.length m ∧ Returns (empty k) m (s.l.length == 0) m ∧
    (s.ph = .used ∨ s.ph = .null → ShowsSeq cfg m k s.l)

/-- Where the element at position `p.2` of deque `p.1` is after an operation; `none` when the
operation removes it.  Moving a deque takes its elements along. -/
def follow : Op α → SWorld α → Nat × Nat → Option (Nat × Nat)
  | .pushFront k _, _, p | .pushFrontElem k _ _, _, p => if p.1 = k then some (p.1, p.2 + 1) else some p
  | .popFront k, _, p =>
      if p.1 = k then (if p.2 = 0 then none else some (p.1, p.2 - 1)) else some p
  | .popBack k, w, p =>
      if p.1 = k ∧ (w k).map (fun s => s.l.length) = some (p.2 + 1) then none else some p
  | .clear k, _, p | .drop k, _, p => if p.1 = k then none else some p
  | .copy d s, _, p => if p.1 = d ∧ d ≠ s then none else some p
  | .move d s, _, p =>
      if d = s then some p else if p.1 = d then none else if p.1 = s then some (d, p.2) else some p
  | .new _, _, p | .pushBack _ _, _, p | .pushBackElem _ _ _, _, p | .set _ _ _, _, p => some p

/-- The same for a history. -/
def followAll : List (Op α) → SWorld α → Nat × Nat → Option (Nat × Nat)
  | [], _, p => some p
  | op :: ops, w, p => (specStep op w).bind fun w' => (follow op w p).bind (followAll ops w')

/-- Where an iterator of deque `k` at position `i` (the number of elements before it, so that
`end()` is at the number of elements) is after an operation; `none` when its place is gone: the
deque was emptied, overwritten, moved or destroyed, or the iterator was before the first or behind
the last element after a pop. -/
def shift : Op α → SWorld α → Nat → Nat → Option Nat
  | .pushFront j _, _, k, i | .pushFrontElem j _ _, _, k, i => if k = j then some (i + 1) else some i
  | .popFront j, _, k, i => if k = j then (if i = 0 then none else some (i - 1)) else some i
  | .popBack j, w, k, i =>
      if k = j ∧ (w j).map (fun s => s.l.length) = some i then none else some i
  | .clear j, _, k, i | .drop j, _, k, i => if k = j then none else some i
  | .copy d s, _, k, i => if k = d ∧ d ≠ s then none else some i
  | .move d s, _, k, i => if d ≠ s ∧ (k = d ∨ k = s) then none else some i
  | .new _, _, _, i | .pushBack _ _, _, _, i | .pushBackElem _ _ _, _, _, i | .set _ _ _, _, _, i => some i

/-- The same for a history. -/
def shiftAll : List (Op α) → SWorld α → Nat → Nat → Option Nat
  | [], _, _, i => some i
  | op :: ops, w, k, i => (specStep op w).bind fun w' => (shift op w k i).bind (shiftAll ops w' k)

/-- The blocks that are allocated. -/
def Allocated (m : World α) (b : Nat) : Prop := m.blk b ≠ none

end Verif.Deq
