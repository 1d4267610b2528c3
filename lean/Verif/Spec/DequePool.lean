import Verif.DequePool
import Verif.Spec.Deque
import Verif.Spec.SMA

/-!
# Specification vocabulary for deques in the static pool

The meaning of histories is that of `Verif.Spec.Deque`, blocks of the pool are address and size
(`Verif.Spec.SMA`).
-/

namespace Verif.DeqPool

open Deq (Op SWorld elemAt)

variable {α : Type}

/-- What the public observers show of a deque with contents `l`, as `Deq.ShowsSeq`. -/
structure ShowsSeq (P : Cfg α) (w : PWorld α) (k : Nat) (l : List α) : Prop where
  iter : Returns (iterate P k) w l w
  size : Returns (on (Deq.size k)) w l.length w
  empty : Returns (on (Deq.empty k)) w (l.length == 0) w
  front : ∀ x, l.head? = some x → Returns (on (Deq.front P.deq k)) w x w
  back : ∀ x, l.getLast? = some x → Returns (back P k) w x w
  index : ∀ i x, elemAt l i = some x → Returns (index P k i) w x w

/-- Every deque shows its contents, as `Deq.Shows`: in full while it is in use or `null`, only `size()`
and `empty()` otherwise. -/
def Shows (P : Cfg α) (w : PWorld α) (sw : SWorld α) : Prop :=
  ∀ k, (sw k = none → w.deq.obj k = none) ∧ ∀ s, sw k = some s →
    Returns (on (Deq.size k)) w s.l.length w ∧ Returns (on (Deq.empty k)) w (s.l.length == 0) w ∧
    (s.ph = .used ∨ s.ph = .null → ShowsSeq P w k s.l)

/-- What deques keep in the pool: blocks of elements, and tables. -/
inductive Item
  | block (b : Nat)
  | table (k : Nat)

/-- Where it is kept, if it exists: address and number of bytes taken (a multiple of eight). -/
def place (P : Cfg α) (w : PWorld α) : Item → Option Sma.Block
  | .block b => (w.deq.blk b).map fun _ => (w.blk b, Sma.up8 (P.size * P.A : Nat))
  | .table k => (w.deq.obj k).bind fun d =>
      if d.tbl = [] then none else some (w.tab k, Sma.up8 (8 * d.tbl.length : Nat))

/-- All of it lies in the pool, nothing overlaps anything else or a block of other clients, and the
contents of the blocks of other clients, `L`, are what they were in the state `s`. -/
structure Placed (P : Cfg α) (s : Sma.St) (L : List (Nat × Int)) (w : PWorld α) : Prop where
  inPool : ∀ i x, place P w i = some x → Sma.InPool P.sma x
  apart : ∀ i j x y, place P w i = some x → place P w j = some y → i ≠ j → Sma.Disj x y
  others : ∀ i x, place P w i = some x → ∀ p ∈ L, Sma.Disj x (p.1, Sma.up8 p.2)
  kept : ∀ p ∈ L, ∀ a, p.1 ≤ a → a < p.1 + Sma.up8 p.2 → w.pool.mem a = s.mem a

/-- The bytes of the pool that a block of elements takes. -/
def blockRoom (P : Cfg α) : Nat := Sma.up8 (P.size * P.A : Nat)

/-- The bytes of the pool that a table with `n` entries takes. -/
def tableRoom (n : Nat) : Nat := Sma.up8 (8 * n : Nat)

/-- What the first push to a deque requests: a table with two entries and two blocks. -/
def firstRoom (P : Cfg α) : Nat := tableRoom 2 + 2 * blockRoom P

/-- What giving the deque `d` room for `n` elements requests at most: a copy of its table, the new table and all of
its blocks. -/
def resizeRoom (P : Cfg α) (d : Deq.Deque) (n : Nat) : Nat :=
  tableRoom d.tbl.length + (tableRoom (n / P.A) + n / P.A * blockRoom P)

/-- What a push requests at most, if the end of the deque it pushes to is `full`. -/
def pushRoom (P : Cfg α) (d : Deq.Deque) (full : Prop) [Decidable full] : Nat :=
  if d.cap = 0 then firstRoom P else if full then resizeRoom P d (d.cap * 2) else 0

/-- What a pop requests at most: it shrinks the table when a third of it is enough. -/
def popRoom (P : Cfg α) (d : Deq.Deque) : Nat :=
  if d.sz - 1 ≤ d.cap / 3 ∧ 2 < d.tbl.length then resizeRoom P d (d.cap / 2) else 0

/-- The bytes that the operation requests from the pool at most; a copy requests them bit by bit, for these no
number is given. -/
def needs (P : Cfg α) (w : PWorld α) : Op α → Option Nat
  | .pushBack k _ | .pushBackElem k _ _ => some ((w.deq.obj k).elim 0 fun d =>
      pushRoom P d (d.fin.cur = d.tbl.getLast?.map (.at · P.A)))
  | .pushFront k _ | .pushFrontElem k _ _ => some ((w.deq.obj k).elim 0 fun d =>
      pushRoom P d (d.beg.cur = d.tbl.head?.map (.at · 0)))
  | .popBack k | .popFront k => some ((w.deq.obj k).elim 0 (popRoom P))
  | .copy d s => if d = s then some 0 else none
  | .new _ | .clear _ | .set _ _ _ | .move _ _ | .drop _ => some 0

/-- The operation may find no room: it requests memory, and no free block is as large as everything it requests. -/
def NoRoom (P : Cfg α) (w : PWorld α) (op : Op α) : Prop :=
  ∀ n, needs P w op = some n → 0 < n ∧ ¬ ∃ b, Sma.FreeBlock P.sma w.pool b ∧ n ≤ b.2

/-- The history stops at one of its operations, which finds no room. -/
def OutOfRoom (P : Cfg α) (w0 : PWorld α) (ops : List (Op α)) : Prop :=
  ∃ before op after w, ops = before ++ op :: after ∧ Returns (run P before) w0 () w ∧ NoRoom P w op ∧
    Faults (step P op) w .crash

end Verif.DeqPool
