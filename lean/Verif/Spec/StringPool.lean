import Verif.StringPool
import Verif.Spec.BasicString
import Verif.Spec.VectorPool

/-!
# Specification vocabulary for strings in the static pool

A string is a list of characters (`Verif.Spec.BasicString`), blocks are address and size
(`Verif.Spec.SMA`).
-/

namespace Verif.SPool

open Vec Pool

variable {α : Type}

/-- The memory of the pool from the address `p` on holds exactly the characters `l` followed by NUL. -/
def Terminated (md : Sma.Mode) (c : Sma.Cfg) (K : Elem α) (nul : α) (s : Sma.St) (p : Nat × Int)
    (l : List α) : Prop :=
  (∀ i (h : i < l.length), Returns ((poolOps md c K).read p.1 (p.2 + i)) s l[i] s) ∧
  Returns ((poolOps md c K).read p.1 (p.2 + l.length)) s nul s

/-- What the public observers show of every string, as for strings with memory of their own
(`Str.Shows`). -/
def Shows (md : Sma.Mode) (c : Sma.Cfg) (K : Elem α) (nul : α) (w : PWorld) (sw : Str.Spec α) : Prop :=
  ∀ k, (sw k = none → w.obj k = none) ∧
    ∀ s, sw k = some s → ∃ v, w.obj k = some v ∧ (s.hollow = false →
      Str.size v = s.chars.length ∧ (Str.empty v = true ↔ s.chars = []) ∧
      Returns (iterate (poolOps md c K) v) w.pool s.chars w.pool ∧
      (∀ i (h : i < s.chars.length), Returns (index (poolOps md c K) v (i : Int)) w.pool s.chars[i] w.pool) ∧
      (∀ h : s.chars ≠ [], Returns (front (poolOps md c K) v) w.pool (s.chars.head h) w.pool ∧
        Returns (back (poolOps md c K) v) w.pool (s.chars.getLast h) w.pool) ∧
      ∃ p, Returns (cStr v) w.pool p w.pool ∧ Terminated md c K nul w.pool p s.chars)

/-- The block of a string: its address and its size in bytes. -/
def block (size : Nat) (v : Vec) : Sma.Block := (v.c, taken8 size v.cap)

/-- Every string with storage has it in the pool, away from that of the other strings and from the
free blocks. -/
def Placed (c : Sma.Cfg) (K : Elem α) (w : PWorld) : Prop :=
  ∀ k v, w.obj k = some v → v.cap ≠ 0 → Sma.InPool c (block K.size v) ∧
    (∀ j u, j ≠ k → w.obj j = some u → u.cap ≠ 0 → Sma.Disj (block K.size v) (block K.size u)) ∧
    ∀ b, Sma.FreeBlock c w.pool b → Sma.Disj (block K.size v) b

/-- The number of bytes of the strings named in the list. -/
def storage (size : Nat) (w : PWorld) : List Nat → Nat
  | [] => 0
  | k :: ks => (match w.obj k with
    | none => 0
    | some v => (block size v).2) + storage size w ks

/-- `free_mem_size()` is the size of the pool without the storage of the strings alive. -/
def Accounted (c : Sma.Cfg) (K : Elem α) (w : PWorld) (sw : Str.Spec α) : Prop :=
  ∃ ks : List Nat, ks.Nodup ∧ (∀ k, k ∈ ks ↔ sw k ≠ none) ∧
    Returns Sma.freeMemSize w.pool ((c.M : Int) - storage K.size w ks) w.pool

end Verif.SPool
