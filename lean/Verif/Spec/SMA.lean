import Verif.SMA

/-!
# Specification vocabulary for the static allocator

Blocks are pairs of an address and a size in bytes.  The free lists are read off the memory
by following links; nothing here uses the allocator's own code except the program of a
client (`step`).
-/

namespace Verif.Sma

/-- A block: address and size in bytes. -/
abbrev Block := Nat × Nat

/-- The template arguments and the placement that the allocator supports: the object is
aligned for its pointers, the pool is a multiple of 8 (StaticMemAllocator.hpp:43) and can
hold one `MemBlock_e`, there is at least one list of small blocks (otherwise blocks of 8
bytes would have to hold a size as well), and rounding up the pool size or
`MAX_BLOCK_SIZE` does not overflow `int`. -/
structure Legal (c : Cfg) : Prop where
  obj : 0 < c.obj
  align : c.obj % 8 = 0
  M16 : 16 ≤ c.M
  M8 : c.M % 8 = 0
  Mint : c.M + 8 < 2 ^ 31
  max8 : 8 ≤ c.max
  maxint : c.max + 16 < 2 ^ 31

/-- Following the links from the one stored at `h` visits the addresses `l` and ends with
the null pointer. -/
def Chain (m : Nat → Cell) : Nat → List Nat → Prop
  | h, [] => m h = .link 0
  | h, a :: l => m h = .link a ∧ a ≠ 0 ∧ Chain m a l

/-- The blocks of free list `i` are `l`.  The lists before the last hold blocks of one size
each; on the last list every block carries its size. -/
def FreeList (c : Cfg) (s : St) (i : Nat) (l : List Block) : Prop :=
  Chain s.mem (c.lists + 8 * i) (l.map (·.1)) ∧
  ∀ b ∈ l, if i < c.max / 8 then b.2 = 8 * (i + 1) else s.mem (b.1 + 8) = .size b.2

/-- `b` is on a free list. -/
def FreeBlock (c : Cfg) (s : St) (b : Block) : Prop :=
  ∃ i, i ≤ c.max / 8 ∧ ∃ l, FreeList c s i l ∧ b ∈ l

/-- `b` is on the last free list, the one of the large blocks. -/
def LargeBlock (c : Cfg) (s : St) (b : Block) : Prop :=
  ∃ l, FreeList c s (c.max / 8) l ∧ b ∈ l

/-- The sum of the sizes. -/
def total : List Block → Nat
  | [] => 0
  | b :: l => b.2 + total l

/-- The two blocks have no byte in common. -/
def Disj (a b : Block) : Prop := a.1 + a.2 ≤ b.1 ∨ b.1 + b.2 ≤ a.1

/-- The block lies in the pool. -/
def InPool (c : Cfg) (b : Block) : Prop := c.base ≤ b.1 ∧ b.1 + b.2 ≤ c.base + c.M

/-- `n` rounded up to a multiple of 8. -/
def up8 (n : Int) : Nat := (roundUp n).toNat

/-! ## Clients -/

/-- The allocator together with the blocks its clients hold, each with the size that was
requested. -/
structure World where
  st : St
  live : List (Nat × Int)

/-- What clients do. -/
inductive Op
  /-- `allocate(n)` -/
  | alloc (n : Int)
  /-- `deallocate(a, n)` -/
  | free (a : Nat) (n : Int)
  /-- `memory_merge()` -/
  | merge
  /-- store anything in the `k`-th eight bytes of the block `a` of `n` bytes -/
  | write (a : Nat) (n : Int) (k : Nat) (x : Cell)

/-- Run a method of the allocator. -/
def onSt {α : Type} (p : Prog St α) : Prog World α := fun w =>
  match p w.st with
  | none => none
  | some (.error e) => some (.error e)
  | some (.ok (a, s)) => some (.ok (a, { w with st := s }))

/-- One step of a client; the result is the address returned by `allocate`. -/
def step (c : Cfg) : Op → Prog World Nat
  | .alloc n => do
    let a ← onSt (alloc c n)
    Prog.modify fun w => if a = 0 then w else { w with live := (a, n) :: w.live }
    pure a
  | .free a n => do
    let _ ← onSt (dealloc c a n)
    Prog.modify fun w => { w with live := w.live.erase (a, n) }
    pure 0
  | .merge => do
    onSt (merge c)
    pure 0
  | .write a _ k x => do
    Prog.modify fun w => { w with st := { w.st with mem := upd w.st.mem (a + 8 * k) x } }
    pure 0

/-- What clients are allowed to do: request a positive number of bytes (the ones within 8 of
`INT_MAX` overflow, see `sma_huge_overflow`), give back blocks they hold with the size they
asked for, and write to the bytes they asked for. -/
def Safe (w : World) : Op → Prop
  | .alloc n => 0 < n ∧ n + 8 < 2 ^ 31
  | .free a n => (a, n) ∈ w.live
  | .merge => True
  | .write a n k _ => (a, n) ∈ w.live ∧ 8 * (k : Int) < n

/-- The states that clients can bring about, starting from the constructor. -/
inductive Reach (c : Cfg) : World → Prop
  | init {s0 s : St} : Returns (construct c) s0 () s → Reach c ⟨s, []⟩
  | step {w w' : World} {op : Op} {a : Nat} :
      Reach c w → Safe w op → Returns (step c op) w a w' → Reach c w'

/-- The same for clients that only request sizes with the property `P`. -/
inductive ReachOnly (c : Cfg) (P : Int → Prop) : World → Prop
  | init {s0 s : St} : Returns (construct c) s0 () s → ReachOnly c P ⟨s, []⟩
  | step {w w' : World} {op : Op} {a : Nat} : ReachOnly c P w → Safe w op →
      (∀ n, op = .alloc n → P n) → Returns (step c op) w a w' → ReachOnly c P w'

/-- The bytes taken from the pool for the blocks clients hold. -/
def taken (live : List (Nat × Int)) : List Block := live.map fun b => (b.1, up8 b.2)

end Verif.Sma
