import Verif.RoundUp

/-!
# Model of `StaticMemAllocator` (memory/StaticMemAllocator.hpp) and of the port built on it

The allocator object is one piece of memory: the counter, the pool and the array of list
heads (lines 140-142).  A free block stores its link in its own first eight bytes and, on
the list of large blocks, its size in the four bytes after that.  The model therefore has
one memory addressed by byte addresses, with the null pointer as address 0, in which the
list heads, the links inside free blocks and the clients' data all live.
-/

namespace Verif.Sma

open Prog

/-- The content of eight bytes of memory. -/
inductive Cell
  /-- a `Link_e`, i.e. a pointer to the next block (EmbeddedList.hpp:15-16) -/
  | link (p : Nat)
  /-- the `data` member of a `MemBlock_e` (StaticMemAllocator.hpp:49-55) -/
  | size (d : Int)
  /-- bytes that hold neither, e.g. whatever a client stored there.  Reading a link or a
  size from them is a fault. -/
  | raw (x : Nat)
  deriving DecidableEq, Repr

/-- The template arguments `MEMORY_SIZE`, `MAX_BLOCK_SIZE` (StaticMemAllocator.hpp:44)
and the address of the one instance (lines 144-147). -/
structure Cfg where
  obj : Nat
  M : Nat
  max : Nat
  deriving DecidableEq, Repr

/-- Address of `mMemoryPool_d`: it follows the four-byte `mFreeMemSize_d`
(StaticMemAllocator.hpp:140-141; 32-bit `int`). -/
def Cfg.base (c : Cfg) : Nat := c.obj + 4

/-- Number of entries of `mFreeMemList_d` (StaticMemAllocator.hpp:142). -/
def Cfg.N (c : Cfg) : Nat := c.max / 8 + 1

/-- Address of `mFreeMemList_d`: the first multiple of 8 after the pool
(StaticMemAllocator.hpp:140-142; eight-byte pointers). -/
def Cfg.lists (c : Cfg) : Nat := c.obj + (4 + c.M + 7) / 8 * 8

/-- The members of the instance (StaticMemAllocator.hpp:140-142): all memory, and
`mFreeMemSize_d`. -/
structure St where
  mem : Nat → Cell
  free : Int

/-- Overwrite one cell. -/
def upd (m : Nat → Cell) (a : Nat) (x : Cell) : Nat → Cell := fun b => if b = a then x else m b

/-- Eight bytes inside the pool, at a distance from its start that is a multiple of 8. -/
def Cfg.inPool (c : Cfg) (a : Nat) : Prop :=
  c.base ≤ a ∧ a + 8 ≤ c.base + c.M ∧ (a - c.base) % 8 = 0

/-- An entry of `mFreeMemList_d`. -/
def Cfg.inLists (c : Cfg) (a : Nat) : Prop :=
  c.lists ≤ a ∧ a + 8 ≤ c.lists + 8 * c.N ∧ (a - c.lists) % 8 = 0

instance (c : Cfg) (a : Nat) : Decidable (c.inPool a) := by unfold Cfg.inPool; infer_instance
instance (c : Cfg) (a : Nat) : Decidable (c.inLists a) := by unfold Cfg.inLists; infer_instance

section
variable (c : Cfg)

/-- Access to the eight bytes at `p`: never through the null pointer, and only to the pool
or the list heads.  Accesses that straddle two of the model's cells count as out of bounds.
The pool starts at an address that is 4 modulo 8, so the accesses to it are misaligned; they
are assumed to work all the same, as they do on x86. -/
def touch (p : Nat) : Prog St Unit := do
  check (p ≠ 0) .nullDeref
  check (c.inPool p ∨ c.inLists p) .outOfBounds

/-- Read `p->next` (EmbeddedList.hpp:16). -/
def rdNext (p : Nat) : Prog St Nat := do
  touch c p
  let s ← Prog.get
  match s.mem p with
  | .link q => pure q
  | _ => fail .uninit

/-- Write `p->next`. -/
def wrNext (p q : Nat) : Prog St Unit := do
  touch c p
  Prog.modify fun s => { s with mem := upd s.mem p (.link q) }

/-- Read `p->data` of a `MemBlock_e` (EmbeddedList.hpp:68-70; `data` is at offset 8). -/
def rdData (p : Nat) : Prog St Int := do
  check (p ≠ 0) .nullDeref
  touch c (p + 8)
  let s ← Prog.get
  match s.mem (p + 8) with
  | .size d => pure d
  | _ => fail .uninit

/-- Write `p->data` of a `MemBlock_e`. -/
def wrData (p : Nat) (d : Int) : Prog St Unit := do
  check (p ≠ 0) .nullDeref
  touch c (p + 8)
  Prog.modify fun s => { s with mem := upd s.mem (p + 8) (.size d) }

/-- An `int` result. -/
def int (x : Int) : Prog St Int := do
  check (-2 ^ 31 ≤ x ∧ x < 2 ^ 31) .overflow
  pure x

/-- `MEM_ALIGN_ROUND_UP` (StaticMemAllocator.hpp:79-81), modelled bit by bit in
`Verif.RoundUp`. -/
def alignUp (bytes : Int) : Prog St Int := do
  let r ← roundUpBits (BitVec.ofInt 32 bytes)
  pure r.toInt

/-- `SIZE_TO_INDEX_` (StaticMemAllocator.hpp:149-151). -/
def sizeToIndex (bytes : Int) : Prog St Int := do
  let r ← alignUp bytes
  pure (r.tdiv 8 - 1)

/-- `INDEX_TO_SIZE_` (StaticMemAllocator.hpp:153-155). -/
def indexToSize (index : Int) : Prog St Int := int ((index + 1) * 8)

/-- An `int` compared with the `unsigned long long` that `size()` returns
(Array.hpp:53-55, DStructSpec.hpp:72) is first converted to that type. -/
def u64 (i : Int) : Nat := (i % 2 ^ 64).toNat

/-- `&mFreeMemList_d[index]` (Array.hpp:77-81): negative indices count from the end. -/
def entry (index : Int) : Prog St Nat := do
  let j := if index < 0 then (c.N : Int) + index else index
  check (0 ≤ j ∧ j < c.N) .outOfBounds
  pure (c.lists + 8 * j.toNat)

/-- The constructor (StaticMemAllocator.hpp:58-63): a zeroed pool, all list heads null,
then the whole pool becomes the only block of the last list. -/
def construct : Prog St Unit := do
  Prog.set { mem := fun a => if c.inLists a then .link 0 else .raw 0, free := c.M }
  wrData c c.base c.M
  wrNext c c.base 0
  let h ← entry c (-1)
  wrNext c h c.base

/-- The loop of `insert_mem_block_to_list_d` (StaticMemAllocator.hpp:331-333). -/
def insertWalk (addr : Nat) (p : Nat) : Prog St Nat := do
  let q ← rdNext c p
  if q ≠ 0 ∧ addr > q then insertWalk addr q else pure p
partial_fixpoint

/-- `insert_mem_block_to_list_d` (StaticMemAllocator.hpp:320-343) with `Link_e::add`
(EmbeddedList.hpp:27-30). -/
def insert (addr : Nat) (size : Int) : Prog St Unit :=
  if size ≤ 0 then pure () else do
    let i ← sizeToIndex size
    let i : Int := if u64 i ≥ c.N - 1 then ((c.N - 1 : Nat) : Int) else i
    let h ← entry c i
    let p ← insertWalk c addr h
    let q ← rdNext c p
    wrNext c addr q
    wrNext c p addr
    Prog.when (i = ((c.N - 1 : Nat) : Int)) (do
      let b ← rdNext c p
      wrData c b size)

/-- The `MemBlock_e` by which the two allocators describe the block they took: its address
and size.  `none`: `data` was left uninitialised. -/
structure Found where
  next : Nat
  data : Option Int

/-- The search loop of `quick_mem_allocate_d` (StaticMemAllocator.hpp:201-204). -/
def quickSearch (i : Int) : Prog St Int :=
  if u64 i < c.N - 1 then do
    let h ← entry c i
    let q ← rdNext c h
    if q = 0 then quickSearch (i + 1) else pure i
  else pure i
partial_fixpoint

/-- `quick_mem_allocate_d` (StaticMemAllocator.hpp:194-219). -/
def quickAlloc (bytes : Int) : Prog St Found := do
  let bytes ← alignUp bytes
  let i ← sizeToIndex bytes
  let i ← quickSearch c i
  if u64 i = c.N - 1 then pure ⟨0, some 0⟩
  else do
    let h ← entry c i
    let t ← rdNext c h
    let d ← indexToSize i
    let r ← rdNext c t
    wrNext c h r
    pure ⟨t, some d⟩

/-- The first-fit loop of `mem_pool_allocate_d` (StaticMemAllocator.hpp:285-290). -/
def poolSearch (bytes : Int) (p : Nat) : Prog St Nat := do
  let q ← rdNext c p
  if q = 0 then pure p
  else do
    let d ← rdData c q
    if d ≥ bytes then pure p else poolSearch bytes q
partial_fixpoint

/-- `mem_pool_allocate_d` (StaticMemAllocator.hpp:277-303). -/
def poolAlloc (bytes : Int) : Prog St Found := do
  let bytes ← alignUp bytes
  let h ← entry c (-1)
  let p ← poolSearch c bytes h
  let t ← rdNext c p
  if t ≠ 0 then do
    let d ← rdData c t
    let r ← rdNext c t
    wrNext c p r
    pure ⟨t, some d⟩
  else pure ⟨0, none⟩

/-- `allocate`/`allocate_d` (StaticMemAllocator.hpp:69-71, 157-183). -/
def alloc (bytes : Int) : Prog St Nat := do
  let f ← (if bytes > c.max then poolAlloc c bytes
    else do
      let f ← quickAlloc c bytes
      if f.next = 0 then poolAlloc c bytes else pure f)
  if f.next = 0 then pure 0
  else do
    let a ← alignUp bytes
    let d ← (match f.data with
      | some d => pure d
      | none => fail .uninit)
    let frag ← int (d - a)
    insert c ((f.next : Int) + a).toNat frag
    let s ← Prog.get
    let n ← int (s.free - a)
    Prog.modify fun s => { s with free := n }
    pure f.next

/-- `deallocate`/`deallocate_d` (StaticMemAllocator.hpp:73-75, 185-190). -/
def dealloc (addr : Nat) (bytes : Int) : Prog St Bool :=
  if bytes ≤ 0 ∨ addr = 0 then pure false
  else do
    let a ← alignUp bytes
    insert c addr a
    let b ← alignUp bytes
    let s ← Prog.get
    let n ← int (s.free + b)
    Prog.modify fun s => { s with free := n }
    pure true

/-- `free_mem_size` (StaticMemAllocator.hpp:83-85). -/
def freeMemSize : Prog St Int := do
  let s ← Prog.get
  pure s.free

/-- The first loop of `max_free_mblock_size` (StaticMemAllocator.hpp:91-95). -/
def maxPool (p : Nat) (m : Int) : Prog St Int :=
  if p ≠ 0 then do
    let d ← rdData c p
    let q ← rdNext c p
    maxPool q (if m < d then d else m)
  else pure m
partial_fixpoint

/-- The second loop of `max_free_mblock_size` (StaticMemAllocator.hpp:101-103). -/
def maxQuick (i : Int) : Prog St Int :=
  if i ≥ 0 then do
    let h ← entry c i
    let q ← rdNext c h
    if q = 0 then maxQuick (i - 1) else pure i
  else pure i
partial_fixpoint

/-- `max_free_mblock_size` (StaticMemAllocator.hpp:87-108).  `back()` is the last entry
(Array.hpp:62-64). -/
def maxFree : Prog St Int := do
  let h ← entry c (c.N - 1)
  let p ← rdNext c h
  let m ← maxPool c p 0
  if m > 0 then pure m
  else do
    let i ← maxQuick c ((c.N : Int) - 1 - 1)
    indexToSize i

/-- The inner loop of `dump` (StaticMemAllocator.hpp:121-131), without the logging. -/
def dumpList (i : Nat) (p : Nat) (v : Int) : Prog St Int :=
  if p ≠ 0 then do
    let d ← (if i = c.N - 1 then rdData c p else indexToSize i)
    let v ← int (v + d)
    let q ← rdNext c p
    dumpList i q v
  else pure v
partial_fixpoint

/-- `dump` (StaticMemAllocator.hpp:114-137), without the logging: it recounts the free
memory and crashes when the counter disagrees. -/
def dump : Prog St Unit := do
  let v ← forRange c.N 0 (0 : Int) fun i v => do
    let h ← entry c i
    let p ← rdNext c h
    dumpList c i p v
  let s ← Prog.get
  check (¬ s.free ≠ v) .crash

/-- The innermost loop of `quick_mem_memory_merge_d` (StaticMemAllocator.hpp:238-263): look
for a neighbour of the block `first` in list `j`, from the block `second` on.  `firstLink`
and `secondLink` are the links that point to the two blocks.  The answer is
`secondMemBlockFlag`. -/
def mergeScan (i j : Nat) (firstLink first secondLink second : Nat) : Prog St Bool :=
  if second ≠ 0 then
    if (first : Int) - (j + 1) * 8 = second ∨ first + (i + 1) * 8 = second then do
      let q ← rdNext c first
      wrNext c firstLink q
      let r ← rdNext c second
      wrNext c secondLink r
      let sz ← indexToSize ((i : Int) + j + 1)
      insert c (if first < second then first else second) sz
      pure true
    else if first > second then pure false
    else do
      let q ← rdNext c second
      mergeScan i j firstLink first second q
  else pure false
partial_fixpoint

/-- The loop over the later lists in `quick_mem_memory_merge_d`
(StaticMemAllocator.hpp:234-264). -/
def mergeOthers (i : Nat) (firstLink first : Nat) (j : Nat) : Prog St Bool :=
  if j < c.N - 1 then do
    let h ← entry c j
    let second ← rdNext c h
    let found ← mergeScan c i j firstLink first h second
    if found then pure true else mergeOthers i firstLink first (j + 1)
  else pure false
partial_fixpoint

/-- The loop over list `i` in `quick_mem_memory_merge_d` (StaticMemAllocator.hpp:226-271). -/
def mergeList (i : Nat) (firstLink first : Nat) : Prog St Unit :=
  if first ≠ 0 then do
    let second ← rdNext c first
    if first + (i + 1) * 8 = second then do
      let r ← rdNext c second
      wrNext c firstLink r
      let sz ← indexToSize ((i : Int) * 2 + 1)
      insert c first sz
      let q ← rdNext c firstLink
      mergeList i firstLink q
    else do
      let found ← mergeOthers c i firstLink first (i + 1)
      if found then do
        let q ← rdNext c firstLink
        mergeList i firstLink q
      else do
        let q ← rdNext c first
        mergeList i first q
  else pure ()
partial_fixpoint

/-- `quick_mem_memory_merge_d` (StaticMemAllocator.hpp:221-273). -/
def quickMerge : Prog St Unit :=
  forRange (c.N - 1) 0 () fun i _ => do
    let h ← entry c i
    let first ← rdNext c h
    mergeList c i h first

/-- The loop of `mem_pool_memory_merge_d` (StaticMemAllocator.hpp:307-316). -/
def poolMergeLoop (p : Nat) : Prog St Unit :=
  if p ≠ 0 then do
    let next ← rdNext c p
    let d ← rdData c p
    if (p : Int) + d = next then do
      let e ← rdData c next
      let t ← int (d + e)
      wrData c p t
      let r ← rdNext c next
      wrNext c p r
      poolMergeLoop p
    else poolMergeLoop next
  else pure ()
partial_fixpoint

/-- `mem_pool_memory_merge_d` (StaticMemAllocator.hpp:305-317). -/
def poolMerge : Prog St Unit := do
  let h ← entry c (c.N - 1)
  let p ← rdNext c h
  poolMergeLoop c p

/-- `memory_merge`/`memory_merge_d` (StaticMemAllocator.hpp:110-112, 345-348). -/
def merge : Prog St Unit := do
  quickMerge c
  poolMerge c

/-! ## The port (port/static-memory/sma-dstruct-port.hpp) -/

/-- `port::allocate` (sma-dstruct-port.hpp:30-49), logging and dumping off: on failure
merge and retry; a second failure stops the program (`SMA_MEM_VERIFY`,
StaticMemAllocator.hpp:21). -/
def portAlloc (bytes : Int) : Prog St Nat := do
  let p ← alloc c bytes
  if p = 0 then do
    merge c
    let p ← alloc c bytes
    check (p ≠ 0) .crash
    pure p
  else pure p

/-- `port::deallocate` (sma-dstruct-port.hpp:51-61), logging and dumping off. -/
def portDealloc (addr : Nat) (bytes : Int) : Prog St Unit := do
  let ok ← dealloc c addr bytes
  check (ok = true) .crash

end

/-- `DefaultSMA` (sma-dstruct-port.hpp:28): one MiB, `MAX_BLOCK_SIZE` left at 128
(StaticMemAllocator.hpp:44), placed at `obj`. -/
def defaultSMA (obj : Nat) : Cfg := ⟨obj, 1024 * 1024, 128⟩

end Verif.Sma
