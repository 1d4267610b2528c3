import Verif.SMAFacts

/-!
# The static allocator (C51-C57)

Vocabulary: `Verif.Spec.SMA`.  A block is a pair of address and size; the free lists are
read off the memory by following links (`FreeList`, `FreeBlock`); `Reach` are the states that
clients can bring about by allocating, giving back, merging and writing to their own blocks.
-/

namespace Verif.Sma

open Prog

variable {c : Cfg}

/-! ## Helpers of this file -/

theorem reach_alloc {w : World} (h : Reach c w) {n : Int} (hn : 0 < n) (hm : n + 8 < 2 ^ 31)
    {a : Nat} {s' : St} (hr : Returns (alloc c n) w.st a s') (ha : a ≠ 0) :
    Reach c ⟨s', (a, n) :: w.live⟩ := by
  refine Reach.step h (op := .alloc n) (a := a) ⟨hn, hm⟩ ?_
  unfold Returns step
  refine (bind_returns (onSt_returns hr)).trans ?_
  refine (bind_returns (a := ()) (s' := ⟨s', (a, n) :: w.live⟩) ?_).trans rfl
  unfold Returns Prog.modify
  simp only
  rw [if_neg ha]

theorem reach_merge {w : World} (h : Reach c w) {s' : St} (hr : Returns (merge c) w.st () s') :
    Reach c ⟨s', w.live⟩ := by
  refine Reach.step h (op := .merge) (a := 0) trivial ?_
  unfold Returns step
  exact (bind_returns (onSt_returns hr)).trans rfl

theorem reach_free {w : World} (h : Reach c w) {a : Nat} {n : Int} (hm : (a, n) ∈ w.live) {s' : St}
    {r : Bool} (hr : Returns (dealloc c a n) w.st r s') :
    Reach c ⟨s', w.live.erase (a, n)⟩ := by
  refine Reach.step h (op := .free a n) (a := 0) hm ?_
  unfold Returns step
  exact (bind_returns (onSt_returns hr)).trans rfl

/-! ## C51: disjoint blocks, robust against what clients write -/

/-- The constructor succeeds, wherever the object is placed. -/
theorem sma_construct (hc : Legal c) (s0 : St) : ∃ s, Returns (construct c) s0 () s := by
  obtain ⟨s, h, _⟩ := construct_ok hc s0
  exact ⟨s, h⟩

/-- **C51** (the allocator keeps working).  In every reachable state every permitted step
terminates without fault.  Since `Reach` includes arbitrary writes to the clients' blocks, no
such write corrupts the allocator.  Missing for the full statement: requests within 8 of
`INT_MAX` (`sma_huge_overflow`). -/
theorem sma_runs_partial (hc : Legal c) {w : World} (h : Reach c w) {op : Op} (hs : Safe w op) :
    ∃ a w', Returns (step c op) w a w' := by
  obtain ⟨L, hL⟩ := reach_inv hc h
  obtain ⟨a, w', _, h1, _⟩ := step_ok hL hc hs
  exact ⟨a, w', h1⟩

/-- **C51** (disjointness).  In every reachable state the blocks that clients hold, counted
with their full rounded size, lie in the pool, do not overlap each other, and overlap no block
on a free list; the blocks on the free lists lie in the pool and do not overlap either. -/
theorem sma_blocks_partial (hc : Legal c) {w : World} (h : Reach c w) :
    (∀ p ∈ w.live, p.1 ≠ 0 ∧ 0 < p.2 ∧ p.2 ≤ up8 p.2 ∧ InPool c (p.1, up8 p.2)) ∧
    (w.live.Pairwise fun p q => Disj (p.1, up8 p.2) (q.1, up8 q.2)) ∧
    (∀ p ∈ w.live, ∀ f, FreeBlock c w.st f → Disj (p.1, up8 p.2) f) ∧
    (∀ f, FreeBlock c w.st f → InPool c f ∧ 0 < f.2) ∧
    (∀ f f', FreeBlock c w.st f → FreeBlock c w.st f' → f ≠ f' → Disj f f') := by
  obtain ⟨L, hL⟩ := reach_inv hc h
  have hmem : ∀ p ∈ w.live, (p.1, up8 p.2) ∈ taken w.live :=
    fun p hp => List.mem_map.2 ⟨p, hp, rfl⟩
  refine ⟨?_, ?_, ?_, ?_, ?_⟩
  · intro p hp
    have hf := hL.1.fitsV (hmem p hp)
    have hn := (hL.2.2 p hp).1
    exact ⟨hf.ok.1, hn, (up8_pos hn).2.1, hf.1⟩
  · have := (List.pairwise_append.1 hL.1.tile.disj).2.1
    unfold taken at this
    rwa [List.pairwise_map] at this
  · intro p hp f hf
    obtain ⟨i, hi, hfi⟩ := mem_flat.1 (hL.1.freeBlock.1 hf)
    exact (hL.1.disj hi hfi (hmem p hp)).symm
  · intro f hf
    obtain ⟨i, hi, hfi⟩ := mem_flat.1 (hL.1.freeBlock.1 hf)
    have := hL.1.fits hi hfi
    exact ⟨this.1, this.2.2.2⟩
  · intro f f' hf hf' hne
    exact hL.1.tile.disj_mem (List.mem_append_left _ (hL.1.freeBlock.1 hf))
      (List.mem_append_left _ (hL.1.freeBlock.1 hf')) hne

/-- **C51** (the new block).  A block returned by `allocate(n)` lies in the pool, has room for
`n` bytes, and overlaps neither a block some client already holds nor a block that is then on
a free list. -/
theorem sma_alloc_partial (hc : Legal c) {w : World} (h : Reach c w) {n : Int} (hn : 0 < n)
    (hm : n + 8 < 2 ^ 31) {a : Nat} {s' : St} (hr : Returns (alloc c n) w.st a s') (ha : a ≠ 0) :
    InPool c (a, up8 n) ∧ n ≤ up8 n ∧ (∀ p ∈ w.live, Disj (a, up8 n) (p.1, up8 p.2)) ∧
    (∀ f, FreeBlock c s' f → Disj (a, up8 n) f) := by
  obtain ⟨h1, h2, h3, _, _⟩ := sma_blocks_partial hc (reach_alloc h hn hm hr ha)
  obtain ⟨_, _, g1, g2⟩ := h1 (a, n) List.mem_cons_self
  exact ⟨g2, g1, (List.pairwise_cons.1 h2).1, h3 (a, n) List.mem_cons_self⟩

/-- **C51** (the clients' data).  Allocating, giving back and merging leave every byte of the
blocks that stay with clients as it is. -/
theorem sma_contents (hc : Legal c) {w : World} (h : Reach c w) {op : Op} (hs : Safe w op)
    (hop : ∀ a n k x, op ≠ .write a n k x) {a : Nat} {w' : World}
    (hr : Returns (step c op) w a w') :
    ∀ p ∈ w.live, p ∈ w'.live → ∀ x, p.1 ≤ x → x < p.1 + up8 p.2 → w'.st.mem x = w.st.mem x := by
  obtain ⟨L, hL⟩ := reach_inv hc h
  intro p hp hp' x hx1 hx2
  cases op with
  | alloc n =>
    obtain ⟨_, w1, _, h1, _, h3, _⟩ := step_alloc_ok hL hc hs.1 hs.2
    obtain ⟨_, rfl⟩ := hr.det h1
    exact h3 (p.1, up8 p.2) (List.mem_map.2 ⟨p, hp, rfl⟩) x hx1 hx2
  | free b n =>
    obtain ⟨w1, _, h1, _, h3, h4, _⟩ := step_free_ok hL hc hs
    obtain ⟨_, rfl⟩ := hr.det h1
    rw [h4] at hp'
    exact h3 (p.1, up8 p.2) (List.mem_map.2 ⟨p, hp', rfl⟩) x hx1 hx2
  | merge =>
    obtain ⟨w1, _, _, h1, _, _, _, h3, _⟩ := step_merge_ok hL hc
    obtain ⟨_, rfl⟩ := hr.det h1
    exact h3 (p.1, up8 p.2) (List.mem_map.2 ⟨p, hp, rfl⟩) x hx1 hx2
  | write b n k x => exact absurd rfl (hop b n k x)

/-- Requests within 8 of `INT_MAX` overflow in the rounding, in every state. -/
theorem sma_huge_overflow (hc : Legal c) {n : Int} (h1 : n < 2 ^ 31) (h2 : 2 ^ 31 ≤ n + 8) (s : St) :
    Faults (alloc c n) s .overflow := by
  have := hc.maxint
  unfold alloc
  rw [if_pos (by omega)]
  apply bind_faults
  unfold poolAlloc
  exact bind_faults (alignUp_overflow h1 h2 s)

/-! ## C52: accounting -/

/-- **C52** (counters).  In every reachable state there are free lists, and whatever lists `L`
one reads off the memory: `free_mem_size()` is the pool size minus the rounded sizes of the
blocks clients hold, and also the sum of the sizes on the lists; the library's own
consistency check `dump()` passes. -/
theorem sma_accounting (hc : Legal c) {w : World} (h : Reach c w) :
    (∃ L : Nat → List Block, ∀ i, i ≤ c.max / 8 → FreeList c w.st i (L i)) ∧
    (∀ L : Nat → List Block, (∀ i, i ≤ c.max / 8 → FreeList c w.st i (L i)) →
      ∃ f : Int, Returns freeMemSize w.st f w.st ∧ f = c.M - total (taken w.live) ∧
        f = ((List.range (c.max / 8 + 1)).map fun i => (total (L i) : Int)).sum) ∧
    Returns (dump c) w.st () w.st := by
  obtain ⟨L, hL⟩ := reach_inv hc h
  have htot := hL.1.tile.total
  rw [total_append] at htot
  have hfree := hL.2.1
  have hsum : ∀ (K : Nat → List Block) (ks : List Nat), (total (ks.flatMap K) : Int) =
      (ks.map fun i => (total (K i) : Int)).sum := by
    intro K ks
    induction ks with
    | nil => rfl
    | cons k ks ih =>
      rw [List.flatMap_cons, total_append, List.map_cons, List.sum_cons, ← ih]
      omega
  refine ⟨⟨L, fun i hi => hL.1.freeList hi⟩, ?_, dump_ok hL.1 hc hL.2.1⟩
  intro K hK
  refine ⟨w.st.free, rfl, by omega, ?_⟩
  rw [hfree]
  unfold flat
  rw [hsum L]
  refine congrArg List.sum (List.map_congr_left fun i hi => ?_)
  have hi' : i ≤ c.max / 8 := by have := List.mem_range.1 hi; omega
  rw [freeList_det (hK i hi') (hL.1.freeList hi')]

/-- **C52** (largest block).  In every reachable state `max_free_mblock_size()` is the size of
the largest block on a free list, and 0 exactly when there is none. -/
theorem sma_max (hc : Legal c) {w : World} (h : Reach c w) :
    ∃ m : Nat, Returns (maxFree c) w.st m w.st ∧ (∀ f, FreeBlock c w.st f → f.2 ≤ m) ∧
      ((m = 0 ∧ ¬ ∃ f, FreeBlock c w.st f) ∨ (0 < m ∧ ∃ f, FreeBlock c w.st f ∧ f.2 = m)) := by
  obtain ⟨L, hL⟩ := reach_inv hc h
  obtain ⟨m, h1, h2, h3⟩ := maxFree_ok hL.1 hc
  refine ⟨m, h1, fun f hf => h2 f (hL.1.freeBlock.1 hf), ?_⟩
  rcases h3 with ⟨h3, h4⟩ | ⟨b, hb, h3⟩
  · left
    refine ⟨h3, ?_⟩
    rintro ⟨f, hf⟩
    have := hL.1.freeBlock.1 hf
    rw [h4] at this
    cases this
  · right
    have := (hL.1.tile.fits b (List.mem_append_left _ hb)).2.2.2
    exact ⟨by omega, b, hL.1.freeBlock.2 hb, h3⟩

/-! ## C53: success whenever possible -/

/-- **C53.**  In every reachable state `allocate(n)` returns null exactly when no free block
has at least `n` rounded up to 8 bytes, and then nothing has changed.  Missing for the full
statement: requests within 8 of `INT_MAX` (`sma_huge_overflow`). -/
theorem sma_success_partial (hc : Legal c) {w : World} (h : Reach c w) {n : Int} (hn : 0 < n)
    (hm : n + 8 < 2 ^ 31) :
    ∃ a s', Returns (alloc c n) w.st a s' ∧
      (a = 0 ↔ ¬ ∃ f, FreeBlock c w.st f ∧ up8 n ≤ f.2) ∧ (a = 0 → s' = w.st) := by
  obtain ⟨L, hL⟩ := reach_inv hc h
  rcases alloc_ok hL.1 hc hL.2.1 hn hm with ⟨h1, h2⟩ | ⟨i, pre, b, post, s', L', h1, h2, h3, h4, _⟩
  · refine ⟨0, w.st, h2, ⟨fun _ => ?_, fun _ => rfl⟩, fun _ => rfl⟩
    rintro ⟨f, hf, hle⟩
    obtain ⟨i, hi, hfi⟩ := mem_flat.1 (hL.1.freeBlock.1 hf)
    have := h1 i hi f hfi
    omega
  · have hbL : b ∈ L i := by rw [h2]; simp
    have hb0 := (hL.1.fits h1 hbL).ok.1
    refine ⟨b.1, s', h4, ⟨fun e => absurd e hb0, fun hno => ?_⟩, fun e => absurd e hb0⟩
    exact absurd ⟨b, hL.1.freeBlock.2 (mem_flat.2 ⟨i, h1, hbL⟩), h3⟩ hno

/-! ## C54: merging -/

/-- **C54.**  In every reachable state `memory_merge()` terminates without fault, keeps
`free_mem_size()` and every byte of the clients' blocks, puts every free block inside a free
block, so that `max_free_mblock_size()` does not shrink, and leaves no two adjacent blocks on
the list of large blocks. -/
theorem sma_merge (hc : Legal c) {w : World} (h : Reach c w) :
    ∃ s', Returns (merge c) w.st () s' ∧ s'.free = w.st.free ∧
      (∀ p ∈ w.live, ∀ x, p.1 ≤ x → x < p.1 + up8 p.2 → s'.mem x = w.st.mem x) ∧
      (∀ f, FreeBlock c w.st f → ∃ f', FreeBlock c s' f' ∧ f'.1 ≤ f.1 ∧ f.1 + f.2 ≤ f'.1 + f'.2) ∧
      (∃ m m' : Int, Returns (maxFree c) w.st m w.st ∧ Returns (maxFree c) s' m' s' ∧ m ≤ m') ∧
      (∀ f f', LargeBlock c s' f → LargeBlock c s' f' → f.1 + f.2 ≠ f'.1) := by
  obtain ⟨L, hL⟩ := reach_inv hc h
  obtain ⟨w', L1, L', _, h2, h3, h4, h5, h6, h7, h8, h9⟩ := step_merge_ok hL hc
  have hcov := (h6.join.trans h7.join).cover
  refine ⟨w'.st, h2, h8, ?_, ?_, ?_, ?_⟩
  · intro p hp x hx1 hx2
    exact h5 (p.1, up8 p.2) (List.mem_map.2 ⟨p, hp, rfl⟩) x hx1 hx2
  · intro f hf
    obtain ⟨b, hb, g1, g2⟩ := hcov f (hL.1.freeBlock.1 hf)
    exact ⟨b, h3.1.freeBlock.2 hb, g1, g2⟩
  · obtain ⟨m, g1, g2, g3⟩ := maxFree_ok hL.1 hc
    obtain ⟨m', g1', g2', g3'⟩ := maxFree_ok h3.1 hc
    refine ⟨m, m', g1, g1', ?_⟩
    rcases g3 with ⟨g3, _⟩ | ⟨b, hb, g3⟩
    · omega
    · obtain ⟨b', hb', e1, e2⟩ := hcov b hb
      have := g2' b' hb'
      omega
  · intro f f' hf hf' e
    have hf := h3.1.largeBlock.1 hf
    have hf' := h3.1.largeBlock.1 hf'
    have hpos := (h3.1.fits (Nat.le_refl _) hf).2.2.2
    -- in address order `f` comes before `f'`
    have hs := h3.1.sorted _ (Nat.le_refl (c.max / 8))
    have hboth := hs.and h9
    obtain ⟨pre, t, ef⟩ := List.append_of_mem hf
    rw [ef] at hf' hboth
    rcases List.mem_append.1 hf' with hp | hp
    · have := ((List.pairwise_append.1 hboth).2.2 f' hp f List.mem_cons_self).1
      omega
    · rcases List.mem_cons.1 hp with rfl | hp
      · omega
      · exact ((List.pairwise_cons.1 (List.pairwise_append.1 hboth).2.1).1 f' hp).2 e

/-! ## C55: recovering the whole pool -/

/-- **C55** (what holds).  When no client holds a block and `memory_merge()` has left only
large free blocks, a request for the whole pool succeeds.  Missing for the full statement:
small free blocks next to large ones are never joined with them (`sma_recover_wrong`). -/
theorem sma_recover_partial (hc : Legal c) {w : World} (h : Reach c w) (hl : w.live = [])
    {s' : St} (hr : Returns (merge c) w.st () s')
    (hlarge : ∀ f, FreeBlock c s' f → LargeBlock c s' f) :
    ∃ s'', Returns (alloc c c.M) s' c.base s'' := by
  obtain ⟨L, hL⟩ := reach_inv hc h
  obtain ⟨w', L1, L', _, h2, h3, h4, h5, h6, h7, h8, h9⟩ := step_merge_ok hL hc
  obtain ⟨_, rfl⟩ := hr.det h2
  have hM := hc.M16
  have hM8 := hc.M8
  have hMi := hc.Mint
  have hinv : Inv c w'.st L' [] := by
    have := h3.1
    rw [h4, hl] at this
    exact this
  have hsmall : ∀ i, i < c.max / 8 → L' i = [] := by
    intro i hi
    apply List.eq_nil_iff_forall_not_mem.2
    intro b hb
    have hq := h3.1.largeBlock.1 (hlarge b (h3.1.freeBlock.2 (mem_flat.2 ⟨i, by omega, hb⟩)))
    have hd := h3.1.disj_lists (Nat.le_of_lt hi) (Nat.le_refl _) (by omega) hb hq
    have := (h3.1.fits (by omega) hb).2.2.2
    unfold Disj at hd
    omega
  have hone := recovered hinv hc hsmall h9
  have hup : up8 (c.M : Int) = c.M := by unfold up8 roundUp; omega
  rcases alloc_ok h3.1 hc h3.2.1 (n := c.M) (by omega) (by omega) with
    ⟨g1, _⟩ | ⟨i, pre, b, post, s'', L'', g1, g2, g3, g4, _⟩
  · have := g1 _ (Nat.le_refl _) (c.base, c.M) (by rw [hone]; simp)
    rw [hup] at this
    simp at this
  · refine ⟨s'', ?_⟩
    have hbi : b ∈ L' i := by rw [g2]; simp
    have hiq : i = c.max / 8 := by
      rcases Nat.lt_or_ge i (c.max / 8) with hlt | hge
      · rw [hsmall i hlt] at hbi; cases hbi
      · omega
    rw [hiq, hone] at hbi
    rw [List.mem_singleton.1 hbi] at g4
    exact g4

/-- The states clients can bring about with requests that are multiples of `d`. -/
inductive ReachMul (c : Cfg) (d : Nat) : World → Prop
  | init {s0 s : St} : Returns (construct c) s0 () s → ReachMul c d ⟨s, []⟩
  | step {w w' : World} {op : Op} {a : Nat} : ReachMul c d w → Safe w op →
      (∀ n, op = .alloc n → (d : Int) ∣ n) → Returns (step c op) w a w' → ReachMul c d w'

theorem ReachMul.reach {d : Nat} {w : World} (h : ReachMul c d w) : Reach c w := by
  induction h with
  | init h => exact .init h
  | step _ hs _ hr ih => exact .step ih hs hr

theorem reachMul_inv (hc : Legal c) {d : Nat} (hd8 : d % 8 = 0) (hdM : d ∣ c.M) {w : World}
    (h : ReachMul c d w) : ∃ L, WInv c w L ∧ (∀ b ∈ flat (c.max / 8) L, d ∣ b.2) ∧
      ∀ p ∈ w.live, d ∣ up8 p.2 := by
  induction h with
  | init h =>
    refine ⟨_, winv_init hc h, ?_, by simp⟩
    intro b hb
    rw [List.mem_singleton.1 ((flat_init c).mem_iff.1 hb)]
    exact hdM
  | @step w0 w1 op0 a0 _ hs hmul hr ih =>
    obtain ⟨L, hL, hb, hp⟩ := ih
    cases op0 with
    | alloc n =>
      have hdn : d ∣ up8 n := by
        obtain ⟨k, hk⟩ := hmul n rfl
        obtain ⟨e, he⟩ : ∃ e, d = 8 * e := ⟨d / 8, by omega⟩
        have : roundUp n = n := by
          rw [hk, he, show ((8 * e : Nat) : Int) * k = 8 * ((e : Int) * k) by
            rw [Int.natCast_mul, Int.mul_assoc]; rfl]
          exact roundUp_mul _
        have h2 := up8_cast hs.1
        rw [this] at h2
        have : (d : Int) ∣ (up8 n : Int) := by rw [h2]; exact ⟨k, hk⟩
        exact Int.natCast_dvd_natCast.1 this
      obtain ⟨a, w', L', h1, h2, _, _, h4, h5⟩ := step_alloc_ok hL hc hs.1 hs.2
      obtain ⟨_, rfl⟩ := hr.det h1
      refine ⟨L', h2, h5 d hdn hb, ?_⟩
      rcases h4 with h4 | h4
      · rw [h4]; exact hp
      · rw [h4]
        intro p hp'
        rcases List.mem_cons.1 hp' with rfl | hp'
        · exact hdn
        · exact hp p hp'
    | free a n =>
      obtain ⟨w', L', h1, h2, _, h4, h5⟩ := step_free_ok hL hc hs
      obtain ⟨_, rfl⟩ := hr.det h1
      refine ⟨L', h2, ?_, ?_⟩
      · intro b hb'
        rcases List.mem_cons.1 (h5.flat.mem_iff.1 hb') with rfl | hb'
        · exact hp (a, n) hs
        · exact hb b hb'
      · rw [h4]; exact fun p hp' => hp p (List.mem_of_mem_erase hp')
    | merge =>
      obtain ⟨w', L1, L', h1, _, h3, h4, _, h6, h7, _⟩ := step_merge_ok hL hc
      obtain ⟨_, rfl⟩ := hr.det h1
      refine ⟨L', h3, (h6.join.trans h7.join).closed (fun h h' => Nat.dvd_add h h') hb, ?_⟩
      rw [h4]; exact hp
    | write a n k x =>
      obtain ⟨w', h1, h2, h3⟩ := step_write_ok hL hc hs.1 hs.2 x
      obtain ⟨_, rfl⟩ := hr.det h1
      exact ⟨L, h2, hb, by rw [h3]; exact hp⟩

/-- **C55** (a discipline under which it holds).  If all requests are multiples of one size
`d` that is larger than `MAX_BLOCK_SIZE`, divisible by 8, and divides the pool size, then after
giving everything back and merging, a request for the whole pool succeeds. -/
theorem sma_recover_multiples_partial (hc : Legal c) {d : Nat} (hd8 : d % 8 = 0) (hdM : d ∣ c.M)
    (hdmax : c.max < d) {w : World} (h : ReachMul c d w) (hl : w.live = []) :
    ∃ s' s'', Returns (merge c) w.st () s' ∧ Returns (alloc c c.M) s' c.base s'' := by
  obtain ⟨L, hL, hb, _⟩ := reachMul_inv hc hd8 hdM h
  obtain ⟨w', L1, L', _, h2, h3, h4, h5, h6, h7, h8, h9⟩ := step_merge_ok hL hc
  have hb' := (h6.join.trans h7.join).closed (fun h h' => Nat.dvd_add h h') hb
  obtain ⟨s'', hs''⟩ := sma_recover_partial hc h.reach hl h2 (by
    intro f hf
    have hf' := h3.1.freeBlock.1 hf
    obtain ⟨i, hi, hfi⟩ := mem_flat.1 hf'
    rcases Nat.lt_or_ge i (c.max / 8) with hlt | hge
    · have e1 := h3.1.small i hlt f hfi
      have e2 := Nat.le_of_dvd (by omega) (hb' f hf')
      omega
    · have : i = c.max / 8 := by omega
      subst this
      exact h3.1.largeBlock.2 hfi)
  exact ⟨_, s'', h2, hs''⟩

/-- **C55 is false.**  Whenever the pool is at least 16 bytes larger than the small sizes,
allocating 8 bytes, giving them back and merging leaves an allocator with all memory free in
which a request for the whole pool fails. -/
theorem sma_recover_wrong (hc : Legal c) (hM : 8 * (c.max / 8) + 16 ≤ c.M) (s0 : St) :
    ∃ (s1 : St) (a : Nat) (s2 s3 s4 : St), Returns (construct c) s0 () s1 ∧
      Returns (alloc c 8) s1 a s2 ∧ Returns (dealloc c a 8) s2 true s3 ∧
      Returns (merge c) s3 () s4 ∧ s4.free = c.M ∧ Returns (alloc c c.M) s4 0 s4 ∧
      Reach c ⟨s4, []⟩ := by
  have hM8 := hc.M8
  have hMi := hc.Mint
  have hmax := hc.max8
  have hup8 : up8 8 = 8 := rfl
  have hupM : up8 (c.M : Int) = c.M := by unfold up8 roundUp; omega
  obtain ⟨s1, h1⟩ := sma_construct hc s0
  have w1 := winv_init hc h1
  have r1 : Reach c ⟨s1, []⟩ := .init h1
  rcases alloc_ok w1.1 hc w1.2.1 (n := 8) (by omega) (by omega) with
    ⟨g1, _⟩ | ⟨i, pre, b, post, s2, L2, g1, g2, g3, g4, g5, g6, g7, g8⟩
  · have := g1 _ (Nat.le_refl _) (c.base, c.M) (by rw [initL, setL_self]; simp)
    rw [hup8] at this; simp only at this; omega
  -- the only free block was taken
  have hiq : i = c.max / 8 := by
    rcases Nat.lt_or_ge i (c.max / 8) with hlt | hge
    · rw [initL, setL_ne (by omega)] at g2; cases pre <;> cases g2
    · omega
  subst hiq
  have hL : pre = [] ∧ b = (c.base, c.M) ∧ post = [] := by
    rw [initL, setL_self] at g2
    cases pre with
    | nil => simp at g2; exact ⟨rfl, g2.1.symm, g2.2⟩
    | cons x pre => cases pre <;> simp at g2
  obtain ⟨rfl, rfl, rfl⟩ := hL
  have hrest : L2 = setL (fun _ => []) (c.max / 8) [(c.base + 8, c.M - 8)] := by
    rcases g8 with ⟨e, _⟩ | ⟨_, l, hp, rfl⟩
    · simp only [hup8] at e; omega
    · have e : idx c (c.M - 8) = c.max / 8 := idx_large (by omega)
      simp only [hup8, e] at hp ⊢
      rw [setL_self] at hp
      rw [perm_one hp, setL_setL, initL, setL_setL]
  simp only at g4
  have r2 : Reach c ⟨s2, [(c.base, 8)]⟩ := reach_alloc r1 (by omega) (by omega) g4
    (by unfold Cfg.base; omega)
  have w2 : WInv c ⟨s2, [(c.base, 8)]⟩ L2 := by
    refine ⟨g5, ?_, by simp⟩
    have t1 := w1.1.tile.total
    have t2 := g5.tile.total
    rw [total_append] at t1 t2
    simp only [taken, List.map_nil, total, hup8] at t1 t2
    have := w1.2.1
    simp only at this
    show s2.free = _
    rw [g7, hup8, this]; omega
  obtain ⟨w3, L3, k1, k2, _, k4, l3, k5, k6⟩ := step_free_ok w2 hc (a := c.base) (n := 8)
    List.mem_cons_self
  obtain ⟨s3, L3', d1, d2, d3, d4, d5⟩ := dealloc_ok g5 hc w2.2.1 (by omega) (by omega)
  have r3 : Reach c ⟨s3, []⟩ := by
    have := reach_free r2 (a := c.base) (n := 8) List.mem_cons_self d1
    simpa using this
  have hL3 : L3' = setL L2 0 [(c.base, 8)] := by
    obtain ⟨l, hp, rfl⟩ := d3
    simp only [hup8, idx_small hc] at hp ⊢
    have : L2 0 = [] := by rw [hrest, setL_ne (by omega)]
    rw [this] at hp
    rw [perm_one hp]
  have w3' : WInv c ⟨s3, []⟩ L3' := by
    refine ⟨d2, ?_, by simp⟩
    have t1 := d2.tile.total
    rw [total_append] at t1
    simp only [taken, List.map_nil, total] at t1
    have t2 := g5.tile.total
    rw [total_append] at t2
    simp only [taken, List.map_nil, total, hup8] at t2
    have := w2.2.1
    simp only at this
    show s3.free = _
    rw [d5, hup8, this]; omega
  obtain ⟨w4, L4a, L4, _, m2, m3, m4, _, m6, m7, m8, _⟩ := step_merge_ok w3' hc
  have e4a : L4a = L3' := by
    refine m6.one (fun b hb => (d2.tile.fits b (List.mem_append_left _ hb)).2.2.2) ?_
    have key : ∀ i x, i < c.max / 8 → x ∈ L3' i → x = (c.base, 8) := by
      intro i x hi hx
      rw [hL3] at hx
      by_cases e : i = 0
      · rw [e, setL_self] at hx; exact List.mem_singleton.1 hx
      · rw [setL_ne e, hrest, setL_ne (by omega)] at hx; cases hx
    intro i j x y hi hj hx hy
    rw [key i x hi hx, key j y hj hy]
  have e4 : L4 = L3' := by
    rw [← e4a]
    refine m7.one ?_
    rw [e4a, hL3, setL_ne (by omega), hrest, setL_self]
    simp
  refine ⟨s1, c.base, s2, s3, w4.st, h1, g4, d1, m2, ?_, ?_, reach_merge r3 m2⟩
  · rw [m8]
    have t1 := d2.tile.total
    rw [total_append] at t1
    simp only [taken, List.map_nil, total] at t1
    have := w3'.2.1
    simp only at this ⊢
    rw [this]; omega
  · rcases alloc_ok m3.1 hc m3.2.1 (n := c.M) (by omega) (by omega) with
      ⟨_, g2⟩ | ⟨i, pre, b, post, s', L', g1, g2, g3, _⟩
    · exact g2
    · exfalso
      have hb : b ∈ L4 i := by rw [g2]; simp
      rw [hupM] at g3
      rw [e4, hL3] at hb
      by_cases e : i = 0
      · rw [e, setL_self] at hb
        rw [List.mem_singleton.1 hb] at g3
        simp only at g3; omega
      · rw [setL_ne e, hrest] at hb
        by_cases e' : i = c.max / 8
        · rw [e', setL_self] at hb
          rw [List.mem_singleton.1 hb] at g3
          simp only at g3; omega
        · rw [setL_ne e'] at hb; cases hb

/-! ## C56: alignment -/

/-- **C56** (what holds).  Every address returned lies a multiple of 8 from the start of the
pool and is a multiple of 4. -/
theorem sma_align_partial (hc : Legal c) {w : World} (h : Reach c w) {n : Int} (hn : 0 < n)
    (hm : n + 8 < 2 ^ 31) {a : Nat} {s' : St} (hr : Returns (alloc c n) w.st a s') (ha : a ≠ 0) :
    (a - c.base) % 8 = 0 ∧ a % 4 = 0 := by
  obtain ⟨L, hL⟩ := reach_inv hc (reach_alloc h hn hm hr ha)
  have hf := hL.1.fitsV (b := (a, up8 n)) List.mem_cons_self
  have h1 : (a - c.base) % 8 = 0 := hf.2.1
  have h2 : c.base ≤ a := hf.1.1
  have h3 := hc.align
  refine ⟨h1, ?_⟩
  unfold Cfg.base at h1 h2
  omega

/-- **C56 is false.**  The pool follows a four-byte counter in an object aligned to 8, so no
address returned is ever a multiple of 8. -/
theorem sma_align_wrong (hc : Legal c) {w : World} (h : Reach c w) {n : Int} (hn : 0 < n)
    (hm : n + 8 < 2 ^ 31) {a : Nat} {s' : St} (hr : Returns (alloc c n) w.st a s') (ha : a ≠ 0) :
    a % 8 = 4 := by
  obtain ⟨L, hL⟩ := reach_inv hc (reach_alloc h hn hm hr ha)
  have hf := hL.1.fitsV (b := (a, up8 n)) List.mem_cons_self
  have h1 : (a - c.base) % 8 = 0 := hf.2.1
  have h2 : c.base ≤ a := hf.1.1
  have h3 := hc.align
  unfold Cfg.base at h1 h2
  omega

/-! ## C57: nonsensical requests -/

/-- **C57** (what holds).  `deallocate` of null or of a non-positive size returns false and
changes nothing, in every state.  Missing for the full statement: `allocate(n)` with `n ≤ 0`
never returns null (`sma_nonpositive_wrong`). -/
theorem sma_nonsense_partial (s : St) (a : Nat) (n : Int) (h : a = 0 ∨ n ≤ 0) :
    Returns (dealloc c a n) s false s := by
  unfold Returns dealloc
  rw [if_pos (by rcases h with h | h; exact Or.inr h; exact Or.inl h)]
  rfl

/-- **C57 is false for `allocate`.**  In no reachable state does a request for zero or fewer
bytes return null: it returns a block or goes wrong. -/
theorem sma_nonpositive_wrong (hc : Legal c) {w : World} (h : Reach c w) {n : Int} (h0 : n ≤ 0)
    (h1 : -2 ^ 31 ≤ n) :
    (∃ a s', Returns (alloc c n) w.st a s' ∧ a ≠ 0) ∨ ∃ e, Faults (alloc c n) w.st e := by
  obtain ⟨L, hL⟩ := reach_inv hc h
  rcases alloc_nonpos hL.1 hc h0 h1 (t := (n + 7) / 8) (by unfold roundUp; omega) with
    ⟨_, hf⟩ | ⟨k, _, hk, ⟨_, hf⟩ | ⟨b, post, e, h2, h3⟩⟩
  · exact Or.inr ⟨_, hf⟩
  · exact Or.inr ⟨_, hf⟩
  · by_cases hr : -2 ^ 31 ≤ w.st.free - 8 * ((n + 7) / 8) ∧ w.st.free - 8 * ((n + 7) / 8) < 2 ^ 31
    · exact Or.inl ⟨_, _, h2 hr.2 hr.1, (hL.1.fits hk (b := b) (by rw [e]; simp)).ok.1⟩
    · exact Or.inr ⟨_, h3 hr⟩

/-- What `allocate(0)` (or down to -7) does: when there are large free blocks it hands out the
first of them and loses it: the block is on no list afterwards, no byte is accounted for it,
and the library's own check `dump()` crashes. -/
theorem sma_zero_leaks (hc : Legal c) {w : World} (h : Reach c w) {n : Int} (h0 : n ≤ 0)
    (h1 : -8 < n) (hlarge : ∃ f, LargeBlock c w.st f) :
    ∃ f s', LargeBlock c w.st f ∧ Returns (alloc c n) w.st f.1 s' ∧ s'.free = w.st.free ∧
      ¬ FreeBlock c s' f ∧ Faults (dump c) s' .crash := by
  obtain ⟨L, hL⟩ := reach_inv hc h
  have hM := hc.Mint
  have htot := hL.1.tile.total
  rw [total_append] at htot
  have hfree := hL.2.1
  rcases alloc_nonpos hL.1 hc h0 (by omega) (t := 0) (by unfold roundUp; omega) with
    ⟨hlt, _⟩ | ⟨k, hk, hkq, ⟨he, _⟩ | ⟨b, post, e, h2, _⟩⟩
  · omega
  · exfalso
    have : k = c.max / 8 := by omega
    subst this
    obtain ⟨f, hf⟩ := hlarge
    have := hL.1.largeBlock.1 hf
    rw [he] at this
    cases this
  · have : k = c.max / 8 := by omega
    subst this
    have hbL : b ∈ L (c.max / 8) := by rw [e]; simp
    obtain ⟨t1, _⟩ := hL.1.take hc hkq (pre := []) (post := post) (b := b) e
    have hb0 := (hL.1.fits hkq hbL).2.2.2
    have hperm := flat_split L hkq
    have hperm2 := flat_set L ([] ++ post) hkq
    refine ⟨b, _, hL.1.largeBlock.2 hbL, h2 (by omega) (by omega), by simp, ?_, ?_⟩
    · intro hf
      have hf' := (t1.free (w.st.free - 8 * 0)).freeBlock.1 hf
      have hd := t1.tile.disj
      have := (List.pairwise_append.1 hd).2.2 b hf' b List.mem_cons_self
      unfold Disj at this; omega
    · refine dump_crash (t1.free (w.st.free - 8 * 0)) hc ?_
      have e1 := total_perm hperm
      have e2 := total_perm hperm2
      rw [total_append] at e1 e2
      rw [e] at e1
      simp only [total, List.nil_append] at e1 e2
      show w.st.free - 8 * 0 ≠ _
      rw [hfree]
      simp only [List.nil_append]
      omega

/-- When there are no large free blocks, `allocate(0)` (or down to -7) follows the null
pointer. -/
theorem sma_zero_faults (hc : Legal c) {w : World} (h : Reach c w) {n : Int} (h0 : n ≤ 0)
    (h1 : -8 < n) (hlarge : ¬ ∃ f, LargeBlock c w.st f) :
    Faults (alloc c n) w.st .nullDeref := by
  obtain ⟨L, hL⟩ := reach_inv hc h
  rcases alloc_nonpos hL.1 hc h0 (by omega) (t := 0) (by unfold roundUp; omega) with
    ⟨hlt, _⟩ | ⟨k, hk, hkq, ⟨_, hf⟩ | ⟨b, post, e, _⟩⟩
  · omega
  · exact hf
  · have : k = c.max / 8 := by omega
    subst this
    exact absurd ⟨b, hL.1.largeBlock.2 (by rw [e]; simp)⟩ hlarge

/-- A request for `-8·(q+1)` bytes or less, where `q` is the number of small sizes, indexes
the array of lists out of bounds. -/
theorem sma_negative_faults (hc : Legal c) {w : World} (h : Reach c w) {n : Int}
    (h0 : n ≤ -8 * ((c.max / 8 : Nat) + 1)) (h1 : -2 ^ 31 ≤ n) :
    Faults (alloc c n) w.st .outOfBounds := by
  obtain ⟨L, hL⟩ := reach_inv hc h
  rcases alloc_nonpos hL.1 hc (by omega) h1 (t := (n + 7) / 8) (by unfold roundUp; omega) with
    ⟨_, hf⟩ | ⟨k, hk, _⟩
  · exact hf
  · omega

/-! ## C58: the port -/

/-- **C58** (allocation).  In every reachable state, when a free block of the rounded size
exists after merging, `port::allocate(n)` returns a block, which together with the others the
clients hold is again a reachable state (so all theorems above apply to it: it lies in the
pool, and overlaps nothing); otherwise the program is stopped.  It never returns null.
Missing for the full statement: requests within 8 of `INT_MAX` (`sma_port_huge_overflow`). -/
theorem sma_port_alloc_partial (hc : Legal c) {w : World} (h : Reach c w) {n : Int} (hn : 0 < n)
    (hm : n + 8 < 2 ^ 31) {m : St} (hmerge : Returns (merge c) w.st () m) :
    ((∃ f, FreeBlock c m f ∧ up8 n ≤ f.2) → ∃ a s', Returns (portAlloc c n) w.st a s' ∧ a ≠ 0 ∧
      Reach c ⟨s', (a, n) :: w.live⟩ ∧ InPool c (a, up8 n) ∧
      (∀ p ∈ w.live, Disj (a, up8 n) (p.1, up8 p.2)) ∧ ∀ f, FreeBlock c s' f → Disj (a, up8 n) f) ∧
    ((¬ ∃ f, FreeBlock c m f ∧ up8 n ≤ f.2) → Faults (portAlloc c n) w.st .crash) := by
  have ok : ∀ {w : World}, Reach c w → ∀ {a s'}, Returns (alloc c n) w.st a s' → a ≠ 0 →
      Reach c ⟨s', (a, n) :: w.live⟩ ∧ InPool c (a, up8 n) ∧
      (∀ p ∈ w.live, Disj (a, up8 n) (p.1, up8 p.2)) ∧ ∀ f, FreeBlock c s' f → Disj (a, up8 n) f := by
    intro w h a s' hr ha
    obtain ⟨h1, _, h3, h4⟩ := sma_alloc_partial hc h hn hm hr ha
    exact ⟨reach_alloc h hn hm hr ha, h1, h3, h4⟩
  obtain ⟨a1, s1, f1, f2, f3⟩ := sma_success_partial hc h hn hm
  have hrm := reach_merge h hmerge
  obtain ⟨a2, s2, g1, g2, g3⟩ := sma_success_partial hc hrm hn hm
  constructor
  · intro hex
    by_cases ha1 : a1 = 0
    · have hs1 := f3 ha1
      subst ha1
      rw [hs1] at f1
      have ha2 : a2 ≠ 0 := fun e => (g2.1 e) hex
      refine ⟨a2, s2, ?_, ha2, ok hrm g1 ha2⟩
      unfold Returns portAlloc
      rw [bind_returns f1, if_pos rfl, bind_returns hmerge, bind_returns g1]
      rw [bind_returns (a := ()) (s' := s2) (by unfold Returns check; rw [if_pos ha2])]
      rfl
    · refine ⟨a1, s1, ?_, ha1, ok h f1 ha1⟩
      unfold Returns portAlloc
      rw [bind_returns f1, if_neg ha1]
      rfl
  · intro hno
    have ha1 : a1 = 0 := by
      apply f2.2
      rintro ⟨f, hf, hle⟩
      obtain ⟨s', e1, _, _, hcov, _⟩ := sma_merge hc h
      obtain ⟨_, rfl⟩ := hmerge.det e1
      obtain ⟨f', hf', e2, e3⟩ := hcov f hf
      exact hno ⟨f', hf', by omega⟩
    have hs1 := f3 ha1
    subst ha1
    rw [hs1] at f1
    have ha2 : a2 = 0 := g2.2 hno
    subst ha2
    unfold portAlloc Faults
    rw [bind_returns f1, if_pos rfl, bind_returns hmerge, bind_returns g1]
    exact bind_faults (by unfold Faults check; rw [if_neg (by simp)])

/-- **C58** (deallocation).  `port::deallocate` of a block a client holds, with its size, never
crashes, and the block is free again. -/
theorem sma_port_dealloc (hc : Legal c) {w : World} (h : Reach c w) {a : Nat} {n : Int}
    (hm : (a, n) ∈ w.live) :
    ∃ s', Returns (portDealloc c a n) w.st () s' ∧ Reach c ⟨s', w.live.erase (a, n)⟩ ∧
      FreeBlock c s' (a, up8 n) := by
  obtain ⟨L, hL⟩ := reach_inv hc h
  obtain ⟨hn, hb⟩ := hL.2.2 (a, n) hm
  obtain ⟨s', L', h1, h2, h3, _⟩ := dealloc_ok (hL.1.permV (taken_erase hm)) hc hL.2.1 hn hb
  refine ⟨s', ?_, reach_free h hm h1, h2.freeBlock.2 (h3.flat.mem_iff.2 List.mem_cons_self)⟩
  unfold Returns portDealloc
  rw [bind_returns h1]
  rfl

/-- **C58** (deallocation of nothing).  `port::deallocate` of the null pointer, or with a size that is
not positive, stops the program; unlike `free(nullptr)` it is not a no-op. -/
theorem sma_port_dealloc_nothing (s : St) (a : Nat) (n : Int) (h : a = 0 ∨ n ≤ 0) :
    Faults (portDealloc c a n) s .crash := by
  unfold portDealloc
  have := (sma_nonsense_partial (c := c) s a n h)
  exact (bind_returns this).trans (by unfold check; rw [if_neg (by simp)])

/-- Requests within 8 of `INT_MAX` overflow, in every state. -/
theorem sma_port_huge_overflow (hc : Legal c) {n : Int} (h1 : n < 2 ^ 31) (h2 : 2 ^ 31 ≤ n + 8)
    (s : St) : Faults (portAlloc c n) s .overflow :=
  bind_faults (sma_huge_overflow hc h1 h2 s)

/-! ## The hypotheses can be met -/

/-- The port's own configuration is supported. -/
theorem defaultSMA_legal : Legal (defaultSMA 4096) := by
  refine ⟨?_, ?_, ?_, ?_, ?_, ?_, ?_⟩ <;> decide

/-- A small pool. -/
def smallSMA : Cfg := ⟨4096, 1024, 128⟩

theorem smallSMA_legal : Legal smallSMA := by
  refine ⟨?_, ?_, ?_, ?_, ?_, ?_, ?_⟩ <;> decide

/-- From a state with a free block that is large enough, one more allocation. -/
theorem example_alloc (hc : Legal c) {w : World} (h : Reach c w) {n : Int} (hn : 0 < n)
    (hm : n + 8 < 2 ^ 31) (hf : ∃ f, FreeBlock c w.st f ∧ up8 n ≤ f.2) :
    ∃ a s', Returns (alloc c n) w.st a s' ∧ a ≠ 0 ∧ Reach c ⟨s', (a, n) :: w.live⟩ := by
  obtain ⟨a, s', h1, h2, _⟩ := sma_success_partial hc h hn hm
  have ha : a ≠ 0 := fun e => (h2.1 e) hf
  exact ⟨a, s', h1, ha, reach_alloc h hn hm h1 ha⟩

/-- A reachable state of the small pool in which a client holds a block of 100 bytes and has
written to it, and in which there is a large free block: allocate from a fresh pool. -/
theorem example_state : ∃ w : World, Reach smallSMA w ∧ (∃ a, w.live = [(a, 100)]) ∧
    ∃ f, LargeBlock smallSMA w.st f := by
  obtain ⟨s, h1⟩ := sma_construct smallSMA_legal ⟨fun _ => .raw 0, 0⟩
  have w1 := winv_init smallSMA_legal h1
  have r1 : Reach smallSMA ⟨s, []⟩ := .init h1
  rcases alloc_ok w1.1 smallSMA_legal w1.2.1 (n := 100) (by omega) (by omega) with
    ⟨g1, _⟩ | ⟨i, pre, b, post, s2, L2, g1, g2, g3, g4, g5, g6, g7, g8⟩
  · have := g1 _ (Nat.le_refl _) (smallSMA.base, smallSMA.M) (by rw [initL, setL_self]; simp)
    exact absurd this (by decide)
  have hb : b = (smallSMA.base, smallSMA.M) := by
    have hbi : b ∈ initL smallSMA i := by rw [g2]; simp
    exact List.mem_singleton.1 ((flat_init smallSMA).mem_iff.1 (mem_flat.2 ⟨i, g1, hbi⟩))
  subst hb
  have hup : up8 100 = 104 := rfl
  have r2 := reach_alloc r1 (by omega) (by omega) g4 (by decide)
  have hmem : ((smallSMA.base, (100 : Int))) ∈ [(smallSMA.base, (100 : Int))] := List.mem_cons_self
  have r3 := Reach.step r2 (op := .write smallSMA.base 100 3 (.link 77)) (a := 0)
    ⟨hmem, by decide⟩ rfl
  refine ⟨_, r3, ⟨smallSMA.base, rfl⟩, (smallSMA.base + 104, smallSMA.M - 104), ?_⟩
  obtain ⟨L, hL⟩ := reach_inv smallSMA_legal r3
  have w2 : Inv smallSMA s2 L2 (taken [(smallSMA.base, (100 : Int))]) := g5
  have w3 := w2.write smallSMA_legal (v := (smallSMA.base, up8 100)) (y := smallSMA.base + 8 * 3)
    (List.mem_map.2 ⟨_, hmem, rfl⟩) (by simp only; omega) (by rw [hup]; simp only; omega) (.link 77)
  refine (w3.largeBlock).2 ?_
  rcases g8 with ⟨e, _⟩ | ⟨_, l, hp, rfl⟩
  · exact absurd e (by decide)
  · have e : idx smallSMA (smallSMA.M - 104) = smallSMA.max / 8 := by decide
    simp only [hup, e] at hp ⊢
    rw [setL_self]
    exact hp.mem_iff.2 List.mem_cons_self

/-- C51-C54, C56 in such a state. -/
example : ∃ w : World, Reach smallSMA w ∧ w.live ≠ [] ∧
    ∃ a s', Returns (alloc smallSMA 40) w.st a s' ∧ a ≠ 0 ∧ a % 8 = 4 := by
  obtain ⟨w, h, ⟨a, hl⟩, f, hf⟩ := example_state
  have hbig : up8 40 ≤ f.2 := by
    obtain ⟨L, hL⟩ := reach_inv smallSMA_legal h
    rcases hL.1.big f (hL.1.largeBlock.1 hf) with h1 | h1
    · exact Nat.le_trans (by decide) h1
    · rw [h1]; decide
  obtain ⟨b, s', h1, h2, _⟩ := example_alloc smallSMA_legal h (n := 40) (by omega) (by omega)
    ⟨f, ⟨_, Nat.le_refl _, hf⟩, hbig⟩
  exact ⟨w, h, by rw [hl]; simp, b, s', h1, h2,
    sma_align_wrong smallSMA_legal h (by omega) (by omega) h1 h2⟩

/-- C55 fails for the port's configuration. -/
example (s0 : St) : ∃ (s1 : St) (a : Nat) (s2 s3 s4 : St),
    Returns (construct (defaultSMA 4096)) s0 () s1 ∧
    Returns (alloc (defaultSMA 4096) 8) s1 a s2 ∧
    Returns (dealloc (defaultSMA 4096) a 8) s2 true s3 ∧
    Returns (merge (defaultSMA 4096)) s3 () s4 ∧
    Returns (alloc (defaultSMA 4096) 1048576) s4 0 s4 := by
  obtain ⟨s1, a, s2, s3, s4, h1, h2, h3, h4, _, h6, _⟩ :=
    sma_recover_wrong defaultSMA_legal (by decide) s0
  exact ⟨s1, a, s2, s3, s4, h1, h2, h3, h4, h6⟩

/-- Such a discipline: blocks of 256 bytes in the port's pool. -/
example : ∃ w, ReachMul (defaultSMA 4096) 256 w ∧ w.live = [] ∧ 256 % 8 = 0 ∧
    256 ∣ (defaultSMA 4096).M ∧ (defaultSMA 4096).max < 256 := by
  obtain ⟨s, h1⟩ := sma_construct defaultSMA_legal ⟨fun _ => .raw 0, 0⟩
  exact ⟨⟨s, []⟩, .init h1, rfl, by decide, by decide, by decide⟩

/-- C57: a request for zero bytes in the state above leaks a block. -/
example : ∃ w : World, Reach smallSMA w ∧ ∃ a s', Returns (alloc smallSMA 0) w.st a s' ∧
    Faults (dump smallSMA) s' .crash := by
  obtain ⟨w, h, _, hf⟩ := example_state
  obtain ⟨f, s', _, h1, _, _, h2⟩ := sma_zero_leaks smallSMA_legal h (n := 0) (by omega) (by omega) hf
  exact ⟨w, h, f.1, s', h1, h2⟩

end Verif.Sma
