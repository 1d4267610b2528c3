import Verif.VectorGrow
import Verif.Props.VectorDirect

/-!
# How many elements `push_back` can put into the static pool (C100)

Vocabulary: `Verif.Spec.VectorGrow`.
-/

namespace Verif.Pool

open Prog Vec

variable {α : Type} {md : Sma.Mode} {c : Sma.Cfg} {K : Elem α}

/-! ## Helpers of this file -/

theorem fresh_blocks (hc : Sma.Legal c) {s0 s : Sma.St} (h0 : Returns (Sma.construct c) s0 () s) (b : Sma.Block) :
    Sma.FreeBlock c s b ↔ b = (c.base, c.M) := by
  have hw := Sma.winv_init hc h0
  rw [hw.1.freeBlock, (Sma.flat_init c).mem_iff, List.mem_singleton]

theorem fresh_alone (hc : Sma.Legal c) {s0 s : Sma.St} (h0 : Returns (Sma.construct c) s0 () s) :
    Alone c K .nil id (World.init : World α).mem s Vec.empty [] :=
  ⟨(WR.init h0).mem, Rep.empty (WR.init (α := α) (K := K) h0).mem.wf, Or.inl ⟨rfl, fresh_blocks hc h0⟩⟩

/-! ## C100 -/

/-- **C100.**  A vector alone in a fresh pool, filled by `push_back` only: all elements are there, in
order, exactly when the doubling of its storage fits (`Grows`); otherwise the program stops at a null
pointer.  The size of an element is a multiple of four, so that the storage of an even number of them
takes no more space than they do.  This holds with the merging port (`ENABLE_SMA`) as well as with the allocator used directly
(dstruct-static.hpp): merging never helps a growing vector. -/
theorem vector_pool_growth (hc : Sma.Legal c) (hM : 2 * c.M + 8 < 2 ^ 31)
    (hK : 2 * K.size + 8 < 2 ^ 31) (hq : K.size % 4 = 0) {s0 s : Sma.St}
    (h0 : Returns (Sma.construct c) s0 () s) (md : Sma.Mode) (xs : List α) :
    ((xs = [] ∨ Grows K.size c.M xs.length) → ∃ w,
      Returns (run md c K (.new 0 :: xs.map (.push 0))) ⟨s, fun _ => none⟩ () w ∧ Holds md c K w 0 xs) ∧
    (¬ (xs = [] ∨ Grows K.size c.M xs.length) →
      Faults (run md c K (.new 0 :: xs.map (.push 0))) ⟨s, fun _ => none⟩ .crash) := by
  have h := pushes_alone (md := md) hc hM hK hq xs
    (w := ⟨s, fun i => if i = 0 then some Vec.empty else none⟩) (fresh_alone (K := K) (α := α) hc h0) rfl
  rw [List.length_nil, Nat.zero_add, List.nil_append] at h
  have hn : Returns (step md c K (.new 0 : Op α)) ⟨s, fun _ => none⟩ ()
      ⟨s, fun i => if i = 0 then some Vec.empty else none⟩ := rfl
  exact ⟨fun hg => let ⟨w, r1, r2⟩ := h.1 hg; ⟨w, (bind_returns hn).trans r1, r2⟩,
    fun hg => (bind_returns hn).trans (h.2 hg)⟩

/-- **C100** (half of the pool).  The elements that `push_back` can put into the pool take at most half of
it and one element. -/
theorem vector_pool_growth_half {size pool n : Nat} (h : Grows size pool n) :
    2 * (size * n) ≤ pool + 2 * size := by
  obtain ⟨k, h1, h2⟩ := h
  have := Nat.mul_le_mul_left size h1
  rw [Nat.mul_sub, Nat.mul_left_comm] at h2
  omega

/-- **C100** (reserving).  A vector that is first given room for `n` elements by `resize(n)` takes any
number of elements up to `n` exactly when `n` elements fit into the pool: here the whole pool can be
used. -/
theorem vector_pool_reserve (hc : Sma.Legal c) {s0 s : Sma.St} (h0 : Returns (Sma.construct c) s0 () s)
    (md : Sma.Mode) {n : Nat} (hn : K.size * n + 8 < 2 ^ 31) {xs : List α} (hne : xs ≠ [])
    (hle : xs.length ≤ n) :
    (taken8 K.size n ≤ c.M → ∃ w,
      Returns (run md c K (.new 0 :: .resize 0 n :: xs.map (.push 0))) ⟨s, fun _ => none⟩ () w ∧
        Holds md c K w 0 xs) ∧
    (c.M < taken8 K.size n →
      Faults (run md c K (.new 0 :: .resize 0 n :: xs.map (.push 0))) ⟨s, fun _ => none⟩ .crash) := by
  have hlen : 0 < xs.length := List.length_pos_iff.2 hne
  have hn0 : n ≠ 0 := by omega
  have hnew : Returns (step md c K (.new 0 : Op α)) ⟨s, fun _ => none⟩ ()
      ⟨s, fun i => if i = 0 then some Vec.empty else none⟩ := rfl
  have hR := (WR.init (α := α) (K := K) h0).mem
  have hrep := Rep.empty hR.wf
  refine ⟨fun hfit => ?_, fun hbig => ?_⟩
  · obtain ⟨v', m', r1, p1, p2, _⟩ := resize_ok (triv := K.triv) hR.wf hrep n
    obtain ⟨f', s', e1, e2, e3, _⟩ := resize_grow (md := md) hc hR hrep.fresh hn0 hn
      ((fresh_blocks hc h0 _).2 rfl) hfit (fun b hb _ => (fresh_blocks hc h0 b).1 hb) r1
    obtain ⟨w, q1, q2⟩ := pushes_room (md := md) hc xs
      (w := ⟨s', fun i => if i = 0 then some (vmap f' v') else if i = 0 then some Vec.empty else none⟩) e2 p1 rfl
      (by rw [List.take_nil, p2, List.length_nil]; omega)
    rw [List.take_nil, List.nil_append] at q2
    refine ⟨w, (bind_returns hnew).trans ((bind_returns (a := ()) ?_).trans q1), q2⟩
    show Returns (_ >>= _) _ _ _
    unfold Returns
    rw [bind_returns (getObj_returns (v := Vec.empty) rfl)]
    exact (bind_returns (lift_returns (pw := ⟨s, fun i => if i = 0 then some Vec.empty else none⟩) e1)).trans rfl
  · refine (bind_returns hnew).trans ?_
    have hno := getBlock_none (md := md) (K := K) hc (.init h0) hn0 hn (fun t ht b hb => by
      obtain ⟨⟨_, g⟩, _⟩ := (Sma.sma_blocks_partial hc ht).2.2.2.1 b hb
      have := ((Sma.sma_blocks_partial hc ht).2.2.2.1 b hb).1.1
      unfold taken8 at hbig
      omega)
    obtain ⟨x, xs, rfl⟩ := List.exists_cons_of_ne_nil hne
    rcases hno with hf | ⟨s', hr⟩
    · refine bind_faults ?_
      show Faults (_ >>= _) _ _
      unfold Faults
      rw [bind_returns (getObj_returns (v := Vec.empty) rfl)]
      refine bind_faults (lift_faults ?_)
      unfold resize
      rw [if_neg hn0]
      exact bind_faults hf
    · have hres : Returns (resize (poolOps md c K) Vec.empty n) s ⟨0, n, 0⟩ s' := by
        unfold Returns resize
        rw [if_neg hn0, bind_returns hr]
        show some (Except.ok _) = some (Except.ok _)
        simp [Vec.empty]
      refine (bind_returns (a := ()) (s' := ⟨s', fun i => if i = 0 then some ⟨0, n, 0⟩ else if i = 0 then some Vec.empty else none⟩) ?_).trans ?_
      · show Returns (_ >>= _) _ _ _
        unfold Returns
        rw [bind_returns (getObj_returns (v := Vec.empty) rfl), bind_returns (lift_returns hres)]
        rfl
      · refine bind_faults ?_
        show Faults (_ >>= _) _ _
        unfold Faults
        rw [bind_returns (getObj_returns (v := ⟨0, n, 0⟩) rfl)]
        refine bind_faults (lift_faults ?_)
        unfold pushBack
        rw [if_neg (by show ¬ 0 + 1 > n; omega), pure_bind]
        refine bind_faults ?_
        show Faults (_ >>= _) _ _
        refine bind_faults ?_
        have : addr K 0 ((0 : Nat) : Int) = 0 := by rw [addr_nat]; omega
        show check (addr K 0 ((0 : Nat) : Int) ≠ 0) .crash _ = _
        rw [this]
        rfl

/-! ## Non-vacuity: a pool of 1024 bytes and numbers of four bytes -/

theorem small_grows (n : Nat) : Grows 4 1024 n ↔ n ≤ 128 := by
  constructor
  · rintro ⟨k, h1, h2⟩
    have : k < 7 := by
      refine Classical.byContradiction fun h => ?_
      have := Nat.pow_le_pow_right (n := 2) (by omega) (show 8 ≤ k + 1 by omega)
      omega
    have := Nat.pow_le_pow_right (n := 2) (by omega) (show k + 1 ≤ 7 by omega)
    omega
  · intro h
    exact ⟨6, by omega, by decide⟩

/-- Up to 128 numbers can be added one by one, 129 cannot. -/
example {s0 s : Sma.St} (h0 : Returns (Sma.construct Sma.smallSMA) s0 () s) (md : Sma.Mode) (xs : List (BitVec 32)) :
    (xs.length = 128 → ∃ w, Returns (run md Sma.smallSMA intElem (.new 0 :: xs.map (.push 0)))
      ⟨s, fun _ => none⟩ () w ∧ Holds md Sma.smallSMA intElem w 0 xs) ∧
    (xs.length = 129 → Faults (run md Sma.smallSMA intElem (.new 0 :: xs.map (.push 0)))
      ⟨s, fun _ => none⟩ .crash) := by
  obtain ⟨h1, h2⟩ := vector_pool_growth (K := intElem) Sma.smallSMA_legal (by decide) (by decide) rfl h0 md xs
  refine ⟨fun h => h1 (Or.inr ((small_grows _).2 (by omega))), fun h => h2 ?_⟩
  rintro (rfl | hg)
  · simp at h
  · have := (small_grows _).1 hg
    omega

/-- After `resize(256)` all 256 numbers that fit can be added; `resize(257)` is too much for the first. -/
example {s0 s : Sma.St} (h0 : Returns (Sma.construct Sma.smallSMA) s0 () s) (md : Sma.Mode) (xs : List (BitVec 32))
    (h : xs.length = 256) :
    (∃ w, Returns (run md Sma.smallSMA intElem (.new 0 :: .resize 0 256 :: xs.map (.push 0)))
      ⟨s, fun _ => none⟩ () w ∧ Holds md Sma.smallSMA intElem w 0 xs) ∧
    Faults (run md Sma.smallSMA intElem (.new 0 :: .resize 0 257 :: xs.map (.push 0)))
      ⟨s, fun _ => none⟩ .crash := by
  have hne : xs ≠ [] := by rintro rfl; simp at h
  exact ⟨(vector_pool_reserve (K := intElem) Sma.smallSMA_legal h0 md (n := 256) (by decide) hne (by omega)).1
    (by decide),
    (vector_pool_reserve (K := intElem) Sma.smallSMA_legal h0 md (n := 257) (by decide) hne (by omega)).2
    (by decide)⟩

end Verif.Pool
