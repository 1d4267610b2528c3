import Verif.AllocSpec

/-! # Properties of `AllocSpec` (C08) -/

namespace Verif.AllocSpec

open Prog

theorem byteCount_eq (s : Nat) (n : Int) : byteCount s n = Int.bmod (n * s) (2 ^ 32) := by
  unfold byteCount
  have h1 : (n % 2 ^ 64 * s) % 2 ^ 64 = (n * s) % 2 ^ 64 := by
    rw [Int.mul_emod, Int.emod_emod_of_dvd _ (Int.dvd_refl _), ← Int.mul_emod]
  rw [h1, Int.bmod_def, Int.bmod_def]
  rw [Int.emod_emod_of_dvd (n * s) (m := ((2 ^ 32 : Nat) : Int)) (k := 2 ^ 64) ⟨2 ^ 32, rfl⟩]

/-- The objects `0 … n-1` of a block of `len` bytes holding objects of `s` bytes each lie in
the block. -/
def Fits (n : Int) (s len : Nat) : Prop := ∀ i : Nat, (i : Int) < n → i * s + s ≤ len

theorem allocate_pos {s : Nat} {n : Int} (h : Heap) (hb : 0 ≤ byteCount s n) :
    Returns (allocate s n) h h.next
      { blk := fun p => if p = h.next then some (byteCount s n).toNat else h.blk p
        next := h.next + 1
        calls := h.calls ++ [.allocate (byteCount s n)] } := by
  show malloc (byteCount s n) _ = _
  unfold malloc
  rw [if_neg (by omega)]

theorem allocate_neg {s : Nat} {n : Int} (h : Heap) (hb : byteCount s n < 0) :
    Returns (allocate s n) h 0 { h with calls := h.calls ++ [.allocate (byteCount s n)] } := by
  show malloc (byteCount s n) _ = _
  unfold malloc
  rw [if_pos hb]

theorem deallocate_live {s : Nat} {n : Int} {h : Heap} {p len : Nat} (hp : p ≠ 0)
    (hb : h.blk p = some len) :
    Returns (deallocate s p n) h ()
      { h with blk := fun q => if q = p then none else h.blk q
               calls := h.calls ++ [.deallocate p (byteCount s n)] } := by
  show free p _ = _
  unfold free
  rw [if_neg hp]
  simp only [hb]

/-- **C08**, for requests of less than `2^31` bytes.  `allocate(n)` passes exactly
`n * sizeof(T)` bytes to the underlying allocator and the block it returns holds `n` objects;
`deallocate(p, n)` passes the same number of bytes and releases the block.  Missing for the
full statement: requests of `2^31` bytes or more, where it is false
(`allocSpec_overflow`). -/
theorem allocSpec_bytes_partial (s : Nat) (n : Int) (hn : 0 ≤ n) (hb : n * s < 2 ^ 31) (h : Heap)
    (hfresh : h.next ≠ 0) :
    ∃ p h' h'', Returns (allocate s n) h p h' ∧ p ≠ 0 ∧
      h'.calls = h.calls ++ [.allocate (n * s)] ∧
      (∃ len, h'.blk p = some len ∧ (len : Int) = n * s ∧ Fits n s len) ∧
      (∀ q, q ≠ p → h'.blk q = h.blk q) ∧
      Returns (deallocate s p n) h' () h'' ∧ h''.calls = h'.calls ++ [.deallocate p (n * s)] ∧
      h''.blk p = none ∧ (∀ q, q ≠ p → h''.blk q = h.blk q) := by
  have hpos : 0 ≤ n * s := Int.mul_nonneg hn (by omega)
  have hbc : byteCount s n = n * s := by
    rw [byteCount_eq, Int.bmod_def]; split <;> omega
  have hA := allocate_pos (s := s) (n := n) h (by omega)
  rw [hbc] at hA
  have hD := deallocate_live (s := s) (n := n) (h := {
      blk := fun p => if p = h.next then some (n * s).toNat else h.blk p
      next := h.next + 1
      calls := h.calls ++ [.allocate (n * s)] }) (p := h.next) hfresh (if_pos rfl)
  rw [hbc] at hD
  refine ⟨h.next, _, _, hA, hfresh, rfl, ⟨(n * s).toNat, by simp, by omega, ?_⟩,
    fun q hq => if_neg hq, hD, rfl, by simp, fun q hq => by simp [hq]⟩
  intro i hi
  have : ((i : Int) + 1) * s ≤ n * s := Int.mul_le_mul_of_nonneg_right (by omega) (by omega)
  rw [Int.add_mul] at this
  have h2 : ((i * s : Nat) : Int) = (i : Int) * s := by simp
  omega

/-- The hypotheses are met at program start by a request for a thousand 24-byte objects. -/
example : (0 : Int) ≤ 1000 ∧ (1000 : Int) * (24 : Nat) < 2 ^ 31 ∧ Heap.init.next ≠ 0 := by decide

/-- A request of `2^31` bytes or more passes a wrong byte count: the result is null or a block
too small for the `n` objects. -/
theorem allocSpec_overflow (s : Nat) (n : Int) (hb : 2 ^ 31 ≤ n * s) (h : Heap) :
    ∃ p h' b, Returns (allocate s n) h p h' ∧ h'.calls = h.calls ++ [.allocate b] ∧ b ≠ n * s ∧
      (p = 0 ∨ ∃ len, h'.blk p = some len ∧ (len : Int) < n * s ∧ ¬ Fits n s len) := by
  have hlt : byteCount s n < n * s := by
    rw [byteCount_eq, Int.bmod_def]; split <;> omega
  by_cases hneg : byteCount s n < 0
  · exact ⟨0, _, byteCount s n, allocate_neg h hneg, rfl, by omega, Or.inl rfl⟩
  · refine ⟨h.next, _, byteCount s n, allocate_pos h (by omega), rfl, by omega, Or.inr ?_⟩
    refine ⟨(byteCount s n).toNat, by simp, by omega, ?_⟩
    intro hf
    have hn : 0 < n := by
      rcases Int.lt_or_le 0 n with h | h
      · exact h
      · have := Int.mul_nonneg (a := -n) (b := (s : Int)) (by omega) (by omega)
        rw [Int.neg_mul] at this
        omega
    have h1 := hf (n - 1).toNat (by omega)
    have h2 : (((n - 1).toNat * s : Nat) : Int) = (n - 1) * s := by
      rw [Int.natCast_mul]; congr 1; omega
    rw [Int.sub_mul] at h2
    omega

/-- Such a request: `2^30` objects of 4 bytes ask the underlying allocator for 0 bytes. -/
example : byteCount 4 (2 ^ 30) = 0 := by decide

end Verif.AllocSpec
