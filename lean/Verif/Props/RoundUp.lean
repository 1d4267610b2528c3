import Verif.RoundUp

/-! # Size rounding (C59) -/

namespace Verif.Sma

open Prog

theorem and_not7 (x : BitVec 32) : (x &&& ~~~(8#32 - 1#32)).toNat = x.toNat - x.toNat % 8 := by
  have h7 : (8#32 - 1#32) = 7#32 := rfl
  rw [h7]
  have h0 : ∀ y : BitVec 32, (x &&& ~~~y) + (x &&& y) = x := by
    intro y
    rw [BitVec.add_eq_or_of_and_eq_zero]
    · ext i; simp; cases x[i] <;> cases y[i] <;> rfl
    · ext i; simp; cases x[i] <;> cases y[i] <;> simp
  have h1 := h0 7#32
  have h2 : (x &&& 7#32).toNat = x.toNat % 8 := by
    rw [BitVec.toNat_and]
    exact Nat.and_two_pow_sub_one_eq_mod x.toNat 3
  have h3 : (x &&& ~~~7#32).toNat ≤ x.toNat := by
    rw [BitVec.toNat_and]; exact Nat.and_le_left
  have h4 := congrArg BitVec.toNat h1
  rw [BitVec.toNat_add, h2] at h4
  have := x.isLt
  have := Nat.mod_lt x.toNat (show 0 < 8 by decide)
  omega

/-- The bit trick computes `roundUp` for every `int` up to `INT_MAX - 8`, also negative ones. -/
theorem roundUpBits_eq {σ : Type} (s : σ) (b : BitVec 32) (hb : b.toInt + 8 < 2 ^ 31) :
    ∃ r, Returns (roundUpBits b) s r s ∧ r.toInt = roundUp b.toInt := by
  refine ⟨(b + 8#32 - 1#32) &&& ~~~(8#32 - 1#32), ?_, ?_⟩
  · unfold roundUpBits Returns
    rw [bind_returns (a := ()) (s' := s) (by unfold Returns check; rw [if_pos hb])]
    rfl
  · have h := and_not7 (b + 8#32 - 1#32)
    have hlt := b.isLt
    have hs : (b + 8#32 - 1#32).toNat = (b.toNat + 7) % 2 ^ 32 := by
      rw [BitVec.toNat_sub, BitVec.toNat_add]
      simp; omega
    rw [hs] at h
    rw [BitVec.toInt_eq_toNat_cond] at hb ⊢
    rw [h]
    unfold roundUp
    rw [BitVec.toInt_eq_toNat_cond]
    split at hb <;> split <;> omega

/-- **C59.**  For every request `n ≤ INT_MAX - 8` (positive or not), the rounding returns the least multiple
of 8 not below `n`.  Missing for the full statement: requests within 8 of `INT_MAX`, where
`bytes + 8` overflows (`roundUp_overflow`). -/
theorem roundUp_least_partial {σ : Type} (s : σ) (b : BitVec 32)
    (hb : b.toInt ≤ 2 ^ 31 - 1 - 8) :
    ∃ r, Returns (roundUpBits b) s r s ∧ 8 ∣ r.toInt ∧ b.toInt ≤ r.toInt ∧
      ∀ m, 8 ∣ m → b.toInt ≤ m → r.toInt ≤ m := by
  obtain ⟨r, h1, h2⟩ := roundUpBits_eq s b (by omega)
  refine ⟨r, h1, ?_, ?_, ?_⟩ <;> rw [h2] <;> unfold roundUp <;> intros <;> omega

/-- Such a request: 13 bytes. -/
example : (13#32).toInt ≤ 2 ^ 31 - 1 - 8 := by decide

/-- Requests within 8 of `INT_MAX` overflow, also `INT_MAX - 7` whose rounding is
representable. -/
theorem roundUp_overflow {σ : Type} (s : σ) (b : BitVec 32) (hb : 2 ^ 31 - 1 - 8 < b.toInt) :
    Faults (roundUpBits b) s .overflow := by
  unfold roundUpBits
  apply bind_faults
  unfold Faults check
  rw [if_neg (by omega)]

/-- Such requests exist. -/
example : 2 ^ 31 - 1 - 8 < (2147483640#32).toInt := by decide

end Verif.Sma
