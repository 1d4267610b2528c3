import Verif.Utils

/-! # Properties of the comparators and helpers (C61, C63) -/

namespace Verif.Utils

open Prog

variable {α : Type}

/-- A strict total order. -/
structure StrictTotal (r : α → α → Bool) : Prop where
  irrefl : ∀ a, r a a = false
  trans : ∀ a b c, r a b = true → r b c = true → r a c = true
  total : ∀ a b, a ≠ b → r a b = true ∨ r b a = true

/-- **C61**, pointers: the specialisations for pointers are strict total orders, converse to
each other, with null below every other pointer and address order on the rest. -/
theorem pointer_comparators :
    StrictTotal lessPtr ∧ StrictTotal greaterPtr ∧ (∀ a b, greaterPtr a b = lessPtr b a) ∧
    (∀ p, p ≠ 0 → lessPtr 0 p = true) ∧ (∀ p q, p ≠ 0 → q ≠ 0 → (lessPtr p q = true ↔ p < q)) := by
  refine ⟨⟨?_, ?_, ?_⟩, ⟨?_, ?_, ?_⟩, ?_, ?_, ?_⟩ <;>
    simp only [lessPtr, greaterPtr] <;> intros <;> grind

/-- **C61**, other types: for a type whose own `<` and `>` are converse strict total orders,
`less` and `greater` are as well, and converse to each other. -/
theorem value_comparators (lt gt : α → α → Bool) (h : StrictTotal lt)
    (hc : ∀ a b, gt a b = lt b a) :
    StrictTotal (less lt) ∧ StrictTotal (greater gt) ∧ ∀ a b, greater gt a b = less lt b a := by
  refine ⟨⟨h.irrefl, h.trans, h.total⟩, ⟨fun a => ?_, fun a b c => ?_, fun a b hab => ?_⟩, hc⟩
  · rw [greater, hc]; exact h.irrefl a
  · simp only [greater, hc]; exact fun h1 h2 => h.trans c b a h2 h1
  · simp only [greater, hc]; exact (h.total a b hab).symm

/-- The hypotheses hold for the integers. -/
example : StrictTotal (fun a b : Int => decide (a < b)) ∧
    ∀ a b : Int, decide (a > b) = decide (b < a) := by
  refine ⟨⟨?_, ?_, ?_⟩, ?_⟩ <;> intros <;> simp_all <;> omega

/-- **C63**, `max`: the result is one of the arguments and neither exceeds it. -/
theorem max_greatest (lt gt : α → α → Bool) (h : StrictTotal lt) (hc : ∀ a b, gt a b = lt b a)
    (a b : α) : (max gt a b = a ∨ max gt a b = b) ∧ lt (max gt a b) a = false ∧
      lt (max gt a b) b = false := by
  have h1 := h.irrefl a
  have h2 := h.irrefl b
  unfold max
  rw [hc]
  by_cases hba : lt b a = true
  · rw [if_pos hba]
    refine ⟨Or.inl rfl, h1, ?_⟩
    cases hab : lt a b with
    | false => rfl
    | true => have := h.trans _ _ _ hab hba; rw [h1] at this; exact this.symm
  · rw [if_neg hba]
    exact ⟨Or.inr rfl, by simpa using hba, h2⟩

/-- **C63**, `abs`, for every `int` except `INT_MIN`: the result is the absolute value.
Missing for the full statement: `INT_MIN`, where it is false (`abs_min_overflow`). -/
theorem abs_partial {σ : Type} (s : σ) (a : Int) (h1 : -(2 ^ 31) < a) :
    Returns (abs a) s (a.natAbs : Int) s := by
  unfold abs Returns
  by_cases h : a ≥ 0
  · rw [if_pos h]
    show some (Except.ok (a, s)) = _
    rw [show ((a.natAbs : Nat) : Int) = a by omega]
  · rw [if_neg h, bind_returns (a := ()) (s' := s) (by unfold Returns check; rw [if_pos (by omega)])]
    show some (Except.ok (-a, s)) = _
    rw [show ((a.natAbs : Nat) : Int) = -a by omega]

/-- `abs` of the least `int` overflows. -/
theorem abs_min_overflow {σ : Type} (s : σ) : Faults (abs (-(2 ^ 31))) s .overflow := by
  unfold abs
  rw [if_neg (by decide)]
  apply bind_faults
  unfold Faults check
  rw [if_neg (by decide)]

/-- **C63**, `swap`: exchanges the two variables (which may be the same one) and changes no
other, whatever a moved-from object holds. -/
theorem swap_exchanges (mv : α → α) (a b c : Nat) (hca : c ≠ a) (hcb : c ≠ b) (s : Vars α) :
    ∃ s', Returns (swap mv a b c) s () s' ∧ s' a = s b ∧ s' b = s a ∧
      ∀ x, x ≠ a → x ≠ b → x ≠ c → s' x = s x := by
  have key : wp (swap mv a b c) (fun _ s' => s' a = s b ∧ s' b = s a ∧
      ∀ x, x ≠ a → x ≠ b → x ≠ c → s' x = s x) s := by
    unfold swap moveVar
    rw [wp_bind, if_neg (Ne.symm hca), wp_modify, wp_bind]
    by_cases hab : a = b
    · subst hab
      rw [if_pos rfl, wp_pure, if_neg hca, wp_modify]
      refine ⟨by grind, by grind, by grind⟩
    · rw [if_neg (Ne.symm hab), wp_modify, if_neg hcb, wp_modify]
      refine ⟨by grind, by grind, by grind⟩
  obtain ⟨_, s', h1, h2⟩ := key
  exact ⟨s', h1, h2⟩

/-- Different variables exist, also a repeated one. -/
example : (2 : Nat) ≠ 0 ∧ (2 : Nat) ≠ 1 := by decide

end Verif.Utils
