import Verif.HeapSort
import Verif.VectorCost

/-! Helper lemmas: how many element assignments heap operations make. -/

namespace Verif.Heap

open Prog Vec

variable {α : Type}

/-- At most `a` assignments were made. -/
def Moves (m : Mem α) (a : Nat) (m' : Mem α) : Prop := m'.moved ≤ m.moved + a

theorem Moves.zero (m : Mem α) : Moves m 0 m := Nat.le_refl _

theorem Moves.trans {m m1 m2 : Mem α} {a b : Nat} (h1 : Moves m a m1) (h2 : Moves m1 b m2) : Moves m (a + b) m2 := by
  unfold Moves at *; omega

theorem Moves.le {m m' : Mem α} {a b : Nat} (h : Moves m a m') (h1 : a ≤ b) : Moves m b m' := by
  unfold Moves at *; omega

/-- At most `a` assignments were made and nothing was constructed. -/
def Shift (m : Mem α) (a : Nat) (m' : Mem α) : Prop := Moves m a m' ∧ m'.built = m.built

theorem Shift.zero (m : Mem α) : Shift m 0 m := ⟨Nat.le_refl _, rfl⟩

theorem Shift.trans {m m1 m2 : Mem α} {a b : Nat} (h1 : Shift m a m1) (h2 : Shift m1 b m2) : Shift m (a + b) m2 :=
  ⟨h1.1.trans h2.1, h2.2.trans h1.2⟩

theorem Shift.le {m m' : Mem α} {a b : Nat} (h : Shift m a m') (h1 : a ≤ b) : Shift m b m' := ⟨h.1.le h1, h.2⟩

/-! ## Vectors -/

theorem construct_moves {b : Nat} {i : Int} {e : Arg α} {m : Mem α} : wlp (construct b i e) (fun _ m' => Moves m 0 m') m := by
  refine wlp_bind (wlp_check fun _ => wlp_bind (wlp_mono get_spent ?_))
  rintro x t rfl
  refine wlp_bind (wlp_mono access_spent ?_)
  rintro ⟨k, j⟩ t rfl
  exact wlp_modify (Nat.le_refl _)

theorem destroy_moves {triv : Bool} {b : Nat} {i : Int} {m : Mem α} : wlp (destroy triv b i) (fun _ m' => Moves m 0 m') m := by
  refine wlp_bind (wlp_check fun _ => wlp_bind (wlp_mono access_spent ?_))
  rintro ⟨k, j⟩ t rfl
  exact wlp_bind (wlp_check fun _ => wlp_modify (Nat.le_refl _))

theorem assign_shift {b : Nat} {i : Int} {e : Arg α} {m : Mem α} : wlp (assign b i e) (fun _ m' => Shift m 1 m') m := by
  refine wlp_bind (wlp_mono get_spent ?_)
  rintro x t rfl
  refine wlp_bind (wlp_mono access_spent ?_)
  rintro ⟨k, j⟩ t rfl
  exact wlp_bind (wlp_check fun _ => wlp_modify ⟨Nat.le_refl _, rfl⟩)

theorem alloc_moves {n : Nat} {m : Mem α} : wlp (alloc n) (fun _ m' => Moves m 0 m') m := by
  intro a t hr; cases hr; exact Nat.le_refl _

theorem dealloc_moves {b n : Nat} {m : Mem α} : wlp (dealloc b n) (fun _ m' => Moves m 0 m') m := by
  intro a t hr
  unfold dealloc Returns at hr
  dsimp only at hr
  split at hr
  · cases hr
  · split at hr
    · cases hr; exact Nat.le_refl _
    · cases hr

theorem resize_moves {triv : Bool} {v : Vec} {n : Nat} {m : Mem α} :
    wlp (resize triv v n) (fun v' m' => v'.sz = min v.sz n ∧ Moves m 0 m') m := by
  have hs : (if n < v.sz then n else v.sz) = min v.sz n := by split <;> omega
  have h1 : wlp (if n = 0 then pure 0 else alloc n : Prog (Mem α) Nat) (fun _ m' => Moves m 0 m') m :=
    wlp_ite (fun _ => wlp_pure (Moves.zero m)) fun _ => alloc_moves
  refine wlp_bind (wlp_mono h1 fun c t ht => ?_)
  refine wlp_bind (wlp_when (fun _ => ?_) fun _ => wlp_pure ⟨hs, ht⟩)
  have := wlp_forRange (I := fun _ _ m' => Moves m 0 m') (f := fun (i : Nat) _ => do
      when (i < n) (construct c i (.ref v.c i))
      destroy triv v.c i) v.sz 0 () t ht fun i _ t _ _ hi =>
        wlp_bind (wlp_when (fun _ => wlp_mono construct_moves fun _ u hu =>
          wlp_mono destroy_moves fun _ u' hu' => (hi.trans hu).trans hu') fun _ =>
          wlp_mono destroy_moves fun _ u' hu' => hi.trans hu')
  refine wlp_bind (wlp_dassert fun _ => wlp_bind (wlp_mono this fun _ u hu => ?_))
  exact wlp_mono dealloc_moves fun _ u' hu' => wlp_pure ⟨hs, hu.trans hu'⟩

theorem ctorFill_moves {triv : Bool} {n : Nat} {e : Arg α} {m : Mem α} :
    wlp (ctorFill triv n e) (fun v' m' => v'.sz = n ∧ Moves m 0 m') m := by
  refine wlp_bind (wlp_dassert fun _ => wlp_bind (wlp_mono resize_moves fun v t ht => ?_))
  have := wlp_forRange (I := fun _ _ m' => Moves m 0 m') (f := fun (i : Nat) _ => construct v.c i e) n 0 () t ht.2
    fun i _ t _ _ hi => wlp_mono construct_moves fun _ u hu => hi.trans hu
  exact wlp_bind (wlp_mono this fun _ x hx => wlp_pure ⟨rfl, hx⟩)

theorem clear_moves {triv : Bool} {v : Vec} {m : Mem α} : wlp (clear triv v) (fun _ m' => Moves m 0 m') m := by
  refine wlp_bind (wlp_when (fun _ => ?_) fun _ => wlp_pure (Moves.zero m))
  have := wlp_forRange (I := fun _ _ m' => Moves m 0 m') (f := fun i _ => destroy triv v.c i) v.sz 0 () m (Moves.zero m)
    fun i _ t _ _ hi => wlp_mono destroy_moves fun _ u hu => hi.trans hu
  refine wlp_bind (wlp_mono this fun _ t ht => wlp_mono dealloc_moves fun _ u hu => wlp_pure (ht.trans hu))

theorem pushBack_moves {triv : Bool} {v : Vec} {e : Arg α} {m : Mem α} :
    wlp (pushBack triv v e) (fun v' m' => v'.sz = v.sz + 1 ∧ Moves m 0 m') m := by
  have : wlp (if v.sz + 1 > v.cap then
      (if v.sz ≠ 0 then resize triv v (2 * v.sz) else resize triv v 2)
    else pure v : Prog (Mem α) Vec) (fun v' m' => v'.sz = v.sz ∧ Moves m 0 m') m := by
    refine wlp_ite (fun _ => wlp_ite (fun _ => ?_) fun _ => ?_) fun _ => wlp_pure ⟨rfl, Moves.zero m⟩
    · exact wlp_mono resize_moves fun v' m' h => ⟨by omega, h.2⟩
    · exact wlp_mono resize_moves fun v' m' h => ⟨by omega, h.2⟩
  refine wlp_bind (wlp_mono this fun u t ht => wlp_bind (wlp_mono construct_moves fun _ x hx => wlp_pure ⟨?_, ht.2.trans hx⟩))
  simp only; omega

theorem popBack_moves {triv : Bool} {v : Vec} {m : Mem α} :
    wlp (popBack triv v) (fun v' m' => v'.sz ≤ v.sz - 1 ∧ Moves m 0 m') m := by
  refine wlp_bind (wlp_dassert fun _ => ?_)
  refine wlp_bind (wlp_mono destroy_moves fun _ t ht => wlp_ite (fun hc => ?_) fun hc => wlp_pure ⟨Nat.le_refl _, ht⟩)
  refine wlp_mono resize_moves fun _ u hu => ⟨?_, ht.trans hu.2⟩
  have := hu.1
  dsimp only at this
  omega

theorem index_moves {v : Vec} {i : Int} {m : Mem α} : wlp (index v i) (fun _ m' => m' = m) m :=
  wlp_bind (wlp_dassert fun _ => read_spent)

theorem setIndex_shift {v : Vec} {i : Int} {e : Arg α} {m : Mem α} :
    wlp (setIndex v i e) (fun _ m' => Shift m 1 m') m :=
  wlp_bind (wlp_dassert fun _ => assign_shift)

/-! ## Sifting -/

theorem log2_mono {a b : Nat} (h : a ≤ b) : a.log2 ≤ b.log2 := by
  by_cases ha : a = 0
  · subst ha; simp
  · rw [Nat.le_log2 (by omega)]
    exact Nat.le_trans ((Nat.le_log2 ha).1 (Nat.le_refl _)) h

theorem log2_half {n : Nat} (h : 2 ≤ n) : n.log2 = (n / 2).log2 + 1 := by
  rw [Nat.log2_def, if_pos h]

theorem swapAt_shift {v : Vec} {i j : Int} {m : Mem α} : wlp (swapAt v i j) (fun _ m' => Shift m 2 m') m := by
  refine wlp_bind (wlp_mono index_moves ?_)
  rintro x t rfl
  refine wlp_bind (wlp_mono index_moves ?_)
  rintro y t rfl
  exact wlp_bind (wlp_mono setIndex_shift fun _ u hu => wlp_mono setIndex_shift fun _ u' hu' => hu.trans hu')

theorem adjustUpLoop_shift {cmp : α → α → Bool} {v : Vec} (n : Nat) {m : Mem α} :
    wlp (adjustUpLoop cmp v n) (fun _ m' => Shift m (2 * n.log2) m') m := by
  induction n using Nat.strongRecOn generalizing m with
  | ind n ih =>
    rw [adjustUpLoop]
    refine wlp_ite (fun hn => ?_) fun _ => wlp_pure ((Shift.zero m).le (by omega))
    refine wlp_bind (wlp_mono index_moves ?_)
    rintro x t rfl
    refine wlp_bind (wlp_mono index_moves ?_)
    rintro y t rfl
    refine wlp_ite (fun _ => wlp_pure ((Shift.zero _).le (by omega))) fun _ => ?_
    refine wlp_bind (wlp_mono swapAt_shift fun _ u hu => ?_)
    have hn : 2 ≤ n := by omega
    refine wlp_mono (@ih (n / 2) (by omega) u) fun _ u' hu' => (hu.trans hu').le ?_
    rw [log2_half hn]; omega

theorem adjustDownLoop_shift {cmp : α → α → Bool} {v : Vec} {h : Nat} (k p : Nat) (hp : 1 ≤ p) (hk : ((h - 1) / p).log2 ≤ k) {m : Mem α} :
    wlp (adjustDownLoop cmp v h p) (fun _ m' => Shift m (2 * k) m') m := by
  induction k generalizing p m with
  | zero =>
    rw [adjustDownLoop]
    have hlt : ¬ 2 * p < h := by
      intro hc
      have : 2 ≤ (h - 1) / p := by rw [Nat.le_div_iff_mul_le (by omega)]; omega
      rw [log2_half this] at hk; omega
    refine wlp_bind (wlp_check fun _ => ?_)
    dsimp only
    rw [if_neg (by omega)]
    refine wlp_bind (wlp_pure ?_)
    rw [if_neg (by omega)]
    refine wlp_bind (wlp_pure ?_)
    rw [if_pos rfl]
    exact wlp_pure (Shift.zero m)
  | succ k ih =>
    rw [adjustDownLoop]
    refine wlp_bind (wlp_check fun _ => ?_)
    dsimp only
    have h1 : wlp (if (2 * p : Int) < h then do
        let a ← index v p
        let b ← index v (2 * p)
        pure (if cmp a b then (p : Int) else 2 * p)
      else pure (p : Int) : Prog (Mem α) Int) (fun t m' => m' = m ∧ (t = p ∨ t = 2 * p ∧ 2 * p < h)) m := by
      refine wlp_ite (fun hc => ?_) fun _ => wlp_pure ⟨rfl, Or.inl rfl⟩
      refine wlp_bind (wlp_mono index_moves ?_)
      rintro x t rfl
      refine wlp_bind (wlp_mono index_moves ?_)
      rintro y t rfl
      refine wlp_pure ⟨rfl, ?_⟩
      split
      · exact Or.inl rfl
      · exact Or.inr ⟨rfl, by omega⟩
    refine wlp_bind (wlp_mono h1 ?_)
    rintro t m1 ⟨rfl, ht⟩
    have h2 : wlp (if (2 * p + 1 : Int) < h then do
        let a ← index v t
        let b ← index v (2 * p + 1)
        pure (if cmp a b then t else 2 * p + 1)
      else pure t : Prog (Mem α) Int) (fun t' m' => m' = m1 ∧ (t' = p ∨ ∃ q : Nat, t' = q ∧ 2 * p ≤ q ∧ q < h)) m1 := by
      have hold : t = p ∨ ∃ q : Nat, t = q ∧ 2 * p ≤ q ∧ q < h := by
        rcases ht with e | ⟨e, hl⟩
        · exact Or.inl e
        · exact Or.inr ⟨2 * p, by omega, by omega, hl⟩
      refine wlp_ite (fun hc => ?_) fun _ => wlp_pure ⟨rfl, hold⟩
      refine wlp_bind (wlp_mono index_moves ?_)
      rintro x t rfl
      refine wlp_bind (wlp_mono index_moves ?_)
      rintro y t rfl
      refine wlp_pure ⟨rfl, ?_⟩
      split
      · exact hold
      · exact Or.inr ⟨2 * p + 1, by omega, by omega, by omega⟩
    refine wlp_bind (wlp_mono h2 ?_)
    rintro t' m2 ⟨rfl, ht'⟩
    refine wlp_ite (fun _ => wlp_pure ((Shift.zero _).le (by omega))) fun hne => ?_
    rcases ht' with e | ⟨q, rfl, hq1, hq2⟩
    · exact absurd e hne
    refine wlp_bind (wlp_mono swapAt_shift fun _ u hu => ?_)
    have hlog : ((h - 1) / q).log2 ≤ k := by
      have e1 : (h - 1) / q ≤ (h - 1) / p / 2 := by
        rw [Nat.div_div_eq_div_mul, Nat.mul_comm p 2]
        exact Nat.div_le_div_left hq1 (by omega)
      have e2 : 2 ≤ (h - 1) / p := by rw [Nat.le_div_iff_mul_le (by omega)]; omega
      have := log2_mono e1
      rw [log2_half e2] at hk
      omega
    exact wlp_mono (ih q (by omega) hlog (m := u)) fun _ u' hu' => (hu.trans hu').le (by omega)

theorem toInt_bmod {n : Nat} (h : n < 2 ^ 31) : Int.bmod (n : Int) (2 ^ 32) = n := by
  rw [Int.bmod_eq_of_le] <;> omega

theorem adjustDown_shift {cmp : α → α → Bool} {v : Vec} {p : Nat} {m : Mem α} (hp : 1 ≤ p) (hv : v.sz < 2 ^ 31) :
    wlp (adjustDown cmp v p) (fun _ m' => Shift m (2 * ((v.sz - 1) / p).log2) m') m := by
  unfold adjustDown
  rw [toInt_bmod hv]
  exact adjustDownLoop_shift _ _ hp (Nat.le_refl _)

/-! ## Heap operations -/

theorem push_moves {triv : Bool} {cmp : α → α → Bool} {v : Vec} {e : Arg α} {m : Mem α} (hv : v.sz < 2 ^ 31) :
    wlp (push triv cmp v e) (fun v' m' => v'.sz = v.sz + 1 ∧ Moves m (2 * v.sz.log2) m') m := by
  refine wlp_bind (wlp_mono pushBack_moves fun u t ht => ?_)
  have e : Int.bmod ((u.sz : Int) - 1) (2 ^ 32) = (v.sz : Nat) := by
    rw [show (u.sz : Int) - 1 = (v.sz : Nat) by omega]
    exact toInt_bmod hv
  refine wlp_bind ?_
  unfold adjustUp
  rw [e]
  exact wlp_mono (adjustUpLoop_shift v.sz) fun _ u' hu' => wlp_pure ⟨ht.1, (ht.2.trans hu'.1).le (by omega)⟩

theorem pop_moves {triv : Bool} {cmp : α → α → Bool} {v : Vec} {m : Mem α} (hv : v.sz < 2 ^ 31) :
    wlp (pop triv cmp v) (fun v' m' => v'.sz ≤ v.sz - 1 ∧ Moves m (1 + 2 * (v.sz - 2).log2) m') m := by
  refine wlp_bind (wlp_bind (wlp_dassert fun _ => wlp_mono read_spent ?_))
  rintro x t rfl
  refine wlp_bind (wlp_mono setIndex_shift fun _ t1 h1 => ?_)
  refine wlp_bind (wlp_mono popBack_moves fun u t2 h2 => ?_)
  refine wlp_bind (wlp_mono (adjustDown_shift (p := 1) (by omega) (by omega)) fun _ t3 h3 => ?_)
  refine wlp_pure ⟨h2.1, ((h1.1.trans h2.2).trans h3.1).le ?_⟩
  have := log2_mono (show (u.sz - 1) / 1 ≤ v.sz - 2 by rw [Nat.div_one]; omega)
  omega

/-- Total height of nodes `1 … k` of a heap of `n` elements. -/
def heights (n : Nat) : Nat → Nat
  | 0 => 0
  | k + 1 => (n / (k + 1)).log2 + heights n k

theorem heights_half {n : Nat} (k : Nat) (h : k ≤ n / 2) : heights n k = heights (n / 2) k + k := by
  induction k with
  | zero => rfl
  | succ k ih =>
    simp only [heights]
    rw [ih (by omega)]
    have h2 : 2 ≤ n / (k + 1) := by rw [Nat.le_div_iff_mul_le (by omega)]; omega
    rw [log2_half h2, Nat.div_div_eq_div_mul, Nat.mul_comm, ← Nat.div_div_eq_div_mul]
    omega

theorem heights_leaf {n : Nat} (j : Nat) : heights n (n / 2 + j) = heights n (n / 2) := by
  induction j with
  | zero => rfl
  | succ j ih =>
    rw [← Nat.add_assoc]
    simp only [heights]
    rw [ih, Nat.log2_def, if_neg, Nat.zero_add]
    intro hc
    rw [Nat.le_div_iff_mul_le (by omega)] at hc
    omega

/-- The heights of the parents of a heap add up to at most the number of elements. -/
theorem heights_le (n : Nat) : heights n (n / 2) ≤ n := by
  induction n using Nat.strongRecOn with
  | ind n ih =>
    by_cases h : n = 0
    · subst h; exact Nat.le_refl _
    · rw [heights_half _ (Nat.le_refl _)]
      have := ih (n / 2) (by omega)
      have e := heights_leaf (n := n / 2) (n / 2 - n / 2 / 2)
      rw [show n / 2 / 2 + (n / 2 - n / 2 / 2) = n / 2 by omega] at e
      omega

theorem ctorRange_moves {triv : Bool} {cmp : α → α → Bool} {obj : α} {n : Nat} {src : Nat → Arg α} {m : Mem α}
    (hn : n + 1 < 2 ^ 31) :
    wlp (ctorRange triv cmp obj n src) (fun v' m' => v'.sz = n + 1 ∧ Moves m (2 * n) m') m := by
  refine wlp_bind (wlp_mono ctorFill_moves fun v t ht => ?_)
  refine wlp_bind (wlp_mono resize_moves fun v1 t1 ht1 => ?_)
  have h1 := wlp_forRange (I := fun i (v' : Vec) m' => v'.sz = i + 1 ∧ Moves m 0 m')
    (f := fun i v => pushBack triv v (src i)) n 0 v1 t1 ⟨by omega, ht.2.trans ht1.2⟩
    fun i v' u _ _ hi => wlp_mono pushBack_moves fun v2 u2 h2 => ⟨by omega, hi.2.trans h2.2⟩
  refine wlp_bind (wlp_mono h1 fun v2 t2 ht2 => ?_)
  have hs : v2.sz = n + 1 := by omega
  dsimp only
  rw [hs, Nat.add_sub_cancel]
  have h2 := wlp_forRange (I := fun i (_ : Unit) m' => m'.moved + 2 * heights n (n / 2 - i) ≤ m.moved + 2 * heights n (n / 2))
    (f := fun i _ => adjustDown cmp v2 ((n / 2 - i : Nat) : Int)) (n / 2) 0 () t2 (by have := ht2.2; unfold Moves at this; simp only [Nat.sub_zero]; omega)
    fun i _ u _ hi hu => wlp_mono (adjustDown_shift (p := n / 2 - i) (by omega) (by omega)) fun _ u2 h2 => by
      replace h2 := h2.1
      unfold Moves at h2
      rw [show n / 2 - i = (n / 2 - (i + 1)) + 1 by omega, heights] at hu
      rw [show n / 2 - i = (n / 2 - (i + 1)) + 1 by omega, show v2.sz - 1 = n by omega] at h2
      omega
  refine wlp_bind (wlp_mono h2 fun _ t3 h3 => wlp_pure ⟨hs, ?_⟩)
  have := heights_le n
  unfold Moves; omega

theorem build_moves {triv : Bool} {cmp : α → α → Bool} {obj : α} {b lo n : Nat} {m : Mem α} (hn : n + 1 < 2 ^ 31) :
    wlp (build triv cmp obj b lo n) (fun _ m' => Moves m (3 * n) m') m := by
  refine wlp_bind (wlp_mono (ctorRange_moves hn) fun v t ht => ?_)
  have h1 := wlp_forRange (I := fun i (_ : Unit) m' => Moves m (2 * n + i) m')
    (f := fun i _ => assign b ((lo + i : Nat) : Int) (.ref v.c ((1 + i : Nat) : Int))) n 0 () t ht.2
    fun i _ u _ _ hi => wlp_mono assign_shift fun _ u2 h2 => hi.trans h2.1
  exact wlp_bind (wlp_mono h1 fun _ t2 ht2 => wlp_pure (ht2.le (by omega)))

theorem sort_moves {triv : Bool} {cmp : α → α → Bool} {obj : α} {b lo n : Nat} {m : Mem α} (hn : n + 1 < 2 ^ 31) :
    wlp (sort triv cmp obj b lo n) (fun _ m' => Moves m (4 * n + 2 * (n * n.log2)) m') m := by
  refine wlp_bind (wlp_mono (ctorRange_moves hn) fun v t ht => ?_)
  have h1 := wlp_forRange (I := fun i (v' : Vec) m' => v'.sz ≤ n + 1 ∧ Moves m (2 * n + i * (2 + 2 * n.log2)) m')
    (f := fun i h => do
      let x ← top h
      assign b ((lo + i : Nat) : Int) (.val x)
      pop triv cmp h) n 0 v t ⟨by omega, ht.2.le (by omega)⟩
    fun i v' u _ _ hi => by
      refine wlp_bind (wlp_mono index_moves ?_)
      rintro x u1 rfl
      refine wlp_bind (wlp_mono assign_shift fun _ u2 h2 => ?_)
      refine wlp_mono (pop_moves (by omega)) fun v2 u3 h3 => ⟨by omega, ?_⟩
      have := log2_mono (show v'.sz - 2 ≤ n by omega)
      refine ((hi.2.trans h2.1).trans h3.2).le ?_
      rw [show (i + 1) * (2 + 2 * n.log2) = i * (2 + 2 * n.log2) + (2 + 2 * n.log2) from Nat.succ_mul _ _]
      omega
  refine wlp_bind (wlp_mono h1 fun v2 t2 ht2 => ?_)
  refine wlp_bind (wlp_mono clear_moves fun _ t3 h3 => wlp_pure ((ht2.2.trans h3).le ?_))
  rw [Nat.zero_add, Nat.mul_add, ← Nat.mul_assoc, Nat.mul_comm n 2, Nat.mul_assoc]
  omega

/-! ## Assignments and constructions together -/

/-- Objects constructed and assigned so far. -/
def work (m : Mem α) : Nat := m.built + m.moved

/-- What a vector has been charged for but not spent yet. -/
def slack (v : Vec) : Nat := max (3 * v.sz - 2 * v.cap) (v.cap - 2 * v.sz)

/-- Neither overfull nor mostly unused. -/
def Fit (v : Vec) : Prop := v.sz ≤ v.cap ∧ v.cap ≤ 3 * v.sz + 2

theorem slack_le {v : Vec} (h : Fit v) : slack v ≤ v.sz + 2 := by
  unfold Fit at h; unfold slack; omega

theorem wlp_and {σ β : Type} {p : Prog σ β} {Q R : β → σ → Prop} {s : σ} (h1 : wlp p Q s) (h2 : wlp p R s) :
    wlp p (fun a t => Q a t ∧ R a t) s := fun a t hr => ⟨h1 a t hr, h2 a t hr⟩

theorem resize_vec {triv : Bool} {v : Vec} {n : Nat} {m : Mem α} :
    wlp (resize triv v n) (fun v' _ => v'.sz = min v.sz n ∧ v'.cap = n) m := by
  refine wlp_bind fun _ _ _ => wlp_bind fun _ _ _ => wlp_pure ⟨?_, rfl⟩
  simp only
  split <;> omega

theorem pushBack_vec {triv : Bool} {v : Vec} {e : Arg α} {m : Mem α} :
    wlp (pushBack triv v e) (fun v' _ => v'.sz = v.sz + 1 ∧
      v'.cap = if v.sz < v.cap then v.cap else if v.sz = 0 then 2 else 2 * v.sz) m := by
  have : wlp (if v.sz + 1 > v.cap then
      (if v.sz ≠ 0 then resize triv v (2 * v.sz) else resize triv v 2)
    else pure v : Prog (Mem α) Vec) (fun v' _ => v'.sz = v.sz ∧
      v'.cap = if v.sz < v.cap then v.cap else if v.sz = 0 then 2 else 2 * v.sz) m := by
    refine wlp_ite (fun h => wlp_ite (fun _ => ?_) fun _ => ?_) fun _ => wlp_pure ⟨rfl, ?_⟩
    · refine wlp_mono resize_vec fun v' m' h => ⟨by omega, ?_⟩
      rw [if_neg (by omega), if_neg (by omega)]; exact h.2
    · refine wlp_mono resize_vec fun v' m' h => ⟨by omega, ?_⟩
      rw [if_neg (by omega), if_pos (by omega)]; exact h.2
    · rw [if_pos (by omega)]
  exact wlp_bind (wlp_mono this fun u t ht => wlp_bind fun _ _ _ => wlp_pure ⟨by simp only; omega, ht.2⟩)

theorem popBack_vec {triv : Bool} {v : Vec} {m : Mem α} :
    wlp (popBack triv v) (fun v' _ => 0 < v.sz ∧
      v'.sz = (if v.sz - 1 < v.cap / 3 then min (v.sz - 1) (v.cap / 2) else v.sz - 1) ∧
      v'.cap = (if v.sz - 1 < v.cap / 3 then v.cap / 2 else v.cap)) m := by
  refine wlp_bind (wlp_dassert fun h0 => wlp_bind fun _ t _ => wlp_ite (fun hc => ?_) fun hc => wlp_pure ⟨h0, ?_, ?_⟩)
  · dsimp only at hc
    refine wlp_mono resize_vec fun v' _ h => ⟨h0, ?_, ?_⟩
    · rw [if_pos hc]; exact h.1
    · rw [if_pos hc]; exact h.2
  · dsimp only at hc; rw [if_neg hc]
  · dsimp only at hc; rw [if_neg hc]

theorem pushBack_work {triv : Bool} {v : Vec} {e : Arg α} {m : Mem α} (hv : v.sz ≤ v.cap) :
    wlp (pushBack triv v e) (fun v' m' => v'.sz = v.sz + 1 ∧ v'.sz ≤ v'.cap ∧ (Fit v → Fit v') ∧
      work m' + slack v' ≤ work m + slack v + 4) m := by
  refine wlp_mono (wlp_and (wlp_and pushBack_vec pushBack_moves) pushBack_spent) ?_
  rintro v' m' ⟨⟨⟨h1, h2⟩, _, h3⟩, h4, _⟩
  unfold Moves at h3
  unfold Fit slack work
  by_cases c : v.sz < v.cap
  · rw [if_pos c] at h2 h4
    rw [h1, h2]
    exact ⟨rfl, by omega, fun _ => by omega, by omega⟩
  · rw [if_neg c] at h2 h4
    split at h2
    · rw [h1, h2]; exact ⟨rfl, by omega, fun _ => by omega, by omega⟩
    · rw [h1, h2]; exact ⟨rfl, by omega, fun _ => by omega, by omega⟩

theorem popBack_work {triv : Bool} {v : Vec} {m : Mem α} (hv : Fit v) :
    wlp (popBack triv v) (fun v' m' => 0 < v.sz ∧ v'.sz = v.sz - 1 ∧ Fit v' ∧ work m' + slack v' ≤ work m + slack v + 2) m := by
  refine wlp_mono (wlp_and (wlp_and popBack_vec popBack_moves) popBack_spent) ?_
  rintro v' m' ⟨⟨⟨h0, h1, h2⟩, _, h3⟩, h4, _⟩
  unfold Moves at h3
  unfold Fit at hv
  unfold Fit slack work
  split at h1 <;> rename_i c <;> simp only [c, if_true, if_false] at h2 h4
  · have h1 : v'.sz = v.sz - 1 := by omega
    rw [h1, h2]
    exact ⟨h0, rfl, by omega, by omega⟩
  · rw [h1, h2]
    exact ⟨h0, rfl, by omega, by omega⟩

theorem Shift.work {m m' : Mem α} {a : Nat} (h : Shift m a m') : work m' ≤ work m + a := by
  obtain ⟨h1, h2⟩ := h
  unfold Moves at h1
  unfold Heap.work; omega

theorem push_work {triv : Bool} {cmp : α → α → Bool} {v : Vec} {e : Arg α} {m : Mem α} (hv : v.sz < 2 ^ 31) (hf : Fit v) :
    wlp (push triv cmp v e) (fun v' m' => v'.sz = v.sz + 1 ∧ Fit v' ∧
      work m' + slack v' ≤ work m + slack v + (4 + 2 * v.sz.log2)) m := by
  refine wlp_bind (wlp_mono (pushBack_work hf.1) fun u t ht => ?_)
  have e : Int.bmod ((u.sz : Int) - 1) (2 ^ 32) = (v.sz : Nat) := by
    rw [show (u.sz : Int) - 1 = (v.sz : Nat) by omega]
    exact toInt_bmod hv
  refine wlp_bind ?_
  unfold adjustUp
  rw [e]
  refine wlp_mono (adjustUpLoop_shift v.sz) fun _ u' hu' => wlp_pure ⟨ht.1, ht.2.2.1 hf, ?_⟩
  have := hu'.work
  omega

theorem pop_work {triv : Bool} {cmp : α → α → Bool} {v : Vec} {m : Mem α} (hv : v.sz < 2 ^ 31) (hf : Fit v) :
    wlp (pop triv cmp v) (fun v' m' => 0 < v.sz ∧ v'.sz = v.sz - 1 ∧ Fit v' ∧
      work m' + slack v' ≤ work m + slack v + (3 + 2 * (v.sz - 2).log2)) m := by
  refine wlp_bind (wlp_bind (wlp_dassert fun _ => wlp_mono read_spent ?_))
  rintro x t rfl
  refine wlp_bind (wlp_mono setIndex_shift fun _ t1 h1 => ?_)
  refine wlp_bind (wlp_mono (popBack_work hf) fun u t2 h2 => ?_)
  refine wlp_bind (wlp_mono (adjustDown_shift (p := 1) (by omega) (by omega)) fun _ t3 h3 => ?_)
  refine wlp_pure ⟨h2.1, h2.2.1, h2.2.2.1, ?_⟩
  rw [show (u.sz - 1) / 1 = v.sz - 2 by rw [Nat.div_one]; omega] at h3
  have := h1.work
  have := h3.work
  omega

theorem ctor_work {triv : Bool} {obj : α} {m : Mem α} :
    wlp (ctor triv obj) (fun v' m' => v'.sz = 1 ∧ v'.cap = 1 ∧ work m' ≤ work m + 1) m := by
  refine wlp_mono (wlp_and (wlp_and (R := fun v' _ => v'.cap = 1) ctorFill_moves ?_) ctorFill_spent) ?_
  · exact wlp_bind fun _ _ _ => wlp_bind fun _ _ _ => wlp_bind fun _ _ _ => wlp_pure rfl
  · rintro v' m' ⟨⟨⟨h1, h2⟩, h3⟩, h4, _⟩
    unfold Moves at h2
    refine ⟨h1, h3, ?_⟩
    unfold work; omega

theorem ctorRange_work {triv : Bool} {cmp : α → α → Bool} {obj : α} {n : Nat} {src : Nat → Arg α} {m : Mem α}
    (hn : n + 1 < 2 ^ 31) :
    wlp (ctorRange triv cmp obj n src) (fun v' m' => v'.sz = n + 1 ∧ v'.cap = n + 1 ∧ work m' ≤ work m + (3 * n + 2)) m := by
  refine wlp_bind (wlp_mono ctor_work fun v t ht => ?_)
  refine wlp_bind (wlp_mono (wlp_and (wlp_and resize_vec resize_moves) resize_spent) ?_)
  rintro v1 t1 ⟨⟨⟨f1, f2⟩, _, f3⟩, f4, _⟩
  unfold Moves at f3
  have h1 := wlp_forRange (I := fun i (v' : Vec) m' => v'.sz = i + 1 ∧ v'.cap = n + 1 ∧ work m' ≤ work m + (2 + i))
    (f := fun i v => pushBack triv v (src i)) n 0 v1 t1 ⟨by omega, by omega, by
      obtain ⟨_, _, ht⟩ := ht
      unfold work at ht ⊢; omega⟩
    fun i v' u _ hi hu => by
      refine wlp_mono (wlp_and (wlp_and pushBack_vec pushBack_moves) pushBack_spent) ?_
      rintro v2 u2 ⟨⟨⟨g1, g2⟩, _, g3⟩, g4, _⟩
      unfold Moves at g3
      rw [if_pos (by omega)] at g2 g4
      refine ⟨by omega, by omega, ?_⟩
      have := hu.2.2
      unfold work at this ⊢; omega
  refine wlp_bind (wlp_mono h1 fun v2 t2 ht2 => ?_)
  have hs : v2.sz = n + 1 := by omega
  dsimp only
  rw [hs, Nat.add_sub_cancel]
  have h2 := wlp_forRange (I := fun i (_ : Unit) m' => work m' + 2 * heights n (n / 2 - i) ≤ work t2 + 2 * heights n (n / 2))
    (f := fun i _ => adjustDown cmp v2 ((n / 2 - i : Nat) : Int)) (n / 2) 0 () t2 (Nat.le_refl _)
    fun i _ u _ hi hu => wlp_mono (adjustDown_shift (p := n / 2 - i) (by omega) (by omega)) fun _ u2 h2 => by
      replace h2 := h2.work
      rw [show n / 2 - i = (n / 2 - (i + 1)) + 1 by omega, heights] at hu
      rw [show n / 2 - i = (n / 2 - (i + 1)) + 1 by omega, show v2.sz - 1 = n by omega] at h2
      omega
  refine wlp_bind (wlp_mono h2 fun _ t3 h3 => wlp_pure ⟨hs, ht2.2.1, ?_⟩)
  have := heights_le n
  omega

theorem clear_work {triv : Bool} {v : Vec} {m : Mem α} : wlp (clear triv v) (fun v' m' => v' = Vec.empty ∧ work m' ≤ work m) m := by
  refine wlp_mono (wlp_and (wlp_and clear_moves clear_spent) (R := fun v' _ => v' = Vec.empty) ?_) ?_
  · exact wlp_bind fun _ _ _ => wlp_pure rfl
  · rintro v' m' ⟨⟨h1, h2, _⟩, h3⟩
    unfold Moves at h1
    refine ⟨h3, ?_⟩
    unfold work; omega

theorem build_work {triv : Bool} {cmp : α → α → Bool} {obj : α} {b lo n : Nat} {m : Mem α} (hn : n + 1 < 2 ^ 31) :
    wlp (build triv cmp obj b lo n) (fun _ m' => work m' ≤ work m + (4 * n + 2)) m := by
  refine wlp_bind (wlp_mono (ctorRange_work hn) fun v t ht => ?_)
  have h1 := wlp_forRange (I := fun i (_ : Unit) m' => work m' ≤ work t + i)
    (f := fun i _ => assign b ((lo + i : Nat) : Int) (.ref v.c ((1 + i : Nat) : Int))) n 0 () t (Nat.le_refl _)
    fun i _ u _ _ hi => wlp_mono assign_shift fun _ u2 h2 => by have := h2.work; omega
  exact wlp_bind (wlp_mono h1 fun _ t2 ht2 => wlp_pure (by omega))

theorem sort_work {triv : Bool} {cmp : α → α → Bool} {obj : α} {b lo n : Nat} {m : Mem α} (hn : n + 1 < 2 ^ 31) :
    wlp (sort triv cmp obj b lo n) (fun _ m' => work m' ≤ work m + (8 * n + 3 + 2 * (n * n.log2))) m := by
  refine wlp_bind (wlp_mono (ctorRange_work hn) fun v t ht => ?_)
  have h0 : slack v = n + 1 := by unfold slack; omega
  have h1 := wlp_forRange (I := fun i (v' : Vec) m' => v'.sz ≤ n + 1 ∧ Fit v' ∧
      work m' + slack v' ≤ work t + (n + 1) + i * (4 + 2 * n.log2))
    (f := fun i h => do
      let x ← top h
      assign b ((lo + i : Nat) : Int) (.val x)
      pop triv cmp h) n 0 v t ⟨by omega, by unfold Fit; omega, by omega⟩
    fun i v' u _ _ hi => by
      refine wlp_bind (wlp_mono index_moves ?_)
      rintro x u1 rfl
      refine wlp_bind (wlp_mono assign_shift fun _ u2 h2 => ?_)
      refine wlp_mono (pop_work (by omega) hi.2.1) fun v2 u3 h3 => ⟨by omega, h3.2.2.1, ?_⟩
      have := log2_mono (show v'.sz - 2 ≤ n by omega)
      have := h2.work
      rw [show (i + 1) * (4 + 2 * n.log2) = i * (4 + 2 * n.log2) + (4 + 2 * n.log2) from Nat.succ_mul _ _]
      omega
  refine wlp_bind (wlp_mono h1 fun v2 t2 ht2 => ?_)
  refine wlp_bind (wlp_mono clear_work fun _ t3 h3 => wlp_pure ?_)
  have e : n * (4 + 2 * n.log2) = 4 * n + 2 * (n * n.log2) := by
    rw [Nat.mul_add, Nat.mul_comm n 4, ← Nat.mul_assoc, Nat.mul_comm n 2, Nat.mul_assoc]
  have := ht2.2.2
  rw [Nat.zero_add, e] at this
  omega

/-! ## Worlds of heaps -/

theorem copyAssign_work {triv : Bool} {v u : Vec} {m : Mem α} :
    wlp (copyAssign triv v u) (fun v' m' => v'.sz = u.sz ∧ v'.cap = u.cap ∧ work m' ≤ work m + u.sz) m := by
  refine wlp_bind (wlp_mono clear_work ?_)
  rintro d t ⟨rfl, ht⟩
  refine wlp_bind (wlp_mono (wlp_and (wlp_and resize_vec resize_moves) resize_spent) ?_)
  rintro d x ⟨⟨⟨_, f2⟩, _, f3⟩, f4, _⟩
  unfold Moves at f3
  simp only [Vec.empty, Nat.zero_min, Nat.add_zero] at f4
  have h0 : work x ≤ work m := by unfold work at ht ⊢; omega
  have := wlp_forRange (I := fun i _ m' => work m' ≤ work m + i) (f := fun (i : Nat) _ => do
      destroy triv d.c i
      construct d.c i (.ref u.c i)) u.sz 0 () x h0
    fun i _ t _ _ hi => wlp_bind (wlp_mono (wlp_and destroy_moves destroy_spent) fun _ y hy =>
      wlp_mono (wlp_and construct_moves construct_spent) fun _ z hz => by
        obtain ⟨a1, a2, _⟩ := hy
        obtain ⟨b1, b2, _⟩ := hz
        unfold Moves at a1 b1
        unfold work at hi ⊢; omega)
  exact wlp_bind (wlp_mono this fun _ y hy => wlp_pure ⟨rfl, f2, by omega⟩)

theorem fillLoop_moves {n lo c : Nat} {e : Arg α} {m : Mem α} :
    wlp (forRange n lo () fun i _ => construct c i e) (fun _ m' => Moves m 0 m') m :=
  wlp_forRange (I := fun _ _ m' => Moves m 0 m') (f := fun i _ => construct c i e) n lo () m (Moves.zero m)
    fun i _ t _ _ hi => wlp_mono construct_moves fun _ u hu => hi.trans hu

theorem resizeFill_work {triv : Bool} {v : Vec} {e : Arg α} {m : Mem α} :
    wlp (resizeFill triv v 1 e) (fun v' m' => v'.sz = 1 ∧ v'.cap = 1 ∧ work m' ≤ work m + 1) m := by
  have hm : wlp (resizeFill triv v 1 e) (fun v' m' => v'.sz = 1 ∧ v'.cap = 1 ∧ Moves m 0 m') m := by
    unfold resizeFill resizeFillWith
    refine wlp_ite (fun hn => by omega) fun hn => ?_
    refine wlp_bind (wlp_mono alloc_moves fun c t ht => ?_)
    refine wlp_bind (wlp_when (fun _ => ?_) fun _ => ?_)
    · have := wlp_forRange (I := fun _ _ m' => Moves m 0 m') (f := fun (i : Nat) _ => do
        when (i < 1) (construct c i (.ref v.c i))
        destroy triv v.c i) v.sz 0 () t ht fun i _ t _ _ hi =>
          wlp_bind (wlp_when (fun _ => wlp_mono construct_moves fun _ u hu =>
            wlp_mono destroy_moves fun _ u' hu' => (hi.trans hu).trans hu') fun _ =>
            wlp_mono destroy_moves fun _ u' hu' => hi.trans hu')
      refine wlp_bind (wlp_mono this fun _ u hu => ?_)
      refine wlp_mono dealloc_moves fun _ u' hu' => ?_
      exact wlp_bind (wlp_mono fillLoop_moves fun _ x hx => wlp_pure ⟨rfl, rfl, (hu.trans hu').trans hx⟩)
    · exact wlp_bind (wlp_mono fillLoop_moves fun _ x hx => wlp_pure ⟨rfl, rfl, ht.trans hx⟩)
  refine wlp_mono (wlp_and hm resizeFill_spent) ?_
  rintro v' m' ⟨⟨h1, h2, h3⟩, h4, _⟩
  unfold Moves at h3
  refine ⟨h1, h2, ?_⟩
  unfold work; omega

/-- The slack of the objects `0 … N - 1`. -/
def slacks (N : Nat) (obj : Nat → Option Vec) : Nat := ((List.range N).map fun k => (obj k).elim 0 slack).sum

theorem slacks_succ (N : Nat) (obj : Nat → Option Vec) : slacks (N + 1) obj = slacks N obj + (obj N).elim 0 slack := by
  simp [slacks, List.range_succ]

theorem slacks_put_ge {N k : Nat} (obj : Nat → Option Vec) (o : Option Vec) (h : N ≤ k) :
    slacks N (fun x => if x = k then o else obj x) = slacks N obj := by
  unfold slacks
  congr 1
  apply List.map_congr_left
  intro x hx
  have := List.mem_range.1 hx
  simp only
  rw [if_neg (by omega)]

theorem slacks_put {N k : Nat} (obj : Nat → Option Vec) (o : Option Vec) (h : k < N) :
    slacks N (fun x => if x = k then o else obj x) + (obj k).elim 0 slack = slacks N obj + o.elim 0 slack := by
  induction N with
  | zero => omega
  | succ N ih =>
    rw [slacks_succ, slacks_succ]
    by_cases c : k = N
    · subst c
      rw [slacks_put_ge obj o (Nat.le_refl _)]
      simp; omega
    · have := ih (by omega)
      rw [if_neg (show N ≠ k by omega)]; omega

/-- Every heap holds at most `A` elements and its storage fits. -/
def Small (A : Nat) (w : World α) : Prop := ∀ k v, w.obj k = some v → Fit v ∧ v.sz ≤ A + 1

theorem Small.put {A k : Nat} {w : World α} {o : Option Vec} {m : Mem α} (h : Small A w)
    (ho : ∀ v, o = some v → Fit v ∧ v.sz ≤ A + 1) :
    Small A { mem := m, obj := fun x => if x = k then o else w.obj x } := by
  intro x v hv
  dsimp only at hv
  split at hv
  · exact ho v hv
  · exact h x v hv

theorem Small.mono {A B : Nat} {w : World α} (h : Small A w) (hle : A ≤ B) : Small B w :=
  fun k v hv => ⟨(h k v hv).1, by have := (h k v hv).2; omega⟩

/-- The objects an operation changes are among `0 … N - 1`. -/
def Within (N : Nat) : Op α → Prop
  | .new k _ | .newRange k _ _ | .push k _ | .pop k | .drop k => k < N
  | .newCopy k s | .copy k s | .newMove k s | .move k s => k < N ∧ s < N

theorem within_exists (ops : List (Op α)) : ∃ N, ∀ op ∈ ops, Within N op := by
  induction ops with
  | nil => exact ⟨0, by simp⟩
  | cons op ops ih =>
    obtain ⟨N, ih⟩ := ih
    have mono : ∀ {N M : Nat} {op : Op α}, Within N op → N ≤ M → Within M op := by
      intro N M op h hle
      cases op <;> simp only [Within] at h ⊢ <;> omega
    have one : ∃ M, Within M op := by
      cases op with
      | newCopy d s => exact ⟨d + s + 1, by simp only [Within]; omega⟩
      | copy d s => exact ⟨d + s + 1, by simp only [Within]; omega⟩
      | newMove d s => exact ⟨d + s + 1, by simp only [Within]; omega⟩
      | move d s => exact ⟨d + s + 1, by simp only [Within]; omega⟩
      | _ => exact ⟨_, Nat.lt_succ_self _⟩
    obtain ⟨M, hM⟩ := one
    refine ⟨N + M, fun o ho => ?_⟩
    rcases List.mem_cons.1 ho with rfl | ho
    · exact mono hM (by omega)
    · exact mono (ih o ho) (by omega)

/-- The state satisfies the size bound and its work is paid for. -/
def Paid (N A : Nat) (w : World α) (a : Nat) (w' : World α) : Prop :=
  Small A w' ∧ work w'.mem + slacks N w'.obj ≤ work w.mem + slacks N w.obj + a

theorem Paid.trans {N A B : Nat} {w w1 w2 : World α} {a b : Nat} (h1 : Paid N A w a w1) (h2 : Paid N B w1 b w2) :
    Paid N B w (a + b) w2 := ⟨h2.1, by have := h1.2; have := h2.2; omega⟩

/-- Replacing object `k`. -/
theorem Paid.put {N A k : Nat} {w : World α} {o : Option Vec} {m : Mem α} {a : Nat} (h : Small A w) (hk : k < N)
    (ho : ∀ v, o = some v → Fit v ∧ v.sz ≤ A + 1)
    (hw : work m + o.elim 0 slack ≤ work w.mem + (w.obj k).elim 0 slack + a) :
    Paid N A w a { mem := m, obj := fun x => if x = k then o else w.obj x } := by
  refine ⟨h.put ho, ?_⟩
  have := slacks_put w.obj o hk
  dsimp only; omega

theorem new_paid {N A k : Nat} {triv : Bool} {w : World α} (h : Small A w) (hk : k < N) :
    wlp (Vec.step triv (.new k)) (fun _ w' => Paid N A w 0 w') w :=
  wlp_putObj (Paid.put h hk (by intro v e; cases e; exact ⟨by simp [Fit, Vec.empty], by simp [Vec.empty]⟩)
    (by simp [slack, Vec.empty]))

theorem copy_paid {N A d s : Nat} {triv : Bool} {w : World α} (h : Small A w) (hd : d < N) :
    wlp (Vec.step triv (.copy d s)) (fun _ w' => Paid N A w (2 * A + 4) w') w := by
  refine wlp_bind (wlp_getObj fun v hv => wlp_bind (wlp_getObj fun u hu => wlp_ite (fun _ => ?_) fun _ => ?_))
  · exact wlp_pure ⟨h, by omega⟩
  · refine wlp_bind (wlp_lift (wlp_mono copyAssign_work fun v' m' hm => wlp_putObj ?_))
    obtain ⟨h1, h2⟩ := h s u hu
    have hf : Fit v' := by unfold Fit at h1 ⊢; omega
    refine Paid.put h hd (by intro x e; cases e; exact ⟨hf, by omega⟩) ?_
    have := slack_le hf
    simp only [Option.elim_some]; omega

theorem move_paid {N A d s : Nat} {triv : Bool} {w : World α} (h : Small A w) (hd : d < N) (hs : s < N) :
    wlp (moveHeap triv d s) (fun _ w' => Paid N A w 2 w') w := by
  have h1 : wlp (Vec.step triv (.move d s)) (fun _ w' => Paid N A w 0 w') w := by
    refine wlp_bind (wlp_getObj fun v hv => wlp_bind (wlp_getObj fun u hu => wlp_ite (fun _ => ?_) fun hne => ?_))
    · exact wlp_pure ⟨h, by omega⟩
    · refine wlp_bind (wlp_lift ?_)
      refine wlp_bind (wlp_mono clear_work fun _ m hm => wlp_pure ?_)
      refine wlp_bind (wlp_putObj (wlp_putObj ?_))
      have g1 : Paid N A w (slack u) { mem := m, obj := fun x => if x = d then some u else w.obj x } :=
        Paid.put h hd (by intro x e; cases e; exact h s _ hu) (by simp only [Option.elim_some]; omega)
      refine ⟨g1.1.put (by intro x e; cases e; exact ⟨by simp [Fit, Vec.empty], by simp [Vec.empty]⟩), ?_⟩
      have e1 := slacks_put w.obj (some u) hd
      have e2 := slacks_put (fun x => if x = d then some u else w.obj x) (some Vec.empty) hs
      rw [if_neg (Ne.symm hne), hu] at e2
      have e3 : slack Vec.empty = 0 := by simp [slack, Vec.empty]
      simp only [Option.elim_some, e3] at e1 e2
      dsimp only; omega
  refine wlp_bind (wlp_mono h1 fun _ w1 g1 => ?_)
  refine wlp_bind (wlp_getObj fun v hv => wlp_bind (wlp_dassert fun _ => wlp_bind (wlp_getObj fun u hu => ?_)))
  refine wlp_bind (wlp_lift (wlp_mono resizeFill_work fun v' m' hm => wlp_putObj ?_))
  have g2 : Paid N A w1 2 { mem := m', obj := fun x => if x = s then some v' else w1.obj x } :=
    Paid.put g1.1 hs (by intro x e; cases e; exact ⟨by unfold Fit; omega, by omega⟩) (by
      have : slack v' = 1 := by unfold slack; omega
      simp only [Option.elim_some]; omega)
  exact g1.trans g2

theorem step_paid {N A B : Nat} {triv : Bool} {cmp : α → α → Bool} {op : Op α} {w : World α} (h : Small A w)
    (hN : Within N op) (hB : A + adds op ≤ B) (hB2 : B + 1 < 2 ^ 31) :
    wlp (step triv cmp op) (fun _ w' => Paid N (A + adds op) w (charge B op) w') w := by
  cases op with
  | new k x =>
    refine wlp_bind (wlp_lift (wlp_mono ctor_work fun v m hm => wlp_putObj ?_))
    refine Paid.put h hN (by intro x e; cases e; exact ⟨by unfold Fit; omega, by omega⟩) ?_
    have : slack v = 1 := by unfold slack; omega
    simp only [Option.elim_some, charge]; omega
  | newRange k x xs =>
    simp only [adds] at hB
    refine wlp_bind (wlp_lift (wlp_mono (ctorRange_work (by omega)) fun v m hm => wlp_putObj ?_))
    refine Paid.put (h.mono (by omega)) hN (by intro x e; cases e; exact ⟨by unfold Fit; omega, by simp only [adds]; omega⟩) ?_
    have : slack v = xs.length + 1 := by unfold slack; omega
    simp only [Option.elim_some, charge]; omega
  | push k x =>
    simp only [adds] at hB
    refine wlp_bind (wlp_getObj fun v hv => ?_)
    obtain ⟨h1, h2⟩ := h k v hv
    refine wlp_bind (wlp_lift (wlp_mono (push_work (by omega) h1) fun v' m hm => wlp_putObj ?_))
    refine Paid.put (h.mono (by omega)) hN (by intro x e; cases e; exact ⟨hm.2.1, by simp only [adds]; omega⟩) ?_
    have := log2_mono (show v.sz ≤ B by omega)
    simp only [hv, Option.elim_some, charge]; omega
  | pop k =>
    simp only [adds] at hB
    refine wlp_bind (wlp_getObj fun v hv => ?_)
    obtain ⟨h1, h2⟩ := h k v hv
    refine wlp_bind (wlp_lift (wlp_mono (pop_work (by omega) h1) fun v' m hm => wlp_putObj ?_))
    refine Paid.put h hN (by intro x e; cases e; exact ⟨hm.2.2.1, by omega⟩) ?_
    have := log2_mono (show v.sz - 2 ≤ B by omega)
    simp only [hv, Option.elim_some, charge]; omega
  | newCopy k s =>
    simp only [adds, Nat.add_zero] at hB ⊢
    refine wlp_bind (wlp_mono (new_paid h hN.1) fun _ w1 g1 => ?_)
    refine wlp_mono (copy_paid g1.1 hN.1) fun _ w2 g2 => ⟨g2.1, ?_⟩
    have := (g1.trans g2).2
    simp only [charge]; omega
  | copy d s =>
    simp only [adds, Nat.add_zero] at hB ⊢
    refine wlp_mono (copy_paid h hN.1) fun _ w2 g2 => ⟨g2.1, ?_⟩
    have := g2.2
    simp only [charge]; omega
  | newMove k s =>
    simp only [adds, Nat.add_zero] at hB ⊢
    refine wlp_bind (wlp_mono (new_paid h hN.1) fun _ w1 g1 => ?_)
    refine wlp_mono (move_paid g1.1 hN.1 hN.2) fun _ w2 g2 => ⟨g2.1, ?_⟩
    have := (g1.trans g2).2
    simp only [charge]; omega
  | move d s => exact move_paid h hN.1 hN.2
  | drop k =>
    refine wlp_bind (wlp_getObj fun v hv => wlp_bind (wlp_lift (wlp_mono clear_work fun _ m hm => wlp_putObj ?_)))
    refine Paid.put h hN (by intro x e; cases e) ?_
    simp only [Option.elim_none]; omega

theorem run_paid {N A B : Nat} {triv : Bool} {cmp : α → α → Bool} {ops : List (Op α)} {w : World α} (h : Small A w)
    (hN : ∀ op ∈ ops, Within N op) (hB : A + (ops.map adds).sum ≤ B) (hB2 : B + 1 < 2 ^ 31) :
    wlp (run triv cmp ops) (fun _ w' => Paid N B w (ops.map (charge B)).sum w') w := by
  induction ops generalizing w A with
  | nil => exact wlp_pure ⟨h.mono (by simpa using hB), by simp⟩
  | cons op ops ih =>
    simp only [List.map_cons, List.sum_cons] at hB ⊢
    have h1 := step_paid (triv := triv) (cmp := cmp) h (hN op (List.mem_cons_self ..)) (show A + adds op ≤ B by omega) hB2
    refine wlp_bind (wlp_mono h1 fun _ w1 g1 => ?_)
    exact wlp_mono (ih g1.1 (fun o ho => hN o (List.mem_cons_of_mem _ ho)) (by omega)) fun _ w2 g2 => g1.trans g2

end Verif.Heap
