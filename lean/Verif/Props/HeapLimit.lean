import Verif.Props.Heap

/-! # The size limit of `Heap` (C13, C14) is exact -/

namespace Verif.Heap

open Prog Vec

variable {α : Type}

/-- Slot `i` of the heap holds the `i`-th of a rising sequence. -/
def Rising (f : Nat → α) (l : List α) (lo : Nat) : Prop := ∀ i, lo ≤ i → i < l.length → l[i]? = some (f i)

theorem run_append (triv : Bool) (cmp : α → α → Bool) (xs ys : List (Op α)) :
    run triv cmp (xs ++ ys) = (do run triv cmp xs; run triv cmp ys) := by
  induction xs with
  | nil => simp [run, seqAll]
  | cons x xs ih =>
    show (do step triv cmp x; run triv cmp (xs ++ ys)) = (do (do step triv cmp x; run triv cmp xs); run triv cmp ys)
    rw [ih, bind_assoc]

theorem push_rising {cmp : α → α → Bool} {f : Nat → α} (hf : ∀ i j, cmp (f i) (f j) = decide (i < j)) {triv : Bool}
    {m : Mem α} {v : Vec} {l : List α} (hw : m.WF) (hr : Rep m v l) (hl : Rising f l 1) (h1 : 1 ≤ l.length)
    (hlen : l.length + 1 < 2 ^ 31) :
    wp (push triv cmp v (.val (f l.length))) (fun v' m' => Rep m' v' (l ++ [f l.length]) ∧ m'.WF) m := by
  unfold push
  rw [wp_bind]
  refine wp_mono (pushBack_ok hw hr (val_get _ _) (fun _ => Or.inl rfl)) ?_
  rintro v1 m1 ⟨r1, _, _, w1⟩
  have hsz : v1.sz = l.length + 1 := by rw [r1.size]; simp
  have hcast : Int.bmod ((v1.sz : Int) - 1) (2 ^ 32) = (l.length : Int) := by
    rw [bmod32 _ (by omega) (by omega)]; omega
  have hup : Returns (adjustUp cmp v1) m1 () m1 := by
    unfold adjustUp
    rw [hcast, adjustUpLoop]
    by_cases h : (l.length : Int) > 1
    · rw [if_pos h]
      have e : ((l.length : Int) / 2) = ((l.length / 2 : Nat) : Int) := by omega
      have g1 := (index_ok r1 (by simpa using hlen) (l.length / 2) (by simp; omega)).1
      have g2 := (index_ok r1 (by simpa using hlen) l.length (by simp)).1
      have e1 : (l ++ [f l.length])[l.length / 2]'(by simp; omega) = f (l.length / 2) := by
        have := hl (l.length / 2) (by omega) (by omega)
        rw [List.getElem_append_left (by omega)]
        exact (List.getElem?_eq_some_iff.1 this).2
      have e2 : (l ++ [f l.length])[l.length]'(by simp) = f l.length := by simp
      rw [e1] at g1
      rw [e2] at g2
      unfold Returns
      simp only [e]
      rw [bind_returns g1, bind_returns g2, hf, if_pos (by simp; omega)]
      rfl
    · rw [if_neg h]; rfl
  rw [wp_bind, wp_of_returns hup, wp_pure]
  exact ⟨r1, w1⟩

/-- Sifting down a large element at `2 ^ j` reaches an index whose children cannot be computed. -/
theorem down_overflow {cmp : α → α → Bool} {f : Nat → α} (hf : ∀ i j, cmp (f i) (f j) = decide (i < j)) {v : Vec}
    (k : Nat) : ∀ (j : Nat) {m : Mem α} {l : List α}, j + k = 30 → m.WF → Rep m v l → 2 ^ 30 < l.length →
      l.length < 2 ^ 31 → Rising f l (2 ^ j + 1) → l[2 ^ j]? = some (f l.length) →
      Faults (adjustDownLoop cmp v l.length (2 ^ j : Nat)) m .overflow := by
  induction k with
  | zero =>
    intro j m l hj _ _ _ _ _ _
    rw [show j = 30 by omega, adjustDownLoop]
    refine bind_faults ?_
    unfold Faults check
    rw [if_neg (by omega)]
  | succ k ih =>
    intro j m l hj hw hr h30 h31 hrise hp
    have hpow : 2 ^ (j + 1) ≤ 2 ^ 30 := Nat.pow_le_pow_right (by omega) (by omega)
    have h2 : 2 ^ (j + 1) = 2 * 2 ^ j := by rw [Nat.pow_succ]; omega
    have hpos : 0 < 2 ^ j := Nat.pow_pos (by omega)
    generalize hP : 2 ^ j = p at *
    have ep : l[p]'(by omega) = f l.length := (List.getElem?_eq_some_iff.1 hp).2
    have el : l[2 * p]'(by omega) = f (2 * p) :=
      (List.getElem?_eq_some_iff.1 (hrise (2 * p) (by omega) (by omega))).2
    have eL : (2 * (p : Int)) = ((2 * p : Nat) : Int) := by omega
    have eR : ((2 * p : Nat) : Int) + 1 = ((2 * p + 1 : Nat) : Int) := by omega
    rw [adjustDownLoop]
    refine faults_bind_of_wp ?_
    rw [wp_check]
    refine ⟨by omega, ?_⟩
    simp only [eL, eR]
    refine faults_bind_of_wp ?_
    have g1 := (index_ok hr h31 p (by omega)).1
    have g2 := (index_ok hr h31 (2 * p) (by omega)).1
    rw [ep] at g1
    rw [el] at g2
    rw [if_pos (by omega), wp_bind, wp_of_returns g1, wp_bind, wp_of_returns g2, hf, wp_pure,
      if_neg (c := decide (l.length < 2 * p) = true) (by simp; omega)]
    refine faults_bind_of_wp ?_
    have ht : Returns (if ((2 * p + 1 : Nat) : Int) < (l.length : Int) then do
        let a ← index v ((2 * p : Nat) : Int)
        let b ← index v ((2 * p + 1 : Nat) : Int)
        pure (if cmp a b then ((2 * p : Nat) : Int) else ((2 * p + 1 : Nat) : Int))
      else pure ((2 * p : Nat) : Int)) m ((2 * p : Nat) : Int) m := by
      split
      · have hlt : 2 * p + 1 < l.length := by omega
        have er : l[2 * p + 1] = f (2 * p + 1) :=
          (List.getElem?_eq_some_iff.1 (hrise (2 * p + 1) (by omega) (by omega))).2
        have g3 := (index_ok hr h31 (2 * p + 1) hlt).1
        rw [er] at g3
        unfold Returns
        rw [bind_returns g2, bind_returns g3, hf, if_pos (by simp)]
        rfl
      · rfl
    rw [wp_of_returns ht, if_neg (by omega)]
    refine faults_bind_of_wp (wp_mono (swapAt_ok hw hr h31 p (2 * p) (by omega) (by omega)) ?_)
    rintro _ m1 ⟨r1, _, w1⟩
    have := ih (j + 1) (l := swapL l p (2 * p) (by omega) (by omega)) (by omega) w1 r1 (by simpa using h30)
      (by simpa using h31) ?_ ?_
    · rw [h2, swapL_length] at this; exact this
    · intro i hi hil
      rw [swapL_length] at hil
      rw [swapL_get?, if_neg (by omega), if_neg (by omega)]
      exact hrise i (by omega) hil
    · rw [swapL_get?, if_neg (by omega), if_pos (by omega), swapL_length]
      exact hp

/-- A heap into which `f 1`, …, `f n` were pushed, rising. -/
theorem run_rising {cmp : α → α → Bool} {f : Nat → α} (hf : ∀ i j, cmp (f i) (f j) = decide (i < j)) (triv : Bool)
    (obj : α) (n : Nat) (hn : n + 1 < 2 ^ 31) :
    wp (run triv cmp (.new 0 obj :: (List.range n).map fun i => .push 0 (f (i + 1))))
      (fun _ w => ∃ v l, w.obj 0 = some v ∧ Rep w.mem v l ∧ w.mem.WF ∧ l.length = n + 1 ∧ Rising f l 1)
      World.init := by
  have key : ∀ k, k ≤ n → wp (run triv cmp (.new 0 obj :: (List.range k).map fun i => .push 0 (f (i + 1))))
      (fun _ w => ∃ v l, w.obj 0 = some v ∧ Rep w.mem v l ∧ w.mem.WF ∧ l.length = k + 1 ∧ Rising f l 1)
      World.init := by
    intro k
    induction k with
    | zero =>
      intro _
      show wp (do step triv cmp (.new 0 obj); pure ()) _ _
      rw [wp_bind, step, wp_bind, wp_lift]
      refine wp_mono (ctor_ok (R := fun _ _ => True) WInv.init.wf obj) ?_
      rintro v m ⟨h1, _, h3⟩
      rw [wp_putObj, wp_pure]
      refine ⟨v, [obj], by simp, h1.rep, h3, rfl, ?_⟩
      intro i hi hi'
      simp only [List.length_singleton] at hi'
      omega
    | succ k ih =>
      intro hk
      rw [List.range_succ, List.map_append, ← List.cons_append, run_append, wp_bind]
      refine wp_mono (ih (by omega)) ?_
      rintro _ w ⟨v, l, h1, h2, h3, h4, h5⟩
      simp only [run, List.map_cons, List.map_nil, seqAll]
      rw [wp_bind, step, wp_bind, wp_getObj h1, wp_bind, wp_lift]
      have := push_rising hf (triv := triv) h3 h2 h5 (by omega) (by omega)
      rw [h4] at this
      refine wp_mono this ?_
      rintro v' m' ⟨g1, g2⟩
      rw [wp_putObj, wp_pure]
      refine ⟨v', _, by simp, g1, g2, by simp [h4], ?_⟩
      intro i hi hi'
      simp only [List.length_append, List.length_singleton] at hi'
      by_cases hil : i < l.length
      · rw [List.getElem?_append_left hil]; exact h5 i hi hil
      · have : i = l.length := by omega
        subst this
        simp [h4]
  exact key n (Nat.le_refl _)

theorem forRange_snoc {σ β : Type} (n : Nat) : ∀ (i : Nat) (b : β) (g : Nat → β → Prog σ β),
    forRange (n + 1) i b g = forRange n i b g >>= g (i + n) := by
  induction n with
  | zero => intro i b g; simp [forRange]
  | succ n ih =>
    intro i b g
    show (g i b >>= fun b => forRange (n + 1) (i + 1) b g) = (g i b >>= fun b => forRange n (i + 1) b g) >>= _
    rw [bind_assoc, show i + (n + 1) = i + 1 + n by omega]
    simp only [ih]

/-- Sifting down a node that precedes its children does nothing. -/
theorem down_stays {cmp : α → α → Bool} {f : Nat → α} (hf : ∀ i j, cmp (f i) (f j) = decide (i < j)) {v : Vec}
    {m : Mem α} {l : List α} (hr : Rep m v l) (h31 : l.length < 2 ^ 31) {p lo : Nat} (hrise : Rising f l lo)
    (hlo : lo ≤ p) (hp : 1 ≤ p) (hpl : p < l.length) (hck : 2 * p + 1 < 2 ^ 31) :
    Returns (adjustDownLoop cmp v l.length (p : Int)) m () m := by
  have get : ∀ i, lo ≤ i → (hi : i < l.length) → Returns (index v (i : Int)) m (f i) m := by
    intro i h1 h2
    have g := (index_ok hr h31 i h2).1
    rwa [(List.getElem?_eq_some_iff.1 (hrise i h1 h2)).2] at g
  have child : ∀ c : Nat, p < c → Returns (if (c : Int) < (l.length : Int) then do
      let a ← index v (p : Int)
      let b ← index v (c : Int)
      pure (if cmp a b then (p : Int) else (c : Int))
    else pure (p : Int)) m (p : Int) m := by
    intro c hc
    split
    · unfold Returns
      rw [bind_returns (get p hlo hpl), bind_returns (get c (by omega) (by omega)), hf, if_pos (by simpa using hc)]
      rfl
    · rfl
  have eL : (2 * (p : Int)) = ((2 * p : Nat) : Int) := by omega
  have eR : ((2 * p : Nat) : Int) + 1 = ((2 * p + 1 : Nat) : Int) := by omega
  have c1 := child (2 * p) (by omega)
  have c2 := child (2 * p + 1) (by omega)
  rw [adjustDownLoop]
  unfold Returns
  have hck' : Returns (check (2 * (p : Int) + 1 < 2 ^ 31) .overflow) m () m := by
    unfold Returns check
    rw [if_pos (by omega)]
  rw [bind_returns hck']
  simp only [eL, eR]
  rw [bind_returns c1, bind_returns c2, if_pos rfl]
  rfl

/-- The range whose first element is the largest and whose others rise. -/
def bigFirst (f : Nat → α) (n : Nat) : List α := f (n + 1) :: (List.range (n - 1)).map fun i => f (i + 2)

theorem bigFirst_length (f : Nat → α) {n : Nat} (hn : 1 ≤ n) : (bigFirst f n).length = n := by
  simp [bigFirst]; omega

theorem bigFirst_rising (f : Nat → α) {n : Nat} (z : α) : Rising f (z :: bigFirst f n) 2 := by
  intro i hi hi'
  obtain ⟨j, rfl⟩ : ∃ j, i = j + 2 := ⟨i - 2, by omega⟩
  simp only [bigFirst, List.length_cons, List.length_map, List.length_range] at hi'
  simp only [bigFirst, List.getElem?_cons_succ]
  rw [List.getElem?_map, List.getElem?_range (by omega)]
  rfl

/-- The range constructor overflows on that range. -/
theorem ctorRange_overflow {cmp : α → α → Bool} {f : Nat → α} (hf : ∀ i j, cmp (f i) (f j) = decide (i < j))
    {triv : Bool} {m : Mem α} (hw : m.WF) (z : α) (n : Nat) (hn : 2 ^ 30 ≤ n) (hn' : n + 1 < 2 ^ 31)
    (src : Nat → Arg α)
    (hsrc : ∀ i, (hi : i < (bigFirst f n).length) → Returns (src i).get m (bigFirst f n)[i] m)
    (hst : ∀ i, (hi : i < (bigFirst f n).length) →
      src i = .val (bigFirst f n)[i] ∨ ∃ b j, src i = .ref b j ∧ b < m.next) :
    Faults (ctorRange triv cmp z n src) m .overflow := by
  have hxs : (bigFirst f n).length = n := bigFirst_length f (by omega)
  have hrise := bigFirst_rising f (n := n) z
  have hfirst : (z :: bigFirst f n)[1]? = some (f (n + 1)) := rfl
  generalize bigFirst f n = xs at *
  subst hxs
  unfold ctorRange
  refine faults_bind_of_wp (wp_mono (ctor_ok (R := fun _ _ => True) hw z) ?_)
  rintro v1 m1 ⟨h1, f1, w1⟩
  refine faults_bind_of_wp (wp_mono (resize_ok w1 h1.rep (xs.length + 1)) ?_)
  rintro v2 m2 ⟨r2, c2, f2, w2, _⟩
  rw [List.take_of_length_le (by simp)] at r2
  refine faults_bind_of_wp (wp_mono (copyLoop_ok hw xs src hsrc hst (by simpa using r2) c2
    (f1.trans hw f2 w2.null) w2) ?_)
  rintro v3 m3 ⟨r3, _, w3⟩
  have hsz : v3.sz = xs.length + 1 := by rw [r3.size]; simp
  simp only [hsz, Nat.add_sub_cancel]
  refine bind_faults ?_
  have hcast : Int.bmod (v3.sz : Int) (2 ^ 32) = ((z :: xs).length : Nat) := by
    rw [bmod32 _ (by omega) (by omega), hsz]; simp
  have e : xs.length / 2 = (xs.length / 2 - 1) + 1 := by omega
  unfold adjustDown
  rw [e, forRange_snoc]
  refine faults_bind_of_wp ?_
  have hb := wp_forRange (σ := Mem α) (I := fun _ _ m' => m' = m3)
    (f := fun i _ => adjustDownLoop cmp v3 (Int.bmod v3.sz (2 ^ 32)) ((xs.length / 2 - 1 + 1 - i : Nat) : Int))
    (xs.length / 2 - 1) 0 () m3 rfl ?_
  · refine wp_mono hb ?_
    rintro _ m4 rfl
    rw [hcast, show ((xs.length / 2 - 1 + 1 - (0 + (xs.length / 2 - 1)) : Nat) : Int) = ((2 ^ 0 : Nat) : Int) by omega]
    exact down_overflow hf 30 0 rfl w3 r3 (by simp; omega) (by simp; omega) hrise (by simpa using hfirst)
  · rintro i _ m4 _ hi rfl
    rw [hcast]
    exact (down_stays hf r3 (by simp; omega) hrise (by omega) (by omega) (by simp; omega) (by omega)).wp rfl

/-- **C13, C14: the size limit is exact.**  The histories of `heap_top_partial` keep heaps within `2 ^ 30` elements.  With one more the
code overflows: pushing more than `2 ^ 30` rising elements succeeds, but then `pop` computes the
index of a child beyond the range of `int`. -/
theorem heap_pop_overflow {cmp : α → α → Bool} {f : Nat → α} (hf : ∀ i j, cmp (f i) (f j) = decide (i < j))
    (triv : Bool) (obj : α) (n : Nat) (hn : 2 ^ 30 < n) (hn' : n + 1 < 2 ^ 31) :
    ∃ w, Returns (run triv cmp (.new 0 obj :: (List.range n).map fun i => .push 0 (f (i + 1)))) World.init () w ∧
      Faults (step triv cmp (.pop 0)) w .overflow := by
  obtain ⟨_, w, h, v, l, h1, h2, h3, h4, h5⟩ := run_rising hf triv obj n hn'
  refine ⟨w, h, ?_⟩
  have hne : l ≠ [] := by intro h0; rw [h0] at h4; simp at h4
  rw [step]
  refine faults_bind_of_wp ?_
  rw [wp_getObj h1]
  refine bind_faults (faults_lift ?_)
  have hlast : l.getLast hne = f n := by
    have := h5 n (by omega) (by omega)
    rw [List.getLast_eq_getElem]
    simp only [h4, Nat.add_sub_cancel]
    exact (List.getElem?_eq_some_iff.1 this).2
  unfold pop
  refine faults_bind_of_wp ?_
  rw [wp_of_returns (back_ok h2 hne), hlast]
  refine faults_bind_of_wp (wp_mono (setIndex_ok h3 h2 (by omega) 1 1 (by omega) (Or.inl rfl)) ?_)
  rintro _ m1 ⟨r1, _, w1⟩
  refine faults_bind_of_wp (wp_mono (popBack_ok w1 r1 (by simpa using hne)) ?_)
  rintro v2 m2 ⟨r2, _, _, w2⟩
  refine bind_faults ?_
  have hlen : ((l.set 1 (f n)).dropLast).length = n := by simp [h4]
  have hcast : Int.bmod (v2.sz : Int) (2 ^ 32) = (((l.set 1 (f n)).dropLast).length : Nat) := by
    rw [bmod32 _ (by omega) (by rw [r2.size, hlen]; omega), r2.size]
  unfold adjustDown
  rw [hcast]
  refine down_overflow hf 30 0 rfl w2 r2 (by omega) (by omega) ?_ ?_
  · intro i hi hi'
    rw [hlen] at hi'
    rw [List.getElem?_dropLast, if_pos (by simp; omega), List.getElem?_set_ne (by omega)]
    exact h5 i (by omega) (by omega)
  · rw [hlen, List.getElem?_dropLast, if_pos (by simp; omega)]
    simp only [Nat.pow_zero]; rw [List.getElem?_set_self (by omega)]

/-- Any sequence of distinct keys will do: here the natural numbers in order. -/
example : ∃ w, Returns (run false (fun a b : Nat => decide (a < b))
      (.new 0 0 :: (List.range (2 ^ 30 + 1)).map fun i => .push 0 (i + 1))) World.init () w ∧
    Faults (step false (fun a b : Nat => decide (a < b)) (.pop 0)) w .overflow :=
  heap_pop_overflow (f := id) (fun _ _ => rfl) false 0 (2 ^ 30 + 1) (by omega) (by omega)

/-- **C15: the size limit is exact.**  Sorting a range of `2 ^ 30` or more elements overflows if the first
is the largest and the others are in order. -/
theorem heap_sort_overflow {cmp : α → α → Bool} {f : Nat → α} (hf : ∀ i j, cmp (f i) (f j) = decide (i < j))
    (triv : Bool) (obj : α) (m : Mem α) (hw : m.WF) (b lo n : Nat) (hb : b ≠ 0) (hn : 2 ^ 30 ≤ n)
    (hn' : n + 1 < 2 ^ 31) (hx : Slice m b lo (bigFirst f n)) :
    Faults (sort triv cmp obj b lo n) m .overflow := by
  obtain ⟨k, hk, hl, hx⟩ := hx
  exact bind_faults (ctorRange_overflow hf hw obj n hn hn' _ (src_ok hb hk hl hx)
    (fun i hi => Or.inr ⟨_, _, rfl, blk_lt hw hk⟩))

/-- **C16: the size limit is exact.**  So does building a heap from that range. -/
theorem heap_build_overflow {cmp : α → α → Bool} {f : Nat → α} (hf : ∀ i j, cmp (f i) (f j) = decide (i < j))
    (triv : Bool) (obj : α) (m : Mem α) (hw : m.WF) (b lo n : Nat) (hb : b ≠ 0) (hn : 2 ^ 30 ≤ n)
    (hn' : n + 1 < 2 ^ 31) (hx : Slice m b lo (bigFirst f n)) :
    Faults (build triv cmp obj b lo n) m .overflow := by
  obtain ⟨k, hk, hl, hx⟩ := hx
  exact bind_faults (ctorRange_overflow hf hw obj n hn hn' _ (src_ok hb hk hl hx)
    (fun i hi => Or.inr ⟨_, _, rfl, blk_lt hw hk⟩))

/-- Memories holding such ranges exist for every length. -/
example (n : Nat) (hn : 1 ≤ n) : ∃ m : Mem Nat, m.WF ∧ Slice m 1 0 (bigFirst id n) := by
  refine ⟨⟨fun b => if b = 1 then some ⟨n, fun j => (bigFirst id n)[j]?⟩ else none, 2, 0, 0, 0⟩,
    ⟨by simp, ?_, by simp⟩, _, rfl, by simp [bigFirst_length id hn], ?_⟩
  · intro b hb; simp only at hb ⊢; rw [if_neg (by omega)]
  · intro i hi; simp

end Verif.Heap
