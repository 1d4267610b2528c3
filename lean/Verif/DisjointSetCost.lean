import Verif.DisjointSetExact
import Verif.DisjointSetWorld
import Verif.HeapCost

/-! Helper lemmas: how many assignments disjoint sets make.

The potential of a parent array is the sum, over all elements, of the logarithm of the number of elements
whose path passes through it. -/

namespace Verif.DSU

open Prog Vec Heap

/-- The path from `i` passes through `j`. -/
inductive Reach (A : List Int) : Nat → Nat → Prop
  | refl (i : Nat) : Reach A i i
  | step {i q j : Nat} (h : A[i]? = some (q : Int)) (hr : Reach A q j) : Reach A i j

theorem natCast_some_inj {a b : Nat} (h : some (a : Int) = some (b : Int)) : a = b := by
  have := Option.some.inj h; omega

theorem Reach.root {A : List Int} {r j : Nat} {x : Int} (h : Reach A r j) (hr : A[r]? = some x) (hx : x < 0) : j = r := by
  cases h with
  | refl => rfl
  | step h1 => rw [hr] at h1; cases h1; omega

theorem Reach.next {A : List Int} {i j q : Nat} (h : Reach A i j) (hne : j ≠ i) (hq : A[i]? = some (q : Int)) :
    Reach A q j := by
  cases h with
  | refl => exact absurd rfl hne
  | step h1 h2 =>
    rw [hq] at h1
    rw [natCast_some_inj h1]; exact h2

theorem Reach.trans {A : List Int} {i j k : Nat} (h : Reach A i j) (h' : Reach A j k) : Reach A i k := by
  induction h with
  | refl => exact h'
  | step h1 _ ih => exact .step h1 (ih h')

theorem Reach.depth {A : List Int} {i j r d : Nat} (h : Reach A i j) (hr : Root A i r d) : ∃ e, e ≤ d ∧ Root A j r e := by
  induction h generalizing d with
  | refl => exact ⟨d, Nat.le_refl _, hr⟩
  | step h1 _ ih =>
    cases hr with
    | base h2 hx => rw [h1] at h2; cases h2; omega
    | step h2 h3 =>
      rw [h1] at h2
      rw [← natCast_some_inj h2] at h3
      obtain ⟨e, he, h4⟩ := ih h3
      exact ⟨e, by omega, h4⟩

theorem Root.reach {A : List Int} {i r d : Nat} (h : Root A i r d) : Reach A i r := by
  induction h with
  | base => exact .refl _
  | step h1 _ ih => exact .step h1 ih

/-! ## Counting -/

section
open Classical

/-- Number of elements whose path passes through `j`. -/
noncomputable def sz (A : List Int) (j : Nat) : Nat := (List.range A.length).countP (fun i => decide (Reach A i j))

/-- The potential. -/
noncomputable def pot (A : List Int) : Nat := ((List.range A.length).map (fun j => (sz A j).log2)).sum

theorem sz_le (A : List Int) (j : Nat) : sz A j ≤ A.length := by
  have := List.countP_le_length (p := fun i => decide (Reach A i j)) (l := List.range A.length)
  simpa [sz] using this

theorem sz_pos {A : List Int} {j : Nat} (h : j < A.length) : 1 ≤ sz A j := by
  unfold sz
  rw [Nat.succ_le_iff, List.countP_pos_iff]
  exact ⟨j, by simpa using h, by simpa using Reach.refl j⟩

theorem sz_congr {A B : List Int} {j k : Nat} (hl : B.length = A.length) (h : ∀ x, Reach B x j ↔ Reach A x k) :
    sz B j = sz A k := by
  unfold sz
  rw [hl]
  congr 1
  funext x
  simp [h x]

theorem sz_mono {A : List Int} {j k : Nat} (h : Reach A j k) : sz A j ≤ sz A k := by
  unfold sz
  apply List.countP_mono_left
  intro x _ hx
  simp only [decide_eq_true_eq] at hx ⊢
  exact hx.trans h

theorem countP_split {α : Type} {p q r : α → Bool} (l : List α) (h : ∀ x, p x = true ↔ (q x = true ∨ r x = true))
    (h' : ∀ x, ¬ (q x = true ∧ r x = true)) : l.countP q + l.countP r = l.countP p := by
  induction l with
  | nil => rfl
  | cons x l ih =>
    have h1 := h x
    have h2 := h' x
    simp only [List.countP_cons]
    cases hp : p x <;> cases hq : q x <;> cases hr : r x <;> simp_all <;> omega

end

theorem sum_change {f g : Nat → Nat} {q : Nat} (n : Nat) (hq : q < n) (h : ∀ j, j < n → j ≠ q → f j = g j) :
    ((List.range n).map f).sum + g q = ((List.range n).map g).sum + f q := by
  have same : ∀ k, k ≤ q → ((List.range k).map f).sum = ((List.range k).map g).sum := by
    intro k hk
    congr 1
    apply List.map_congr_left
    intro j hj
    have := List.mem_range.1 hj
    exact h j (by omega) (by omega)
  induction n with
  | zero => omega
  | succ n ih =>
    simp only [List.range_succ, List.map_append, List.map_cons, List.map_nil, List.sum_append_nat, List.sum_cons,
      List.sum_nil]
    by_cases hn : q = n
    · subst hn
      rw [same q (Nat.le_refl _)]
      omega
    · have := ih (by omega) fun j hj => h j (by omega)
      have := h n (by omega) (by omega)
      omega

theorem pot_change {A B : List Int} {q : Nat} (hl : B.length = A.length) (hq : q < A.length)
    (h : ∀ j, j ≠ q → sz B j = sz A j) : pot B + (sz A q).log2 = pot A + (sz B q).log2 := by
  unfold pot
  rw [hl]
  exact sum_change (f := fun j => (sz B j).log2) (g := fun j => (sz A j).log2) _ hq fun j _ hj => by
    rw [h j hj]

theorem pot_congr {A B : List Int} (hl : B.length = A.length) (h : ∀ j, sz B j = sz A j) : pot B = pot A := by
  unfold pot
  rw [hl]
  congr 1
  apply List.map_congr_left
  intro j _
  rw [h j]

theorem log2_split {a b : Nat} (ha : 1 ≤ a) (hb : 1 ≤ b) : a.log2 + 1 + b.log2 ≤ 2 * (a + b).log2 := by
  have h1 := log2_mono (show a ≤ a + b by omega)
  have h2 := log2_mono (show b ≤ a + b by omega)
  have h3 := log2_half (show 2 ≤ a + b by omega)
  by_cases h : a ≤ b
  · have := log2_mono (show a ≤ (a + b) / 2 by omega)
    omega
  · have := log2_mono (show b ≤ (a + b) / 2 by omega)
    omega

/-! ## One step of path compression -/

section
variable {B : List Int} {i q r : Nat} {x : Int}

theorem lift_reach (hi : B[i]? = some (q : Int)) (hq : B[q]? = some (r : Int)) (hiq : i ≠ q) {y j : Nat} (hj : j ≠ q) : Reach (B.set i r) y j ↔ Reach B y j := by
  have hil : i < B.length := (List.getElem?_eq_some_iff.1 hi).1
  have hself : (B.set i (r : Int))[i]? = some (r : Int) := List.getElem?_set_self hil
  constructor
  · intro h
    induction h with
    | refl => exact .refl _
    | @step y z j h1 _ ih =>
      by_cases hy : y = i
      · subst hy
        rw [hself] at h1
        rw [← natCast_some_inj h1] at ih
        exact .step hi (.step hq (ih hj))
      · rw [List.getElem?_set_ne (Ne.symm hy)] at h1
        exact .step h1 (ih hj)
  · intro h
    induction h with
    | refl => exact .refl _
    | @step y z j h1 _ ih =>
      by_cases hy : y = i
      · subst hy
        rw [hi] at h1
        have := ih hj
        rw [← natCast_some_inj h1] at this
        exact .step hself (this.next hj (by rw [List.getElem?_set_ne hiq, hq]))
      · exact .step (by rw [List.getElem?_set_ne (Ne.symm hy)]; exact h1) (ih hj)

theorem lift_reach_parent (hi : B[i]? = some (q : Int)) (hq : B[q]? = some (r : Int)) (hr : B[r]? = some x) (hx : x < 0)
    (hiq : i ≠ q) (hqr : q ≠ r) {y : Nat} : Reach (B.set i r) y q ↔ Reach B y q ∧ ¬ Reach B y i := by
  have hil : i < B.length := (List.getElem?_eq_some_iff.1 hi).1
  have hself : (B.set i (r : Int))[i]? = some (r : Int) := List.getElem?_set_self hil
  have hir : i ≠ r := by
    rintro rfl
    rw [hi] at hr; cases hr; omega
  have hr' : (B.set i (r : Int))[r]? = some x := by rw [List.getElem?_set_ne hir, hr]
  constructor
  · intro h
    generalize e : q = t at h
    induction h with
    | refl y =>
      subst e
      refine ⟨.refl _, fun h => ?_⟩
      have := h.next hiq hq
      exact hir (this.root hr hx)
    | @step y z j h1 h2 ih =>
      subst e
      by_cases hy : y = i
      · subst hy
        rw [hself] at h1
        rw [← natCast_some_inj h1] at h2
        exact absurd (h2.root hr' hx) hqr
      · rw [List.getElem?_set_ne (Ne.symm hy)] at h1
        obtain ⟨h3, h4⟩ := ih rfl
        exact ⟨.step h1 h3, fun h => h4 (h.next (Ne.symm hy) h1)⟩
  · rintro ⟨h, hn⟩
    generalize e : q = t at h
    induction h with
    | refl y => exact .refl _
    | @step y z j h1 h2 ih =>
      have hy : y ≠ i := by
        rintro rfl
        exact hn (.refl _)
      exact .step (by rw [List.getElem?_set_ne (Ne.symm hy)]; exact h1) (ih (fun h => hn (.step h1 h)) e)

theorem lift_sz (hi : B[i]? = some (q : Int)) (hq : B[q]? = some (r : Int)) (hr : B[r]? = some x) (hx : x < 0)
    (hiq : i ≠ q) (hqr : q ≠ r) : sz (B.set i r) q + sz B i = sz B q := by
  unfold sz
  rw [List.length_set]
  apply countP_split
  · intro y
    simp only [decide_eq_true_eq]
    rw [lift_reach_parent hi hq hr hx hiq hqr]
    constructor
    · intro h
      by_cases h1 : Reach B y i
      · exact Or.inr h1
      · exact Or.inl ⟨h, h1⟩
    · rintro (h | h)
      · exact h.1
      · exact h.trans (.step hi (.refl _))
  · intro y
    simp only [decide_eq_true_eq]
    rw [lift_reach_parent hi hq hr hx hiq hqr]
    rintro ⟨⟨_, h1⟩, h2⟩
    exact h1 h2

end

/-! ## Path compression -/

/-- `B` is the array after `find(i)`, which followed `d` links to the root `r`. -/
inductive Path (A : List Int) : Nat → Nat → Nat → List Int → Prop
  | base {i : Nat} {x : Int} (h : A[i]? = some x) (hx : x < 0) : Path A i i 0 A
  | step {i q r d : Nat} {B : List Int} (h : A[i]? = some (q : Int)) (hp : Path A q r d B) :
      Path A i r (d + 1) (B.set i r)

theorem Path.toRoot {A B : List Int} {i r d : Nat} (h : Path A i r d B) : Root A i r d := by
  induction h with
  | base h hx => exact .base h hx
  | step h _ ih => exact .step h ih

theorem Path.length {A B : List Int} {i r d : Nat} (h : Path A i r d B) : B.length = A.length := by
  induction h with
  | base => rfl
  | step _ _ ih => simpa using ih

theorem Path.off {A B : List Int} {i r d j : Nat} (h : Path A i r d B) (hj : ¬ Reach A i j) : B[j]? = A[j]? := by
  induction h with
  | base => rfl
  | @step i q r d B h _ ih =>
    have hne : i ≠ j := by
      rintro rfl
      exact hj (.refl _)
    rw [List.getElem?_set_ne hne]
    exact ih fun h' => hj (.step h h')

theorem Path.compr {A B : List Int} {i r d : Nat} (h : Path A i r d B) : Compr A B d := by
  induction h with
  | base => exact Compr.refl _ _
  | @step i q r d B h hp ih =>
    intro j
    by_cases hj : j = i
    · subst hj
      exact Or.inr ⟨r, d + 1, by omega, Nat.le_refl _, .step h hp.toRoot,
        List.getElem?_set_self (by rw [hp.length]; exact (List.getElem?_eq_some_iff.1 h).1)⟩
    · rw [List.getElem?_set_ne (Ne.symm hj)]
      rcases ih j with h1 | ⟨r', k, h1, h2, h3, h4⟩
      · exact Or.inl h1
      · exact Or.inr ⟨r', k, h1, by omega, h3, h4⟩

theorem Path.first {A B : List Int} {i r d : Nat} (h : Path A i r (d + 1) B) : B[i]? = some (r : Int) := by
  cases h with
  | step h hp => exact List.getElem?_set_self (by rw [hp.length]; exact (List.getElem?_eq_some_iff.1 h).1)

theorem Path.keeps_root {A B : List Int} {i r d : Nat} (h : Path A i r d B) : ∃ x, B[r]? = some x ∧ x < 0 := by
  obtain ⟨x, h1, h2⟩ := h.toRoot.root
  exact ⟨x, h.compr.keep_root h1 h2, h2⟩

/-- `find` lowers the potential by the number of links it follows, up to the logarithm of the class. -/
theorem Path.cost {A B : List Int} {i r d : Nat} (h : Path A i r d B) :
    (∀ j, (¬ Reach A i j ∨ j = i ∨ j = r) → sz B j = sz A j) ∧
    pot B + d + (sz A i).log2 ≤ pot A + (sz A r).log2 + 1 := by
  induction h with
  | base => exact ⟨fun _ _ => rfl, by omega⟩
  | @step i q r d B h hp ih =>
    obtain ⟨ih1, ih2⟩ := ih
    have hroot := hp.toRoot
    have hnot : ¬ Reach A q i := by
      intro hc
      obtain ⟨e, he, h1⟩ := hc.depth hroot
      have := (h1.det (.step h hroot)).2
      omega
    have hiq : i ≠ q := by
      rintro rfl
      exact hnot (.refl _)
    have hBi : B[i]? = some (q : Int) := (hp.off hnot).trans h
    cases d with
    | zero =>
      cases hp with
      | base h1 hx =>
        have e : A.set i (q : Int) = A := by
          apply List.ext_getElem?
          intro j
          by_cases hj : j = i
          · subst hj
            rw [List.getElem?_set_self (List.getElem?_eq_some_iff.1 h).1, h]
          · rw [List.getElem?_set_ne (Ne.symm hj)]
        rw [e]
        refine ⟨fun _ _ => rfl, ?_⟩
        have := log2_mono (sz_mono (Reach.step h (.refl _)))
        omega
    | succ d =>
      have hBq := hp.first
      obtain ⟨x, hBr, hx⟩ := hp.keeps_root
      have hqr : q ≠ r := by
        rintro rfl
        rw [hBq] at hBr; cases hBr; omega
      have hlen : q < B.length := (List.getElem?_eq_some_iff.1 hBq).1
      have hsame : ∀ j, j ≠ q → sz (B.set i (r : Int)) j = sz B j := fun j hj =>
        sz_congr (by simp) fun y => lift_reach hBi hBq hiq hj
      have hi := ih1 i (Or.inl hnot)
      have hq := ih1 q (Or.inr (Or.inl rfl))
      constructor
      · intro j hj
        have hjq : j ≠ q := by
          rintro rfl
          rcases hj with h1 | h1 | h1
          · exact h1 (.step h (.refl _))
          · exact hiq h1.symm
          · exact hqr h1
        rw [hsame j hjq]
        refine ih1 j ?_
        rcases hj with h1 | rfl | rfl
        · exact Or.inl fun h2 => h1 (.step h h2)
        · exact Or.inl hnot
        · exact Or.inr (Or.inr rfl)
      · have h1 := lift_sz hBi hBq hBr hx hiq hqr
        have h2 := pot_change (by simp) hlen hsame
        have h3 := sz_pos (show q < (B.set i (r : Int)).length by simpa using hlen)
        have h4 := sz_pos (show i < B.length from (List.getElem?_eq_some_iff.1 hBi).1)
        have h5 := log2_split h3 h4
        rw [h1] at h5
        rw [← hi]
        rw [← hq] at ih2
        omega

/-! ## Linking -/

theorem link_pot {A A' : List Int} {r1 r2 : Nat} (hl : A'.length = A.length) (h1 : ∃ x, A[r1]? = some x ∧ x < 0)
    (h2 : ∃ x, A[r2]? = some x ∧ x < 0) (hk : A'[r2]? = some (r1 : Int))
    (ho : ∀ j, j ≠ r2 → A'[j]? = A[j]? ∨ ∃ x y, A[j]? = some x ∧ A'[j]? = some y ∧ x < 0 ∧ y < 0) :
    pot A' ≤ pot A + A.length.log2 := by
  obtain ⟨x1, h1, hx1⟩ := h1
  obtain ⟨x2, h2, hx2⟩ := h2
  have hstep : ∀ y z : Nat, y ≠ r2 → (A'[y]? = some (z : Int) ↔ A[y]? = some (z : Int)) := by
    intro y z hy
    rcases ho y hy with h | ⟨x, w, h3, h4, h5, h6⟩
    · rw [h]
    · rw [h3, h4]
      simp only [Option.some.injEq]
      omega
  have hsame : ∀ j, j ≠ r1 → sz A' j = sz A j := by
    intro j hj
    refine sz_congr hl fun y => ⟨fun h => ?_, fun h => ?_⟩
    · induction h with
      | refl => exact .refl _
      | @step y z j h3 _ ih =>
        by_cases hy : y = r2
        · subst hy
          rw [hk] at h3
          have := ih hj
          rw [← natCast_some_inj h3] at this
          exact absurd (this.root h1 hx1) hj
        · exact .step ((hstep y z hy).1 h3) (ih hj)
    · induction h with
      | refl => exact .refl _
      | @step y z j h3 _ ih =>
        have hy : y ≠ r2 := by
          rintro rfl
          rw [h2] at h3; cases h3; omega
        exact .step ((hstep y z hy).2 h3) (ih hj)
  have h3 := pot_change hl (List.getElem?_eq_some_iff.1 h1).1 hsame
  have h4 := log2_mono (sz_le A' r1)
  rw [hl] at h4
  omega

/-! ## Operations -/

variable {n : Nat} {ps : List (Nat × Nat)} {ρ : Nat → Nat} {v : Vec} {m : Mem Int} {dead : Nat → Prop}
  {A B : List Int}

theorem setIndex_moved {i : Int} {e : Arg Int} : wlp (setIndex v i e) (fun _ m' => m'.moved = m.moved + 1) m := by
  refine wlp_bind (wlp_dassert fun _ => wlp_bind (wlp_mono get_spent ?_))
  rintro x t rfl
  refine wlp_bind (wlp_mono access_spent ?_)
  rintro ⟨k, j⟩ t rfl
  exact wlp_bind (wlp_check fun _ => wlp_modify rfl)

/-- `find` follows the path, makes one assignment per link and leaves the compressed array. -/
theorem find_path {v : Vec} (d : Nat) : ∀ {a : Arg Int} {A : List Int} {m : Mem Int} {i r : Nat},
    Rep m v A → m.WF → A.length < 2 ^ 31 → ArgIs v a A i → Root A i r d →
    wp (find v a) (fun a' m' => ∃ B, Rep m' v B ∧ m'.WF ∧ Path A i r d B ∧ ArgIs v a' B r ∧
      m'.moved = m.moved + d) m := by
  induction d with
  | zero =>
    intro a A m i r hr hw hlen ha hroot
    rw [find, wp_bind, wp_of_returns (ha.get hr), wp_bind, wp_of_returns (refAt_ok hr hlen i hroot.lt),
      wp_bind]
    cases hroot with
    | base h hx =>
      obtain ⟨h2, h3⟩ := List.getElem?_eq_some_iff.1 h
      have h4 := hr.read_ok i h2
      rw [h3] at h4
      rw [wp_of_returns (show Returns (Arg.get (.ref v.c (i : Int))) m _ m from h4), if_pos hx, wp_pure]
      exact ⟨A, hr, hw, .base h hx, ha, rfl⟩
  | succ d ih =>
    intro a A m i r hr hw hlen ha hroot
    have hi := hroot.lt
    have hroot' := hroot
    rw [find, wp_bind, wp_of_returns (ha.get hr), wp_bind, wp_of_returns (refAt_ok hr hlen i hi),
      wp_bind]
    cases hroot with
    | @step _ q _ _ h hq =>
      have hs : ArgIs v (.ref v.c (i : Int)) A q := Or.inr ⟨i, rfl, h⟩
      rw [wp_of_returns (hs.get hr), if_neg (by omega), wp_bind, wp_of_returns (ha.get hr), wp_bind,
        wp_of_returns (refAt_ok hr hlen i hi), wp_bind]
      refine wp_mono (ih hr hw hlen hs hq) ?_
      rintro a1 m1 ⟨B, r1, w1, p1, b1, e1⟩
      have c1 := p1.compr
      have hBl : B.length = A.length := c1.length
      have haB : ArgIs v a B i := by
        rcases ha with rfl | ⟨j, rfl, hj⟩
        · exact Or.inl rfl
        · refine Or.inr ⟨j, rfl, ?_⟩
          rcases c1 j with h1 | ⟨r', k, _, h2, h3, _⟩
          · rw [h1, hj]
          · have := (h3.det (.step hj hroot')).2
            omega
      rw [wp_bind, wp_of_returns (b1.get r1), wp_bind, wp_of_returns (haB.get r1), wp_bind]
      refine wp_mono (wp_wlp (setIndex_ok w1 r1 (by omega) _ i (by omega) (Or.inl rfl)) setIndex_moved) ?_
      rintro _ m2 ⟨⟨r2, _, w2⟩, e2⟩
      rw [wp_of_returns (refAt_ok r2 (by simp; omega) i (by simp; omega))]
      refine ⟨_, r2, w2, .step h p1, Or.inr ⟨i, rfl, ?_⟩, by omega⟩
      rw [List.getElem?_set_self (by omega)]

/-- As `GHolds`; potential and assignments so far are at most `K`. -/
def CHolds (n : Nat) (ps : List (Nat × Nat)) (dead : Nat → Prop) (ρ : Nat → Nat) (K : Nat) (v : Vec) (m : Mem Int) :
    Prop :=
  m.WF ∧ ∃ A, Rep m v A ∧ GInv n ps dead ρ A ∧ pot A + m.moved ≤ K

theorem cfind {K : Nat} (hw : m.WF) (hr : Rep m v A) (hi : GInv n ps dead ρ A) (hK : pot A + m.moved ≤ K) {i : Nat}
    (h : i < n) (hd : ¬ dead i) :
    wp (find v (.val (i : Int))) (fun a m' => m'.WF ∧ ∃ B d, Rep m' v B ∧ Compr A B d ∧ GInv n ps dead ρ B ∧
      ArgIs v a B (ρ i) ∧ pot B + m'.moved ≤ K + n.log2 + 1) m := by
  obtain ⟨d, hd⟩ := hi.root i h hd
  have hs := hi.small
  refine wp_mono (find_path d hr hw (by rw [hi.len]; exact hs) (Or.inl rfl) hd) ?_
  rintro a m' ⟨B, h1, h2, h3, h4, h5⟩
  refine ⟨h2, B, d, h1, h3.compr, hi.compr h3.compr, h4, ?_⟩
  have h6 := h3.cost.2
  have h7 := log2_mono (sz_le A (ρ i))
  rw [hi.len] at h7
  omega

theorem cfindVal {K : Nat} (h : CHolds n ps dead ρ K v m) {i : Nat} (hi : i < n) (hd : ¬ dead i) :
    wp (findVal v (i : Int)) (fun x m' => x = (ρ i : Int) ∧ CHolds n ps dead ρ (K + n.log2 + 1) v m') m := by
  obtain ⟨hw, A, hr, hI, hK⟩ := h
  unfold findVal
  rw [wp_bind]
  refine wp_mono (cfind hw hr hI hK hi hd) ?_
  rintro a m' ⟨h1, B, _, h2, _, h3, h4, h5⟩
  rw [wp_of_returns (h4.get h2)]
  exact ⟨rfl, h1, B, h2, h3, h5⟩

theorem cconnected {K : Nat} (h : CHolds n ps dead ρ K v m) {i j : Nat} (hi : i < n) (hj : j < n) (hdi : ¬ dead i)
    (hdj : ¬ dead j) :
    wp (connected v (i : Int) (j : Int)) (fun _ m' => CHolds n ps dead ρ (K + 2 * (n.log2 + 1)) v m') m := by
  obtain ⟨hw, A, hr, hI, hK⟩ := h
  unfold connected
  rw [wp_bind]
  refine wp_mono (cfind hw hr hI hK hi hdi) ?_
  rintro a m1 ⟨w1, B, _, r1, _, i1, a1, k1⟩
  rw [wp_bind]
  refine wp_mono (cfind w1 r1 i1 k1 hj hdj) ?_
  rintro b m2 ⟨w2, C, _, r2, c2, i2, b2, k2⟩
  have a2 : ArgIs v a C (ρ i) := by
    rcases a1 with rfl | ⟨k, rfl, hk⟩
    · exact Or.inl rfl
    · refine Or.inr ⟨k, rfl, ?_⟩
      obtain ⟨e, he⟩ := i1.root i hi hdi
      have hrk : Root B k (ρ i) 1 := .step hk he.root_self
      rcases c2 k with h1 | ⟨r, k', _, _, h3, h4⟩
      · rw [h1, hk]
      · rw [h4, (h3.det hrk).1]
  rw [wp_bind, wp_of_returns (a2.get r2), wp_bind, wp_of_returns (b2.get r2), wp_pure]
  exact ⟨w2, C, r2, i2, by omega⟩

theorem unionSet_moved {r1 r2 : Int} : wlp (unionSet v r1 r2) (fun _ m' => m'.moved ≤ m.moved + 2) m := by
  have hone : ∀ {i : Int} {e : Arg Int} {t : Mem Int} {k : Nat}, t.moved ≤ m.moved + k → k ≤ 1 →
      wlp (setIndex v i e) (fun _ m' => m'.moved ≤ m.moved + 2) t := by
    intro i e t k h1 h2
    exact wlp_mono setIndex_moved fun _ u hu => by omega
  unfold unionSet
  refine wlp_ite (fun _ => hone (k := 0) (Nat.le_refl _) (by omega)) fun _ => ?_
  refine wlp_bind (wlp_mono index_moves ?_)
  rintro x t rfl
  refine wlp_bind (wlp_mono index_moves ?_)
  rintro y t rfl
  refine wlp_bind (wlp_mono (Q := fun _ u => u.moved ≤ t.moved + 1) (wlp_when (fun _ => ?_) fun _ => by omega)
    fun _ u hu => hone (k := 1) hu (by omega))
  refine wlp_bind (wlp_mono index_moves ?_)
  rintro z t rfl
  exact wlp_bind (wlp_check fun _ => wlp_mono setIndex_moved fun _ u hu => by omega)

theorem cconnect {K : Nat} (h : CHolds n ps dead ρ K v m) {a b : Nat} (ha : a < n) (hb : b < n) (hda : ¬ dead a)
    (hdb : ¬ dead b) :
    wp (connect v (a : Int) (b : Int)) (fun _ m' => ∃ ρ', CHolds n (ps ++ [(a, b)])
      (fun x => dead x ∨ Conn ps a b ∧ Conn ps a x) ρ' (K + (3 * n.log2 + 4)) v m') m := by
  unfold connect
  rw [wp_bind]
  refine wp_mono (cfindVal h ha hda) ?_
  rintro x m1 ⟨rfl, h1⟩
  rw [wp_bind]
  refine wp_mono (cfindVal h1 hb hdb) ?_
  rintro y m2 ⟨rfl, hw, A, hr, hI, hK⟩
  refine wp_mono (wp_wlp (gunion hw hr hI ha hb hda hdb) unionSet_moved) ?_
  rintro _ m3 ⟨⟨w3, A1, r3, l3, e1, e2, e3, e4⟩, e5⟩
  refine ⟨_, w3, _, r3, hI.union ha hb hda hdb l3 e1 e2 e3 e4, ?_⟩
  obtain ⟨da, hra⟩ := hI.root a ha hda
  obtain ⟨db, hrb⟩ := hI.root b hb hdb
  have hlb := hI.rho_lt hb
  have := link_pot (A' := A1.set (ρ b) (ρ a)) (by rw [List.length_set, l3, hI.len]) hra.root hrb.root
    (List.getElem?_set_self (by omega)) (by
      intro j hj
      rw [List.getElem?_set_ne (Ne.symm hj)]
      rcases e4 j with h | ⟨_, h⟩
      · exact Or.inl h
      · exact Or.inr h)
  rw [hI.len] at this
  omega

theorem cstep {pre : List Op} {op : Op} {K : Nat} (h : CHolds n (pairs pre) (Dead pre) ρ K v m) (hv : op.Valid n)
    (hu : ∀ x ∈ op.args, ¬ Dead pre x) :
    wp (step v op) (fun _ m' => ∃ ρ', CHolds n (pairs (pre ++ [op])) (Dead (pre ++ [op])) ρ'
      (K + (3 * n.log2 + 4)) v m') m := by
  have up : ∀ {ps dead ρ k} {m : Mem Int}, CHolds n ps dead ρ k v m → k ≤ K + (3 * n.log2 + 4) →
      CHolds n ps dead ρ (K + (3 * n.log2 + 4)) v m := by
    rintro ps dead ρ k m ⟨h1, A, h2, h3, h4⟩ hk
    exact ⟨h1, A, h2, h3, by omega⟩
  cases op with
  | find i =>
    rw [pairs_snoc, dead_snoc_query rfl]
    simp only [step, wp_bind, wp_pure, Op.pair, List.append_nil]
    refine wp_mono (cfindVal h hv (hu i (by simp [Op.args]))) ?_
    rintro _ m1 ⟨_, h1⟩
    exact ⟨ρ, up h1 (by omega)⟩
  | connected i j =>
    rw [pairs_snoc, dead_snoc_query rfl]
    simp only [step, wp_bind, wp_pure, Op.pair, List.append_nil]
    refine wp_mono (cconnected h hv.1 hv.2 (hu i (by simp [Op.args])) (hu j (by simp [Op.args]))) ?_
    rintro _ m1 h1
    exact ⟨ρ, up h1 (by omega)⟩
  | connect i j =>
    rw [pairs_snoc, dead_snoc_connect]
    exact cconnect h hv.1 hv.2 (hu i (by simp [Op.args])) (hu j (by simp [Op.args]))

theorem crun (ops : List Op) : ∀ {pre : List Op} {ρ : Nat → Nat} {m : Mem Int} {K : Nat},
    CHolds n (pairs pre) (Dead pre) ρ K v m → (∀ op ∈ ops, op.Valid n) → Usable pre ops →
    wp (run v ops) (fun _ m' => m'.moved ≤ K + ops.length * (3 * n.log2 + 4)) m := by
  induction ops with
  | nil =>
    rintro pre ρ m K ⟨_, A, _, _, h⟩ _ _
    exact (wp_pure _ _ _).2 (by omega)
  | cons op ops ih =>
    intro pre ρ m K h hv hu
    unfold run
    rw [List.map_cons, seqAll, wp_bind]
    refine wp_mono (cstep h (hv op (by simp)) fun x hx => by simpa using hu [] op ops rfl x hx) ?_
    rintro _ m1 ⟨ρ1, h1⟩
    refine wp_mono (ih h1 (fun o ho => hv o (by simp [ho])) hu.tail) ?_
    intro _ m2 h2
    rw [List.length_cons, Nat.succ_mul]
    omega

theorem pot_init (n : Nat) : pot (List.replicate n (-1)) = 0 := by
  have h : ∀ j, (sz (List.replicate n (-1 : Int)) j).log2 = 0 := by
    intro j
    have h1 : sz (List.replicate n (-1 : Int)) j ≤ 1 := by
      unfold sz
      rw [List.countP_eq_length_filter]
      have : ((List.range (List.replicate n (-1 : Int)).length).filter
          (fun i => @decide (Reach (List.replicate n (-1 : Int)) i j) (Classical.propDecidable _))) ⊆ [j] := by
        intro x hx
        simp only [List.mem_filter, List.mem_range, List.length_replicate, decide_eq_true_eq] at hx
        have := hx.2.root (x := -1) (by simp [hx.1]) (by omega)
        simp [this]
      exact List.Nodup.length_le_of_subset (List.nodup_range.filter _) this
    have := log2_mono h1
    have e : Nat.log2 1 = 0 := by decide
    omega
  unfold pot
  simp [h]

/-- A path has no more links than there are other elements. -/
theorem Root.depth_lt {A : List Int} {i r d : Nat} (h : Root A i r d) : d < A.length := by
  have : ∃ L : List Nat, L.length = d + 1 ∧ L.Nodup ∧ ∀ x ∈ L, x < A.length ∧ ∃ e, e ≤ d ∧ Root A x r e := by
    induction h with
    | @base i x h hx => exact ⟨[i], rfl, by simp, by simpa using ⟨(Root.base h hx).lt, .base h hx⟩⟩
    | @step i q r d h hr ih =>
      obtain ⟨L, h1, h2, h3⟩ := ih
      refine ⟨i :: L, by simp [h1], List.nodup_cons.2 ⟨fun hi => ?_, h2⟩, ?_⟩
      · obtain ⟨_, e, he, h4⟩ := h3 i hi
        have := (h4.det (.step h hr)).2
        omega
      · intro x hx
        rcases List.mem_cons.1 hx with rfl | hx
        · exact ⟨(Root.step h hr).lt, d + 1, Nat.le_refl _, .step h hr⟩
        · obtain ⟨h4, e, he, h5⟩ := h3 x hx
          exact ⟨h4, e, by omega, h5⟩
  obtain ⟨L, h1, h2, h3⟩ := this
  have := List.Nodup.length_le_of_subset h2 (l₂ := List.range A.length) fun x hx => List.mem_range.2 (h3 x hx).1
  simp at this
  omega

/-! ## A chain -/

/-- Elements up to `t` are roots, the others point to their predecessors. -/
def arr (n t : Nat) : List Int := (List.range n).map (fun j => if j ≤ t then -1 else (j : Int) - 1)

theorem arr_get {n t j : Nat} (hj : j < n) : (arr n t)[j]? = some (if j ≤ t then -1 else (j : Int) - 1) := by
  simp [arr, hj]

theorem arr_length (n t : Nat) : (arr n t).length = n := by simp [arr]

theorem arr_root {n j : Nat} (hj : j < n) : Root (arr n 0) j 0 j := by
  induction j with
  | zero => exact .base (arr_get hj) (by simp)
  | succ j ih =>
    refine .step (q := j) ?_ (ih (by omega))
    rw [arr_get hj, if_neg (by omega)]
    congr 1
    omega

theorem find_self {j : Nat} {x : Int} (hr : Rep m v A) (hw : m.WF) (hs : A.length < 2 ^ 31) (hj : A[j]? = some x)
    (hx : x < 0) : wp (findVal v (j : Int)) (fun y m' => y = (j : Int) ∧ Rep m' v A ∧ m'.WF ∧ m'.moved = m.moved) m := by
  unfold findVal
  rw [wp_bind]
  refine wp_mono (find_path 0 hr hw hs (Or.inl rfl) (.base hj hx)) ?_
  rintro a m' ⟨B, h1, h2, h3, h4, h5⟩
  cases h3
  rw [wp_of_returns (h4.get h1)]
  exact ⟨rfl, h1, h2, h5⟩

theorem chain_run (t : Nat) {m : Mem Int} (hn : n < 2 ^ 31) (ht : t < n) (hr : Rep m v (arr n t)) (hw : m.WF) :
    wp (run v (chain t)) (fun _ m' => m'.WF ∧ Rep m' v (arr n 0)) m := by
  induction t generalizing m with
  | zero => exact (wp_pure _ _ _).2 ⟨hw, hr⟩
  | succ t ih =>
    show wp (connect v (t : Int) ((t + 1 : Nat) : Int) >>= fun _ => run v (chain t)) _ m
    rw [wp_bind]
    unfold connect
    have hl := arr_length n (t + 1)
    rw [wp_bind]
    refine wp_mono (find_self hr hw (by omega) (arr_get (by omega)) (by rw [if_pos (by omega)]; omega)) ?_
    rintro x m1 ⟨rfl, r1, w1, _⟩
    rw [wp_bind]
    refine wp_mono (find_self r1 w1 (by omega) (arr_get (by omega)) (by rw [if_pos (by omega)]; omega)) ?_
    rintro y m2 ⟨rfl, r2, w2, _⟩
    unfold unionSet
    rw [if_pos (by omega)]
    refine wp_mono (setIndex_ok w2 r2 (by omega) _ (t + 1) (by omega) (Or.inl rfl)) ?_
    rintro _ m3 ⟨r3, _, w3⟩
    refine ih (by omega) ?_ w3
    have e : (arr n (t + 1)).set (t + 1) (t : Int) = arr n t := by
      apply List.ext_getElem?
      intro j
      by_cases hj : j < n
      · by_cases he : j = t + 1
        · subst he
          rw [List.getElem?_set_self (by omega), arr_get hj, if_neg (by omega)]
          congr 1
          omega
        · rw [List.getElem?_set_ne (Ne.symm he), arr_get hj, arr_get hj]
          congr 1
          by_cases h1 : j ≤ t
          · rw [if_pos h1, if_pos (by omega)]
          · rw [if_neg h1, if_neg (by omega)]
      · rw [List.getElem?_eq_none (by rw [List.length_set]; omega), List.getElem?_eq_none (by rw [arr_length]; omega)]
    rw [← e]
    exact r3

theorem chain_guarded (t : Nat) {ps : List (Nat × Nat)} (ht : t < n) (hp : ∀ p ∈ ps, t ≤ p.1 ∧ t ≤ p.2) :
    Guarded n ps (chain t) := by
  induction t generalizing ps with
  | zero => trivial
  | succ t ih =>
    refine ⟨⟨by omega, ht⟩, ?_, ih (by omega) ?_⟩
    · intro hc
      have : ∀ {a b}, Conn ps a b → min a (t + 1) = min b (t + 1) := by
        intro a b h
        induction h with
        | refl => rfl
        | pair h => have := hp _ h; omega
        | symm _ ih => exact ih.symm
        | trans _ _ h1 h2 => exact h1.trans h2
      have := this hc
      omega
    · intro p hp'
      rcases List.mem_append.1 hp' with h | h
      · have := hp p h; omega
      · simp only [Op.pair, List.mem_singleton] at h
        subst h
        simp

end Verif.DSU
