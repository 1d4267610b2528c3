import Verif.Spec.DisjointSet
import Verif.VectorLemmas

/-! # Lemmas about `DisjointSet` -/

namespace Verif.DSU

open Prog Vec

/-! ## Forests as parent arrays -/

/-- In the parent array `A`, `d` steps lead from `i` to the root `r`. -/
inductive Root (A : List Int) : Nat → Nat → Nat → Prop
  | base {i : Nat} {x : Int} (h : A[i]? = some x) (hx : x < 0) : Root A i i 0
  | step {i q r d : Nat} (h : A[i]? = some (q : Int)) (hr : Root A q r d) : Root A i r (d + 1)

theorem Root.det {A : List Int} {i r d r' d' : Nat} (h : Root A i r d) (h' : Root A i r' d') :
    r = r' ∧ d = d' := by
  induction h generalizing r' d' with
  | base h hx =>
    cases h' with
    | base => exact ⟨rfl, rfl⟩
    | step h2 => rw [h] at h2; cases h2; omega
  | step h hr ih =>
    cases h' with
    | base h2 hx2 => rw [h] at h2; cases h2; omega
    | step h2 hr2 =>
      rw [h] at h2
      have : ∀ a b : Nat, some (a : Int) = some (b : Int) → a = b := by
        intro a b e; have := Option.some.inj e; omega
      have e := this _ _ h2
      subst e
      obtain ⟨rfl, rfl⟩ := ih hr2
      exact ⟨rfl, rfl⟩

theorem Root.root {A : List Int} {i r d : Nat} (h : Root A i r d) : ∃ x, A[r]? = some x ∧ x < 0 := by
  induction h with
  | base h hx => exact ⟨_, h, hx⟩
  | step _ _ ih => exact ih

theorem Root.root_self {A : List Int} {i r d : Nat} (h : Root A i r d) : Root A r r 0 := by
  obtain ⟨x, h1, h2⟩ := h.root
  exact .base h1 h2

theorem Root.lt {A : List Int} {i r d : Nat} (h : Root A i r d) : i < A.length := by
  cases h with
  | base h => exact (List.getElem?_eq_some_iff.1 h).1
  | step h => exact (List.getElem?_eq_some_iff.1 h).1

/-- `B` arises from `A` by making some non-roots of depth at most `d` point to their roots. -/
def Compr (A B : List Int) (d : Nat) : Prop :=
  ∀ j, B[j]? = A[j]? ∨ ∃ r k, 1 ≤ k ∧ k ≤ d ∧ Root A j r k ∧ B[j]? = some (r : Int)

theorem Compr.refl (A : List Int) (d : Nat) : Compr A A d := fun _ => Or.inl rfl

theorem Compr.keep_root {A B : List Int} {d : Nat} (h : Compr A B d) {r : Nat} {x : Int}
    (hr : A[r]? = some x) (hx : x < 0) : B[r]? = some x := by
  rcases h r with h | ⟨r', k, h1, h2, h3, h4⟩
  · rw [h, hr]
  · have := (h3.det (.base hr hx)).2; omega

theorem Compr.root {A B : List Int} {d : Nat} (h : Compr A B d) {i r k : Nat} (hr : Root A i r k) :
    ∃ k', Root B i r k' := by
  induction hr with
  | base h1 hx => exact ⟨0, .base (h.keep_root h1 hx) hx⟩
  | @step i q r k h1 hr ih =>
    rcases h i with h2 | ⟨r', k', h2, h3, h4, h5⟩
    · obtain ⟨k', ih⟩ := ih
      exact ⟨_, .step (h2.trans h1) ih⟩
    · obtain ⟨rfl, _⟩ := h4.det (.step h1 hr)
      obtain ⟨x, hx1, hx2⟩ := hr.root
      exact ⟨_, .step h5 (.base (h.keep_root hx1 hx2) hx2)⟩

theorem Compr.length {A B : List Int} {d : Nat} (h : Compr A B d) : B.length = A.length := by
  have h1 : ∀ j, j < B.length ↔ j < A.length := by
    intro j
    rcases h j with h | ⟨r, k, _, _, h3, h4⟩
    · grind
    · exact ⟨fun _ => h3.lt, fun _ => (List.getElem?_eq_some_iff.1 h4).1⟩
  have a := h1 A.length
  have b := h1 B.length
  omega

theorem Compr.neg {A B : List Int} {d : Nat} (h : Compr A B d) (j : Nat) :
    B[j]?.map (fun x => decide (x < 0)) = A[j]?.map (fun x => decide (x < 0)) := by
  rcases h j with h | ⟨r, k, h1, _, h3, h4⟩
  · rw [h]
  · cases h3 with
    | base => omega
    | step h5 h6 =>
      rw [h4, h5]
      simp only [Option.map_some, Option.some.injEq, decide_eq_decide]
      omega

/-- Number of roots. -/
def roots (A : List Int) : Nat := A.countP (fun x => decide (x < 0))

theorem roots_congr {A B : List Int}
    (h : ∀ j : Nat, B[j]?.map (fun x => decide (x < 0)) = A[j]?.map (fun x => decide (x < 0))) :
    roots B = roots A := by
  have : B.map (fun x => decide (x < 0)) = A.map (fun x => decide (x < 0)) := by
    apply List.ext_getElem?
    intro j
    simpa using h j
  have h1 : ∀ L : List Int, roots L = (L.map (fun x => decide (x < 0))).countP id := by
    intro L; simp [roots, List.countP_map, Function.comp_def]
  rw [h1, h1, this]

/-! ## `find` -/

/-- The reference `a` currently has the value `i`. -/
def ArgIs (v : Vec) (a : Arg Int) (A : List Int) (i : Nat) : Prop :=
  a = .val i ∨ ∃ j : Nat, a = .ref v.c j ∧ A[j]? = some (i : Int)

theorem ArgIs.get {v : Vec} {a : Arg Int} {A : List Int} {i : Nat} {m : Mem Int} (h : ArgIs v a A i)
    (hr : Rep m v A) : Returns a.get m (i : Int) m := by
  rcases h with rfl | ⟨j, rfl, hj⟩
  · exact val_get _ _
  · obtain ⟨h1, h2⟩ := List.getElem?_eq_some_iff.1 hj
    have := hr.read_ok j h1
    rw [h2] at this
    exact this

theorem refAt_ok {m : Mem Int} {v : Vec} {A : List Int} (hr : Rep m v A) (hlen : A.length < 2 ^ 31)
    (i : Nat) (hi : i < A.length) : Returns (refAt v (i : Int)) m (.ref v.c (i : Int)) m := by
  have hsz := hr.size
  have hn : normIndex v (i : Int) = i := by
    rw [normIndex_ok v _ (by omega) (by omega), if_neg (by omega)]
  unfold refAt
  simp only [hn]
  rw [dassert_pos (by rw [bmod32 _ (by omega) (by omega)]; omega)]
  rfl

theorem find_ok {v : Vec} (d : Nat) : ∀ {a : Arg Int} {A : List Int} {m : Mem Int} {i r : Nat},
    Rep m v A → m.WF → A.length < 2 ^ 31 → ArgIs v a A i → Root A i r d →
    wp (find v a) (fun a' m' => ∃ B, Rep m' v B ∧ m'.WF ∧ Compr A B d ∧ ArgIs v a' B r) m := by
  induction d with
  | zero =>
    intro a A m i r hr hw hlen ha hroot
    rw [find, wp_bind, wp_of_returns (ha.get hr), wp_bind, wp_of_returns (refAt_ok hr hlen i hroot.lt),
      wp_bind]
    cases hroot with
    | base h hx =>
      have h1 : ArgIs v (.ref v.c (i : Int)) A i ∨ True := Or.inr trivial
      obtain ⟨h2, h3⟩ := List.getElem?_eq_some_iff.1 h
      have h4 := hr.read_ok i h2
      rw [h3] at h4
      rw [wp_of_returns (show Returns (Arg.get (.ref v.c (i : Int))) m _ m from h4), if_pos hx, wp_pure]
      exact ⟨A, hr, hw, Compr.refl _ _, ha⟩
  | succ d ih =>
    intro a A m i r hr hw hlen ha hroot
    have hi := hroot.lt
    have hroot' := hroot
    rw [find, wp_bind, wp_of_returns (ha.get hr), wp_bind, wp_of_returns (refAt_ok hr hlen i hi),
      wp_bind]
    cases hroot with
    | @step _ q _ _ h hq =>
      have hs : ArgIs v (.ref v.c (i : Int)) A q := Or.inr ⟨i, rfl, h⟩
      rw [wp_of_returns (hs.get hr), if_neg (by omega), wp_bind, wp_of_returns (ha.get hr), wp_bind,
        wp_of_returns (refAt_ok hr hlen i hi), wp_bind]
      refine wp_mono (ih hr hw hlen hs hq) ?_
      rintro a1 m1 ⟨B, r1, w1, c1, b1⟩
      have hBl : B.length = A.length := c1.length
      have haB : ArgIs v a B i := by
        rcases ha with rfl | ⟨j, rfl, hj⟩
        · exact Or.inl rfl
        · refine Or.inr ⟨j, rfl, ?_⟩
          rcases c1 j with h1 | ⟨r', k, _, h2, h3, _⟩
          · rw [h1, hj]
          · have := (h3.det (.step hj hroot')).2
            omega
      rw [wp_bind, wp_of_returns (b1.get r1), wp_bind, wp_of_returns (haB.get r1), wp_bind]
      refine wp_mono (setIndex_ok w1 r1 (by omega) _ i (by omega) (Or.inl rfl)) ?_
      rintro _ m2 ⟨r2, _, w2⟩
      rw [wp_of_returns (refAt_ok r2 (by simp; omega) i (by simp; omega))]
      refine ⟨_, r2, w2, ?_, Or.inr ⟨i, rfl, ?_⟩⟩
      · intro j
        by_cases hj : j = i
        · subst hj
          exact Or.inr ⟨r, d + 1, by omega, Nat.le_refl _, hroot', by rw [List.getElem?_set_self (by omega)]⟩
        · rw [List.getElem?_set_ne (Ne.symm hj)]
          rcases c1 j with h1 | ⟨r', k, h1, h2, h3, h4⟩
          · exact Or.inl h1
          · exact Or.inr ⟨r', k, h1, by omega, h3, h4⟩
      · rw [List.getElem?_set_self (by omega)]

/-! ## Divergence on a self-loop -/

/-- `i` leads to the self-loop at `r`. -/
inductive Loop (A : List Int) (r : Nat) : Nat → Prop
  | self (h : A[r]? = some (r : Int)) : Loop A r r
  | step {i q : Nat} (h : A[i]? = some (q : Int)) (hq : Loop A r q) : Loop A r i

theorem Loop.next {A : List Int} {r i : Nat} (h : Loop A r i) :
    ∃ q : Nat, A[i]? = some (q : Int) ∧ Loop A r q := by
  cases h with
  | self h => exact ⟨r, h, .self h⟩
  | step h hq => exact ⟨_, h, hq⟩

theorem find_diverges {v : Vec} {r : Nat} : ∀ (a : Arg Int) (m : Mem Int),
    (∃ A i, Rep m v A ∧ A.length < 2 ^ 31 ∧ ArgIs v a A i ∧ Loop A r i) → find v a m = none := by
  refine find.fixpoint_induct (v := v) (fun f => ∀ (a : Arg Int) (m : Mem Int),
    (∃ A i, Rep m v A ∧ A.length < 2 ^ 31 ∧ ArgIs v a A i ∧ Loop A r i) → f a m = none)
    (Prog.admissible_diverges _) ?_
  rintro f ih a m ⟨A, i, hr, hlen, ha, hl⟩
  show Diverges (a.get >>= _) m
  unfold Diverges
  obtain ⟨q, hq, hl'⟩ := hl.next
  have hi := (List.getElem?_eq_some_iff.1 hq).1
  have hs : ArgIs v (.ref v.c (i : Int)) A q := Or.inr ⟨i, rfl, hq⟩
  rw [bind_returns (ha.get hr), bind_returns (refAt_ok hr hlen i hi), bind_returns (hs.get hr),
    if_neg (by omega), bind_returns (ha.get hr), bind_returns (refAt_ok hr hlen i hi)]
  exact bind_diverges (ih _ m ⟨A, q, hr, hlen, hs, hl'⟩)

theorem Root.loop {A : List Int} {i r d : Nat} (h : Root A i r d) {A' : List Int}
    (h1 : A'[r]? = some (r : Int)) (h2 : ∀ j, j ≠ r → A'[j]? = A[j]?) : Loop A' r i := by
  induction h with
  | base => exact .self h1
  | @step i q r d h hr ih =>
    have hne : i ≠ r := by
      rintro rfl
      obtain ⟨x, hx, hx'⟩ := hr.root
      rw [h] at hx; cases hx; omega
    exact .step ((h2 i hne).trans h) (ih h1 h2)

/-! ## Attaching one root under another -/

/-- `A'` arises from `A` by making root `r2` point to root `r1`; roots may change rank. -/
structure Attach (A A' : List Int) (r1 r2 : Nat) : Prop where
  ne : r1 ≠ r2
  root1 : ∃ x, A[r1]? = some x ∧ x < 0
  root2 : ∃ x, A[r2]? = some x ∧ x < 0
  link : A'[r2]? = some (r1 : Int)
  other : ∀ j, j ≠ r2 → A'[j]? = A[j]? ∨
    ∃ x y, A[j]? = some x ∧ A'[j]? = some y ∧ x < 0 ∧ y < 0

theorem Attach.root {A A' : List Int} {r1 r2 : Nat} (h : Attach A A' r1 r2) {i r d : Nat}
    (hr : Root A i r d) : ∃ d', Root A' i (if r = r2 then r1 else r) d' := by
  have hneg : ∀ (j : Nat) x, j ≠ r2 → A[j]? = some x → x < 0 → ∃ y, A'[j]? = some y ∧ y < 0 := by
    intro j x hj hx h0
    rcases h.other j hj with h1 | ⟨_, y, _, h2, _, h3⟩
    · exact ⟨x, h1.trans hx, h0⟩
    · exact ⟨y, h2, h3⟩
  induction hr with
  | @base i x hx h0 =>
    by_cases hi : i = r2
    · subst hi
      rw [if_pos rfl]
      obtain ⟨x, hx, h0⟩ := h.root1
      obtain ⟨y, hy, h1⟩ := hneg r1 x h.ne hx h0
      exact ⟨_, .step h.link (.base hy h1)⟩
    · rw [if_neg hi]
      obtain ⟨y, hy, h1⟩ := hneg i x hi hx h0
      exact ⟨_, .base hy h1⟩
  | @step i q r d hq hr ih =>
    obtain ⟨d', ih⟩ := ih
    have hi : i ≠ r2 := by
      rintro rfl
      obtain ⟨x, hx, h0⟩ := h.root2
      rw [hq] at hx; cases hx; omega
    rcases h.other i hi with h1 | ⟨x, _, hx, _, h0, _⟩
    · exact ⟨_, .step (h1.trans hq) ih⟩
    · rw [hq] at hx; cases hx; omega

/-! ## Connectivity after adding a pair -/

theorem Conn.mono {ps qs : List (Nat × Nat)} (h : ∀ p ∈ ps, p ∈ qs) {a b : Nat} (hc : Conn ps a b) :
    Conn qs a b := by
  induction hc with
  | refl a => exact .refl a
  | pair hp => exact .pair (h _ hp)
  | symm _ ih => exact .symm ih
  | trans _ _ ih1 ih2 => exact .trans ih1 ih2

theorem conn_add (ps : List (Nat × Nat)) (a b i j : Nat) :
    Conn (ps ++ [(a, b)]) i j ↔
      Conn ps i j ∨ (Conn ps i a ∧ Conn ps b j) ∨ (Conn ps i b ∧ Conn ps a j) := by
  constructor
  · intro h
    induction h with
    | refl a => exact Or.inl (.refl a)
    | @pair x y hp =>
      rcases List.mem_append.1 hp with hp | hp
      · exact Or.inl (.pair hp)
      · simp only [List.mem_singleton, Prod.mk.injEq] at hp
        obtain ⟨rfl, rfl⟩ := hp
        exact Or.inr (Or.inl ⟨.refl _, .refl _⟩)
    | symm _ ih =>
      rcases ih with h | ⟨h1, h2⟩ | ⟨h1, h2⟩
      · exact Or.inl h.symm
      · exact Or.inr (Or.inr ⟨h2.symm, h1.symm⟩)
      · exact Or.inr (Or.inl ⟨h2.symm, h1.symm⟩)
    | trans _ _ ih1 ih2 =>
      rcases ih1 with h | ⟨h1, h2⟩ | ⟨h1, h2⟩ <;> rcases ih2 with g | ⟨g1, g2⟩ | ⟨g1, g2⟩
      · exact Or.inl (h.trans g)
      · exact Or.inr (Or.inl ⟨h.trans g1, g2⟩)
      · exact Or.inr (Or.inr ⟨h.trans g1, g2⟩)
      · exact Or.inr (Or.inl ⟨h1, h2.trans g⟩)
      · exact Or.inr (Or.inl ⟨h1, g2⟩)
      · exact Or.inl (h1.trans g2)
      · exact Or.inr (Or.inr ⟨h1, h2.trans g⟩)
      · exact Or.inl (h1.trans g2)
      · exact Or.inr (Or.inr ⟨h1, g2⟩)
  · have m : ∀ {x y}, Conn ps x y → Conn (ps ++ [(a, b)]) x y :=
      fun h => h.mono (fun p hp => List.mem_append_left _ hp)
    have e : Conn (ps ++ [(a, b)]) a b := .pair (by simp)
    rintro (h | ⟨h1, h2⟩ | ⟨h1, h2⟩)
    · exact m h
    · exact (m h1).trans (e.trans (m h2))
    · exact (m h1).trans (e.symm.trans (m h2))

/-! ## The invariant -/

/-- The parent array `A` of a set with `n` elements after connecting the pairs `ps`; `ρ i` is
the representative of `i`. -/
structure Inv (n : Nat) (ps : List (Nat × Nat)) (ρ : Nat → Nat) (A : List Int) : Prop where
  len : A.length = n
  small : n < 2 ^ 31
  root : ∀ i, i < n → ∃ d, Root A i (ρ i) d
  conn : ∀ i j, i < n → j < n → (ρ i = ρ j ↔ Conn ps i j)
  rank : ∀ (i : Nat) x, A[i]? = some x → (roots A : Int) - (n + 1) ≤ x
  count : roots A + ps.length = n

theorem Inv.compr {n : Nat} {ps : List (Nat × Nat)} {ρ : Nat → Nat} {A B : List Int} {d : Nat}
    (h : Inv n ps ρ A) (hc : Compr A B d) : Inv n ps ρ B := by
  have hroots := roots_congr hc.neg
  refine ⟨hc.length.trans h.len, h.small, ?_, h.conn, ?_, by rw [hroots]; exact h.count⟩
  · intro i hi
    obtain ⟨d, hd⟩ := h.root i hi
    exact hc.root hd
  · intro i x hx
    rw [hroots]
    rcases hc i with h1 | ⟨r, k, _, _, _, h4⟩
    · exact h.rank i x (h1.symm.trans hx)
    · rw [hx] at h4; cases h4
      have := h.count
      omega

theorem Inv.rho_lt {n : Nat} {ps : List (Nat × Nat)} {ρ : Nat → Nat} {A : List Int}
    (h : Inv n ps ρ A) {i : Nat} (hi : i < n) : ρ i < n := by
  obtain ⟨d, hd⟩ := h.root i hi
  have := hd.root_self.lt
  rwa [h.len] at this

theorem Inv.rho_rho {n : Nat} {ps : List (Nat × Nat)} {ρ : Nat → Nat} {A : List Int}
    (h : Inv n ps ρ A) {i : Nat} (hi : i < n) : ρ (ρ i) = ρ i := by
  obtain ⟨d, hd⟩ := h.root i hi
  obtain ⟨e, he⟩ := h.root (ρ i) (h.rho_lt hi)
  exact (he.det hd.root_self).1

theorem Inv.init (n : Nat) (hn : n < 2 ^ 31) : Inv n [] id (List.replicate n (-1)) := by
  have hroots : roots (List.replicate n (-1 : Int)) = n := by
    simp [roots, List.countP_replicate]
  refine ⟨by simp, hn, ?_, ?_, ?_, by simpa using hroots⟩
  · intro i hi
    exact ⟨0, .base (x := -1) (by simp [hi]) (by omega)⟩
  · intro i j _ _
    constructor
    · rintro h; cases h; exact .refl _
    · intro h
      have : ∀ a b, Conn [] a b → a = b := by
        intro a b h
        induction h with
        | refl => rfl
        | pair h => cases h
        | symm _ ih => exact ih.symm
        | trans _ _ ih1 ih2 => exact ih1.trans ih2
      exact this _ _ h
  · intro i x hx
    rw [hroots]
    simp only [List.getElem?_replicate] at hx
    split at hx
    · cases hx; omega
    · cases hx

theorem roots_set_link {A : List Int} {r2 r1 : Nat} {x : Int} (h : A[r2]? = some x) (hx : x < 0) :
    roots (A.set r2 (r1 : Int)) + 1 = roots A := by
  induction A generalizing r2 with
  | nil => simp at h
  | cons a A ih =>
    cases r2 with
    | zero =>
      simp only [List.getElem?_cons_zero, Option.some.injEq] at h
      subst h
      simp only [roots, List.set_cons_zero, List.countP_cons]
      simp [hx]
    | succ k =>
      simp only [List.getElem?_cons_succ] at h
      have := ih h
      simp only [roots, List.set_cons_succ, List.countP_cons] at this ⊢
      omega

theorem roots_set_neg {A : List Int} {r : Nat} {x y : Int} (h : A[r]? = some x) (hx : x < 0)
    (hy : y < 0) : roots (A.set r y) = roots A := by
  apply roots_congr
  intro j
  by_cases hj : j = r
  · subst hj
    rw [List.getElem?_set_self (List.getElem?_eq_some_iff.1 h).1, h]
    simp [hx, hy]
  · rw [List.getElem?_set_ne (Ne.symm hj)]

/-- Effect of a successful `union_set` on the invariant. -/
theorem Inv.attach {n : Nat} {ps : List (Nat × Nat)} {ρ : Nat → Nat} {A A' : List Int} {a b : Nat}
    (h : Inv n ps ρ A) (ha : a < n) (hb : b < n)
    (hat : Attach A A' (ρ a) (ρ b)) (hlen : A'.length = n) (hroots : roots A' + 1 = roots A)
    (hrank : ∀ (i : Nat) x, A'[i]? = some x → (roots A' : Int) - (n + 1) ≤ x) :
    Inv n (ps ++ [(a, b)]) (fun i => if ρ i = ρ b then ρ a else ρ i) A' := by
  refine ⟨hlen, h.small, ?_, ?_, hrank, ?_⟩
  · intro i hi
    obtain ⟨d, hd⟩ := h.root i hi
    exact hat.root hd
  · intro i j hi hj
    rw [conn_add, ← h.conn i j hi hj, ← h.conn i a hi ha, ← h.conn b j hb hj, ← h.conn i b hi hb,
      ← h.conn a j ha hj]
    have hne : ρ a ≠ ρ b := hat.ne
    grind
  · have := h.count
    simp only [List.length_append, List.length_cons, List.length_nil]
    omega

/-! ## Operations preserve the invariant -/

variable {n : Nat} {ps : List (Nat × Nat)} {ρ : Nat → Nat} {v : Vec} {m : Mem Int}

/-- The object `v` in memory `m` is a disjoint set. -/
def Holds (n : Nat) (ps : List (Nat × Nat)) (ρ : Nat → Nat) (v : Vec) (m : Mem Int) : Prop :=
  m.WF ∧ ∃ A, Rep m v A ∧ Inv n ps ρ A

theorem find_inv {A : List Int} (hw : m.WF) (hr : Rep m v A) (hi : Inv n ps ρ A) {i : Nat} (h : i < n) :
    wp (find v (.val (i : Int))) (fun a m' => m'.WF ∧ ∃ B, Rep m' v B ∧ Inv n ps ρ B ∧
      ArgIs v a B (ρ i)) m := by
  obtain ⟨d, hd⟩ := hi.root i h
  have hs := hi.small
  refine wp_mono (find_ok d hr hw (by rw [hi.len]; exact hs) (Or.inl rfl) hd) ?_
  rintro a m' ⟨B, h1, h2, h3, h4⟩
  exact ⟨h2, B, h1, hi.compr h3, h4⟩

theorem findVal_ok (h : Holds n ps ρ v m) {i : Nat} (hi : i < n) :
    wp (findVal v (i : Int)) (fun x m' => x = (ρ i : Int) ∧ Holds n ps ρ v m') m := by
  obtain ⟨hw, A, hr, hI⟩ := h
  unfold findVal
  rw [wp_bind]
  refine wp_mono (find_inv hw hr hI hi) ?_
  rintro a m' ⟨h1, B, h2, h3, h4⟩
  rw [wp_of_returns (h4.get h2)]
  exact ⟨rfl, h1, B, h2, h3⟩

theorem connected_ok (h : Holds n ps ρ v m) {i j : Nat} (hi : i < n) (hj : j < n) :
    wp (connected v (i : Int) (j : Int)) (fun x m' => (x = true ↔ ρ i = ρ j) ∧ Holds n ps ρ v m') m := by
  obtain ⟨hw, A, hr, hI⟩ := h
  unfold connected
  rw [wp_bind]
  refine wp_mono (find_inv hw hr hI hi) ?_
  rintro a m1 ⟨w1, B, r1, i1, a1⟩
  rw [wp_bind]
  obtain ⟨d, hd⟩ := i1.root j hj
  have hs := hI.small
  refine wp_mono (find_ok d r1 w1 (by rw [i1.len]; exact hs) (Or.inl rfl) hd) ?_
  rintro b m2 ⟨C, r2, w2, c2, b2⟩
  have i2 := i1.compr c2
  have a2 : ArgIs v a C (ρ i) := by
    rcases a1 with rfl | ⟨k, rfl, hk⟩
    · exact Or.inl rfl
    · refine Or.inr ⟨k, rfl, ?_⟩
      obtain ⟨e, he⟩ := i1.root i hi
      have hrk : Root B k (ρ i) 1 := .step hk he.root_self
      rcases c2 k with h1 | ⟨r, k', _, _, h3, h4⟩
      · rw [h1, hk]
      · rw [h4, (h3.det hrk).1]
  rw [wp_bind, wp_of_returns (a2.get r2), wp_bind, wp_of_returns (b2.get r2), wp_pure]
  refine ⟨?_, w2, C, r2, i2⟩
  simp only [beq_iff_eq]
  omega

theorem index_get {A : List Int} (hr : Rep m v A) (hlen : A.length < 2 ^ 31) {i : Nat} {x : Int}
    (h : A[i]? = some x) : Returns (index v (i : Int)) m x m := by
  obtain ⟨h1, h2⟩ := List.getElem?_eq_some_iff.1 h
  have := (index_ok hr hlen i h1).1
  rwa [h2] at this

/-- `union_set` on two different roots. -/
theorem unionSet_ok {A : List Int} (hw : m.WF) (hr : Rep m v A) (hI : Inv n ps ρ A) {a b : Nat}
    (ha : a < n) (hb : b < n) (hab : ¬ Conn ps a b) :
    wp (unionSet v (ρ a : Int) (ρ b : Int))
      (fun _ m' => Holds n (ps ++ [(a, b)]) (fun i => if ρ i = ρ b then ρ a else ρ i) v m') m := by
  have hs := hI.small
  have hne : ρ a ≠ ρ b := fun h => hab ((hI.conn a b ha hb).1 h)
  obtain ⟨da, hda⟩ := hI.root a ha
  obtain ⟨db, hdb⟩ := hI.root b hb
  obtain ⟨xa, hxa, hxa0⟩ := hda.root
  obtain ⟨xb, hxb, hxb0⟩ := hdb.root
  have hla := hI.rho_lt ha
  have hlb := hI.rho_lt hb
  have hlen := hI.len
  have hcount := hI.count
  have hpos : 1 ≤ roots A := by
    have := roots_set_link (r1 := 0) hxb hxb0
    omega
  unfold unionSet
  have plain : ∀ (A' : List Int) (m1 : Mem Int), m1.WF → Rep m1 v A' → A'.length = n →
      roots A' = roots A → A'[ρ b]? = some xb →
      (∀ (i : Nat) x, A'[i]? = some x → (roots A : Int) - 1 - (n + 1) ≤ x) →
      (∀ j, j ≠ ρ b → A'[j]? = A[j]? ∨ ∃ x y, A[j]? = some x ∧ A'[j]? = some y ∧ x < 0 ∧ y < 0) →
      wp (setIndex v (ρ b : Int) (.val (ρ a : Int)))
        (fun _ m' => Holds n (ps ++ [(a, b)]) (fun i => if ρ i = ρ b then ρ a else ρ i) v m') m1 := by
    intro A' m1 w1 r1 l1 ro1 hb1 rank1 oth1
    refine wp_mono (setIndex_ok w1 r1 (by omega) _ (ρ b) (by omega) (Or.inl rfl)) ?_
    rintro _ m2 ⟨r2, _, w2⟩
    have hroots := roots_set_link (r1 := ρ a) hb1 hxb0
    refine ⟨w2, _, r2, hI.attach ha hb ⟨hne, ⟨xa, hxa, hxa0⟩, ⟨xb, hxb, hxb0⟩, ?_, ?_⟩ ?_ ?_ ?_⟩
    · rw [List.getElem?_set_self (by omega)]
    · intro j hj
      rw [List.getElem?_set_ne (Ne.symm hj)]
      exact oth1 j hj
    · simpa using l1
    · omega
    · intro i x hx
      by_cases hi : i = ρ b
      · subst hi
        rw [List.getElem?_set_self (by omega)] at hx
        cases hx
        omega
      · rw [List.getElem?_set_ne (Ne.symm hi)] at hx
        have := rank1 i x hx
        omega
  rw [wp_ite]
  refine ⟨fun _ => ?_, fun _ => ?_⟩
  · refine plain A m hw hr hlen rfl hxb ?_ (fun j _ => Or.inl rfl)
    intro i x hx
    have := hI.rank i x hx
    omega
  · rw [wp_bind, wp_of_returns (index_get hr (by omega) hxa), wp_bind,
      wp_of_returns (index_get hr (by omega) hxb), wp_bind, wp_when]
    refine ⟨fun _ => ?_, fun _ => ?_⟩
    · have hrk := hI.rank _ _ hxa
      rw [wp_bind, wp_of_returns (index_get hr (by omega) hxa), wp_bind, wp_check]
      refine ⟨by omega, ?_⟩
      refine wp_mono (setIndex_ok hw hr (by omega) _ (ρ a) (by omega) (Or.inl rfl)) ?_
      rintro _ m1 ⟨r1, _, w1⟩
      have hro := roots_set_neg (y := xa - 1) hxa hxa0 (by omega)
      refine plain _ m1 w1 r1 (by simpa using hlen) hro ?_ ?_ ?_
      · rw [List.getElem?_set_ne hne, hxb]
      · intro i x hx
        by_cases hi : i = ρ a
        · subst hi
          rw [List.getElem?_set_self (by omega)] at hx
          cases hx
          omega
        · rw [List.getElem?_set_ne (Ne.symm hi)] at hx
          have := hI.rank i x hx
          omega
      · intro j _
        by_cases hj : j = ρ a
        · subst hj
          exact Or.inr ⟨xa, xa - 1, hxa, by rw [List.getElem?_set_self (by omega)], hxa0, by omega⟩
        · exact Or.inl (List.getElem?_set_ne (Ne.symm hj))
    · refine plain A m hw hr hlen rfl hxb ?_ (fun j _ => Or.inl rfl)
      intro i x hx
      have := hI.rank i x hx
      omega

theorem connect_ok (h : Holds n ps ρ v m) {a b : Nat} (ha : a < n) (hb : b < n) (hab : ¬ Conn ps a b) :
    wp (connect v (a : Int) (b : Int))
      (fun _ m' => Holds n (ps ++ [(a, b)]) (fun i => if ρ i = ρ b then ρ a else ρ i) v m') m := by
  unfold connect
  rw [wp_bind]
  refine wp_mono (findVal_ok h ha) ?_
  rintro x m1 ⟨rfl, h1⟩
  rw [wp_bind]
  refine wp_mono (findVal_ok h1 hb) ?_
  rintro y m2 ⟨rfl, hw, A, hr, hI⟩
  exact unionSet_ok hw hr hI ha hb hab

/-- `connect` of two connected elements turns their root into a self-loop. -/
theorem connect_loop (h : Holds n ps ρ v m) {a b : Nat} (ha : a < n) (hb : b < n) (hab : Conn ps a b) :
    wp (connect v (a : Int) (b : Int))
      (fun _ m' => ∃ A, Rep m' v A ∧ A.length = n ∧ ∀ i, i < n → Conn ps a i → Loop A (ρ a) i) m := by
  unfold connect
  rw [wp_bind]
  refine wp_mono (findVal_ok h ha) ?_
  rintro x m1 ⟨rfl, h1⟩
  rw [wp_bind]
  refine wp_mono (findVal_ok h1 hb) ?_
  rintro y m2 ⟨rfl, hw, A, hr, hI⟩
  have e : ρ b = ρ a := ((hI.conn a b ha hb).2 hab).symm
  rw [e]
  have hs := hI.small
  have hla := hI.rho_lt ha
  have hlen := hI.len
  have hcount := hI.count
  obtain ⟨da, hda⟩ := hI.root a ha
  obtain ⟨xa, hxa, hxa0⟩ := hda.root
  have hrk := hI.rank _ _ hxa
  have hpos : 1 ≤ roots A := by
    have := roots_set_link (r1 := 0) hxa hxa0
    omega
  unfold unionSet
  rw [if_neg (by omega), wp_bind, wp_of_returns (index_get hr (by omega) hxa), wp_bind,
    wp_of_returns (index_get hr (by omega) hxa), wp_bind, wp_when]
  refine ⟨fun _ => ?_, fun h => absurd rfl h⟩
  rw [wp_bind, wp_of_returns (index_get hr (by omega) hxa), wp_bind, wp_check]
  refine ⟨by omega, ?_⟩
  refine wp_mono (setIndex_ok hw hr (by omega) _ (ρ a) (by omega) (Or.inl rfl)) ?_
  rintro _ m3 ⟨r3, _, w3⟩
  refine wp_mono (setIndex_ok w3 r3 (by simp; omega) _ (ρ a) (by simp; omega) (Or.inl rfl)) ?_
  rintro _ m4 ⟨r4, _, w4⟩
  refine ⟨_, r4, by simpa using hlen, ?_⟩
  intro i hi hc
  obtain ⟨d, hd⟩ := hI.root i hi
  rw [← (hI.conn a i ha hi).2 hc] at hd
  refine hd.loop ?_ ?_
  · rw [List.getElem?_set_self (by simp; omega)]
  · intro j hj
    rw [List.getElem?_set_ne (Ne.symm hj), List.getElem?_set_ne (Ne.symm hj)]

theorem count_ok (h : Holds n ps ρ v m) :
    wp (count v) (fun k m' => m' = m ∧ k + ps.length = n ∧
      ∃ reps, Transversal n ps reps ∧ reps.length = k) m := by
  obtain ⟨hw, A, hr, hI⟩ := h
  have hsz := hr.size
  have hlen := hI.len
  have h := wp_forRange (σ := Mem Int) (I := fun k acc m' => m' = m ∧ acc = roots (A.take k))
    (f := fun i n => do
      let x ← Vec.read v.c i
      pure (if x < 0 then n + 1 else n)) v.sz 0 0 m (by simp [roots]) ?_
  · refine wp_mono h ?_
    rintro k m' ⟨rfl, hk⟩
    rw [hsz, Nat.zero_add, List.take_length] at hk
    refine ⟨rfl, by rw [hk]; exact hI.count, ?_⟩
    refine ⟨(List.range n).filter (fun i => decide (A.getD i 0 < 0)), ?_, ?_⟩
    · have hmem : ∀ r, r ∈ (List.range n).filter (fun i => decide (A.getD i 0 < 0)) ↔
          r < n ∧ ρ r = r := by
        intro r
        simp only [List.mem_filter, List.mem_range, decide_eq_true_eq]
        refine and_congr_right (fun hrn => ?_)
        obtain ⟨d, hd⟩ := hI.root r hrn
        have hget : A[r]? = some (A[r]'(by omega)) := List.getElem?_eq_getElem (by omega)
        have hgd : A.getD r 0 = A[r]'(by omega) := by simp [List.getD, hget]
        rw [hgd]
        constructor
        · intro hneg
          exact (hd.det (.base hget hneg)).1
        · intro e
          obtain ⟨x, hx, hx0⟩ := hd.root
          rw [e, hget] at hx
          cases hx; exact hx0
      refine ⟨(List.nodup_range).filter _, fun r hr => ((hmem r).1 hr).1, ?_, ?_⟩
      · intro r hr s hs hc
        obtain ⟨h1, h2⟩ := (hmem r).1 hr
        obtain ⟨h3, h4⟩ := (hmem s).1 hs
        rw [← h2, ← h4]
        exact (hI.conn r s h1 h3).2 hc
      · intro i hi
        refine ⟨ρ i, (hmem _).2 ⟨hI.rho_lt hi, hI.rho_rho hi⟩, ?_⟩
        exact (hI.conn i (ρ i) hi (hI.rho_lt hi)).1 (hI.rho_rho hi).symm
    · rw [hk, ← List.countP_eq_length_filter, ← hlen]
      have : ∀ L : List Int, (List.range L.length).countP (fun i => decide (L.getD i 0 < 0)) = roots L := by
        intro L
        have e : L = (List.range L.length).map (fun i => L.getD i 0) := by
          apply List.ext_getElem
          · simp
          · intro i h1 h2
            simp [List.getD, h1]
        have e2 := congrArg roots e
        rw [e2]
        simp [roots, List.countP_map, Function.comp_def]
      exact this A
  · rintro i acc t h1 h2 ⟨rfl, rfl⟩
    have hi : i < A.length := by omega
    rw [wp_bind, wp_of_returns (hr.read_ok i hi), wp_pure]
    refine ⟨rfl, ?_⟩
    rw [List.take_succ_eq_append_getElem hi]
    simp only [roots, List.countP_append, List.countP_singleton]
    split <;> simp_all

theorem ctor_ok (n : Nat) (hn : n ≠ 0) (hs : n < 2 ^ 31) :
    wp (ctor n) (fun v m => Holds n [] id v m) Mem.init := by
  unfold ctor
  refine wp_mono (ctorFill_ok Mem.WF.init n hn (-1)) ?_
  rintro v m ⟨h1, _, _, h4⟩
  exact ⟨h4, _, h1, Inv.init n hs⟩

/-- Histories keep the invariant; queries keep the representatives. -/
theorem run_ok (ops : List Op) : ∀ {ps : List (Nat × Nat)} {ρ : Nat → Nat} {m : Mem Int},
    Holds n ps ρ v m → Guarded n ps ops →
    wp (run v ops) (fun _ m' => ∃ ρ', Holds n (ps ++ pairs ops) ρ' v m' ∧
      (pairs ops = [] → ρ' = ρ)) m := by
  induction ops with
  | nil =>
    intro ps ρ m h _
    exact (wp_pure _ _ _).2 ⟨ρ, by simpa [pairs] using h, fun _ => rfl⟩
  | cons op ops ih =>
    intro ps ρ m h hg
    obtain ⟨hv, hf, hg⟩ := hg
    unfold run
    rw [List.map_cons, seqAll, wp_bind]
    cases op with
    | find i =>
      simp only [step, wp_bind, wp_pure]
      refine wp_mono (findVal_ok h hv) ?_
      rintro _ m1 ⟨_, h1⟩
      simp only [Op.pair, List.append_nil] at hg
      have := ih h1 hg
      simpa [pairs, Op.pair, run] using this
    | connected i j =>
      simp only [step, wp_bind, wp_pure]
      refine wp_mono (connected_ok h hv.1 hv.2) ?_
      rintro _ m1 ⟨_, h1⟩
      simp only [Op.pair, List.append_nil] at hg
      have := ih h1 hg
      simpa [pairs, Op.pair, run] using this
    | connect i j =>
      refine wp_mono (connect_ok h hv.1 hv.2 hf) ?_
      rintro _ m1 h1
      have := ih h1 hg
      refine wp_mono this ?_
      rintro _ m2 ⟨ρ', h2, _⟩
      exact ⟨ρ', by simpa [pairs, Op.pair] using h2, by simp [pairs, Op.pair]⟩

end Verif.DSU
