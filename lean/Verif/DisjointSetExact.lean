import Verif.DisjointSetLemmas

/-! Helper lemmas: disjoint sets after any history, including `connect`s of connected elements. -/

namespace Verif.DSU

open Prog Vec

theorem Loop.not_root {A : List Int} {r i : Nat} (h : Loop A r i) {r' d : Nat} (h' : Root A i r' d) : False := by
  induction h' with
  | base h1 hx =>
    obtain ⟨q, hq, _⟩ := h.next
    rw [h1] at hq; cases hq; omega
  | step h1 _ ih =>
    obtain ⟨q, hq, hl⟩ := h.next
    rw [h1] at hq
    have := Option.some.inj hq
    rw [show q = _ from by exact_mod_cast this.symm] at hl
    exact ih hl

theorem Loop.congr {A B : List Int} {r i : Nat} (h : Loop A r i) (hc : ∀ j, Loop A r j → B[j]? = A[j]?) :
    Loop B r i := by
  induction h with
  | self h => exact .self ((hc r (.self h)).trans h)
  | step h hq ih => exact .step ((hc _ (.step h hq)).trans h) ih

theorem Loop.top {A : List Int} {r i : Nat} (h : Loop A r i) : A[r]? = some (r : Int) := by
  induction h with
  | self h => exact h
  | step _ _ ih => exact ih

theorem Loop.lt {A : List Int} {r i : Nat} (h : Loop A r i) : i < A.length := by
  obtain ⟨q, hq, _⟩ := h.next
  exact (List.getElem?_eq_some_iff.1 hq).1

theorem Compr.loop {A B : List Int} {d : Nat} (h : Compr A B d) {r i : Nat} (hl : Loop A r i) : Loop B r i := by
  refine hl.congr fun j hj => ?_
  rcases h j with h1 | ⟨r', k, _, _, h3, _⟩
  · exact h1
  · exact (hj.not_root h3).elim

theorem Attach.loop {A A' : List Int} {r1 r2 : Nat} (h : Attach A A' r1 r2) {r i : Nat} (hl : Loop A r i) :
    Loop A' r i := by
  refine hl.congr fun j hj => ?_
  have hne : j ≠ r2 := by
    rintro rfl
    obtain ⟨x, h1, h2⟩ := h.root2
    exact hj.not_root (.base h1 h2)
  rcases h.other j hne with h1 | ⟨x, y, h1, _, h2, _⟩
  · exact h1
  · exact (hj.not_root (.base h1 h2)).elim

/-- The parent array `A` of a set with `n` elements after connecting the pairs `ps`, when the elements of `dead`
lead to a self-loop; `ρ i` is the last element of the path from `i`. -/
structure GInv (n : Nat) (ps : List (Nat × Nat)) (dead : Nat → Prop) (ρ : Nat → Nat) (A : List Int) : Prop where
  len : A.length = n
  small : n < 2 ^ 31
  root : ∀ i, i < n → ¬ dead i → ∃ d, Root A i (ρ i) d
  loop : ∀ i, i < n → dead i → Loop A (ρ i) i
  conn : ∀ i j, i < n → j < n → (ρ i = ρ j ↔ Conn ps i j)
  rank : ∀ (i : Nat) x, A[i]? = some x → (roots A : Int) - (n + 1) ≤ x
  count : roots A + ps.length = n

variable {n : Nat} {ps : List (Nat × Nat)} {ρ : Nat → Nat} {v : Vec} {m : Mem Int} {dead : Nat → Prop}
  {A B : List Int}

theorem GInv.rho_lt (h : GInv n ps dead ρ A) {i : Nat} (hi : i < n) : ρ i < n := by
  by_cases hd : dead i
  · have := (List.getElem?_eq_some_iff.1 (h.loop i hi hd).top).1
    rwa [h.len] at this
  · obtain ⟨d, hd⟩ := h.root i hi hd
    have := hd.root_self.lt
    rwa [h.len] at this

theorem GInv.dead_rho (h : GInv n ps dead ρ A) {i : Nat} (hi : i < n) : dead (ρ i) ↔ dead i := by
  have hl := h.rho_lt hi
  by_cases hd : dead i
  · refine iff_of_true ?_ hd
    apply Classical.byContradiction
    intro h1
    obtain ⟨d, h2⟩ := h.root _ hl h1
    exact (Loop.self (h.loop i hi hd).top).not_root h2
  · refine iff_of_false ?_ hd
    intro h1
    obtain ⟨d, h2⟩ := h.root i hi hd
    exact (h.loop _ hl h1).not_root h2.root_self

theorem GInv.rho_rho (h : GInv n ps dead ρ A) {i : Nat} (hi : i < n) : ρ (ρ i) = ρ i := by
  have hl := h.rho_lt hi
  by_cases hd : dead i
  · have h1 := h.loop _ hl ((h.dead_rho hi).2 hd)
    have h2 := (h.loop i hi hd).top
    have : ∀ {j r : Nat}, Loop A r j → A[j]? = some (j : Int) → r = j := by
      intro j r hh
      induction hh with
      | self => intro _; rfl
      | step h3 h4 ih =>
        intro h5
        rw [h3] at h5
        have := Option.some.inj h5
        rename_i i q
        have e : q = i := by exact_mod_cast this
        subst e
        exact ih h3
    exact this h1 h2
  · obtain ⟨d, h1⟩ := h.root i hi hd
    obtain ⟨d', h2⟩ := h.root (ρ i) hl (fun h' => hd ((h.dead_rho hi).1 h'))
    exact (h2.det h1.root_self).1

/-- Being dead is a property of the class. -/
theorem GInv.dead_conn (h : GInv n ps dead ρ A) {i j : Nat} (hi : i < n) (hj : j < n) (hc : Conn ps i j) :
    dead i ↔ dead j := by
  rw [← h.dead_rho hi, ← h.dead_rho hj, (h.conn i j hi hj).2 hc]

theorem GInv.compr {d : Nat} (h : GInv n ps dead ρ A) (hc : Compr A B d) : GInv n ps dead ρ B := by
  have hroots := roots_congr hc.neg
  refine ⟨hc.length.trans h.len, h.small, ?_, fun i hi hd => hc.loop (h.loop i hi hd), h.conn, ?_,
    by rw [hroots]; exact h.count⟩
  · intro i hi hd
    obtain ⟨d, hd⟩ := h.root i hi hd
    exact hc.root hd
  · intro i x hx
    rw [hroots]
    rcases hc i with h1 | ⟨r, k, _, _, _, h4⟩
    · exact h.rank i x (h1.symm.trans hx)
    · rw [hx] at h4; cases h4
      have := h.count
      omega

theorem Inv.ginv (h : Inv n ps ρ A) : GInv n ps (fun _ => False) ρ A :=
  ⟨h.len, h.small, fun i hi _ => h.root i hi, fun _ _ h => h.elim, h.conn, h.rank, h.count⟩

/-- Joining two classes. -/
theorem GInv.attach {A' : List Int} {a b : Nat} (h : GInv n ps dead ρ A) (ha : a < n) (hb : b < n)
    (hda : ¬ dead a) (hdb : ¬ dead b)
    (hat : Attach A A' (ρ a) (ρ b)) (hlen : A'.length = n) (hroots : roots A' + 1 = roots A)
    (hrank : ∀ (i : Nat) x, A'[i]? = some x → (roots A' : Int) - (n + 1) ≤ x) :
    GInv n (ps ++ [(a, b)]) dead (fun i => if ρ i = ρ b then ρ a else ρ i) A' := by
  refine ⟨hlen, h.small, ?_, ?_, ?_, hrank, ?_⟩
  · intro i hi hd
    obtain ⟨d, hd⟩ := h.root i hi hd
    exact hat.root hd
  · intro i hi hd
    have : ρ i ≠ ρ b := by
      intro e
      exact hdb ((h.dead_conn hi hb ((h.conn i b hi hb).1 e)).1 hd)
    rw [if_neg this]
    exact hat.loop (h.loop i hi hd)
  · intro i j hi hj
    rw [conn_add, ← h.conn i j hi hj, ← h.conn i a hi ha, ← h.conn b j hb hj, ← h.conn i b hi hb,
      ← h.conn a j ha hj]
    have hne : ρ a ≠ ρ b := hat.ne
    grind
  · have := h.count
    simp only [List.length_append, List.length_cons, List.length_nil]
    omega

/-- Making a root its own parent. -/
theorem GInv.selfLoop {A' : List Int} {a b : Nat} (h : GInv n ps dead ρ A) (ha : a < n) (hb : b < n)
    (hda : ¬ dead a) (hab : Conn ps a b) (h1 : A'[ρ a]? = some (ρ a : Int)) (h2 : ∀ j, j ≠ ρ a → A'[j]? = A[j]?)
    (hlen : A'.length = n) (hroots : roots A' + 1 = roots A) :
    GInv n (ps ++ [(a, b)]) (fun x => dead x ∨ Conn ps a b ∧ Conn ps a x) ρ A' := by
  have hroot : Root A (ρ a) (ρ a) 0 := by
    obtain ⟨d, hd⟩ := h.root a ha hda
    exact hd.root_self
  refine ⟨hlen, h.small, ?_, ?_, ?_, ?_, ?_⟩
  · intro i hi hd
    rw [not_or] at hd
    obtain ⟨d, hr⟩ := h.root i hi hd.1
    have hne : ρ i ≠ ρ a := fun e => hd.2 ⟨hab, (h.conn a i ha hi).1 e.symm⟩
    refine ⟨d, ?_⟩
    generalize ρ i = r at hr hne
    clear hd hi
    induction hr with
    | base h3 hx => exact .base ((h2 _ hne).trans h3) hx
    | @step i q r d h3 h4 ih =>
      refine .step ((h2 i ?_).trans h3) (ih hne)
      rintro rfl
      exact absurd ((Root.step h3 h4).det hroot).2 (by omega)
  · intro i hi hd
    by_cases hd1 : dead i
    · refine (h.loop i hi hd1).congr fun j hj => h2 j ?_
      rintro rfl
      exact hj.not_root hroot
    · have hc := (hd.resolve_left hd1).2
      obtain ⟨d, hr⟩ := h.root i hi hd1
      rw [← (h.conn a i ha hi).2 hc] at hr ⊢
      exact hr.loop h1 h2
  · intro i j hi hj
    rw [conn_add, h.conn i j hi hj]
    constructor
    · exact Or.inl
    · rintro (hc | ⟨hc1, hc2⟩ | ⟨hc1, hc2⟩)
      · exact hc
      · exact hc1.trans (hab.trans hc2)
      · exact hc1.trans (hab.symm.trans hc2)
  · intro i x hx
    by_cases hi : i = ρ a
    · subst hi
      rw [h1] at hx; cases hx
      have := h.count
      omega
    · rw [h2 i hi] at hx
      have := h.rank i x hx
      omega
  · have := h.count
    simp only [List.length_append, List.length_cons, List.length_nil]
    omega

/-! ## Operations -/

/-- The object `v` in memory `m` is a disjoint set, some classes of which may be dead. -/
def GHolds (n : Nat) (ps : List (Nat × Nat)) (dead : Nat → Prop) (ρ : Nat → Nat) (v : Vec) (m : Mem Int) : Prop :=
  m.WF ∧ ∃ A, Rep m v A ∧ GInv n ps dead ρ A

theorem gfind (hw : m.WF) (hr : Rep m v A) (hi : GInv n ps dead ρ A) {i : Nat} (h : i < n) (hd : ¬ dead i) :
    wp (find v (.val (i : Int))) (fun a m' => m'.WF ∧ ∃ B d, Rep m' v B ∧ Compr A B d ∧ GInv n ps dead ρ B ∧
      ArgIs v a B (ρ i)) m := by
  obtain ⟨d, hd⟩ := hi.root i h hd
  have hs := hi.small
  refine wp_mono (find_ok d hr hw (by rw [hi.len]; exact hs) (Or.inl rfl) hd) ?_
  rintro a m' ⟨B, h1, h2, h3, h4⟩
  exact ⟨h2, B, d, h1, h3, hi.compr h3, h4⟩

theorem gfind_diverges (hr : Rep m v A) (hi : GInv n ps dead ρ A) {i : Nat} (h : i < n) (hd : dead i) :
    Diverges (find v (.val (i : Int))) m :=
  find_diverges (.val (i : Int)) m ⟨A, i, hr, by rw [hi.len]; exact hi.small, Or.inl rfl, hi.loop i h hd⟩

theorem gfindVal (h : GHolds n ps dead ρ v m) {i : Nat} (hi : i < n) (hd : ¬ dead i) :
    wp (findVal v (i : Int)) (fun x m' => x = (ρ i : Int) ∧ GHolds n ps dead ρ v m') m := by
  obtain ⟨hw, A, hr, hI⟩ := h
  unfold findVal
  rw [wp_bind]
  refine wp_mono (gfind hw hr hI hi hd) ?_
  rintro a m' ⟨h1, B, _, h2, _, h3, h4⟩
  rw [wp_of_returns (h4.get h2)]
  exact ⟨rfl, h1, B, h2, h3⟩

theorem gfindVal_diverges (h : GHolds n ps dead ρ v m) {i : Nat} (hi : i < n) (hd : dead i) :
    Diverges (findVal v (i : Int)) m := by
  obtain ⟨hw, A, hr, hI⟩ := h
  exact bind_diverges (gfind_diverges hr hI hi hd)

theorem gconnected (h : GHolds n ps dead ρ v m) {i j : Nat} (hi : i < n) (hj : j < n) (hdi : ¬ dead i)
    (hdj : ¬ dead j) :
    wp (connected v (i : Int) (j : Int)) (fun x m' => (x = true ↔ ρ i = ρ j) ∧ GHolds n ps dead ρ v m') m := by
  obtain ⟨hw, A, hr, hI⟩ := h
  unfold connected
  rw [wp_bind]
  refine wp_mono (gfind hw hr hI hi hdi) ?_
  rintro a m1 ⟨w1, B, _, r1, _, i1, a1⟩
  rw [wp_bind]
  refine wp_mono (gfind w1 r1 i1 hj hdj) ?_
  rintro b m2 ⟨w2, C, _, r2, c2, i2, b2⟩
  have a2 : ArgIs v a C (ρ i) := by
    rcases a1 with rfl | ⟨k, rfl, hk⟩
    · exact Or.inl rfl
    · refine Or.inr ⟨k, rfl, ?_⟩
      obtain ⟨e, he⟩ := i1.root i hi hdi
      have hrk : Root B k (ρ i) 1 := .step hk he.root_self
      rcases c2 k with h1 | ⟨r, k', _, _, h3, h4⟩
      · rw [h1, hk]
      · rw [h4, (h3.det hrk).1]
  rw [wp_bind, wp_of_returns (a2.get r2), wp_bind, wp_of_returns (b2.get r2), wp_pure]
  refine ⟨?_, w2, C, r2, i2⟩
  simp only [beq_iff_eq]
  omega

theorem diverges_of_wp {σ α β : Type} {p : Prog σ α} {f : α → Prog σ β} {s : σ}
    (h : wp p (fun a t => Diverges (f a) t) s) : Diverges (p >>= f) s := by
  obtain ⟨a, t, h1, h2⟩ := h
  unfold Diverges at *
  rw [bind_returns h1]
  exact h2

theorem gconnected_diverges (h : GHolds n ps dead ρ v m) {i j : Nat} (hi : i < n) (hj : j < n)
    (hd : dead i ∨ dead j) : Diverges (connected v (i : Int) (j : Int)) m := by
  obtain ⟨hw, A, hr, hI⟩ := h
  by_cases hdi : dead i
  · exact bind_diverges (gfind_diverges hr hI hi hdi)
  · refine diverges_of_wp (wp_mono (gfind hw hr hI hi hdi) ?_)
    rintro a m1 ⟨w1, B, _, r1, _, i1, a1⟩
    exact bind_diverges (gfind_diverges r1 i1 hj (hd.resolve_left hdi))

theorem gconnect_diverges (h : GHolds n ps dead ρ v m) {i j : Nat} (hi : i < n) (hj : j < n)
    (hd : dead i ∨ dead j) : Diverges (connect v (i : Int) (j : Int)) m := by
  by_cases hdi : dead i
  · exact bind_diverges (gfindVal_diverges h hi hdi)
  · refine diverges_of_wp (wp_mono (gfindVal h hi hdi) ?_)
    rintro x m1 ⟨_, h1⟩
    exact bind_diverges (gfindVal_diverges h1 hj (hd.resolve_left hdi))

/-- What `connect` does to the array, before it is known whether the roots differ. -/
theorem gunion (hw : m.WF) (hr : Rep m v A) (hI : GInv n ps dead ρ A) {a b : Nat}
    (ha : a < n) (hb : b < n) (hda : ¬ dead a) (hdb : ¬ dead b) :
    wp (unionSet v (ρ a : Int) (ρ b : Int)) (fun _ m' => m'.WF ∧ ∃ A1, Rep m' v (A1.set (ρ b) (ρ a)) ∧
      A1.length = n ∧ roots A1 = roots A ∧ (∃ x, A1[ρ b]? = some x ∧ x < 0) ∧
      (∀ (i : Nat) x, A1[i]? = some x → (roots A : Int) - 1 - (n + 1) ≤ x) ∧
      (∀ j, A1[j]? = A[j]? ∨ j = ρ a ∧ ∃ x y, A[j]? = some x ∧ A1[j]? = some y ∧ x < 0 ∧ y < 0)) m := by
  have hs := hI.small
  obtain ⟨da, hda⟩ := hI.root a ha hda
  obtain ⟨db, hdb⟩ := hI.root b hb hdb
  obtain ⟨xa, hxa, hxa0⟩ := hda.root
  obtain ⟨xb, hxb, hxb0⟩ := hdb.root
  have hla := hI.rho_lt ha
  have hlb := hI.rho_lt hb
  have hlen := hI.len
  have hcount := hI.count
  have hpos : 1 ≤ roots A := by
    have := roots_set_link (r1 := 0) hxb hxb0
    omega
  have plain : ∀ (A1 : List Int) (m1 : Mem Int), m1.WF → Rep m1 v A1 → A1.length = n →
      roots A1 = roots A → (∃ x, A1[ρ b]? = some x ∧ x < 0) →
      (∀ (i : Nat) x, A1[i]? = some x → (roots A : Int) - 1 - (n + 1) ≤ x) →
      (∀ j, A1[j]? = A[j]? ∨ j = ρ a ∧ ∃ x y, A[j]? = some x ∧ A1[j]? = some y ∧ x < 0 ∧ y < 0) →
      wp (setIndex v (ρ b : Int) (.val (ρ a : Int))) (fun _ m' => m'.WF ∧ ∃ A1, Rep m' v (A1.set (ρ b) (ρ a)) ∧
        A1.length = n ∧ roots A1 = roots A ∧ (∃ x, A1[ρ b]? = some x ∧ x < 0) ∧
        (∀ (i : Nat) x, A1[i]? = some x → (roots A : Int) - 1 - (n + 1) ≤ x) ∧
        (∀ j, A1[j]? = A[j]? ∨ j = ρ a ∧ ∃ x y, A[j]? = some x ∧ A1[j]? = some y ∧ x < 0 ∧ y < 0)) m1 := by
    intro A1 m1 w1 r1 l1 e1 e2 e3 e4
    refine wp_mono (setIndex_ok w1 r1 (by omega) _ (ρ b) (by omega) (Or.inl rfl)) ?_
    rintro _ m2 ⟨r2, _, w2⟩
    exact ⟨w2, A1, r2, l1, e1, e2, e3, e4⟩
  have hrank : ∀ (i : Nat) x, A[i]? = some x → (roots A : Int) - 1 - (n + 1) ≤ x := by
    intro i x hx
    have := hI.rank i x hx
    omega
  unfold unionSet
  rw [wp_ite]
  refine ⟨fun _ => plain A m hw hr hlen rfl ⟨xb, hxb, hxb0⟩ hrank (fun j => Or.inl rfl), fun _ => ?_⟩
  rw [wp_bind, wp_of_returns (index_get hr (by omega) hxa), wp_bind,
    wp_of_returns (index_get hr (by omega) hxb), wp_bind, wp_when]
  refine ⟨fun _ => ?_, fun _ => plain A m hw hr hlen rfl ⟨xb, hxb, hxb0⟩ hrank (fun j => Or.inl rfl)⟩
  have hrk := hI.rank _ _ hxa
  rw [wp_bind, wp_of_returns (index_get hr (by omega) hxa), wp_bind, wp_check]
  refine ⟨by omega, ?_⟩
  refine wp_mono (setIndex_ok hw hr (by omega) _ (ρ a) (by omega) (Or.inl rfl)) ?_
  rintro _ m1 ⟨r1, _, w1⟩
  have hro := roots_set_neg (y := xa - 1) hxa hxa0 (by omega)
  refine plain _ m1 w1 r1 (by simpa using hlen) hro ?_ ?_ ?_
  · by_cases hne : ρ a = ρ b
    · exact ⟨xa - 1, by rw [hne, List.getElem?_set_self (by omega)], by omega⟩
    · exact ⟨xb, by rw [List.getElem?_set_ne hne, hxb], hxb0⟩
  · intro i x hx
    by_cases hi : i = ρ a
    · subst hi
      rw [List.getElem?_set_self (by omega)] at hx
      cases hx
      omega
    · rw [List.getElem?_set_ne (Ne.symm hi)] at hx
      exact hrank i x hx
  · intro j
    by_cases hj : j = ρ a
    · subst hj
      exact Or.inr ⟨rfl, xa, xa - 1, hxa, by rw [List.getElem?_set_self (by omega)], hxa0, by omega⟩
    · exact Or.inl (List.getElem?_set_ne (Ne.symm hj))

/-- The array after `union_set` is again a disjoint set. -/
theorem GInv.union {A1 : List Int} {a b : Nat} (hI : GInv n ps dead ρ A) (ha : a < n) (hb : b < n) (hda : ¬ dead a)
    (hdb : ¬ dead b) (l3 : A1.length = n) (e1 : roots A1 = roots A) (e2 : ∃ x, A1[ρ b]? = some x ∧ x < 0)
    (e3 : ∀ (i : Nat) x, A1[i]? = some x → (roots A : Int) - 1 - (n + 1) ≤ x)
    (e4 : ∀ j, A1[j]? = A[j]? ∨ j = ρ a ∧ ∃ x y, A[j]? = some x ∧ A1[j]? = some y ∧ x < 0 ∧ y < 0) :
    GInv n (ps ++ [(a, b)]) (fun x => dead x ∨ Conn ps a b ∧ Conn ps a x)
      (fun i => if ρ i = ρ b then ρ a else ρ i) (A1.set (ρ b) (ρ a)) := by
  obtain ⟨xb, hxb, hxb0⟩ := e2
  have hlb := hI.rho_lt hb
  have hlen := hI.len
  have hcount := hI.count
  have hroots := roots_set_link (r1 := ρ a) hxb hxb0
  by_cases hab : ρ a = ρ b
  · have hc := (hI.conn a b ha hb).1 hab
    have e : (fun i => if ρ i = ρ b then ρ a else ρ i) = ρ := by
      funext i
      split
      · rw [hab]; exact Eq.symm ‹_›
      · rfl
    rw [e]
    refine hI.selfLoop ha hb hda hc ?_ ?_ (by simpa using l3) (by omega)
    · rw [hab, List.getElem?_set_self (by omega)]
    · intro j hj
      rw [List.getElem?_set_ne (by rw [← hab]; exact Ne.symm hj)]
      exact (e4 j).resolve_right fun h => hj h.1
  · have hnc : ¬ Conn ps a b := fun hc => hab ((hI.conn a b ha hb).2 hc)
    obtain ⟨da, hra⟩ := hI.root a ha hda
    obtain ⟨db, hrb⟩ := hI.root b hb hdb
    have e : (fun x => dead x ∨ Conn ps a b ∧ Conn ps a x) = dead := by
      funext x; simp [hnc]
    rw [e]
    refine hI.attach ha hb hda hdb ⟨hab, hra.root, hrb.root, ?_, ?_⟩ (by simpa using l3) (by omega) ?_
    · rw [List.getElem?_set_self (by omega)]
    · intro j hj
      rw [List.getElem?_set_ne (Ne.symm hj)]
      rcases e4 j with h | ⟨_, h⟩
      · exact Or.inl h
      · exact Or.inr h
    · intro i x hx
      by_cases hi : i = ρ b
      · subst hi
        rw [List.getElem?_set_self (by omega)] at hx
        cases hx
        omega
      · rw [List.getElem?_set_ne (Ne.symm hi)] at hx
        have := e3 i x hx
        omega

theorem gconnect (h : GHolds n ps dead ρ v m) {a b : Nat} (ha : a < n) (hb : b < n) (hda : ¬ dead a)
    (hdb : ¬ dead b) :
    wp (connect v (a : Int) (b : Int)) (fun _ m' => GHolds n (ps ++ [(a, b)])
      (fun x => dead x ∨ Conn ps a b ∧ Conn ps a x) (fun i => if ρ i = ρ b then ρ a else ρ i) v m') m := by
  unfold connect
  rw [wp_bind]
  refine wp_mono (gfindVal h ha hda) ?_
  rintro x m1 ⟨rfl, h1⟩
  rw [wp_bind]
  refine wp_mono (gfindVal h1 hb hdb) ?_
  rintro y m2 ⟨rfl, hw, A, hr, hI⟩
  refine wp_mono (gunion hw hr hI ha hb hda hdb) ?_
  rintro _ m3 ⟨w3, A1, r3, l3, e1, e2, e3, e4⟩
  exact ⟨w3, _, r3, hI.union ha hb hda hdb l3 e1 e2 e3 e4⟩

theorem gcount (h : GHolds n ps dead ρ v m) :
    wp (count v) (fun k m' => m' = m ∧ k + ps.length = n ∧ ∃ reps : List Nat, reps.length = k ∧ reps.Nodup ∧
      ∀ r, r ∈ reps ↔ r < n ∧ ¬ dead r ∧ ρ r = r) m := by
  obtain ⟨hw, A, hr, hI⟩ := h
  have hsz := hr.size
  have hlen := hI.len
  have h := wp_forRange (σ := Mem Int) (I := fun k acc m' => m' = m ∧ acc = roots (A.take k))
    (f := fun i n => do
      let x ← Vec.read v.c i
      pure (if x < 0 then n + 1 else n)) v.sz 0 0 m (by simp [roots]) ?_
  · refine wp_mono h ?_
    rintro k m' ⟨rfl, hk⟩
    rw [hsz, Nat.zero_add, List.take_length] at hk
    refine ⟨rfl, by rw [hk]; exact hI.count, (List.range n).filter (fun i => decide (A.getD i 0 < 0)), ?_,
      (List.nodup_range).filter _, ?_⟩
    · rw [hk, ← List.countP_eq_length_filter, ← hlen]
      have : ∀ L : List Int, (List.range L.length).countP (fun i => decide (L.getD i 0 < 0)) = roots L := by
        intro L
        have e : L = (List.range L.length).map (fun i => L.getD i 0) := by
          apply List.ext_getElem
          · simp
          · intro i h1 h2
            simp [List.getD, h1]
        have e2 := congrArg roots e
        rw [e2]
        simp [roots, List.countP_map, Function.comp_def]
      exact this A
    · intro r
      simp only [List.mem_filter, List.mem_range, decide_eq_true_eq]
      refine and_congr_right (fun hrn => ?_)
      have hget : A[r]? = some (A[r]'(by omega)) := List.getElem?_eq_getElem (by omega)
      have hgd : A.getD r 0 = A[r]'(by omega) := by simp [List.getD, hget]
      rw [hgd]
      constructor
      · intro hneg
        have hb : Root A r r 0 := .base hget hneg
        have hd : ¬ dead r := fun hd => (hI.loop r hrn hd).not_root hb
        obtain ⟨d, hd'⟩ := hI.root r hrn hd
        exact ⟨hd, (hd'.det hb).1⟩
      · rintro ⟨hd, e⟩
        obtain ⟨d, hd'⟩ := hI.root r hrn hd
        rw [e] at hd'
        obtain ⟨x, h1, h2⟩ := hd'.root
        rw [hget] at h1; cases h1
        exact h2
  · rintro i acc t h1 h2 ⟨rfl, rfl⟩
    have hi : i < A.length := by omega
    rw [wp_bind, wp_of_returns (hr.read_ok i hi), wp_pure]
    refine ⟨rfl, ?_⟩
    rw [List.take_succ_eq_append_getElem hi]
    simp only [roots, List.countP_append, List.countP_singleton]
    split <;> simp_all

/-! ## Histories -/

theorem pairs_snoc (pre : List Op) (op : Op) : pairs (pre ++ [op]) = pairs pre ++ op.pair := by
  simp [pairs]

theorem dead_snoc_query {pre : List Op} {op : Op} (h : op.pair = []) : Dead (pre ++ [op]) = Dead pre := by
  funext x
  apply propext
  constructor
  · rintro ⟨a, i, j, b, e, h1, h2⟩
    rcases List.eq_nil_or_concat b with rfl | ⟨b, y, rfl⟩
    · have := (List.append_inj' e rfl).2
      cases this
      simp [Op.pair] at h
    · rw [List.concat_eq_append, ← List.cons_append, ← List.append_assoc] at e
      exact ⟨a, i, j, b, (List.append_inj' e rfl).1, h1, h2⟩
  · rintro ⟨a, i, j, b, rfl, h1, h2⟩
    exact ⟨a, i, j, b ++ [op], by simp, h1, h2⟩

theorem dead_snoc_connect {pre : List Op} {a b : Nat} :
    Dead (pre ++ [.connect a b]) = fun x => Dead pre x ∨ Conn (pairs pre) a b ∧ Conn (pairs pre) a x := by
  funext x
  apply propext
  constructor
  · rintro ⟨p, i, j, q, e, h1, h2⟩
    rcases List.eq_nil_or_concat q with rfl | ⟨q, y, rfl⟩
    · obtain ⟨rfl, e2⟩ := List.append_inj' e rfl
      cases e2
      exact Or.inr ⟨h1, h2⟩
    · rw [List.concat_eq_append, ← List.cons_append, ← List.append_assoc] at e
      exact Or.inl ⟨p, i, j, q, (List.append_inj' e rfl).1, h1, h2⟩
  · rintro (⟨p, i, j, q, rfl, h1, h2⟩ | ⟨h1, h2⟩)
    · exact ⟨p, i, j, q ++ [.connect a b], by simp, h1, h2⟩
    · exact ⟨pre, a, b, [], by simp, h1, h2⟩

theorem gstep {pre : List Op} {op : Op} (h : GHolds n (pairs pre) (Dead pre) ρ v m) (hv : op.Valid n)
    (hu : ∀ x ∈ op.args, ¬ Dead pre x) :
    wp (step v op) (fun _ m' => ∃ ρ', GHolds n (pairs (pre ++ [op])) (Dead (pre ++ [op])) ρ' v m' ∧
      (op.pair = [] → ρ' = ρ)) m := by
  cases op with
  | find i =>
    rw [pairs_snoc, dead_snoc_query rfl]
    simp only [step, wp_bind, wp_pure, Op.pair, List.append_nil]
    refine wp_mono (gfindVal h hv (hu i (by simp [Op.args]))) ?_
    rintro _ m1 ⟨_, h1⟩
    exact ⟨ρ, h1, fun _ => rfl⟩
  | connected i j =>
    rw [pairs_snoc, dead_snoc_query rfl]
    simp only [step, wp_bind, wp_pure, Op.pair, List.append_nil]
    refine wp_mono (gconnected h hv.1 hv.2 (hu i (by simp [Op.args])) (hu j (by simp [Op.args]))) ?_
    rintro _ m1 ⟨_, h1⟩
    exact ⟨ρ, h1, fun _ => rfl⟩
  | connect i j =>
    rw [pairs_snoc, dead_snoc_connect]
    refine wp_mono (gconnect h hv.1 hv.2 (hu i (by simp [Op.args])) (hu j (by simp [Op.args]))) ?_
    rintro _ m1 h1
    exact ⟨_, h1, by simp [Op.pair]⟩

theorem gstep_diverges {pre : List Op} {op : Op} (h : GHolds n (pairs pre) (Dead pre) ρ v m) (hv : op.Valid n)
    {x : Nat} (hx : x ∈ op.args) (hd : Dead pre x) : Diverges (step v op) m := by
  cases op with
  | find i =>
    simp only [Op.args, List.mem_singleton] at hx
    subst hx
    exact bind_diverges (gfindVal_diverges h hv hd)
  | connected i j =>
    simp only [Op.args, List.mem_cons, List.not_mem_nil, or_false] at hx
    refine bind_diverges (gconnected_diverges h hv.1 hv.2 ?_)
    rcases hx with rfl | rfl
    · exact Or.inl hd
    · exact Or.inr hd
  | connect i j =>
    simp only [Op.args, List.mem_cons, List.not_mem_nil, or_false] at hx
    refine gconnect_diverges h hv.1 hv.2 ?_
    rcases hx with rfl | rfl
    · exact Or.inl hd
    · exact Or.inr hd

theorem Usable.tail {pre : List Op} {op : Op} {ops : List Op} (h : Usable pre (op :: ops)) :
    Usable (pre ++ [op]) ops := by
  rintro a o b rfl x hx
  rw [List.append_assoc]
  exact h ([op] ++ a) o b rfl x hx

theorem usable_cons {pre : List Op} {op : Op} {ops : List Op} (h : ∀ x ∈ op.args, ¬ Dead pre x)
    (h' : Usable (pre ++ [op]) ops) : Usable pre (op :: ops) := by
  rintro (_ | ⟨o, a⟩) o' b e x hx
  · cases e
    simpa using h x hx
  · cases e
    simpa using h' a o' b rfl x hx

theorem grun (ops : List Op) : ∀ {pre : List Op} {ρ : Nat → Nat} {m : Mem Int},
    GHolds n (pairs pre) (Dead pre) ρ v m → (∀ op ∈ ops, op.Valid n) → Usable pre ops →
    wp (run v ops) (fun _ m' => ∃ ρ', GHolds n (pairs (pre ++ ops)) (Dead (pre ++ ops)) ρ' v m' ∧
      (pairs ops = [] → ρ' = ρ)) m := by
  induction ops with
  | nil =>
    intro pre ρ m h _ _
    exact (wp_pure _ _ _).2 ⟨ρ, by simpa using h, fun _ => rfl⟩
  | cons op ops ih =>
    intro pre ρ m h hv hu
    unfold run
    rw [List.map_cons, seqAll, wp_bind]
    refine wp_mono (gstep h (hv op (by simp)) fun x hx => by simpa using hu [] op ops rfl x hx) ?_
    rintro _ m1 ⟨ρ1, h1, e1⟩
    refine wp_mono (ih h1 (fun o ho => hv o (by simp [ho])) hu.tail) ?_
    rintro _ m2 ⟨ρ2, h2, e2⟩
    refine ⟨ρ2, by simpa using h2, fun e => ?_⟩
    simp only [pairs, List.flatMap_cons, List.append_eq_nil_iff] at e
    rw [e2 e.2, e1 e.1]

theorem grun_diverges (ops : List Op) : ∀ {pre : List Op} {ρ : Nat → Nat} {m : Mem Int},
    GHolds n (pairs pre) (Dead pre) ρ v m → (∀ op ∈ ops, op.Valid n) → ¬ Usable pre ops →
    Diverges (run v ops) m := by
  induction ops with
  | nil =>
    intro pre ρ m h _ hu
    exact (hu (by rintro a o b e; simp at e)).elim
  | cons op ops ih =>
    intro pre ρ m h hv hu
    show Diverges (step v op >>= fun _ => run v ops) m
    by_cases hx : ∀ x ∈ op.args, ¬ Dead pre x
    · refine diverges_of_wp (wp_mono (gstep h (hv op (by simp)) hx) ?_)
      rintro _ m1 ⟨ρ1, h1, _⟩
      exact ih h1 (fun o ho => hv o (by simp [ho])) fun h' => hu (usable_cons hx h')
    · simp only [Classical.not_forall, Classical.not_not] at hx
      obtain ⟨x, hx, hd⟩ := hx
      exact bind_diverges (gstep_diverges h (hv op (by simp)) hx hd)

/-- A set of representatives is at least as long as any list of pairwise unconnected elements. -/
theorem Transversal.le {reps L : List Nat} (h : Transversal n ps reps) (hnd : L.Nodup) (hlt : ∀ x ∈ L, x < n)
    (hu : ∀ x ∈ L, ∀ y ∈ L, Conn ps x y → x = y) : L.length ≤ reps.length := by
  have hf : ∃ f : Nat → Nat, ∀ x, x < n → f x ∈ reps ∧ Conn ps x (f x) := by
    refine ⟨fun x => if hx : x < n then Classical.choose (h.cover x hx) else 0, fun x hx => ?_⟩
    dsimp only
    rw [dif_pos hx]
    exact Classical.choose_spec (h.cover x hx)
  obtain ⟨f, hf⟩ := hf
  have h1 : (L.map f).Nodup := by
    rw [List.Nodup, List.pairwise_map]
    refine List.Pairwise.imp_of_mem ?_ hnd
    intro a b ha hb hab e
    refine hab (hu a ha b hb ?_)
    have := (hf b (hlt b hb)).2
    rw [← e] at this
    exact (hf a (hlt a ha)).2.trans this.symm
  have h2 := List.Nodup.length_le_of_subset h1 (l₂ := reps) (by
    intro y hy
    obtain ⟨x, hx, rfl⟩ := List.mem_map.1 hy
    exact (hf x (hlt x hx)).1)
  simpa using h2

theorem dead_nil : Dead [] = fun _ => False := by
  funext x
  apply propext
  constructor
  · rintro ⟨a, i, j, b, e, _⟩
    simp at e
  · exact False.elim

theorem gctor (n : Nat) (hn : n ≠ 0) (hs : n < 2 ^ 31) :
    wp (ctor n) (fun v m => GHolds n (pairs []) (Dead []) id v m) Mem.init := by
  refine wp_mono (ctor_ok n hn hs) ?_
  rintro v m ⟨h1, A, h2, h3⟩
  rw [dead_nil]
  exact ⟨h1, A, h2, h3.ginv⟩

end Verif.DSU
