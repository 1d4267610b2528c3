import Verif.Props.DisjointSetCost

/-! # Arguments of `DisjointSet` operations (C87, C88) -/

namespace Verif.DSU

open Prog Vec

variable {n : Nat} {v : Vec} {m : Mem Int} {A : List Int}

/-- `find` never terminates inside a set of elements whose links stay in the set. -/
theorem find_diverges_closed {P : Nat → Prop} (hP : ∀ j, P j → ∃ q : Nat, A[j]? = some (q : Int) ∧ P q)
    (hlen : A.length < 2 ^ 31) : ∀ (a : Arg Int) (m : Mem Int), (∃ i, Rep m v A ∧ ArgIs v a A i ∧ P i) →
    find v a m = none := by
  refine find.fixpoint_induct (v := v) (fun f => ∀ (a : Arg Int) (m : Mem Int),
    (∃ i, Rep m v A ∧ ArgIs v a A i ∧ P i) → f a m = none) (Prog.admissible_diverges _) ?_
  rintro f ih a m ⟨i, hr, ha, hp⟩
  show Diverges (a.get >>= _) m
  unfold Diverges
  obtain ⟨q, hq, hp'⟩ := hP i hp
  have hi := (List.getElem?_eq_some_iff.1 hq).1
  have hs : ArgIs v (.ref v.c (i : Int)) A q := Or.inr ⟨i, rfl, hq⟩
  rw [bind_returns (ha.get hr), bind_returns (refAt_ok hr hlen i hi), bind_returns (hs.get hr),
    if_neg (by omega), bind_returns (ha.get hr), bind_returns (refAt_ok hr hlen i hi)]
  exact bind_diverges (ih _ m ⟨q, hr, hs, hp'⟩)

/-- **C87.**  After every history that returns, an index from `n` to `2^31 - 1` as first argument stops
`find`, `connected` and `connect` at the assertion of `Vector::operator[]`, and so it does as second
argument when the first is a live element.  Missing from the full statement: negative indices, see
`dsu_index_negative`. -/
theorem dsu_index_large_partial (n : Nat) (hn : 0 < n) (hs : n < 2 ^ 31) (ops : List Op) (hv : ∀ op ∈ ops, op.Valid n)
    (v : Vec) (m : Mem Int) (h : Reaches n ops v m) (i : Nat) (hi : n ≤ i) (his : i < 2 ^ 31) :
    Faults (findVal v i) m .assert ∧
    (∀ j : Int, Faults (connected v i j) m .assert ∧ Faults (connect v i j) m .assert) ∧
    ∀ j, j < n → ¬ Dead ops j → Faults (connected v j i) m .assert ∧ Faults (connect v j i) m .assert := by
  obtain ⟨_, ρ, hg⟩ := reaches_usable hn hs hv h
  have hf : ∀ {m : Mem Int} {A : List Int}, Rep m v A → GInv n (pairs ops) (Dead ops) ρ A →
      Faults (find v (.val (i : Int))) m .assert := by
    intro m A hr hI
    rw [find]
    have hsz := hr.size
    have hlen := hI.len
    refine faults_bind_of_wp ((wp_of_returns (val_get _ _) _).2 (bind_faults ?_))
    unfold refAt
    rw [normIndex_ok v _ (by omega) (by omega), if_neg (by omega)]
    exact bind_faults (faults_dassert (by rw [bmod32 _ (by omega) (by omega)]; omega) _)
  have hg' := hg
  obtain ⟨hw, A, hr, hI⟩ := hg
  have h1 := hf hr hI
  refine ⟨bind_faults h1, fun j => ⟨bind_faults h1, bind_faults (bind_faults h1)⟩, fun j hj hd => ⟨?_, ?_⟩⟩
  · refine faults_bind_of_wp (wp_mono (gfind hw hr hI hj hd) ?_)
    rintro a m1 ⟨_, B, _, r1, _, i1, _⟩
    exact bind_faults (hf r1 i1)
  · refine faults_bind_of_wp (wp_mono (gfindVal hg' hj hd) ?_)
    rintro x m1 ⟨_, _, B, r1, i1⟩
    exact bind_faults (bind_faults (hf r1 i1))

theorem refAt_neg (hr : Rep m v A) (hlen : A.length < 2 ^ 31) (i : Nat) (hi : i < A.length) :
    Returns (refAt v ((i : Int) - A.length)) m (.ref v.c (i : Int)) m := by
  have hsz := hr.size
  have hn : normIndex v ((i : Int) - A.length) = i := by
    rw [normIndex_ok v _ (by omega) (by omega), if_pos (by omega)]
    omega
  unfold refAt
  simp only [hn]
  rw [dassert_pos (by rw [bmod32 _ (by omega) (by omega)]; omega)]
  rfl

theorem find_at_root (hr : Rep m v A) (hlen : A.length < 2 ^ 31) {i : Nat} {x : Int} (h : A[i]? = some x) (hx : x < 0) :
    Returns (find v (.val (i : Int))) m (.val (i : Int)) m := by
  obtain ⟨h3, h4⟩ := List.getElem?_eq_some_iff.1 h
  have h5 := hr.read_ok i h3
  rw [h4] at h5
  unfold Returns
  rw [find, bind_returns (val_get _ _), bind_returns (refAt_ok hr hlen i h3),
    bind_returns (show Returns (Arg.get (.ref v.c (i : Int))) m _ m from h5), if_pos hx]
  rfl

theorem find_neg_root (hr : Rep m v A) (hlen : A.length < 2 ^ 31) {i : Nat} {x : Int} (h : A[i]? = some x) (hx : x < 0) :
    Returns (find v (.val ((i : Int) - A.length))) m (.val ((i : Int) - A.length)) m := by
  obtain ⟨h3, h4⟩ := List.getElem?_eq_some_iff.1 h
  have h5 := hr.read_ok i h3
  rw [h4] at h5
  unfold Returns
  rw [find, bind_returns (val_get _ _), bind_returns (refAt_neg hr hlen i h3),
    bind_returns (show Returns (Arg.get (.ref v.c (i : Int))) m _ m from h5), if_pos hx]
  rfl

theorem find_neg_step (hr : Rep m v A) (hw : m.WF) (hlen : A.length < 2 ^ 31) {i q r d : Nat}
    (h : A[i]? = some (q : Int)) (hq : Root A q r d) :
    wp (find v (.val ((i : Int) - A.length))) (fun a m' => ∃ B, Rep m' v B ∧ ArgIs v a B r) m := by
  have hi := (List.getElem?_eq_some_iff.1 h).1
  have hs : ArgIs v (.ref v.c (i : Int)) A q := Or.inr ⟨i, rfl, h⟩
  rw [find, wp_bind, wp_of_returns (val_get _ _), wp_bind, wp_of_returns (refAt_neg hr hlen i hi), wp_bind,
    wp_of_returns (hs.get hr), if_neg (by omega), wp_bind, wp_of_returns (val_get _ _), wp_bind,
    wp_of_returns (refAt_neg hr hlen i hi), wp_bind]
  refine wp_mono (find_ok d hr hw hlen hs hq) ?_
  rintro a1 m1 ⟨B, r1, w1, c1, b1⟩
  have hBl : B.length = A.length := c1.length
  rw [wp_bind, wp_of_returns (b1.get r1), wp_bind, wp_of_returns (val_get _ _), wp_bind]
  refine wp_mono (setIndex_ok w1 r1 (by omega) _ i (by omega) (Or.inr (by rw [hBl]))) ?_
  rintro _ m2 ⟨r2, _, w2⟩
  have h3 := refAt_neg r2 (by simp; omega) i (by simp; omega)
  rw [List.length_set, hBl] at h3
  rw [wp_of_returns h3]
  exact ⟨_, r2, Or.inr ⟨i, rfl, List.getElem?_set_self (by omega)⟩⟩

/-- **C87, failing case.**  A negative index `i - n` is accepted: it stands for element `i`.  If `i` is the
representative of its class, `find(i - n)` returns the negative index itself, so that `connected(i - n, i)`
is `false`; on other elements it returns the representative. -/
theorem dsu_index_negative (n : Nat) (hn : 0 < n) (hs : n < 2 ^ 31) (ops : List Op) (hv : ∀ op ∈ ops, op.Valid n)
    (v : Vec) (m : Mem Int) (h : Reaches n ops v m) (i : Nat) (hi : i < n) (hd : ¬ Dead ops i) :
    ∃ r m1 m2, Returns (findVal v i) m r m1 ∧
      Returns (findVal v ((i : Int) - n)) m (if r = i then (i : Int) - n else r) m2 ∧
      (r = i → ∃ m3, Returns (connected v ((i : Int) - n) i) m false m3) := by
  obtain ⟨_, ρ, hg⟩ := reaches_usable hn hs hv h
  obtain ⟨x, m1, h1, rfl, _⟩ := gfindVal hg hi hd
  obtain ⟨hw, A, hr, hI⟩ := hg
  have hlen := hI.len
  obtain ⟨d, hroot⟩ := hI.root i hi hd
  cases d with
  | zero =>
    have e : ρ i = i := by
      generalize ρ i = r at hroot
      cases hroot; rfl
    obtain ⟨x, h2, hx⟩ := hroot.root
    rw [e] at h2
    have hf := find_neg_root hr (by omega) h2 hx
    rw [hlen] at hf
    refine ⟨(ρ i : Int), m1, m, h1, ?_, fun _ => ⟨m, ?_⟩⟩
    · rw [if_pos (by rw [e])]
      unfold Returns findVal
      rw [bind_returns hf]
      exact val_get _ _
    · have hg := find_at_root hr (by omega) h2 hx
      unfold Returns connected
      rw [bind_returns hf, bind_returns hg, bind_returns (val_get _ _), bind_returns (val_get _ _),
        show (((i : Int) - n) == (i : Int)) = false by rw [beq_eq_false_iff_ne]; omega]
      rfl
  | succ d =>
    have hne : ρ i ≠ i := by
      intro e
      have := (hroot.det (e ▸ hroot.root_self)).2
      omega
    generalize ρ i = ri at *
    cases hroot with
    | @step _ q _ _ h2 hq =>
      obtain ⟨a, m2, h3, B, r2, a2⟩ := find_neg_step hr hw (by omega) h2 hq
      rw [hlen] at h3
      refine ⟨(ri : Int), m1, m2, h1, ?_, fun e => absurd (by exact_mod_cast e) hne⟩
      rw [if_neg (by omega)]
      unfold Returns findVal
      rw [bind_returns h3]
      exact a2.get r2

/-- **C88.**  After every history that returns, `union_set(r1, r2)` of two representatives of live classes does
exactly what `connect(r1, r2)` does.  Missing from the full statement: other elements, see
`dsu_union_set_hangs`. -/
theorem dsu_union_set_partial (n : Nat) (hn : 0 < n) (hs : n < 2 ^ 31) (ops : List Op) (hv : ∀ op ∈ ops, op.Valid n)
    (v : Vec) (m : Mem Int) (h : Reaches n ops v m) (r1 r2 : Nat) (h1 : r1 < n) (h2 : r2 < n) (hd1 : ¬ Dead ops r1)
    (hd2 : ¬ Dead ops r2) (hr1 : ∃ m', Returns (findVal v r1) m r1 m') (hr2 : ∃ m', Returns (findVal v r2) m r2 m') :
    unionSet v r1 r2 m = connect v r1 r2 m := by
  obtain ⟨_, ρ, hg⟩ := reaches_usable hn hs hv h
  have hself : ∀ r, r < n → ¬ Dead ops r → (∃ m', Returns (findVal v r) m r m') → Returns (findVal v r) m r m := by
    rintro r hr hd ⟨m', h3⟩
    obtain ⟨x, m1, h4, h5, _⟩ := gfindVal hg hr hd
    obtain ⟨h6, _⟩ := h3.det h4
    obtain ⟨hw, A, hR, hI⟩ := hg
    have hlen := hI.len
    have e : ρ r = r := by omega
    obtain ⟨d, hroot⟩ := hI.root r hr hd
    obtain ⟨y, hy, hy0⟩ := hroot.root
    rw [e] at hy
    unfold Returns findVal
    rw [bind_returns (find_at_root hR (by omega) hy hy0)]
    exact val_get _ _
  unfold connect
  rw [bind_returns (hself r1 h1 hd1 hr1), bind_returns (hself r2 h2 hd2 hr2)]

/-- **C88, failing case.**  After every history that returns, `union_set(i, r)` of a live element `i` that is not a
representative and the representative `r` of its class closes a cycle: it returns, and afterwards
`find(i)` never terminates. -/
theorem dsu_union_set_hangs (n : Nat) (hn : 0 < n) (hs : n < 2 ^ 31) (ops : List Op) (hv : ∀ op ∈ ops, op.Valid n)
    (v : Vec) (m m1 : Mem Int) (h : Reaches n ops v m) (i r : Nat) (hi : i < n) (hir : i ≠ r)
    (hf : Returns (findVal v i) m r m1) :
    ∃ m2, Returns (unionSet v i r) m () m2 ∧ Diverges (findVal v i) m2 := by
  obtain ⟨_, ρ, hg⟩ := reaches_usable hn hs hv h
  have hd : ¬ Dead ops i := fun hd => by
    have := gfindVal_diverges hg hi hd
    rw [Diverges, hf] at this
    cases this
  obtain ⟨x, m', h1, h2, _⟩ := gfindVal hg hi hd
  obtain ⟨h3, _⟩ := hf.det h1
  obtain ⟨hw, A, hr, hI⟩ := hg
  have hlen := hI.len
  obtain ⟨d, hroot⟩ := hI.root i hi hd
  have e : ρ i = r := by omega
  rw [e] at hroot
  obtain ⟨y, hy, hy0⟩ := hroot.root
  have hrl := hroot.root_self.lt
  obtain ⟨q, hq⟩ : ∃ q : Nat, A[i]? = some (q : Int) := by
    cases hroot with
    | base => exact absurd rfl hir
    | step h5 _ => exact ⟨_, h5⟩
  have hset : wp (unionSet v i r) (fun _ m2 => Rep m2 v (A.set r i)) m := by
    have hone := wp_mono (setIndex_ok (x := (i : Int)) hw hr (by omega) _ r (by omega) (Or.inl rfl))
      (R := fun _ m2 => Rep m2 v (A.set r i)) (fun _ m2 h => h.1)
    unfold unionSet
    rw [wp_ite]
    refine ⟨fun _ => hone, fun _ => ?_⟩
    rw [wp_bind, wp_of_returns (index_get hr (by omega) hq), wp_bind,
      wp_of_returns (index_get hr (by omega) hy), wp_bind, wp_when]
    exact ⟨fun e => by omega, fun _ => hone⟩
  obtain ⟨_, m2, h5, h6⟩ := hset
  refine ⟨m2, h5, bind_diverges ?_⟩
  refine find_diverges_closed (P := fun j => Reach A i j) ?_ (by simp; omega) _ _ ⟨i, h6, Or.inl rfl, .refl _⟩
  intro j hj
  obtain ⟨k, _, hk⟩ := hj.depth hroot
  by_cases hjr : j = r
  · subst hjr
    exact ⟨i, List.getElem?_set_self hrl, .refl _⟩
  · cases hk with
    | base => exact absurd rfl hjr
    | step h7 _ => exact ⟨_, by rw [List.getElem?_set_ne (Ne.symm hjr)]; exact h7, hj.trans (.step h7 (.refl _))⟩

/-! ## The hypotheses are met by concrete, non-trivial histories -/

/-- After `connect(0, 1)` on 2 elements, both are live and `1` is not its own representative. -/
example : ∃ v m m1, Reaches 2 [.connect 0 1] v m ∧ Returns (findVal v ((1 : Nat) : Int)) m ((0 : Nat) : Int) m1 ∧
    ∀ i, ¬ Dead [.connect 0 1] i := by
  obtain ⟨hg, v, m, m1, h1, h2, _⟩ := dsu_find_linear 2 (by omega) (by omega)
  refine ⟨v, m, m1, h1, h2, fun i => ?_⟩
  rw [show [Op.connect 0 1] = [] ++ [.connect 0 1] from rfl, dead_snoc_connect, dead_nil]
  rintro (h | ⟨h, _⟩)
  · exact h
  · exact hg.2.1 h

end Verif.DSU
