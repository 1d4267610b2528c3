import Verif.Spec.Heap
import Verif.VectorLemmas

/-! Helper lemmas about the heap: list-level heap order and the sift loops. -/

namespace Verif.Heap

open Prog Vec

variable {α : Type}

/-- Heap order of slots `2, 3, …` with respect to their parents, for the parents `≥ lo`
other than `p`. -/
def Ord (R : α → α → Prop) (l : List α) (lo p : Nat) : Prop :=
  ∀ i x y, 2 ≤ i → lo ≤ i / 2 → i / 2 ≠ p → l[i / 2]? = some x → l[i]? = some y → R x y

/-- Grandparent condition used while sifting at `p`. -/
def Skip (R : α → α → Prop) (l : List α) (lo p : Nat) : Prop :=
  ∀ c x y, c / 2 = p → 2 ≤ p → lo ≤ p / 2 → l[p / 2]? = some x → l[c]? = some y → R x y

/-- Heap order except between `k` and its parent. -/
def UpOrd (R : α → α → Prop) (l : List α) (k : Nat) : Prop :=
  ∀ i x y, 2 ≤ i → i ≠ k → l[i / 2]? = some x → l[i]? = some y → R x y

/-- The list with two entries exchanged. -/
def swapL (l : List α) (i j : Nat) (hi : i < l.length) (hj : j < l.length) : List α :=
  (l.set i l[j]).set j l[i]

theorem swapL_perm (l : List α) (i j : Nat) (hi : i < l.length) (hj : j < l.length) :
    (swapL l i j hi hj).Perm l := List.set_set_perm hi hj

@[simp] theorem swapL_length (l : List α) (i j : Nat) (hi : i < l.length) (hj : j < l.length) :
    (swapL l i j hi hj).length = l.length := by simp [swapL]

theorem swapL_get? (l : List α) (i j : Nat) (hi : i < l.length) (hj : j < l.length) (k : Nat) :
    (swapL l i j hi hj)[k]? = if k = i then l[j]? else if k = j then l[i]? else l[k]? := by
  unfold swapL
  grind

theorem up_step {R : α → α → Prop} (hR : ∀ a b c, R a b → R b c → R a c) {l : List α} {k : Nat} (hk : k < l.length) (hp : k / 2 < l.length)
    (h2 : 2 ≤ k) (ho : UpOrd R l k) (hs : Skip R l 0 k) (hyx : R l[k] l[k / 2]) :
    UpOrd R (swapL l (k / 2) k hp hk) (k / 2) ∧ Skip R (swapL l (k / 2) k hp hk) 0 (k / 2) := by
  have e1 : l[k]? = some l[k] := List.getElem?_eq_getElem hk
  have e2 : l[k / 2]? = some l[k / 2] := List.getElem?_eq_getElem hp
  constructor
  · intro i x y hi hik hx hy
    rw [swapL_get?] at hx hy
    rw [if_neg hik] at hy
    by_cases hi1 : i = k
    · subst hi1
      rw [if_pos rfl] at hx hy
      rw [e1] at hx; rw [e2] at hy; cases hx; cases hy; exact hyx
    · rw [if_neg hi1] at hy
      by_cases hi2 : i / 2 = k / 2
      · rw [if_pos hi2, e1] at hx; cases hx
        exact hR _ _ _ hyx (ho i _ y hi hi1 (by rw [hi2]; exact e2) hy)
      · rw [if_neg hi2] at hx
        by_cases hi3 : i / 2 = k
        · rw [if_pos hi3, e2] at hx; cases hx
          exact hs i _ y hi3 h2 (Nat.zero_le _) e2 hy
        · rw [if_neg hi3] at hx
          exact ho i x y hi hi1 hx hy
  · intro c x y hc hp2 _ hx hy
    rw [swapL_get?] at hx hy
    rw [if_neg (by omega), if_neg (by omega)] at hx
    have hpp := ho (k / 2) x _ hp2 (by omega) hx e2
    by_cases hck : c = k
    · subst hck
      rw [if_neg (by omega), if_pos rfl, e2] at hy; cases hy; exact hpp
    · rw [if_neg (by omega), if_neg hck] at hy
      exact hR _ _ _ hpp (ho c _ y (by omega) hck (by rw [hc]; exact e2) hy)

theorem down_step {R : α → α → Prop} {l : List α} {lo p t : Nat}
    (hp : p < l.length) (ht : t < l.length) (htp : t / 2 = p) (hp1 : 1 ≤ p)
    (ho : Ord R l lo p) (hs : Skip R l lo p) (h1 : R l[t] l[p])
    (h2 : ∀ c y, c / 2 = p → c ≠ t → l[c]? = some y → R l[t] y) (hlo : lo ≤ p) :
    Ord R (swapL l p t hp ht) lo t ∧ Skip R (swapL l p t hp ht) lo t := by
  have e1 : l[p]? = some l[p] := List.getElem?_eq_getElem hp
  have e2 : l[t]? = some l[t] := List.getElem?_eq_getElem ht
  have htne : t ≠ p := by omega
  constructor
  · intro i x y hi hli hit hx hy
    rw [swapL_get?] at hx hy
    by_cases hip : i / 2 = p
    · rw [if_pos hip, e2] at hx; cases hx
      rw [if_neg (by omega)] at hy
      by_cases hi1 : i = t
      · rw [if_pos hi1, e1] at hy; cases hy; exact h1
      · rw [if_neg hi1] at hy; exact h2 i y hip hi1 hy
    · rw [if_neg hip, if_neg hit] at hx
      by_cases hi1 : i = p
      · rw [if_pos hi1, e2] at hy; cases hy
        subst hi1
        exact hs t x _ htp hi hli hx e2
      · rw [if_neg hi1, if_neg (by omega)] at hy
        exact ho i x y hi hli hip hx hy
  · intro c x y hc h2' hl hx hy
    rw [swapL_get?] at hx hy
    rw [if_pos htp, e2] at hx; cases hx
    rw [if_neg (by omega), if_neg (by omega)] at hy
    exact ho c _ y (by omega) (by omega) (by omega) (by rw [hc]; exact e2) hy

/-- In heap order, slot 1 is related to every other element. -/
theorem root_le {R : α → α → Prop} (refl : ∀ a, R a a) (hR : ∀ a b c, R a b → R b c → R a c)
    {l : List α} (ho : Ord R l 1 0) {x : α}
    (hx : l[1]? = some x) : ∀ i y, 1 ≤ i → l[i]? = some y → R x y := by
  intro i
  induction i using Nat.strongRecOn with
  | _ i ih =>
    intro y hi hy
    by_cases h1 : i = 1
    · subst h1; rw [hx] at hy; cases hy; exact refl _
    · have hlt : i / 2 < l.length := by
        have := (List.getElem?_eq_some_iff.1 hy).1; omega
      have := ih (i / 2) (by omega) l[i / 2] (by omega) (List.getElem?_eq_getElem hlt)
      exact hR _ _ _ this (ho i _ y (by omega) (by omega) (by omega) (List.getElem?_eq_getElem hlt) hy)

/-! ### The sift loops -/

theorem swapAt_ok {m : Mem α} {v : Vec} {l : List α} (hw : m.WF) (hr : Rep m v l)
    (hlen : l.length < 2 ^ 31) (i j : Nat) (hi : i < l.length) (hj : j < l.length) :
    wp (swapAt v i j) (fun _ m' => Rep m' v (swapL l i j hi hj) ∧ Frame m m' v v ∧ m'.WF) m := by
  unfold swapAt
  rw [wp_bind, wp_of_returns (index_ok hr hlen i hi).1, wp_bind,
    wp_of_returns (index_ok hr hlen j hj).1, wp_bind]
  refine wp_mono (setIndex_ok hw hr hlen i i hi (Or.inl rfl)) ?_
  rintro _ m1 ⟨r1, f1, w1⟩
  refine wp_mono (setIndex_ok w1 r1 (by simpa using hlen) j j (by simpa using hj) (Or.inl rfl)) ?_
  rintro _ m2 ⟨r2, f2, w2⟩
  exact ⟨r2, f1.trans hw f2 w2.null, w2⟩

/-- What a sift does: the vector keeps its buffer, its first slot and its elements. -/
structure Sift (m : Mem α) (v : Vec) (l : List α) (m' : Mem α) (l' : List α) : Prop where
  rep : Rep m' v l'
  frame : Frame m m' v v
  wf : m'.WF
  perm : l'.Perm l
  zero : l'[0]? = l[0]?

theorem adjustUpLoop_ok {R : α → α → Prop} {cmp : α → α → Bool} (hc : Order R cmp) {v : Vec}
    (k : Nat) {m : Mem α} {l : List α} (hw : m.WF) (hr : Rep m v l) (hlen : l.length < 2 ^ 31)
    (hk : k < l.length) (hk1 : 1 ≤ k) (ho : UpOrd R l k) (hs : Skip R l 0 k) :
    wp (adjustUpLoop cmp v k) (fun _ m' => ∃ l', Sift m v l m' l' ∧ Ord R l' 1 0) m := by
  induction k using Nat.strongRecOn generalizing m l with
  | _ k ih =>
    rw [adjustUpLoop]
    rw [wp_ite]
    refine ⟨fun h1 => ?_, fun h1 => ?_⟩
    · have e : ((k : Int) / 2) = ((k / 2 : Nat) : Int) := by omega
      have hp : k / 2 < l.length := by omega
      simp only [e]
      rw [wp_bind, wp_of_returns (index_ok hr hlen _ hp).1, wp_bind,
        wp_of_returns (index_ok hr hlen _ hk).1, wp_ite]
      refine ⟨fun hcmp => ?_, fun hcmp => ?_⟩
      · rw [wp_pure]
        refine ⟨l, ⟨hr, Frame.refl _ _, hw, List.Perm.refl _, rfl⟩, ?_⟩
        intro i x y hi _ _ hx hy
        by_cases hik : i = k
        · subst hik
          rw [List.getElem?_eq_getElem hp] at hx
          rw [List.getElem?_eq_getElem hk] at hy
          cases hx; cases hy
          exact hc.pos _ _ hcmp
        · exact ho i x y hi hik hx hy
      · rw [wp_bind]
        refine wp_mono (swapAt_ok hw hr hlen (k / 2) k hp hk) ?_
        rintro _ m1 ⟨r1, f1, w1⟩
        obtain ⟨o1, s1⟩ := up_step hc.trans hk hp (by omega) ho hs (hc.neg _ _ (by simpa using hcmp))
        refine wp_mono (ih (k / 2) (by omega) w1 r1 (by simpa using hlen) (by simpa using hp)
          (by omega) o1 s1) ?_
        rintro _ m2 ⟨l2, ⟨q1, q2, q3, q4, q5⟩, q6⟩
        refine ⟨l2, ⟨q1, f1.trans hw q2 q3.null, q3, q4.trans (swapL_perm _ _ _ _ _), ?_⟩, q6⟩
        rw [q5, swapL_get?, if_neg (by omega), if_neg (by omega)]
    · rw [wp_pure]
      refine ⟨l, ⟨hr, Frame.refl _ _, hw, List.Perm.refl _, rfl⟩, ?_⟩
      intro i x y hi _ _ hx hy
      exact ho i x y hi (by omega) hx hy

theorem adjustDownLoop_ok {R : α → α → Prop} {cmp : α → α → Bool} (hc : Order R cmp) {v : Vec}
    {lo : Nat} (d p : Nat) {m : Mem α} {l : List α} (hw : m.WF) (hr : Rep m v l)
    (hlen : l.length ≤ 2 ^ 30) (hd : l.length ≤ p + d) (hp : p < l.length ∨ l.length = 1) (hp1 : 1 ≤ p)
    (hp2 : p < 2 ^ 29 ∨ p < l.length) (hlo : lo ≤ p)
    (ho : Ord R l lo p) (hs : Skip R l lo p) :
    wp (adjustDownLoop cmp v l.length p) (fun _ m' => ∃ l', Sift m v l m' l' ∧ Ord R l' lo 0) m := by
  induction d using Nat.strongRecOn generalizing p m l with
  | _ d ih =>
    rw [adjustDownLoop]
    have hlen' : l.length < 2 ^ 31 := by omega
    rw [wp_bind, wp_check]
    refine ⟨by omega, ?_⟩
    have eL : (2 * (p : Int)) = ((2 * p : Nat) : Int) := by omega
    have eR : ((2 * p : Nat) : Int) + 1 = ((2 * p + 1 : Nat) : Int) := by omega
    simp only [eL, eR]
    -- outcome of the first comparison
    have ht1 : wp (if ((2 * p : Nat) : Int) < (l.length : Int) then do
        let a ← index v (p : Int)
        let b ← index v ((2 * p : Nat) : Int)
        pure (if cmp a b then (p : Int) else ((2 * p : Nat) : Int))
      else pure (p : Int)) (fun t m1 => m1 = m ∧ ∃ t' : Nat, t = (t' : Int) ∧
        ((t' = p ∧ ∀ x y, l[p]? = some x → l[2 * p]? = some y → R x y) ∨
         (t' = 2 * p ∧ 2 * p < l.length ∧ ∀ x y, l[p]? = some x → l[2 * p]? = some y → R y x))) m := by
      rw [wp_ite]
      refine ⟨fun h => ?_, fun h => ?_⟩
      · have hlp : p < l.length := by omega
        have hl2 : 2 * p < l.length := by omega
        rw [wp_bind, wp_of_returns (index_ok hr hlen' p hlp).1, wp_bind,
          wp_of_returns (index_ok hr hlen' _ hl2).1, wp_pure]
        refine ⟨rfl, if cmp l[p] l[2 * p] = true then p else 2 * p, by split <;> rfl, ?_⟩
        rcases hcmp : cmp l[p] l[2 * p]
        · right
          refine ⟨by simp, hl2, ?_⟩
          intro x y hx hy
          rw [List.getElem?_eq_getElem hlp] at hx
          rw [List.getElem?_eq_getElem hl2] at hy
          cases hx; cases hy; exact hc.neg _ _ hcmp
        · left
          refine ⟨by simp, ?_⟩
          intro x y hx hy
          rw [List.getElem?_eq_getElem hlp] at hx
          rw [List.getElem?_eq_getElem hl2] at hy
          cases hx; cases hy; exact hc.pos _ _ hcmp
      · rw [wp_pure]
        refine ⟨rfl, p, rfl, Or.inl ⟨rfl, ?_⟩⟩
        intro x y hx hy
        rw [List.getElem?_eq_none (by omega)] at hy; cases hy
    rw [wp_bind]
    refine wp_mono ht1 ?_
    rintro _ m0 ⟨hm0, t1, rfl, ht1⟩
    rw [hm0]
    -- outcome of the second comparison
    have ht1l : t1 = p ∨ t1 < l.length := by
      rcases ht1 with ⟨h, _⟩ | ⟨h, h', _⟩ <;> omega
    have ht2 : wp (if ((2 * p + 1 : Nat) : Int) < (l.length : Int) then do
        let a ← index v (t1 : Int)
        let b ← index v ((2 * p + 1 : Nat) : Int)
        pure (if cmp a b then (t1 : Int) else ((2 * p + 1 : Nat) : Int))
      else pure (t1 : Int)) (fun t m1 => m1 = m ∧ ∃ t' : Nat, t = (t' : Int) ∧
        ((t' = t1 ∧ ∀ x y, l[t1]? = some x → l[2 * p + 1]? = some y → R x y) ∨
         (t' = 2 * p + 1 ∧ 2 * p + 1 < l.length ∧
          ∀ x y, l[t1]? = some x → l[2 * p + 1]? = some y → R y x))) m := by
      rw [wp_ite]
      refine ⟨fun h => ?_, fun h => ?_⟩
      · have hlp : t1 < l.length := by omega
        have hl2 : 2 * p + 1 < l.length := by omega
        rw [wp_bind, wp_of_returns (index_ok hr hlen' t1 hlp).1, wp_bind,
          wp_of_returns (index_ok hr hlen' _ hl2).1, wp_pure]
        refine ⟨rfl, if cmp l[t1] l[2 * p + 1] = true then t1 else 2 * p + 1, by split <;> rfl, ?_⟩
        rcases hcmp : cmp l[t1] l[2 * p + 1]
        · right
          refine ⟨by simp, hl2, ?_⟩
          intro x y hx hy
          rw [List.getElem?_eq_getElem hlp] at hx
          rw [List.getElem?_eq_getElem hl2] at hy
          cases hx; cases hy; exact hc.neg _ _ hcmp
        · left
          refine ⟨by simp, ?_⟩
          intro x y hx hy
          rw [List.getElem?_eq_getElem hlp] at hx
          rw [List.getElem?_eq_getElem hl2] at hy
          cases hx; cases hy; exact hc.pos _ _ hcmp
      · rw [wp_pure]
        refine ⟨rfl, t1, rfl, Or.inl ⟨rfl, ?_⟩⟩
        intro x y hx hy
        rw [List.getElem?_eq_none (by omega)] at hy; cases hy
    rw [wp_bind]
    refine wp_mono ht2 ?_
    rintro _ m0' ⟨hm0', t2, rfl, ht2⟩
    rw [hm0']
    rw [wp_ite]
    refine ⟨fun heq => ?_, fun hne => ?_⟩
    · -- stop: both children are in order
      have heq' : t2 = p := by omega
      have ht1p : t1 = p := by
        rcases ht2 with ⟨h, _⟩ | ⟨h, _⟩ <;> omega
      rw [wp_pure]
      refine ⟨l, ⟨hr, Frame.refl _ _, hw, List.Perm.refl _, rfl⟩, ?_⟩
      intro i x y hi hli _ hx hy
      by_cases hip : i / 2 = p
      · have : i = 2 * p ∨ i = 2 * p + 1 := by omega
        rcases this with rfl | rfl
        · rcases ht1 with ⟨_, h⟩ | ⟨h, _⟩
          · exact h x y (by rw [← hip]; exact hx) hy
          · omega
        · rcases ht2 with ⟨_, h⟩ | ⟨h, _⟩
          · exact h x y (by rw [ht1p, ← hip]; exact hx) hy
          · omega
      · exact ho i x y hi hli hip hx hy
    · have htl : t2 < l.length := by
        rcases ht2 with ⟨h, _⟩ | ⟨h, h', _⟩ <;> omega
      have htp : t2 / 2 = p := by
        rcases ht2 with ⟨h, _⟩ | ⟨h, _⟩ <;> rcases ht1 with ⟨h', _⟩ | ⟨h', _⟩ <;> omega
      have hlp : p < l.length := by omega
      have ep : l[p]? = some l[p] := List.getElem?_eq_getElem hlp
      have et : l[t2]? = some l[t2] := List.getElem?_eq_getElem htl
      have h1 : R l[t2] l[p] := by
        rcases ht2 with ⟨h, _⟩ | ⟨h, h', h''⟩
        · rcases ht1 with ⟨g, _⟩ | ⟨g, _, g'⟩
          · omega
          · exact g' _ _ ep (by rw [← et]; congr 1; omega)
        · have e2 : l[2 * p + 1]? = some l[t2] := by rw [← et]; congr 1; omega
          rcases ht1 with ⟨g, _⟩ | ⟨g, gl, g'⟩
          · subst g; exact h'' _ _ ep e2
          · subst g
            have e3 := List.getElem?_eq_getElem gl
            exact hc.trans _ _ _ (h'' _ _ e3 e2) (g' _ _ ep e3)
      have h2 : ∀ c y, c / 2 = p → c ≠ t2 → l[c]? = some y → R l[t2] y := by
        intro c y hcp hct hy
        rcases ht2 with ⟨h, h''⟩ | ⟨h, h', h''⟩
        · subst h
          rcases ht1 with ⟨g, _⟩ | ⟨g, gl, g'⟩
          · omega
          · exact h'' _ _ et (by rw [← hy]; congr 1; omega)
        · have e2 : l[2 * p + 1]? = some l[t2] := by rw [← et]; congr 1; omega
          have hc2 : c = 2 * p := by omega
          subst hc2
          rcases ht1 with ⟨g, g'⟩ | ⟨g, gl, g'⟩
          · subst g
            exact hc.trans _ _ _ (h'' _ _ ep e2) (g' _ _ ep hy)
          · subst g
            exact h'' _ _ hy e2
      obtain ⟨o1, s1⟩ := down_step hlp htl htp hp1 ho hs h1 h2 hlo
      rw [wp_bind]
      refine wp_mono (swapAt_ok hw hr hlen' p t2 hlp htl) ?_
      rintro _ m1 ⟨r1, f1, w1⟩
      have := ih (d - 1) (by omega) t2 w1 r1 (by simpa using hlen) (by simp; omega)
        (Or.inl (by simpa using htl)) (by omega) (Or.inr (by simpa using htl)) (by omega) o1 s1
      simp only [swapL_length] at this
      refine wp_mono this ?_
      rintro _ m2 ⟨l2, ⟨q1, q2, q3, q4, q5⟩, q6⟩
      refine ⟨l2, ⟨q1, f1.trans hw q2 q3.null, q3, q4.trans (swapL_perm _ _ _ _ _), ?_⟩, q6⟩
      rw [q5, swapL_get?, if_neg (by omega), if_neg (by omega)]

end Verif.Heap
