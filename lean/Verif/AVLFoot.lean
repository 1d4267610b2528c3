import Verif.Foot

/-! # Which nodes `push` of an AVL tree uses -/

namespace Verif.AVL

open Prog Verif.Tree

variable {α β : Type} {P : List Nat}

theorem foot_heightOf {s : St α} {pa : Ptr} {t : Tr α} {f : Int → Prog (St α) β} {Q : β → St α → Prop} (h : Rep s pa t)
    (hp : ∀ n ∈ top 1 t, n ∈ P) (hf : Foot P (f (ht t)) Q s) : Foot P (heightOf t.root >>= f) Q s := by
  cases t with
  | nil => exact foot_bind (foot_pure hf)
  | node l p d r =>
    unfold heightOf
    rw [if_neg (by simp [T.root]), bind_assoc]
    exact foot_getData h.1 (hp p (by simp [top])) (foot_bind (foot_pure hf))

theorem foot_setHeight {s : St α} {n : Nat} {d : D α} {v : Int} {Q : Unit → St α → Prop} (h : s.dat n = some (some d))
    (hn : n ∈ P) (hq : Q () { s with dat := upd s.dat n (some (some (setH d v))) }) : Foot P (setHeight (some n) v) Q s := by
  unfold setHeight
  exact foot_getData h hn (foot_setData ⟨d, h⟩ hn hq)

theorem top_node (k : Nat) (l r : Tr α) (p : Nat) (d : D α) {n : Nat} :
    n ∈ top (k + 1) (.node l p d r) ↔ n = p ∨ n ∈ top k l ∨ n ∈ top k r := by
  rw [top, List.mem_cons, List.mem_append]

theorem foot_balanceFactor {s : St α} {pa : Ptr} {t : Tr α} {f : Int → Prog (St α) β} {Q : β → St α → Prop} (h : Rep s pa t)
    (hp : ∀ n ∈ top 2 t, n ∈ P) (hf : Foot P (f (bf t)) Q s) : Foot P (balanceFactor t.root >>= f) Q s := by
  cases t with
  | nil => exact foot_bind (foot_pure hf)
  | node l p d r =>
    obtain ⟨h1, h2, h3, h4, h5, h6⟩ := h
    have pp : p ∈ P := hp p ((top_node ..).2 (Or.inl rfl))
    unfold balanceFactor
    rw [if_neg (by simp [T.root]), bind_assoc]
    refine foot_getLeft ⟨d, h1⟩ pp ?_
    rw [h3, bind_assoc]
    refine foot_heightOf h5 (fun n hn => hp n ((top_node ..).2 (Or.inr (Or.inl hn)))) ?_
    rw [bind_assoc]
    refine foot_getRight ⟨d, h1⟩ pp ?_
    rw [h4, bind_assoc]
    exact foot_heightOf h6 (fun n hn => hp n ((top_node ..).2 (Or.inr (Or.inr hn)))) (foot_bind (foot_pure hf))

theorem updateHeight_foot {s : St α} {pa : Ptr} {l r : Tr α} {p : Nat} {d : D α} (h : Rep s pa (.node l p d r))
    (hp : ∀ n ∈ top 2 (.node l p d r), n ∈ P) : Foot P (updateHeight (some p)) (fun _ _ => True) s := by
  obtain ⟨h1, h2, h3, h4, h5, h6⟩ := h
  have pp : p ∈ P := hp p ((top_node ..).2 (Or.inl rfl))
  unfold updateHeight
  refine foot_getLeft ⟨d, h1⟩ pp ?_
  rw [h3]
  refine foot_heightOf h5 (fun n hn => hp n ((top_node ..).2 (Or.inr (Or.inl hn)))) ?_
  refine foot_getRight ⟨d, h1⟩ pp ?_
  rw [h4]
  exact foot_heightOf h6 (fun n hn => hp n ((top_node ..).2 (Or.inr (Or.inr hn)))) (foot_setHeight h1 pp trivial)

theorem leftRotate_foot {s : St α} {pa : Ptr} {a b c : Tr α} {p q : Nat} {d e : D α}
    (h : Rep s pa (.node a p d (.node b q e c))) (hn : (T.node a p d (.node b q e c)).ptrs.Nodup)
    (hp : ∀ n ∈ top 3 (.node a p d (.node b q e c)), n ∈ P) : Foot P (leftRotate (some p)) (fun _ _ => True) s := by
  simp only [top_node] at hp
  have pp : p ∈ P := hp p (Or.inl rfl)
  have pq : q ∈ P := hp q (Or.inr (Or.inr (Or.inl rfl)))
  have pa' : ∀ n ∈ top 1 a, n ∈ P := fun n hn => hp n (Or.inr (Or.inl (top_succ 1 a n hn)))
  have pb : ∀ n ∈ top 1 b, n ∈ P := fun n hn => hp n (Or.inr (Or.inr (Or.inr (Or.inl hn))))
  unfold leftRotate
  refine foot_seq (Tree.leftRotate_foot h pp pq pb) (fun _ h => h) (Tree.leftRotate_ok h hn) ?_
  rintro x s1 ⟨rfl, hrep, hh, _, ho⟩
  have hn' : (T.node (.node a p d b) q e c).ptrs.Nodup := by simpa [T.ptrs] using hn
  obtain ⟨n1, n2, n3, n4, n5⟩ := nodup_node hn'
  obtain ⟨h1, h2, h3, h4, ⟨k1, k2, k3, k4, k5, k6⟩, h6⟩ := hrep
  have hpq : p ≠ q := fun x => n3 (by simp [T.ptrs, x])
  simp only [T.root] at h3
  refine foot_getLeft ⟨e, h1⟩ pq ?_
  rw [h3]
  refine foot_getLeft ⟨d, k1⟩ pp ?_
  rw [k3]
  refine foot_heightOf k5 pa' (foot_getRight ⟨d, k1⟩ pp ?_)
  rw [k4]
  refine foot_heightOf k6 pb (foot_bind (foot_setHeight k1 pp ?_))
  refine foot_getData (upd_self _ _ _) pp (foot_getLeft ⟨e, by simp [upd, Ne.symm hpq, h1]⟩ pq ?_)
  simp only [h3]
  unfold heightOf
  rw [if_neg (by simp), bind_assoc]
  refine foot_getData (upd_self _ _ _) pp (foot_bind (foot_pure ?_))
  exact foot_bind (foot_setHeight (d := e) (by simp [upd, Ne.symm hpq, h1]) pq (foot_pure trivial))

theorem rightRotate_foot {s : St α} {pa : Ptr} {a b c : Tr α} {p q : Nat} {d e : D α}
    (h : Rep s pa (.node (.node a q e b) p d c)) (hn : (T.node (.node a q e b) p d c).ptrs.Nodup)
    (hp : ∀ n ∈ top 3 (.node (.node a q e b) p d c), n ∈ P) : Foot P (rightRotate (some p)) (fun _ _ => True) s := by
  simp only [top_node] at hp
  have pp : p ∈ P := hp p (Or.inl rfl)
  have pq : q ∈ P := hp q (Or.inr (Or.inl (Or.inl rfl)))
  have pa' : ∀ n ∈ top 1 a, n ∈ P := fun n hn => hp n (Or.inr (Or.inl (Or.inr (Or.inl hn))))
  have pb : ∀ n ∈ top 1 b, n ∈ P := fun n hn => hp n (Or.inr (Or.inl (Or.inr (Or.inr hn))))
  have pc : ∀ n ∈ top 1 c, n ∈ P := fun n hn => hp n (Or.inr (Or.inr (top_succ 1 c n hn)))
  unfold rightRotate
  refine foot_seq (Tree.rightRotate_foot h pp pq pb) (fun _ h => h) (Tree.rightRotate_ok h hn) ?_
  rintro x s1 ⟨rfl, hrep, hh, _, ho⟩
  have hn' : (T.node a q e (.node b p d c)).ptrs.Nodup := by simpa [T.ptrs] using hn
  obtain ⟨n1, n2, n3, n4, n5⟩ := nodup_node hn'
  obtain ⟨h1, h2, h3, h4, h5, ⟨k1, k2, k3, k4, k5, k6⟩⟩ := hrep
  have hpq : p ≠ q := fun x => n4 (by simp [T.ptrs, x])
  have hpa : p ∉ a.ptrs := fun x => n5 p x (by simp [T.ptrs])
  simp only [T.root] at h4
  refine foot_getRight ⟨e, h1⟩ pq ?_
  rw [h4]
  refine foot_getLeft ⟨d, k1⟩ pp ?_
  rw [k3]
  refine foot_heightOf k5 pb (foot_getRight ⟨d, k1⟩ pp ?_)
  rw [k4]
  refine foot_heightOf k6 pc (foot_bind (foot_setHeight k1 pp ?_))
  refine foot_getLeft ⟨e, by simp [upd, Ne.symm hpq, h1]⟩ pq ?_
  simp only [h3]
  refine foot_heightOf (Rep.dat_upd h5 hpa) pa' ?_
  exact foot_getData (upd_self _ _ _) pp (foot_bind (foot_setHeight (d := e) (by simp [upd, Ne.symm hpq, h1]) pq
    (foot_pure trivial)))

theorem rotLeftChild_foot {s : St α} {pa : Ptr} {l r : Tr α} {p : Nat} {d : D α}
    (h : Rep s pa (.node l p d r)) (hn : (T.node l p d r).ptrs.Nodup)
    (hs : ∃ a q e b b' q' e', l = .node a q e (.node b q' e' b')) (hp : ∀ n ∈ top 4 (.node l p d r), n ∈ P) :
    Foot P (do let l ← getLeft (some p); let l' ← leftRotate l; setLeft (some p) l') (fun _ _ => True) s := by
  obtain ⟨a, q, e, b, b', q', e', rfl⟩ := hs
  obtain ⟨n1, n2, n3, n4, n5⟩ := nodup_node hn
  obtain ⟨h1, h2, h3, h4, h5, h6⟩ := h
  have pp : p ∈ P := hp p ((top_node ..).2 (Or.inl rfl))
  refine foot_getLeft ⟨d, h1⟩ pp ?_
  rw [h3]
  refine foot_seq (leftRotate_foot h5 n1 fun n hn => hp n ((top_node ..).2 (Or.inr (Or.inl hn)))) (fun _ h => h)
    (leftRotate_ok h5 n1) ?_
  rintro x s1 ⟨rfl, hr, hf⟩
  exact foot_setLeft ⟨d, (hf.out p n3).dat.trans h1⟩ pp trivial

theorem rotRightChild_foot {s : St α} {pa : Ptr} {l r : Tr α} {p : Nat} {d : D α}
    (h : Rep s pa (.node l p d r)) (hn : (T.node l p d r).ptrs.Nodup)
    (hs : ∃ a q e b a' q' e', r = .node (.node a q' e' a') q e b) (hp : ∀ n ∈ top 4 (.node l p d r), n ∈ P) :
    Foot P (do let r ← getRight (some p); let r' ← rightRotate r; setRight (some p) r') (fun _ _ => True) s := by
  obtain ⟨a, q, e, b, b', q', e', rfl⟩ := hs
  obtain ⟨n1, n2, n3, n4, n5⟩ := nodup_node hn
  obtain ⟨h1, h2, h3, h4, h5, h6⟩ := h
  have pp : p ∈ P := hp p ((top_node ..).2 (Or.inl rfl))
  refine foot_getRight ⟨d, h1⟩ pp ?_
  rw [h4]
  refine foot_seq (rightRotate_foot h6 n2 fun n hn => hp n ((top_node ..).2 (Or.inr (Or.inr hn)))) (fun _ h => h)
    (rightRotate_ok h6 n2) ?_
  rintro x s1 ⟨rfl, hr, hf⟩
  exact foot_setRight ⟨d, (hf.out p n4).dat.trans h1⟩ pp trivial

/-- The nodes at the top of a tree after the rotation of its left subtree were at the top before. -/
theorem top_rotL {a b b' r : Tr α} {p q q' : Nat} {d e e' : D α} (n : Nat)
    (hn : n ∈ top 3 (.node (fRotL (.node a q e (.node b q' e' b'))) p d r)) :
    n ∈ top 4 (.node (.node a q e (.node b q' e' b')) p d r) := by
  simp only [fRotL, top_node] at hn ⊢
  have := top_succ 2 r n
  grind [top]

theorem top_rotR {a b b' l : Tr α} {p q q' : Nat} {d e e' : D α} (n : Nat)
    (hn : n ∈ top 3 (.node l p d (fRotR (.node (.node b q' e' b') q e a)))) :
    n ∈ top 4 (.node l p d (.node (.node b q' e' b') q e a)) := by
  simp only [fRotR, top_node] at hn ⊢
  have := top_succ 2 l n
  grind [top]

theorem checkAndBalance_foot {s : St α} {pa : Ptr} {l r : Tr α} {p : Nat} {d : D α}
    (h : Rep s pa (.node l p d r)) (hn : (T.node l p d r).ptrs.Nodup) (hl : Avl l) (hr : Avl r)
    (hp : ∀ n ∈ top 4 (.node l p d r), n ∈ P) : Foot P (checkAndBalance (some p)) (fun _ _ => True) s := by
  have h' := h
  obtain ⟨h1, h2, h3, h4, h5, h6⟩ := h
  have nl := ht_nonneg hl
  have nr := ht_nonneg hr
  have pp : p ∈ P := hp p ((top_node ..).2 (Or.inl rfl))
  have p3 : ∀ n ∈ top 3 (.node l p d r), n ∈ P := fun n hn => hp n (top_succ 3 _ n hn)
  have p2 : ∀ n ∈ top 2 (.node l p d r), n ∈ P := fun n hn => p3 n (top_succ 2 _ n hn)
  have pl : ∀ n ∈ top 2 l, n ∈ P := fun n hn => p3 n ((top_node ..).2 (Or.inr (Or.inl hn)))
  have pr : ∀ n ∈ top 2 r, n ∈ P := fun n hn => p3 n ((top_node ..).2 (Or.inr (Or.inr hn)))
  unfold checkAndBalance
  refine foot_balanceFactor (t := .node l p d r) h' p2 ?_
  have hbf : bf (.node l p d r) = ht l - ht r := rfl
  rw [hbf]
  by_cases c1 : ht l - ht r > 1
  · rw [if_pos c1]
    refine foot_getLeft ⟨d, h1⟩ pp ?_
    rw [h3]
    refine foot_balanceFactor h5 pl ?_
    obtain ⟨a, q, e, b, rfl⟩ := exists_node (t := l) (by omega)
    obtain ⟨ha, hb, he, g1, g2⟩ := hl
    have na := ht_nonneg ha
    by_cases c2 : bf (.node a q e b) < 0
    · have c2' : ht a - ht b < 0 := c2
      obtain ⟨b1, q1, e1, b2, rfl⟩ := exists_node (t := b) (by omega)
      unfold Prog.when
      rw [if_pos c2]
      refine foot_seq (rotLeftChild_foot h' hn ⟨_, _, _, _, _, _, _, rfl⟩ hp) (fun _ h => h)
        (rotLeftChild_ok h' hn ⟨_, _, _, _, _, _, _, rfl⟩) ?_
      rintro _ s1 ⟨hr1, hf1⟩
      have hn1 : (T.node (fRotL (.node a q e (.node b1 q1 e1 b2))) p d r).ptrs.Nodup := by
        simpa [ptrs_items] using hn
      exact rightRotate_foot hr1 hn1 fun n hn => hp n (top_rotL n hn)
    · unfold Prog.when
      rw [if_neg c2]
      exact foot_bind (foot_pure (rightRotate_foot h' hn p3))
  · rw [if_neg c1]
    by_cases c2 : ht l - ht r < -1
    · rw [if_pos c2]
      refine foot_getRight ⟨d, h1⟩ pp ?_
      rw [h4]
      refine foot_balanceFactor h6 pr ?_
      obtain ⟨a, q, e, b, rfl⟩ := exists_node (t := r) (by omega)
      obtain ⟨ha, hb, he, g1, g2⟩ := hr
      have nb := ht_nonneg hb
      by_cases c3 : bf (.node a q e b) > 0
      · have c3' : ht a - ht b > 0 := c3
        obtain ⟨b1, q1, e1, b2, rfl⟩ := exists_node (t := a) (by omega)
        unfold Prog.when
        rw [if_pos c3]
        refine foot_seq (rotRightChild_foot h' hn ⟨_, _, _, _, _, _, _, rfl⟩ hp) (fun _ h => h)
          (rotRightChild_ok h' hn ⟨_, _, _, _, _, _, _, rfl⟩) ?_
        rintro _ s1 ⟨hr1, hf1⟩
        have hn1 : (T.node l p d (fRotR (.node (.node b1 q1 e1 b2) q e b))).ptrs.Nodup := by
          simpa [ptrs_items] using hn
        exact leftRotate_foot hr1 hn1 fun n hn => hp n (top_rotR n hn)
      · unfold Prog.when
        rw [if_neg c3]
        exact foot_bind (foot_pure (leftRotate_foot h' hn p3))
    · rw [if_neg c2]
      exact foot_pure trivial

section
variable {lt : α → α → Bool}

theorem balL_foot {s : St α} {pa : Ptr} {l r : Tr α} {p : Nat} {d : D α} {x : α}
    (h : Rep s pa (.node l p d r)) (hn : (T.node l p d r).ptrs.Nodup) (hl : Avl l) (hr : Avl r)
    (hg : ht l - ht r = 2 → Grew lt x l) (hp : ∀ n ∈ top 4 (.node l p d r), n ∈ P) :
    Foot P (if ht l - ht r = 2 then do
          let l ← getLeft (some p)
          let e ← getData l
          when (lt e.val x) (do
            let l ← getLeft (some p)
            let l' ← leftRotate l
            setLeft (some p) l')
          rightRotate (some p)
        else pure (some p) : Prog (St α) Ptr) (fun _ _ => True) s := by
  have pp : p ∈ P := hp p ((top_node ..).2 (Or.inl rfl))
  have p3 : ∀ n ∈ top 3 (.node l p d r), n ∈ P := fun n hn => hp n (top_succ 3 _ n hn)
  by_cases c : ht l - ht r = 2
  · rw [if_pos c]
    have h' := h
    obtain ⟨h1, h2, h3, h4, h5, h6⟩ := h
    have nr := ht_nonneg hr
    obtain ⟨a, q, e, b, rfl⟩ := exists_node (t := l) (by omega)
    refine foot_getLeft ⟨d, h1⟩ pp ?_
    rw [h3]
    refine foot_getData h5.1 (hp q ((top_node ..).2 (Or.inr (Or.inl ((top_node ..).2 (Or.inl rfl)))))) ?_
    by_cases c2 : lt e.val x
    · obtain ⟨ha, hb, he, g1, g2⟩ := hl
      have na := ht_nonneg ha
      have hg' : ht b = ht a + 1 := by
        rcases hg c with ⟨_, g3, _⟩ | ⟨_, _, g4⟩
        · rw [g3] at c2; cases c2
        · exact g4
      obtain ⟨b1, q1, e1, b2, rfl⟩ := exists_node (t := b) (by omega)
      unfold Prog.when
      rw [if_pos c2]
      refine foot_seq (rotLeftChild_foot h' hn ⟨_, _, _, _, _, _, _, rfl⟩ hp) (fun _ h => h)
        (rotLeftChild_ok h' hn ⟨_, _, _, _, _, _, _, rfl⟩) ?_
      rintro _ s1 ⟨hr1, hf1⟩
      have hn1 : (T.node (fRotL (.node a q e (.node b1 q1 e1 b2))) p d r).ptrs.Nodup := by
        simpa [ptrs_items] using hn
      exact rightRotate_foot hr1 hn1 fun n hn => hp n (top_rotL n hn)
    · unfold Prog.when
      rw [if_neg c2]
      exact foot_bind (foot_pure (rightRotate_foot h' hn p3))
  · rw [if_neg c]
    exact foot_pure trivial

theorem balR_foot {s : St α} {pa : Ptr} {l r : Tr α} {p : Nat} {d : D α} {x : α}
    (h : Rep s pa (.node l p d r)) (hn : (T.node l p d r).ptrs.Nodup) (hl : Avl l) (hr : Avl r)
    (hg : ht r - ht l = 2 → Grew lt x r) (hp : ∀ n ∈ top 4 (.node l p d r), n ∈ P) :
    Foot P (if ht r - ht l = 2 then do
          let r ← getRight (some p)
          let e ← getData r
          when (lt x e.val) (do
            let r ← getRight (some p)
            let r' ← rightRotate r
            setRight (some p) r')
          leftRotate (some p)
        else pure (some p) : Prog (St α) Ptr) (fun _ _ => True) s := by
  have pp : p ∈ P := hp p ((top_node ..).2 (Or.inl rfl))
  have p3 : ∀ n ∈ top 3 (.node l p d r), n ∈ P := fun n hn => hp n (top_succ 3 _ n hn)
  by_cases c : ht r - ht l = 2
  · rw [if_pos c]
    have h' := h
    obtain ⟨h1, h2, h3, h4, h5, h6⟩ := h
    have nl := ht_nonneg hl
    obtain ⟨a, q, e, b, rfl⟩ := exists_node (t := r) (by omega)
    refine foot_getRight ⟨d, h1⟩ pp ?_
    rw [h4]
    refine foot_getData h6.1 (hp q ((top_node ..).2 (Or.inr (Or.inr ((top_node ..).2 (Or.inl rfl)))))) ?_
    by_cases c2 : lt x e.val
    · obtain ⟨ha, hb, he, g1, g2⟩ := hr
      have nb := ht_nonneg hb
      have hg' : ht a = ht b + 1 := by
        rcases hg c with ⟨_, _, g3⟩ | ⟨g3, _, g4⟩
        · exact g3
        · rw [g3] at c2; cases c2
      obtain ⟨b1, q1, e1, b2, rfl⟩ := exists_node (t := a) (by omega)
      unfold Prog.when
      rw [if_pos c2]
      refine foot_seq (rotRightChild_foot h' hn ⟨_, _, _, _, _, _, _, rfl⟩ hp) (fun _ h => h)
        (rotRightChild_ok h' hn ⟨_, _, _, _, _, _, _, rfl⟩) ?_
      rintro _ s1 ⟨hr1, hf1⟩
      have hn1 : (T.node l p d (fRotR (.node (.node b1 q1 e1 b2) q e b))).ptrs.Nodup := by
        simpa [ptrs_items] using hn
      exact leftRotate_foot hr1 hn1 fun n hn => hp n (top_rotR n hn)
    · unfold Prog.when
      rw [if_neg c2]
      exact foot_bind (foot_pure (leftRotate_foot h' hn p3))
  · rw [if_neg c]
    exact foot_pure trivial

theorem updateHeight_foot' {s : St α} {pa : Ptr} {t : Tr α} (h : Rep s pa t) (ht : t ≠ .nil) (hp : ∀ n ∈ top 2 t, n ∈ P) :
    Foot P (updateHeight t.root) (fun _ _ => True) s := by
  cases t with
  | nil => exact absurd rfl ht
  | node l p d r => exact updateHeight_foot h hp

theorem top_le {i j : Nat} (h : i ≤ j) (t : Tr α) : ∀ n ∈ top i t, n ∈ top j t := by
  obtain ⟨k, rfl⟩ := Nat.exists_eq_add_of_le h
  clear h
  induction k with
  | zero => exact fun n hn => hn
  | succ k ih => exact fun n hn => top_succ _ _ n (ih n hn)

/-- Inserting uses at most 18 nodes on each level, and the new node. -/
theorem insert_foot {stop : Prog (St α) Ptr} {s : St α} {pa : Ptr} {t : Tr α} {x : α} (h : Rep s pa t) (hn : t.ptrs.Nodup)
    (hu : Unused s) (hv : Avl t) (ha : Apart lt x t) :
    ∃ P : List Nat, P.length ≤ 18 * t.height + 1 ∧ Foot P (insert lt stop t.root x pa) (fun _ _ => True) s := by
  induction t generalizing pa with
  | nil =>
    refine ⟨[s.next], by simp, ?_⟩
    have hm : s.next ∈ [s.next] := by simp
    unfold insert
    rw [if_pos (by rfl)]
    refine foot_bind (foot_allocNode hm (foot_bind (foot_constructNode (upd_self _ _ _) hm (foot_bind
      (foot_setParent ⟨_, upd_self _ _ _⟩ hm (foot_bind ?_))))))
    refine (updateHeight_foot (pa := pa) (l := .nil) (r := .nil) (d := ⟨0, x⟩) ?_ (by simp [top])).imp fun _ _ _ => foot_pure trivial
    exact ⟨by simp, by simp, by simp [T.root], by simp [T.root], trivial, trivial⟩
  | node l p d r ihl ihr =>
    have h' := h
    have hq := hu.notin h
    obtain ⟨h1, h2, h3, h4, h5, h6⟩ := h
    obtain ⟨n1, n2, n3, n4, n5⟩ := nodup_node hn
    obtain ⟨a1, a2, a3⟩ := ha.node
    obtain ⟨v1, v2, v3, v4, v5⟩ := hv
    have nl := ht_nonneg v1
    have nr := ht_nonneg v2
    simp only [T.ptrs, List.mem_append, List.mem_cons, not_or] at hq
    rcases a3 with ⟨a3, a4⟩ | ⟨a3, a4⟩
    · obtain ⟨P, hP, hF⟩ := ihl h5 n1 v1 a1
      refine ⟨P ++ (top 4 (.node (fIns lt x s.next l) p d r) ++ top 2 (balL lt x (fIns lt x s.next l) p d r)), ?_, ?_⟩
      · have e1 := length_top 4 (T.node (fIns lt x s.next l) p d r)
        have e2 := length_top 2 (balL lt x (fIns lt x s.next l) p d r)
        simp only [List.length_append, T.height]
        omega
      have q1 : ∀ n ∈ P, n ∈ P ++ (top 4 (.node (fIns lt x s.next l) p d r) ++ top 2 (balL lt x (fIns lt x s.next l) p d r)) :=
        fun n hn => List.mem_append_left _ hn
      have q2 : ∀ n ∈ top 4 (T.node (fIns lt x s.next l) p d r), n ∈ P ++ (top 4 (.node (fIns lt x s.next l) p d r) ++ top 2 (balL lt x (fIns lt x s.next l) p d r)) :=
        fun n hn => List.mem_append_right _ (List.mem_append_left _ hn)
      have q3 : ∀ n ∈ top 2 (balL lt x (fIns lt x s.next l) p d r), n ∈ P ++ (top 4 (.node (fIns lt x s.next l) p d r) ++ top 2 (balL lt x (fIns lt x s.next l) p d r)) :=
        fun n hn => List.mem_append_right _ (List.mem_append_right _ hn)
      generalize P ++ (top 4 (.node (fIns lt x s.next l) p d r) ++ top 2 (balL lt x (fIns lt x s.next l) p d r)) = P' at q1 q2 q3
      have pp : p ∈ P' := q2 p ((top_node ..).2 (Or.inl rfl))
      unfold insert
      rw [if_neg (by simp [T.root])]
      simp only [root_node]
      refine foot_getData h1 pp ?_
      rw [if_pos a3]
      refine foot_getLeft ⟨d, h1⟩ pp ?_
      rw [h3]
      refine foot_seq hF q1 (insert_ok h5 n1 hu v1 a1) ?_
      rintro y s1 ⟨rfl, hr1, hf1⟩
      have hmem : ∀ n ∈ (fIns lt x s.next l).ptrs, n = s.next ∨ n ∈ l.ptrs := by
        intro n hn; rw [(ptrs_ins lt x s.next l).mem_iff] at hn; simpa using hn
      have ep := hf1.out p n3 (Ne.symm hq.2.1)
      have hp' : p ∉ (fIns lt x s.next l).ptrs := fun x => (hmem _ x).elim (Ne.symm hq.2.1) n3
      have er : ∀ n ∈ r.ptrs, SameAt s s1 n := fun n hn =>
        hf1.out n (fun x => n5 n x hn) (fun e => hq.2.2 (e ▸ hn))
      refine foot_bind (foot_setLeft ⟨d, ep.dat.trans h1⟩ pp ?_)
      have hr2 := Rep.putLeft h' hr1 hp' n4 ⟨ep.dat, ep.par, ep.rgt⟩ er
      generalize ({ s1 with lft := upd s1.lft p (fIns lt x s.next l).root } : St α) = s2 at hr2
      obtain ⟨i1, i2, i3⟩ := ins_ok (q := s.next) v1 a1
      have hnd : (T.node (fIns lt x s.next l) p d r).ptrs.Nodup := by
        refine nodup_node' ?_ n2 hp' n4 ?_
        · rw [(ptrs_ins lt x s.next l).nodup_iff, List.nodup_cons]; exact ⟨hq.1, n1⟩
        · intro n hn; rcases hmem n hn with rfl | hn
          · exact hq.2.2
          · exact n5 n hn
      have hr2' := hr2
      obtain ⟨k1, k2, k3, k4, k5, k6⟩ := hr2
      have hne : ht (fIns lt x s.next l) - ht r = 2 → l ≠ .nil := by
        rintro e rfl; simp only [ht_nil] at *; omega
      refine foot_getLeft ⟨d, k1⟩ pp ?_
      rw [k3]
      refine foot_heightOf k5 (fun n hn => q2 n ((top_node ..).2 (Or.inr (Or.inl (top_le (by omega) _ n hn))))) ?_
      refine foot_getRight ⟨d, k1⟩ pp ?_
      rw [k4]
      refine foot_heightOf k6 (fun n hn => q2 n ((top_node ..).2 (Or.inr (Or.inr (top_le (by omega) _ n hn))))) ?_
      refine foot_seq (balL_foot (lt := lt) (x := x) hr2' hnd i1 v2 (fun e => i3 (hne e) (by omega)) q2) (fun _ h => h)
        (balL_ptr (lt := lt) (x := x) hr2' hnd i1 v2 (fun e => i3 (hne e) (by omega))) ?_
      rintro y s3 ⟨rfl, hr3, hf3⟩
      refine foot_bind (((updateHeight_foot' hr3 (balL_ne _ _ _ _ _)) q3).imp fun _ _ _ => foot_pure trivial)
    · obtain ⟨P, hP, hF⟩ := ihr h6 n2 v2 a2
      refine ⟨P ++ (top 4 (.node l p d (fIns lt x s.next r)) ++ top 2 (balR lt x l p d (fIns lt x s.next r))), ?_, ?_⟩
      · have e1 := length_top 4 (T.node l p d (fIns lt x s.next r))
        have e2 := length_top 2 (balR lt x l p d (fIns lt x s.next r))
        simp only [List.length_append, T.height]
        omega
      have q1 : ∀ n ∈ P, n ∈ P ++ (top 4 (.node l p d (fIns lt x s.next r)) ++ top 2 (balR lt x l p d (fIns lt x s.next r))) :=
        fun n hn => List.mem_append_left _ hn
      have q2 : ∀ n ∈ top 4 (T.node l p d (fIns lt x s.next r)), n ∈ P ++ (top 4 (.node l p d (fIns lt x s.next r)) ++ top 2 (balR lt x l p d (fIns lt x s.next r))) :=
        fun n hn => List.mem_append_right _ (List.mem_append_left _ hn)
      have q3 : ∀ n ∈ top 2 (balR lt x l p d (fIns lt x s.next r)), n ∈ P ++ (top 4 (.node l p d (fIns lt x s.next r)) ++ top 2 (balR lt x l p d (fIns lt x s.next r))) :=
        fun n hn => List.mem_append_right _ (List.mem_append_right _ hn)
      generalize P ++ (top 4 (.node l p d (fIns lt x s.next r)) ++ top 2 (balR lt x l p d (fIns lt x s.next r))) = P' at q1 q2 q3
      have pp : p ∈ P' := q2 p ((top_node ..).2 (Or.inl rfl))
      unfold insert
      rw [if_neg (by simp [T.root])]
      simp only [root_node]
      refine foot_getData h1 pp ?_
      rw [if_neg (by simp [a3]), if_pos a4]
      refine foot_getRight ⟨d, h1⟩ pp ?_
      rw [h4]
      refine foot_seq hF q1 (insert_ok h6 n2 hu v2 a2) ?_
      rintro y s1 ⟨rfl, hr1, hf1⟩
      have hmem : ∀ n ∈ (fIns lt x s.next r).ptrs, n = s.next ∨ n ∈ r.ptrs := by
        intro n hn; rw [(ptrs_ins lt x s.next r).mem_iff] at hn; simpa using hn
      have ep := hf1.out p n4 (Ne.symm hq.2.1)
      have hp' : p ∉ (fIns lt x s.next r).ptrs := fun x => (hmem _ x).elim (Ne.symm hq.2.1) n4
      have er : ∀ n ∈ l.ptrs, SameAt s s1 n := fun n hn =>
        hf1.out n (fun x => n5 n hn x) (fun e => hq.1 (e ▸ hn))
      refine foot_bind (foot_setRight ⟨d, ep.dat.trans h1⟩ pp ?_)
      have hr2 := Rep.putRight h' hr1 hp' n3 ⟨ep.dat, ep.par, ep.lft⟩ er
      generalize ({ s1 with rgt := upd s1.rgt p (fIns lt x s.next r).root } : St α) = s2 at hr2
      obtain ⟨i1, i2, i3⟩ := ins_ok (q := s.next) v2 a2
      have hnd : (T.node l p d (fIns lt x s.next r)).ptrs.Nodup := by
        refine nodup_node' n1 ?_ n3 hp' ?_
        · rw [(ptrs_ins lt x s.next r).nodup_iff, List.nodup_cons]; exact ⟨hq.2.2, n2⟩
        · intro n hn hn'; rcases hmem n hn' with rfl | hn'
          · exact hq.1 hn
          · exact n5 n hn hn'
      have hr2' := hr2
      obtain ⟨k1, k2, k3, k4, k5, k6⟩ := hr2
      have hne : ht (fIns lt x s.next r) - ht l = 2 → r ≠ .nil := by
        rintro e rfl; simp only [ht_nil] at *; omega
      refine foot_getRight ⟨d, k1⟩ pp ?_
      rw [k4]
      refine foot_heightOf k6 (fun n hn => q2 n ((top_node ..).2 (Or.inr (Or.inr (top_le (by omega) _ n hn))))) ?_
      refine foot_getLeft ⟨d, k1⟩ pp ?_
      rw [k3]
      refine foot_heightOf k5 (fun n hn => q2 n ((top_node ..).2 (Or.inr (Or.inl (top_le (by omega) _ n hn))))) ?_
      refine foot_seq (balR_foot (lt := lt) (x := x) hr2' hnd v1 i1 (fun e => i3 (hne e) (by omega)) q2) (fun _ h => h)
        (balR_ptr (lt := lt) (x := x) hr2' hnd v1 i1 (fun e => i3 (hne e) (by omega))) ?_
      rintro y s3 ⟨rfl, hr3, hf3⟩
      refine foot_bind (((updateHeight_foot' hr3 (balR_ne _ _ _ _ _)) q3).imp fun _ _ _ => foot_pure trivial)

/-- `push` uses at most 18 nodes on each level, the new node and the root. -/
theorem push_foot {s : St α} {t : Tr α} {x : α} (h : IsTree s t) (hu : Unused s) (hv : Avl t) (ha : Apart lt x t) :
    ∃ P : List Nat, P.length ≤ 18 * t.height + 2 ∧ Foot P (push lt x) (fun _ _ => True) s := by
  obtain ⟨P, hP, hF⟩ := insert_foot (stop := fail .assert) h.rep h.nodup hu hv ha
  refine ⟨top 1 (fIns lt x s.next t) ++ P, ?_, ?_⟩
  · have := length_top 1 (fIns lt x s.next t)
    simp only [List.length_append]; omega
  unfold push pushOr
  refine foot_getRoot ?_
  rw [h.root]
  refine foot_seq hF (fun n hn => List.mem_append_right _ hn) (insert_ok h.rep h.nodup hu hv ha) ?_
  rintro y s1 ⟨rfl, hr, hf⟩
  refine foot_bind (foot_updateRoot (fun k hk => ⟨hr.live (T.root_mem hk), List.mem_append_left _ ?_⟩) fun s' _ =>
    foot_getSize (foot_setSize trivial))
  cases hc : fIns lt x s.next t with
  | nil => rw [hc] at hk; cases hk
  | node l p d r => rw [hc] at hk; cases hk; exact (top_node ..).2 (Or.inl rfl)

end

end Verif.AVL
