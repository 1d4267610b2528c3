import Verif.AVLFun

/-! # The pointer operations of `AVLTree.hpp` do what the functions on trees say -/

namespace Verif.AVL

open Prog Verif.Tree

variable {α : Type}

/-- Only nodes in `old` may have changed. -/
structure Frame (s s' : St α) (old : List Nat) : Prop where
  hdr : SameHdr s s'
  out : ∀ n, n ∉ old → SameAt s s' n

theorem Frame.refl (s : St α) (old : List Nat) : Frame s s old := ⟨.refl s, fun n _ => .refl s n⟩

theorem Frame.trans {s s1 s2 : St α} {o : List Nat} (h : Frame s s1 o) (h' : Frame s1 s2 o) :
    Frame s s2 o := ⟨h.hdr.trans h'.hdr, fun n hn => (h.out n hn).trans (h'.out n hn)⟩

theorem Frame.mono {s s1 : St α} {o o' : List Nat} (h : Frame s s1 o) (hs : ∀ n ∈ o, n ∈ o') :
    Frame s s1 o' := ⟨h.hdr, fun n hn => h.out n fun x => hn (hs n x)⟩

theorem Rep.dat_upd {s : St α} {pa : Ptr} {t : Tr α} (h : Rep s pa t) {n : Nat}
    {v : Option (Option (D α))} (hn : n ∉ t.ptrs) : Rep { s with dat := upd s.dat n v } pa t :=
  h.congr fun m hm => ⟨upd_ne _ _ (fun e => hn (e ▸ hm)), rfl, rfl, rfl⟩

/-- A new left subtree below `p`. -/
theorem Rep.putLeft {s s1 : St α} {pa : Ptr} {l l' r : Tr α} {p : Nat} {d : D α}
    (h : Rep s pa (.node l p d r)) (h1 : Rep s1 (some p) l') (hp : p ∉ l'.ptrs) (hr : p ∉ r.ptrs)
    (ep : s1.dat p = s.dat p ∧ s1.par p = s.par p ∧ s1.rgt p = s.rgt p)
    (er : ∀ n ∈ r.ptrs, SameAt s s1 n) :
    Rep { s1 with lft := upd s1.lft p l'.root } pa (.node l' p d r) := by
  obtain ⟨h1', h2, h3, h4, h5, h6⟩ := h
  refine ⟨ep.1.trans h1', ep.2.1.trans h2, by simp, ep.2.2.trans h4, ?_, ?_⟩
  · exact h1.congr fun n hn => ⟨rfl, rfl, upd_ne _ _ (fun e => hp (e ▸ hn)), rfl⟩
  · exact (h6.congr er).congr fun n hn => ⟨rfl, rfl, upd_ne _ _ (fun e => hr (e ▸ hn)), rfl⟩

theorem Rep.putRight {s s1 : St α} {pa : Ptr} {l r r' : Tr α} {p : Nat} {d : D α}
    (h : Rep s pa (.node l p d r)) (h1 : Rep s1 (some p) r') (hp : p ∉ r'.ptrs) (hl : p ∉ l.ptrs)
    (ep : s1.dat p = s.dat p ∧ s1.par p = s.par p ∧ s1.lft p = s.lft p)
    (el : ∀ n ∈ l.ptrs, SameAt s s1 n) :
    Rep { s1 with rgt := upd s1.rgt p r'.root } pa (.node l p d r') := by
  obtain ⟨h1', h2, h3, h4, h5, h6⟩ := h
  refine ⟨ep.1.trans h1', ep.2.1.trans h2, ep.2.2.trans h3, by simp, ?_, ?_⟩
  · exact (h5.congr el).congr fun n hn => ⟨rfl, rfl, rfl, upd_ne _ _ (fun e => hl (e ▸ hn))⟩
  · exact h1.congr fun n hn => ⟨rfl, rfl, rfl, upd_ne _ _ (fun e => hp (e ▸ hn))⟩

theorem root_node (l r : Tr α) (p : Nat) (d : D α) : (T.node l p d r).root = some p := rfl

theorem heightOf_ok {s : St α} {pa : Ptr} {t : Tr α} (h : Rep s pa t) :
    Returns (heightOf t.root) s (ht t) s := by
  cases t with
  | nil => rfl
  | node l p d r =>
    unfold heightOf Returns
    rw [if_neg (by simp [T.root])]
    simp only [T.root]
    rw [bind_returns (getData_ok h.1)]; rfl

theorem setHeight_ok {s : St α} {n : Nat} {d : D α} (h : s.dat n = some (some d)) (v : Int) :
    Returns (setHeight (some n) v) s () { s with dat := upd s.dat n (some (some (setH d v))) } := by
  unfold setHeight Returns
  rw [bind_returns (getData_ok h)]
  exact setData_ok ⟨d, h⟩

theorem balanceFactor_ok {s : St α} {pa : Ptr} {t : Tr α} (h : Rep s pa t) :
    Returns (balanceFactor t.root) s (bf t) s := by
  cases t with
  | nil => rfl
  | node l p d r =>
    obtain ⟨h1, h2, h3, h4, h5, h6⟩ := h
    unfold balanceFactor Returns
    rw [if_neg (by simp [T.root])]
    simp only [T.root]
    rw [bind_returns (getLeft_ok ⟨d, h1⟩), h3, bind_returns (heightOf_ok h5),
      bind_returns (getRight_ok ⟨d, h1⟩), h4, bind_returns (heightOf_ok h6)]
    rfl

theorem updateHeight_ok {s : St α} {pa : Ptr} {l r : Tr α} {p : Nat} {d : D α}
    (h : Rep s pa (.node l p d r)) (hl : p ∉ l.ptrs) (hr : p ∉ r.ptrs) :
    wp (updateHeight (some p)) (fun _ s' => Rep s' pa (updH (.node l p d r)) ∧ Frame s s' [p] ∧
      s'.par = s.par ∧ s'.lft = s.lft ∧ s'.rgt = s.rgt) s := by
  obtain ⟨h1, h2, h3, h4, h5, h6⟩ := h
  unfold updateHeight
  rw [wp_bind, wp_getLeft ⟨d, h1⟩, h3, wp_bind, wp_of_returns (heightOf_ok h5), wp_bind,
    wp_getRight ⟨d, h1⟩, h4, wp_bind, wp_of_returns (heightOf_ok h6),
    wp_of_returns (setHeight_ok h1 _), maxI_eq]
  refine ⟨⟨by simp, h2, h3, h4, Rep.dat_upd h5 hl, Rep.dat_upd h6 hr⟩, ⟨⟨rfl, rfl, rfl, rfl⟩, ?_⟩, rfl, rfl, rfl⟩
  intro n hn
  exact ⟨upd_ne _ _ (by simpa using hn), rfl, rfl, rfl⟩

theorem leftRotate_ok {s : St α} {pa : Ptr} {a b c : Tr α} {p q : Nat} {d e : D α}
    (h : Rep s pa (.node a p d (.node b q e c)))
    (hn : (T.node a p d (.node b q e c)).ptrs.Nodup) :
    wp (leftRotate (some p)) (fun x s' => x = some q ∧
      Rep s' pa (fRotL (.node a p d (.node b q e c))) ∧
      Frame s s' (T.node a p d (.node b q e c)).ptrs) s := by
  unfold leftRotate
  rw [wp_bind]
  refine wp_mono (Tree.leftRotate_ok h hn) ?_
  rintro x s1 ⟨rfl, hrep, hh, _, ho⟩
  have hn' : (T.node (.node a p d b) q e c).ptrs.Nodup := by
    simpa [T.ptrs] using hn
  obtain ⟨n1, n2, n3, n4, n5⟩ := nodup_node hn'
  obtain ⟨m1, m2, m3, m4, m5⟩ := nodup_node n1
  obtain ⟨h1, h2, h3, h4, ⟨k1, k2, k3, k4, k5, k6⟩, h6⟩ := hrep
  have hpq : p ≠ q := fun x => n3 (by simp [T.ptrs, x])
  simp only [T.root] at h3
  rw [wp_bind, wp_getLeft ⟨e, h1⟩, h3, wp_bind, wp_getLeft ⟨d, k1⟩, k3, wp_bind,
    wp_of_returns (heightOf_ok k5), wp_bind, wp_getRight ⟨d, k1⟩, k4, wp_bind,
    wp_of_returns (heightOf_ok k6), wp_bind, wp_of_returns (setHeight_ok k1 _), maxI_eq]
  have hp2 : upd s1.dat p (some (some (setH d (max (ht a) (ht b) + 1)))) p =
      some (some (setH d (max (ht a) (ht b) + 1))) := upd_self _ _ _
  have hq2 : upd s1.dat p (some (some (setH d (max (ht a) (ht b) + 1)))) q = some (some e) := by
    rw [upd_ne _ _ (Ne.symm hpq)]; exact h1
  rw [wp_bind, wp_getData (by exact hp2), wp_bind, wp_getLeft ⟨e, by exact hq2⟩, wp_bind]
  simp only [h3]
  have hho : Returns (heightOf (some p)) { s1 with dat := upd s1.dat p (some (some (setH d (max (ht a) (ht b) + 1)))) }
      (max (ht a) (ht b) + 1) { s1 with dat := upd s1.dat p (some (some (setH d (max (ht a) (ht b) + 1)))) } := by
    unfold heightOf Returns
    rw [if_neg (by simp), bind_returns (getData_ok (by exact hp2))]; rfl
  rw [wp_of_returns hho, wp_bind, wp_of_returns (setHeight_ok (by exact hq2) _), wp_pure, maxI_eq]
  have hpa : p ∉ a.ptrs := m3
  have hpb : p ∉ b.ptrs := m4
  have hqa : q ∉ a.ptrs := fun x => n3 (by simp [T.ptrs, x])
  have hqb : q ∉ b.ptrs := fun x => n3 (by simp [T.ptrs, x])
  have hpc : p ∉ c.ptrs := fun x => n5 p (by simp [T.ptrs]) x
  refine ⟨rfl, ⟨by simp, h2, h3, h4, ⟨by simp [upd, hpq], k2, k3, k4, ?_, ?_⟩, ?_⟩, ?_⟩
  · exact Rep.dat_upd (Rep.dat_upd k5 hpa) hqa
  · exact Rep.dat_upd (Rep.dat_upd k6 hpb) hqb
  · exact Rep.dat_upd (Rep.dat_upd h6 hpc) n4
  · refine ⟨⟨hh.next, hh.lost, hh.root, hh.size⟩, fun n hn => ?_⟩
    have := ho n hn
    simp only [T.ptrs, List.mem_append, List.mem_cons, not_or] at hn
    refine ⟨?_, this.par, this.lft, this.rgt⟩
    show upd (upd s1.dat p _) q _ n = _
    rw [upd_ne _ _ hn.2.2.2.1, upd_ne _ _ hn.2.1]; exact this.dat

theorem rightRotate_ok {s : St α} {pa : Ptr} {a b c : Tr α} {p q : Nat} {d e : D α}
    (h : Rep s pa (.node (.node a q e b) p d c))
    (hn : (T.node (.node a q e b) p d c).ptrs.Nodup) :
    wp (rightRotate (some p)) (fun x s' => x = some q ∧
      Rep s' pa (fRotR (.node (.node a q e b) p d c)) ∧
      Frame s s' (T.node (.node a q e b) p d c).ptrs) s := by
  unfold rightRotate
  rw [wp_bind]
  refine wp_mono (Tree.rightRotate_ok h hn) ?_
  rintro x s1 ⟨rfl, hrep, hh, _, ho⟩
  have hn' : (T.node a q e (.node b p d c)).ptrs.Nodup := by
    simpa [T.ptrs] using hn
  obtain ⟨n1, n2, n3, n4, n5⟩ := nodup_node hn'
  obtain ⟨m1, m2, m3, m4, m5⟩ := nodup_node n2
  obtain ⟨h1, h2, h3, h4, h5, ⟨k1, k2, k3, k4, k5, k6⟩⟩ := hrep
  have hpq : p ≠ q := fun x => n4 (by simp [T.ptrs, x])
  simp only [T.root] at h4
  rw [wp_bind, wp_getRight ⟨e, h1⟩, h4, wp_bind, wp_getLeft ⟨d, k1⟩, k3, wp_bind,
    wp_of_returns (heightOf_ok k5), wp_bind, wp_getRight ⟨d, k1⟩, k4, wp_bind,
    wp_of_returns (heightOf_ok k6), wp_bind, wp_of_returns (setHeight_ok k1 _), maxI_eq]
  have hp2 : upd s1.dat p (some (some (setH d (max (ht b) (ht c) + 1)))) p =
      some (some (setH d (max (ht b) (ht c) + 1))) := upd_self _ _ _
  have hq2 : upd s1.dat p (some (some (setH d (max (ht b) (ht c) + 1)))) q = some (some e) := by
    rw [upd_ne _ _ (Ne.symm hpq)]; exact h1
  have hpa : p ∉ a.ptrs := fun x => n5 p x (by simp [T.ptrs])
  have hqb : q ∉ b.ptrs := fun x => n4 (by simp [T.ptrs, x])
  have hqc : q ∉ c.ptrs := fun x => n4 (by simp [T.ptrs, x])
  rw [wp_bind, wp_getLeft ⟨e, by exact hq2⟩, wp_bind]
  simp only [h3]
  rw [wp_of_returns (heightOf_ok (Rep.dat_upd h5 hpa)), wp_bind, wp_getData (by exact hp2), wp_bind,
    wp_of_returns (setHeight_ok (by exact hq2) _), wp_pure, maxI_eq]
  refine ⟨rfl, ⟨by simp, h2, h3, h4, ?_, ⟨by simp [upd, hpq], k2, k3, k4, ?_, ?_⟩⟩, ?_⟩
  · exact Rep.dat_upd (Rep.dat_upd h5 hpa) n3
  · exact Rep.dat_upd (Rep.dat_upd k5 m3) hqb
  · exact Rep.dat_upd (Rep.dat_upd k6 m4) hqc
  · refine ⟨⟨hh.next, hh.lost, hh.root, hh.size⟩, fun n hn => ?_⟩
    have := ho n hn
    simp only [T.ptrs, List.mem_append, List.mem_cons, not_or] at hn
    refine ⟨?_, this.par, this.lft, this.rgt⟩
    show upd (upd s1.dat p _) q _ n = _
    rw [upd_ne _ _ hn.1.2.1, upd_ne _ _ hn.2.1]; exact this.dat

/-- The rotation of the left subtree, stored in `p`. -/
theorem rotLeftChild_ok {s : St α} {pa : Ptr} {l r : Tr α} {p : Nat} {d : D α}
    (h : Rep s pa (.node l p d r)) (hn : (T.node l p d r).ptrs.Nodup)
    (hs : ∃ a q e b b' q' e', l = .node a q e (.node b q' e' b')) :
    wp (do let l ← getLeft (some p); let l' ← leftRotate l; setLeft (some p) l') (fun _ s' =>
      Rep s' pa (.node (fRotL l) p d r) ∧ Frame s s' (T.node l p d r).ptrs) s := by
  obtain ⟨a, q, e, b, b', q', e', rfl⟩ := hs
  obtain ⟨n1, n2, n3, n4, n5⟩ := nodup_node hn
  have h' := h
  obtain ⟨h1, h2, h3, h4, h5, h6⟩ := h
  rw [wp_bind, wp_getLeft ⟨d, h1⟩, h3, wp_bind]
  refine wp_mono (leftRotate_ok h5 n1) ?_
  rintro x s1 ⟨rfl, hr, hf⟩
  have ep := hf.out p n3
  rw [wp_setLeft ⟨d, ep.dat.trans h1⟩]
  refine ⟨Rep.putLeft h' hr (by rw [ptrs_rotL]; exact n3) n4 ⟨ep.dat, ep.par, ep.rgt⟩
    (fun n hn => hf.out n fun x => n5 n x hn), ⟨hf.hdr.next, hf.hdr.lost, hf.hdr.root, hf.hdr.size⟩, ?_⟩
  intro n hn
  simp only [T.ptrs, List.mem_append, List.mem_cons, not_or] at hn
  have := hf.out n (by simp only [T.ptrs, List.mem_append, List.mem_cons, not_or]; exact hn.1)
  exact ⟨this.dat, this.par, (upd_ne _ _ hn.2.1).trans this.lft, this.rgt⟩

theorem rotRightChild_ok {s : St α} {pa : Ptr} {l r : Tr α} {p : Nat} {d : D α}
    (h : Rep s pa (.node l p d r)) (hn : (T.node l p d r).ptrs.Nodup)
    (hs : ∃ a q e b a' q' e', r = .node (.node a q' e' a') q e b) :
    wp (do let r ← getRight (some p); let r' ← rightRotate r; setRight (some p) r') (fun _ s' =>
      Rep s' pa (.node l p d (fRotR r)) ∧ Frame s s' (T.node l p d r).ptrs) s := by
  obtain ⟨a, q, e, b, b', q', e', rfl⟩ := hs
  obtain ⟨n1, n2, n3, n4, n5⟩ := nodup_node hn
  have h' := h
  obtain ⟨h1, h2, h3, h4, h5, h6⟩ := h
  rw [wp_bind, wp_getRight ⟨d, h1⟩, h4, wp_bind]
  refine wp_mono (rightRotate_ok h6 n2) ?_
  rintro x s1 ⟨rfl, hr, hf⟩
  have ep := hf.out p n4
  rw [wp_setRight ⟨d, ep.dat.trans h1⟩]
  refine ⟨Rep.putRight h' hr (by rw [ptrs_rotR]; exact n4) n3 ⟨ep.dat, ep.par, ep.lft⟩
    (fun n hn => hf.out n fun x => n5 n hn x), ⟨hf.hdr.next, hf.hdr.lost, hf.hdr.root, hf.hdr.size⟩, ?_⟩
  intro n hn
  simp only [T.ptrs, List.mem_append, List.mem_cons, not_or] at hn
  have := hf.out n (by simp only [T.ptrs, List.mem_append, List.mem_cons, not_or]; exact hn.2.2)
  exact ⟨this.dat, this.par, this.lft, (upd_ne _ _ hn.2.1).trans this.rgt⟩

theorem checkAndBalance_ok {s : St α} {pa : Ptr} {l r : Tr α} {p : Nat} {d : D α}
    (h : Rep s pa (.node l p d r)) (hn : (T.node l p d r).ptrs.Nodup) (hl : Avl l) (hr : Avl r) :
    wp (checkAndBalance (some p)) (fun x s' => x = (fBal (.node l p d r)).root ∧
      Rep s' pa (fBal (.node l p d r)) ∧ Frame s s' (T.node l p d r).ptrs) s := by
  have h' := h
  obtain ⟨h1, h2, h3, h4, h5, h6⟩ := h
  have nl := ht_nonneg hl
  have nr := ht_nonneg hr
  unfold checkAndBalance
  rw [wp_bind, wp_of_returns (show Returns (balanceFactor (some p)) s (bf (.node l p d r)) s from balanceFactor_ok h')]
  have hbf : bf (.node l p d r) = ht l - ht r := rfl
  rw [hbf]
  simp only [fBal]
  by_cases c1 : ht l - ht r > 1
  · rw [if_pos c1, if_pos c1, wp_bind, wp_getLeft ⟨d, h1⟩, h3, wp_bind, wp_of_returns (balanceFactor_ok h5), wp_bind,
      wp_when]
    obtain ⟨a, q, e, b, rfl⟩ := exists_node (t := l) (by omega)
    obtain ⟨ha, hb, he, g1, g2⟩ := hl
    have na := ht_nonneg ha
    constructor
    · intro c2
      rw [if_pos c2]
      have c2' : ht a - ht b < 0 := c2
      obtain ⟨b1, q1, e1, b2, rfl⟩ := exists_node (t := b) (by omega)
      refine wp_mono (rotLeftChild_ok h' hn ⟨_, _, _, _, _, _, _, rfl⟩) ?_
      rintro _ s1 ⟨hr1, hf1⟩
      have hn1 : (T.node (fRotL (.node a q e (.node b1 q1 e1 b2))) p d r).ptrs.Nodup := by
        simpa [ptrs_items] using hn
      refine wp_mono (rightRotate_ok hr1 hn1) ?_
      rintro x s2 ⟨rfl, hr2, hf2⟩
      refine ⟨rfl, hr2, hf1.trans (hf2.mono ?_)⟩
      intro n hn; simpa [ptrs_items] using hn
    · intro c2
      rw [if_neg c2]
      refine wp_mono (rightRotate_ok h' hn) ?_
      rintro x s2 ⟨rfl, hr2, hf2⟩
      exact ⟨rfl, hr2, hf2⟩
  · rw [if_neg c1, if_neg c1]
    by_cases c2 : ht l - ht r < -1
    · rw [if_pos c2, if_pos c2, wp_bind, wp_getRight ⟨d, h1⟩, h4, wp_bind, wp_of_returns (balanceFactor_ok h6), wp_bind,
        wp_when]
      obtain ⟨a, q, e, b, rfl⟩ := exists_node (t := r) (by omega)
      obtain ⟨ha, hb, he, g1, g2⟩ := hr
      have nb := ht_nonneg hb
      constructor
      · intro c3
        rw [if_pos c3]
        have c3' : ht a - ht b > 0 := c3
        obtain ⟨b1, q1, e1, b2, rfl⟩ := exists_node (t := a) (by omega)
        refine wp_mono (rotRightChild_ok h' hn ⟨_, _, _, _, _, _, _, rfl⟩) ?_
        rintro _ s1 ⟨hr1, hf1⟩
        have hn1 : (T.node l p d (fRotR (.node (.node b1 q1 e1 b2) q e b))).ptrs.Nodup := by
          simpa [ptrs_items] using hn
        refine wp_mono (leftRotate_ok hr1 hn1) ?_
        rintro x s2 ⟨rfl, hr2, hf2⟩
        refine ⟨rfl, hr2, hf1.trans (hf2.mono ?_)⟩
        intro n hn; simpa [ptrs_items] using hn
      · intro c3
        rw [if_neg c3]
        refine wp_mono (leftRotate_ok h' hn) ?_
        rintro x s2 ⟨rfl, hr2, hf2⟩
        exact ⟨rfl, hr2, hf2⟩
    · rw [if_neg c2, if_neg c2, wp_pure]
      exact ⟨rfl, h', .refl _ _⟩

end Verif.AVL
