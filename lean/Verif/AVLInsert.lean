import Verif.AVLPtr

/-! # `push` of an AVL tree -/

namespace Verif.AVL

open Prog Verif.Tree

variable {α : Type}

theorem updateHeight_ok' {s : St α} {pa : Ptr} {t : Tr α} (h : Rep s pa t) (hn : t.ptrs.Nodup)
    (ht : t ≠ .nil) :
    wp (updateHeight t.root) (fun _ s' => Rep s' pa (updH t) ∧ Frame s s' t.ptrs) s := by
  cases t with
  | nil => exact absurd rfl ht
  | node l p d r =>
    obtain ⟨n1, n2, n3, n4, n5⟩ := nodup_node hn
    refine wp_mono (updateHeight_ok h n3 n4) ?_
    rintro _ s' ⟨h1, h2, _⟩
    exact ⟨h1, h2.mono (by simp [T.ptrs])⟩

section
variable {lt : α → α → Bool}

theorem balL_ptr {s : St α} {pa : Ptr} {l r : Tr α} {p : Nat} {d : D α} {x : α}
    (h : Rep s pa (.node l p d r)) (hn : (T.node l p d r).ptrs.Nodup) (hl : Avl l) (hr : Avl r)
    (hg : ht l - ht r = 2 → Grew lt x l) :
    wp (if ht l - ht r = 2 then do
          let l ← getLeft (some p)
          let e ← getData l
          when (lt e.val x) (do
            let l ← getLeft (some p)
            let l' ← leftRotate l
            setLeft (some p) l')
          rightRotate (some p)
        else pure (some p) : Prog (St α) Ptr)
      (fun y s' => y = (balL lt x l p d r).root ∧ Rep s' pa (balL lt x l p d r) ∧
        Frame s s' (T.node l p d r).ptrs) s := by
  unfold balL
  by_cases c : ht l - ht r = 2
  · rw [if_pos c, if_pos c]
    have h' := h
    obtain ⟨h1, h2, h3, h4, h5, h6⟩ := h
    have nr := ht_nonneg hr
    obtain ⟨a, q, e, b, rfl⟩ := exists_node (t := l) (by omega)
    have hany : (rootVal (.node a q e b)).any (lt · x) = lt e.val x := rfl
    rw [wp_bind, wp_getLeft ⟨d, h1⟩, h3, wp_bind]
    simp only [T.root]
    rw [wp_getData h5.1, wp_bind, wp_when]
    constructor
    · intro c2
      rw [if_pos (by rw [hany]; exact c2)]
      obtain ⟨ha, hb, he, g1, g2⟩ := hl
      have na := ht_nonneg ha
      have hg' : ht b = ht a + 1 := by
        rcases hg c with ⟨_, g3, _⟩ | ⟨_, _, g4⟩
        · rw [g3] at c2; cases c2
        · exact g4
      obtain ⟨b1, q1, e1, b2, rfl⟩ := exists_node (t := b) (by omega)
      refine wp_mono (rotLeftChild_ok h' hn ⟨_, _, _, _, _, _, _, rfl⟩) ?_
      rintro _ s1 ⟨hr1, hf1⟩
      have hn1 : (T.node (fRotL (.node a q e (.node b1 q1 e1 b2))) p d r).ptrs.Nodup := by
        simpa [ptrs_items] using hn
      refine wp_mono (rightRotate_ok hr1 hn1) ?_
      rintro x s2 ⟨rfl, hr2, hf2⟩
      refine ⟨rfl, hr2, hf1.trans (hf2.mono ?_)⟩
      intro n hn; simpa [ptrs_items] using hn
    · intro c2
      rw [if_neg (by rw [hany]; exact c2)]
      refine wp_mono (rightRotate_ok h' hn) ?_
      rintro x s2 ⟨rfl, hr2, hf2⟩
      exact ⟨rfl, hr2, hf2⟩
  · rw [if_neg c, if_neg c, wp_pure]
    exact ⟨rfl, h, .refl _ _⟩

theorem balR_ptr {s : St α} {pa : Ptr} {l r : Tr α} {p : Nat} {d : D α} {x : α}
    (h : Rep s pa (.node l p d r)) (hn : (T.node l p d r).ptrs.Nodup) (hl : Avl l) (hr : Avl r)
    (hg : ht r - ht l = 2 → Grew lt x r) :
    wp (if ht r - ht l = 2 then do
          let r ← getRight (some p)
          let e ← getData r
          when (lt x e.val) (do
            let r ← getRight (some p)
            let r' ← rightRotate r
            setRight (some p) r')
          leftRotate (some p)
        else pure (some p) : Prog (St α) Ptr)
      (fun y s' => y = (balR lt x l p d r).root ∧ Rep s' pa (balR lt x l p d r) ∧
        Frame s s' (T.node l p d r).ptrs) s := by
  unfold balR
  by_cases c : ht r - ht l = 2
  · rw [if_pos c, if_pos c]
    have h' := h
    obtain ⟨h1, h2, h3, h4, h5, h6⟩ := h
    have nl := ht_nonneg hl
    obtain ⟨a, q, e, b, rfl⟩ := exists_node (t := r) (by omega)
    have hany : (rootVal (.node a q e b)).any (lt x ·) = lt x e.val := rfl
    rw [wp_bind, wp_getRight ⟨d, h1⟩, h4, wp_bind]
    simp only [T.root]
    rw [wp_getData h6.1, wp_bind, wp_when]
    constructor
    · intro c2
      rw [if_pos (by rw [hany]; exact c2)]
      obtain ⟨ha, hb, he, g1, g2⟩ := hr
      have nb := ht_nonneg hb
      have hg' : ht a = ht b + 1 := by
        rcases hg c with ⟨_, _, g3⟩ | ⟨g3, _, g4⟩
        · exact g3
        · rw [g3] at c2; cases c2
      obtain ⟨b1, q1, e1, b2, rfl⟩ := exists_node (t := a) (by omega)
      refine wp_mono (rotRightChild_ok h' hn ⟨_, _, _, _, _, _, _, rfl⟩) ?_
      rintro _ s1 ⟨hr1, hf1⟩
      have hn1 : (T.node l p d (fRotR (.node (.node b1 q1 e1 b2) q e b))).ptrs.Nodup := by
        simpa [ptrs_items] using hn
      refine wp_mono (leftRotate_ok hr1 hn1) ?_
      rintro x s2 ⟨rfl, hr2, hf2⟩
      refine ⟨rfl, hr2, hf1.trans (hf2.mono ?_)⟩
      intro n hn; simpa [ptrs_items] using hn
    · intro c2
      rw [if_neg (by rw [hany]; exact c2)]
      refine wp_mono (leftRotate_ok h' hn) ?_
      rintro x s2 ⟨rfl, hr2, hf2⟩
      exact ⟨rfl, hr2, hf2⟩
  · rw [if_neg c, if_neg c, wp_pure]
    exact ⟨rfl, h, .refl _ _⟩

theorem balL_ne (x : α) (l : Tr α) (p : Nat) (d : D α) (r : Tr α) : balL lt x l p d r ≠ .nil := by
  intro h
  have := items_balL lt x l p d r
  rw [h] at this; simp at this

theorem balR_ne (x : α) (l : Tr α) (p : Nat) (d : D α) (r : Tr α) : balR lt x l p d r ≠ .nil := by
  intro h
  have := items_balR lt x l p d r
  rw [h] at this; simp at this

theorem ptrs_balL (x : α) (l : Tr α) (p : Nat) (d : D α) (r : Tr α) :
    (balL lt x l p d r).ptrs = (T.node l p d r).ptrs := by
  rw [ptrs_items, ptrs_items, items_balL, items_node]

theorem ptrs_balR (x : α) (l : Tr α) (p : Nat) (d : D α) (r : Tr α) :
    (balR lt x l p d r).ptrs = (T.node l p d r).ptrs := by
  rw [ptrs_items, ptrs_items, items_balR, items_node]

theorem updH_root (t : Tr α) : (updH t).root = t.root := by cases t <;> rfl

/-- Addresses from `next` on are unused. -/
def Unused (s : St α) : Prop := ∀ n, s.next ≤ n → s.dat n = none

/-- Only nodes in `old` and the new node may have changed. -/
structure InsFrame (s s' : St α) (old : List Nat) : Prop where
  next : s'.next = s.next + 1
  lost : s'.lost = s.lost
  root : s'.root = s.root
  size : s'.size = s.size
  out : ∀ n, n ∉ old → n ≠ s.next → SameAt s s' n

theorem InsFrame.after {s s1 s2 : St α} {o o' : List Nat} (h : InsFrame s s1 o) (h' : Frame s1 s2 o')
    (ho : ∀ n ∈ o', n ∈ o ∨ n = s.next) : InsFrame s s2 o :=
  ⟨h'.hdr.next.trans h.next, h'.hdr.lost.trans h.lost, h'.hdr.root.trans h.root,
    h'.hdr.size.trans h.size, fun n h1 h2 => (h.out n h1 h2).trans
      (h'.out n fun x => (ho n x).elim h1 h2)⟩

theorem Unused.notin {s : St α} (hu : Unused s) {pa : Ptr} {t : Tr α} (h : Rep s pa t) : s.next ∉ t.ptrs := by
  intro hn
  obtain ⟨d, hd⟩ := h.live hn
  rw [hu _ (Nat.le_refl _)] at hd; cases hd

theorem newNode_ok {s : St α} (hu : Unused s) (x : α) (pa : Ptr) :
    wp (do
      let n ← allocNode
      constructNode n { height := 0, val := x }
      setParent (some n) pa
      updateHeight (some n)
      pure (some n) : Prog (St α) Ptr)
      (fun y s' => y = some s.next ∧ Rep s' pa (.node .nil s.next ⟨1, x⟩ .nil) ∧ InsFrame s s' []) s := by
  rw [wp_bind, wp_of_returns (show Returns allocNode s s.next
    { s with dat := upd s.dat s.next (some none), next := s.next + 1 } from rfl), wp_bind]
  have hc : Returns (constructNode s.next ({ height := 0, val := x } : D α))
      { s with dat := upd s.dat s.next (some none), next := s.next + 1 } ()
      { s with
        dat := upd (upd s.dat s.next (some none)) s.next (some (some ⟨0, x⟩))
        par := upd s.par s.next none
        lft := upd s.lft s.next none
        rgt := upd s.rgt s.next none
        next := s.next + 1 } := by
    unfold constructNode Returns; simp
  rw [wp_of_returns hc, wp_bind, wp_setParent ⟨⟨0, x⟩, by simp⟩, wp_bind]
  have hrep : Rep { s with
        dat := upd (upd s.dat s.next (some none)) s.next (some (some ⟨0, x⟩))
        par := upd (upd s.par s.next none) s.next pa
        lft := upd s.lft s.next none
        rgt := upd s.rgt s.next none
        next := s.next + 1 } pa (.node .nil s.next ⟨0, x⟩ .nil) :=
    ⟨by simp, by simp, by simp [T.root], by simp [T.root], trivial, trivial⟩
  refine wp_mono (updateHeight_ok hrep (by simp [T.ptrs]) (by simp [T.ptrs])) ?_
  rintro _ s2 ⟨h1, h2, h3, h4, h5⟩
  rw [wp_pure]
  refine ⟨rfl, h1, h2.hdr.next, h2.hdr.lost, h2.hdr.root, h2.hdr.size, fun n _ hn => ?_⟩
  have := h2.out n (by simpa using hn)
  exact ⟨this.dat.trans (by simp [upd, hn]), this.par.trans (by simp [upd, hn]),
    this.lft.trans (by simp [upd, hn]), this.rgt.trans (by simp [upd, hn])⟩

theorem insert_ok {stop : Prog (St α) Ptr} {s : St α} {pa : Ptr} {t : Tr α} {x : α} (h : Rep s pa t) (hn : t.ptrs.Nodup)
    (hu : Unused s) (hv : Avl t) (ha : Apart lt x t) :
    wp (insert lt stop t.root x pa) (fun y s' => y = (fIns lt x s.next t).root ∧
      Rep s' pa (fIns lt x s.next t) ∧ InsFrame s s' t.ptrs) s := by
  induction t generalizing s pa with
  | nil =>
    unfold insert
    rw [if_pos (by rfl)]
    refine wp_mono (newNode_ok hu x pa) ?_
    rintro y s' ⟨rfl, h1, h2⟩
    exact ⟨rfl, h1, h2⟩
  | node l p d r ihl ihr =>
    have h' := h
    have hq := hu.notin h
    obtain ⟨h1, h2, h3, h4, h5, h6⟩ := h
    obtain ⟨n1, n2, n3, n4, n5⟩ := nodup_node hn
    obtain ⟨a1, a2, a3⟩ := ha.node
    obtain ⟨v1, v2, v3, v4, v5⟩ := hv
    have nl := ht_nonneg v1
    have nr := ht_nonneg v2
    simp only [T.ptrs, List.mem_append, List.mem_cons, not_or] at hq
    unfold insert
    rw [if_neg (by simp [T.root])]
    simp only [root_node]
    rw [wp_bind, wp_getData h1]
    rcases a3 with ⟨a3, a4⟩ | ⟨a3, a4⟩
    · simp only [fIns]
      rw [if_pos a3, if_pos a3, wp_bind, wp_getLeft ⟨d, h1⟩, h3, wp_bind]
      refine wp_mono (ihl h5 n1 hu v1 a1) ?_
      rintro y s1 ⟨rfl, hr1, hf1⟩
      have hmem : ∀ n ∈ (fIns lt x s.next l).ptrs, n = s.next ∨ n ∈ l.ptrs := by
        intro n hn; rw [(ptrs_ins lt x s.next l).mem_iff] at hn; simpa using hn
      have ep := hf1.out p n3 (Ne.symm hq.2.1)
      have hp' : p ∉ (fIns lt x s.next l).ptrs := fun x => (hmem _ x).elim (Ne.symm hq.2.1) n3
      have er : ∀ n ∈ r.ptrs, SameAt s s1 n := fun n hn =>
        hf1.out n (fun x => n5 n x hn) (fun e => hq.2.2 (e ▸ hn))
      rw [wp_bind, wp_setLeft ⟨d, ep.dat.trans h1⟩]
      have hr2 := Rep.putLeft h' hr1 hp' n4 ⟨ep.dat, ep.par, ep.rgt⟩ er
      generalize hs2 : ({ s1 with lft := upd s1.lft p (fIns lt x s.next l).root } : St α) = s2 at hr2
      have hf2 : InsFrame s s2 (T.node l p d r).ptrs := by
        subst hs2
        refine ⟨hf1.next, hf1.lost, hf1.root, hf1.size, fun n hn1 hn2 => ?_⟩
        simp only [T.ptrs, List.mem_append, List.mem_cons, not_or] at hn1
        have := hf1.out n hn1.1 hn2
        exact ⟨this.dat, this.par, (upd_ne _ _ hn1.2.1).trans this.lft, this.rgt⟩
      obtain ⟨i1, i2, i3⟩ := ins_ok (q := s.next) v1 a1
      have hnd : (T.node (fIns lt x s.next l) p d r).ptrs.Nodup := by
        refine nodup_node' ?_ n2 hp' n4 ?_
        · rw [(ptrs_ins lt x s.next l).nodup_iff, List.nodup_cons]; exact ⟨hq.1, n1⟩
        · intro n hn; rcases hmem n hn with rfl | hn
          · exact hq.2.2
          · exact n5 n hn
      have hr2' := hr2
      obtain ⟨k1, k2, k3, k4, k5, k6⟩ := hr2
      have hne : ht (fIns lt x s.next l) - ht r = 2 → l ≠ .nil := by
        rintro e rfl; simp only [ht_nil] at *; omega
      rw [wp_bind, wp_getLeft ⟨d, k1⟩, k3, wp_bind, wp_of_returns (heightOf_ok k5), wp_bind,
        wp_getRight ⟨d, k1⟩, k4, wp_bind, wp_of_returns (heightOf_ok k6), wp_bind]
      refine wp_mono (balL_ptr (lt := lt) (x := x) hr2' hnd i1 v2 (fun e => i3 (hne e) (by omega))) ?_
      rintro y s3 ⟨rfl, hr3, hf3⟩
      rw [wp_bind]
      refine wp_mono (updateHeight_ok' hr3 (by rw [ptrs_balL]; exact hnd) (balL_ne _ _ _ _ _)) ?_
      rintro _ s4 ⟨hr4, hf4⟩
      rw [wp_pure]
      have hsub : ∀ n ∈ (T.node (fIns lt x s.next l) p d r).ptrs, n ∈ (T.node l p d r).ptrs ∨ n = s.next := by
        intro n hn
        simp only [T.ptrs, List.mem_append, List.mem_cons] at hn ⊢
        rcases hn with hn | hn | hn
        · rcases hmem n hn with rfl | hn
          · exact Or.inr rfl
          · exact Or.inl (Or.inl hn)
        · exact Or.inl (Or.inr (Or.inl hn))
        · exact Or.inl (Or.inr (Or.inr hn))
      exact ⟨(updH_root _).symm, hr4, (hf2.after hf3 hsub).after hf4 (by rw [ptrs_balL]; exact hsub)⟩
    · simp only [fIns]
      have na3 : ¬ lt x d.val = true := by simp [a3]
      rw [if_neg na3, if_neg na3, if_pos a4, wp_bind, wp_getRight ⟨d, h1⟩, h4, wp_bind]
      refine wp_mono (ihr h6 n2 hu v2 a2) ?_
      rintro y s1 ⟨rfl, hr1, hf1⟩
      have hmem : ∀ n ∈ (fIns lt x s.next r).ptrs, n = s.next ∨ n ∈ r.ptrs := by
        intro n hn; rw [(ptrs_ins lt x s.next r).mem_iff] at hn; simpa using hn
      have ep := hf1.out p n4 (Ne.symm hq.2.1)
      have hp' : p ∉ (fIns lt x s.next r).ptrs := fun x => (hmem _ x).elim (Ne.symm hq.2.1) n4
      have er : ∀ n ∈ l.ptrs, SameAt s s1 n := fun n hn =>
        hf1.out n (fun x => n5 n hn x) (fun e => hq.1 (e ▸ hn))
      rw [wp_bind, wp_setRight ⟨d, ep.dat.trans h1⟩]
      have hr2 := Rep.putRight h' hr1 hp' n3 ⟨ep.dat, ep.par, ep.lft⟩ er
      generalize hs2 : ({ s1 with rgt := upd s1.rgt p (fIns lt x s.next r).root } : St α) = s2 at hr2
      have hf2 : InsFrame s s2 (T.node l p d r).ptrs := by
        subst hs2
        refine ⟨hf1.next, hf1.lost, hf1.root, hf1.size, fun n hn1 hn2 => ?_⟩
        simp only [T.ptrs, List.mem_append, List.mem_cons, not_or] at hn1
        have := hf1.out n hn1.2.2 hn2
        exact ⟨this.dat, this.par, this.lft, (upd_ne _ _ hn1.2.1).trans this.rgt⟩
      obtain ⟨i1, i2, i3⟩ := ins_ok (q := s.next) v2 a2
      have hnd : (T.node l p d (fIns lt x s.next r)).ptrs.Nodup := by
        refine nodup_node' n1 ?_ n3 hp' ?_
        · rw [(ptrs_ins lt x s.next r).nodup_iff, List.nodup_cons]; exact ⟨hq.2.2, n2⟩
        · intro n hn hn'; rcases hmem n hn' with rfl | hn'
          · exact hq.1 hn
          · exact n5 n hn hn'
      have hr2' := hr2
      obtain ⟨k1, k2, k3, k4, k5, k6⟩ := hr2
      have hne : ht (fIns lt x s.next r) - ht l = 2 → r ≠ .nil := by
        rintro e rfl; simp only [ht_nil] at *; omega
      rw [wp_bind, wp_getRight ⟨d, k1⟩, k4, wp_bind, wp_of_returns (heightOf_ok k6), wp_bind,
        wp_getLeft ⟨d, k1⟩, k3, wp_bind, wp_of_returns (heightOf_ok k5), wp_bind]
      refine wp_mono (balR_ptr (lt := lt) (x := x) hr2' hnd v1 i1 (fun e => i3 (hne e) (by omega))) ?_
      rintro y s3 ⟨rfl, hr3, hf3⟩
      rw [wp_bind]
      refine wp_mono (updateHeight_ok' hr3 (by rw [ptrs_balR]; exact hnd) (balR_ne _ _ _ _ _)) ?_
      rintro _ s4 ⟨hr4, hf4⟩
      rw [wp_pure]
      have hsub : ∀ n ∈ (T.node l p d (fIns lt x s.next r)).ptrs, n ∈ (T.node l p d r).ptrs ∨ n = s.next := by
        intro n hn
        simp only [T.ptrs, List.mem_append, List.mem_cons] at hn ⊢
        rcases hn with hn | hn | hn
        · exact Or.inl (Or.inl hn)
        · exact Or.inl (Or.inr (Or.inl hn))
        · rcases hmem n hn with rfl | hn
          · exact Or.inr rfl
          · exact Or.inl (Or.inr (Or.inr hn))
      exact ⟨(updH_root _).symm, hr4, (hf2.after hf3 hsub).after hf4 (by rw [ptrs_balR]; exact hsub)⟩

/-- What a finished `push` leaves. -/
structure PushPost (lt : α → α → Bool) (x : α) (t : Tr α) (s s' : St α) : Prop where
  tree : IsTree s' (fIns lt x s.next t)
  next : s'.next = s.next + 1
  lost : s'.lost = s.lost
  size : s'.size = s.size + 1
  out : ∀ n, n ∉ t.ptrs → n ≠ s.next → SameAt s s' n

theorem push_ok {s : St α} {t : Tr α} {x : α} (h : IsTree s t) (hu : Unused s) (hv : Avl t)
    (ha : Apart lt x t) : wp (push lt x) (fun _ s' => PushPost lt x t s s') s := by
  unfold push pushOr
  rw [wp_bind, wp_getRoot, h.root, wp_bind]
  refine wp_mono (insert_ok h.rep h.nodup hu hv ha) ?_
  rintro y s1 ⟨rfl, hr, hf⟩
  have hnd : (fIns lt x s.next t).ptrs.Nodup := by
    rw [(ptrs_ins lt x s.next t).nodup_iff, List.nodup_cons]; exact ⟨hu.notin h.rep, h.nodup⟩
  obtain ⟨l, p, d, r, e⟩ : ∃ l p d r, fIns lt x s.next t = .node l p d r := by
    cases hc : fIns lt x s.next t with
    | nil =>
      have := (ptrs_ins lt x s.next t).length_eq
      rw [hc] at this; simp [T.ptrs] at this
    | node l p d r => exact ⟨l, p, d, r, rfl⟩
  rw [wp_bind]
  unfold updateRoot
  rw [wp_bind, wp_modify, wp_when]
  rw [e] at hr hnd
  refine ⟨fun _ => ?_, fun hc => absurd (by rw [e]; simp [T.root]) hc⟩
  obtain ⟨h1, h2, h3, h4, h5, h6⟩ := hr
  rw [e]
  simp only [T.root]
  have hsame : upd s1.par p none = s1.par := by
    funext n
    by_cases hn : n = p
    · rw [hn, upd_self]; exact h2.symm
    · exact upd_ne _ _ hn
  rw [wp_setParent ⟨d, by exact h1⟩, wp_bind, wp_getSize, wp_setSize]
  simp only [hsame]
  refine ⟨?_, hf.next, hf.lost, by simp [hf.size],
    fun n h1 h2 => have h := hf.out n h1 h2; ⟨h.dat, h.par, h.lft, h.rgt⟩⟩
  rw [e]
  exact ⟨rfl, Rep.congr (s := s1) ⟨h1, h2, h3, h4, h5, h6⟩ fun n _ => ⟨rfl, rfl, rfl, rfl⟩, hnd⟩

/-! ### A key that is already there -/

theorem insert_dup {stop : Prog (St α) Ptr} {e : Fault} {s : St α} {pa : Ptr} {t : Tr α} {x : α} {z : Nat} (h : Rep s pa t)
    (hf : fFind lt x t = some z) (hs : Faults stop s e) :
    Faults (insert lt stop t.root x pa) s e := by
  induction t generalizing pa with
  | nil => cases hf
  | node l p d r ihl ihr =>
    obtain ⟨h1, h2, h3, h4, h5, h6⟩ := h
    simp only [fFind] at hf
    unfold insert Faults
    rw [if_neg (by simp [T.root])]
    simp only [T.root]
    rw [bind_returns (getData_ok h1)]
    by_cases c1 : lt x d.val
    · rw [if_pos c1] at hf ⊢
      rw [bind_returns (getLeft_ok ⟨d, h1⟩), h3]
      exact bind_faults (ihl h5 hf)
    · rw [if_neg c1] at hf ⊢
      by_cases c2 : lt d.val x
      · rw [if_pos c2] at hf ⊢
        rw [bind_returns (getRight_ok ⟨d, h1⟩), h4]
        exact bind_faults (ihr h6 hf)
      · rw [if_neg c2]; exact hs

theorem pushOr_dup {stop : Prog (St α) Ptr} {e : Fault} {s : St α} {t : Tr α} {x : α} {z : Nat} (h : IsTree s t)
    (hf : fFind lt x t = some z) (hs : Faults stop s e) : Faults (pushOr lt stop x) s e := by
  unfold pushOr Faults
  rw [bind_returns (show Returns getRoot s s.root s from rfl), h.root]
  exact bind_faults (insert_dup h.rep hf hs)

theorem push_dup {s : St α} {t : Tr α} {x : α} {z : Nat} (h : IsTree s t)
    (hf : fFind lt x t = some z) : Faults (push lt x) s .assert :=
  pushOr_dup h hf rfl

end

end Verif.AVL
