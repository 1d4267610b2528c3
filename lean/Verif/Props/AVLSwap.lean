import Verif.AVLSwapAny
import Verif.Props.AVLTree

/-! # Exchanging two nodes (C93) -/

namespace Verif.AVL

open Prog Tree

variable {α : Type}

/-- **C93.**  `_swap_node(a, b)` on two nodes of a tree, in any relation to each other except that
of siblings: the nodes are exchanged.  The reference parameters are exchanged, too, unless `a` was a
child of `b`. -/
theorem avl_swap_partial {s : St α} (hs : Linked s) {a b : Nat} (ha : Live s.dat a) (hb : Live s.dat b)
    (hra : RootOf s a) (hrb : RootOf s b) (hsib : a = b ∨ s.par a = none ∨ s.par a ≠ s.par b) :
    ∃ s', Returns (swapNode (some a) (some b)) s
        (if s.par a = some b then (some a, some b) else (some b, some a)) s' ∧
      Exchanged a b s s' := by
  by_cases hab : s.par a = some b
  · have hsib' : b = a ∨ s.par b = none ∨ s.par b ≠ s.par a := by grind
    obtain ⟨s', h1, h2⟩ := swap_ordered hs hb ha hrb hra hsib' (hs.acyclic a b ha hab)
    refine ⟨s', ?_, ?_⟩
    · rw [if_pos hab]
      unfold swapNode Returns
      rw [bind_returns (getParent_ok ha)]
      simp only [hab, if_true]
      rw [bind_returns (getParent_ok hb), bind_returns (getLeft_ok hb), bind_returns (getRight_ok hb),
        bind_returns (getParent_ok ha), bind_returns (getLeft_ok ha), bind_returns (getRight_ok ha)]
      exact h1
    · exact ⟨ren_comm a b ▸ h2.par, ren_comm a b ▸ h2.lft, ren_comm a b ▸ h2.rgt, ren_comm a b ▸ h2.root,
        ren_comm a b ▸ h2.dat, h2.other, h2.size, h2.next, h2.lost⟩
  · obtain ⟨s', h1, h2⟩ := swap_ordered hs ha hb hra hrb hsib hab
    refine ⟨s', ?_, h2⟩
    rw [if_neg hab]
    unfold swapNode Returns
    rw [bind_returns (getParent_ok ha)]
    simp only [hab, if_false]
    rw [bind_returns (getParent_ok ha), bind_returns (getLeft_ok ha), bind_returns (getRight_ok ha),
      bind_returns (getParent_ok hb), bind_returns (getLeft_ok hb), bind_returns (getRight_ok hb)]
    exact h1

/-- **C93, defect.**  On siblings it is wrong in every tree: afterwards both child links of the
parent lead to the same node, and no node has a child link to the other one. -/
theorem avl_swap_siblings_broken {s : St α} (hs : Linked s) {a b p : Nat} (ha : Live s.dat a) (hb : Live s.dat b)
    (hne : a ≠ b) (hpa : s.par a = some p) (hpb : s.par b = some p) :
    ∃ s', Returns (swapNode (some a) (some b)) s (some b, some a) s' ∧
      s'.lft p = some a ∧ s'.rgt p = some a ∧
      ∀ x, Live s.dat x → s'.lft x ≠ some b ∧ s'.rgt x ≠ some b := by
  obtain ⟨da, hda⟩ := ha
  obtain ⟨db, hdb⟩ := hb
  have ha : Live s.dat a := ⟨da, hda⟩
  have hb : Live s.dat b := ⟨db, hdb⟩
  have hdep := hs.acyclic
  have lp : ∀ x, Live s.dat x → ∀ k, s.par x = some k → Live s.dat k := fun x hx k hk => (hs.up x k hx hk).1
  have ll : ∀ x, Live s.dat x → ∀ k, s.lft x = some k → Live s.dat k := fun x hx k hk => (hs.left x k hx hk).1
  have lr : ∀ x, Live s.dat x → ∀ k, s.rgt x = some k → Live s.dat k := fun x hx k hk => (hs.right x k hx hk).1
  have hpna : p ≠ a := fun h => by rw [h] at hpa; exact hdep a a ha hpa hpa
  have hpnb : p ≠ b := fun h => by rw [h] at hpb; exact hdep b b hb hpb hpb
  obtain ⟨s1, r1, e1, e2, e3, e4, e5, e6, e7, e8⟩ := swapApart_any (ap := s.par a) (al := s.lft a) (ar := s.rgt a)
    (bp := s.par b) (bl := s.lft b) (br := s.rgt b) ha hb (lp a ha) (ll a ha) (lr a ha) (ll b hb) (lr b hb) (lp b hb)
  obtain ⟨s2, r2, f1, f2, f3, f4, f5, f6, f7, f8⟩ := swapFinish_any (s := s1) (by rw [e1]; exact hda) (by rw [e1]; exact hdb)
  have ua := hs.up a p ha hpa
  have ub := hs.up b p hb hpb
  refine ⟨s2, ?_, ?_, ?_, ?_⟩
  · unfold swapNode Returns
    rw [bind_returns (getParent_ok ha)]
    have h1 : s.par a ≠ some b := by rw [hpa]; simpa using hpnb
    have h2 : s.par b ≠ some a := by rw [hpb]; simpa using hpna
    simp only [h1, if_false]
    rw [bind_returns (getParent_ok ha), bind_returns (getLeft_ok ha), bind_returns (getRight_ok ha),
      bind_returns (getParent_ok hb), bind_returns (getLeft_ok hb), bind_returns (getRight_ok hb), if_neg h2,
      bind_returns r1]
    exact r2
  · rw [f3, e7]
    clear e6 e7 e8 f1 f2 f3 f4 f8 r1 r2
    grind
  · rw [f4, e8]
    clear e6 e7 e8 f1 f2 f3 f4 f8 r1 r2
    grind
  · intro x hx
    have i1 := hs.left x b hx
    have i2 := hs.right x b hx
    have i3 := hs.left a b ha
    have i4 := hs.right a b ha
    have i5 := hs.left b b hb
    have i6 := hs.right b b hb
    rw [f3, e7, f4, e8]
    clear e6 e7 e8 f1 f2 f3 f4 f8 r1 r2
    grind

/-! ## The trees programs build meet these hypotheses -/

/-- In every reachable world the nodes are linked, and the root pointer of each object belongs to
its nodes. -/
theorem avl_reach_linked {lt : α → α → Bool} (hw : StrictWeak lt) {w : World α} {sw : SWorld α} (h : Reach lt w sw)
    {k : Nat} {hd : Ptr × Nat} (hk : w.obj k = some hd) :
    Linked (w.load hd) ∧ ∀ r, hd.1 = some r → ∀ a, Below (w.load hd) r a → Live w.mem.dat a ∧ RootOf (w.load hd) a := by
  obtain ⟨g, hg, _⟩ := h.holds hw
  have own : ∀ n, Live w.mem.dat n → ∃ k t, g k = some t ∧ n ∈ t.ptrs := fun n hn =>
    hg.own n (by obtain ⟨d, e⟩ := hn; rw [e]; simp)
  refine ⟨⟨?_, ?_, ?_, ?_, ?_⟩, ?_⟩
  · intro p c hp hc
    obtain ⟨j, t, h1, h2⟩ := own p hp
    have := rep_left (hg.rep j t h1) h2 hc
    exact ⟨(hg.rep j t h1).live this.1, this.2⟩
  · intro p c hp hc
    obtain ⟨j, t, h1, h2⟩ := own p hp
    have := rep_right (hg.rep j t h1) h2 hc
    exact ⟨(hg.rep j t h1).live this.1, this.2⟩
  · intro c p hc hp
    obtain ⟨j, t, h1, h2⟩ := own c hc
    rcases rep_up (hg.rep j t h1) h2 hp with ⟨_, e⟩ | ⟨e1, e2⟩
    · cases e
    · exact ⟨(hg.rep j t h1).live e1, e2⟩
  · intro p c hp hc
    obtain ⟨j, t, h1, h2⟩ := own p hp
    exact rep_ne (hg.rep j t h1) (hg.nodup j t h1) h2 hc
  · intro c p hc hp
    obtain ⟨j, t, h1, h2⟩ := own c hc
    rcases rep_up (hg.rep j t h1) h2 hp with ⟨_, e⟩ | ⟨e1, e2⟩
    · cases e
    · exact rep_acyclic (hg.rep j t h1) (hg.nodup j t h1) nofun h2 e1 hp
  · intro r hr a hb
    rcases e : g k with _ | t
    · rw [hg.dead k e] at hk; cases hk
    have := hg.obj k t e
    rw [hk] at this; cases this
    have hrep := hg.rep k t e
    have hrm : r ∈ t.ptrs := T.root_mem hr
    have hpr : w.mem.par r = none := by
      cases t with
      | nil => cases hr
      | node l q d u => cases hr; exact hrep.2.1
    have hmem : a ∈ t.ptrs := by
      induction hb with
      | refl => exact hrm
      | left _ hc ih => exact (rep_left hrep ih hc).1
      | right _ hc ih => exact (rep_right hrep ih hc).1
    refine ⟨hrep.live hmem, fun hpa => ?_, fun h => ?_⟩
    · cases hb with
      | refl => exact hr
      | @left p _ hbp hc =>
        have hp : p ∈ t.ptrs := by
          clear hc hpa hmem
          induction hbp with
          | refl => exact hrm
          | left _ hc ih => exact (rep_left hrep ih hc).1
          | right _ hc ih => exact (rep_right hrep ih hc).1
        have := (rep_left hrep hp hc).2
        rw [show w.mem.par a = none from hpa] at this; cases this
      | @right p _ hbp hc =>
        have hp : p ∈ t.ptrs := by
          clear hc hpa hmem
          induction hbp with
          | refl => exact hrm
          | left _ hc ih => exact (rep_left hrep ih hc).1
          | right _ hc ih => exact (rep_right hrep ih hc).1
        have := (rep_right hrep hp hc).2
        rw [show w.mem.par a = none from hpa] at this; cases this
    · have h' : t.root = some a := h
      rw [show t.root = some r from hr] at h'; cases h'
      exact hpr

/-- **C93** for the trees programs build: any two nodes of an object that are not siblings. -/
theorem avl_swap_reach_partial {lt : α → α → Bool} (hw : StrictWeak lt) {w : World α} {sw : SWorld α} (h : Reach lt w sw)
    {k r a b : Nat} {hd : Ptr × Nat} (hk : w.obj k = some hd) (hr : hd.1 = some r)
    (ha : Below (w.load hd) r a) (hb : Below (w.load hd) r b)
    (hsib : a = b ∨ w.mem.par a = none ∨ w.mem.par a ≠ w.mem.par b) :
    ∃ s', Returns (swapNode (some a) (some b)) (w.load hd)
        (if w.mem.par a = some b then (some a, some b) else (some b, some a)) s' ∧
      Exchanged a b (w.load hd) s' := by
  obtain ⟨h1, h2⟩ := avl_reach_linked hw h hk
  exact avl_swap_partial h1 (h2 r hr a ha).1 (h2 r hr b hb).1 (h2 r hr a ha).2 (h2 r hr b hb).2 hsib

/-- Non-vacuity: the tree with the elements 1, 5, 7, 9 has two different nodes that are not
siblings, one of them the root. -/
example : ∃ (w : World Nat) (sw : SWorld Nat) (hd : Ptr × Nat) (r a : Nat), Reach natLt w sw ∧ sw 0 = some [1, 5, 7, 9] ∧
    w.obj 0 = some hd ∧ hd.1 = some r ∧ Below (w.load hd) r a ∧ a ≠ r ∧ w.mem.par r = none := by
  obtain ⟨w, sw, h, h0, _⟩ := exReach
  obtain ⟨g, hg, hv⟩ := h.holds natLt_strictWeak
  obtain ⟨t, ht, hl⟩ := HoldsSet.get hv h0
  have hrep := hg.rep 0 t ht
  have hnd := hg.nodup 0 t ht
  cases t with
  | nil => simp [vals, T.inorder] at hl
  | node l p d r =>
    obtain ⟨_, h2, h3, h4, _, _⟩ := hrep
    obtain ⟨_, _, n3, n4, _⟩ := nodup_node hnd
    cases l with
    | node l1 q e l2 =>
      refine ⟨w, sw, _, p, q, h, h0, hg.obj 0 _ ht, rfl, .left .refl h3, ?_, h2⟩
      rintro rfl; exact n3 (by simp [T.ptrs])
    | nil =>
      cases r with
      | node l1 q e l2 =>
        refine ⟨w, sw, _, p, q, h, h0, hg.obj 0 _ ht, rfl, .right .refl h4, ?_, h2⟩
        rintro rfl; exact n4 (by simp [T.ptrs])
      | nil => simp [vals, T.inorder] at hl

/-- Non-vacuity of the defect: a root with two children. -/
example : ∃ s : St Nat, Linked s ∧ Live s.dat 1 ∧ Live s.dat 2 ∧ s.par 1 = some 0 ∧ s.par 2 = some 0 := by
  refine ⟨{ dat := fun n => if n < 3 then some (some ⟨0, n⟩) else none
            par := fun n => if n = 0 then none else some 0
            lft := fun n => if n = 0 then some 1 else none
            rgt := fun n => if n = 0 then some 2 else none
            next := 3, lost := 0, root := some 0, size := 3 }, ⟨?_, ?_, ?_, ?_, ?_⟩, ⟨_, rfl⟩, ⟨_, rfl⟩, rfl, rfl⟩ <;>
    simp only [Live] <;> grind

end Verif.AVL
