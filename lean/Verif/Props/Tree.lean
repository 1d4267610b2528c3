import Verif.TreeWalk

/-!
# Properties of binary trees of any shape (C42, C43, C47–C49)

The trees here are arbitrary: `IsTree s t` and `Rep s pa t` (Spec/Tree.lean) only say that memory
holds a tree.  `Props/AVLTree.lean` and `Props/BinarySearchTree.lean` show that every tree those
classes can reach is one.
-/

namespace Verif.Tree

open Prog

variable {δ : Type}

/-! A concrete tree used to show that the hypotheses below can be met:

```
        4
      /   \
     1     6
      \   /
       2 5
```
-/

/-- The tree of the picture; the data of a node is its address. -/
def exT : T Nat := .node (.node .nil 1 1 (.node .nil 2 2 .nil)) 4 4 (.node (.node .nil 5 5 .nil) 6 6 .nil)

/-- A memory that holds it. -/
def exS : St Nat where
  dat n := if n ∈ [1, 2, 4, 5, 6] then some (some n) else none
  par n := match n with | 1 => some 4 | 2 => some 1 | 5 => some 6 | 6 => some 4 | _ => none
  lft n := match n with | 4 => some 1 | 6 => some 5 | _ => none
  rgt n := match n with | 1 => some 2 | 4 => some 6 | _ => none
  next := 7
  lost := 0
  root := some 4
  size := 5

theorem exS_isTree : IsTree exS exT :=
  ⟨rfl, by simp [exT, exS, Rep, T.root], by decide⟩

/-! ## In-order iteration -/

/-- **C42, any tree shape.**  Iterating from `begin()` to `end()` over a non-empty tree visits
every node exactly once, from left to right, and terminates without changing anything. -/
theorem inorder_iteration {s : St δ} {t : T δ} (h : IsTree s t) (hn : t ≠ .nil) :
    Returns (iterate .ino) s t.inorder s ∧ (t.inorder.map (·.1)).Nodup := by
  refine ⟨?_, T.ptrs_eq t ▸ h.nodup⟩
  unfold iterate Returns
  rw [bind_returns (begin_in h hn (by simp))]
  exact iterIn_ok h

example : IsTree exS exT ∧ exT ≠ .nil ∧ exT.inorder = [(1, 1), (2, 2), (4, 4), (5, 5), (6, 6)] :=
  ⟨exS_isTree, by simp [exT], rfl⟩

/-- **C42, failing case.**  On an empty tree `begin()` dereferences a null pointer. -/
theorem inorder_empty_faults {s : St δ} (h : IsTree s .nil) :
    Faults (begin_ .ino) s .nullDeref ∧ Faults (iterate .ino) s .nullDeref := by
  have := begin_null (s := s) h.root (o := .ino) (by simp)
  exact ⟨this, bind_faults this⟩

example : IsTree { exS with root := none } .nil := ⟨rfl, trivial, by simp [T.ptrs]⟩

/-- `end()` stays `end()` when advanced. -/
theorem next_end (s : St δ) (o : Order) : Returns (nextFn o none) s none s := by
  cases o <;> rfl

/-! ## Pre-order -/

/-- **C47.**  Iteration and traversal in `PreOrder` visit every node of any tree (also the
empty one) exactly once, each node before its left subtree and that before its right subtree,
terminate, and change nothing. -/
theorem preorder_iteration {s : St δ} {t : T δ} (h : IsTree s t) :
    Returns (iterate .pre) s t.preorder s ∧ Returns (traversal .pre) s t.preorder s ∧
      (t.preorder.map (·.1)).Nodup ∧ t.preorder.Perm t.inorder := by
  refine ⟨?_, ?_, ?_, t.preorder_perm⟩
  · unfold iterate Returns
    rw [bind_returns (begin_pre h)]
    exact iterPre_ok h
  · unfold traversal Returns
    rw [bind_returns (show Returns getRoot s s.root s from rfl), h.root]
    exact preTraversal_ok h.rep
  · rw [(t.preorder_perm.map _).nodup_iff, ← T.ptrs_eq]; exact h.nodup

example : IsTree exS exT ∧ exT.preorder = [(4, 4), (1, 1), (2, 2), (6, 6), (5, 5)] :=
  ⟨exS_isTree, rfl⟩

/-! ## Post-order and `traversal` -/

theorem leftOnly_post {t : T δ} (h : t.leftOnly) : t.postorder = t.inorder := by
  induction t with
  | nil => rfl
  | node l p d r ihl _ =>
    obtain ⟨rfl, h⟩ := h
    simp [T.postorder, T.inorder, ihl h]

theorem leftOnly_sub {c : Ctx δ} {l r : T δ} {p : Nat} {d : δ}
    (h : (c.plug (.node l p d r)).leftOnly) : r = .nil := by
  have : ∀ (c : Ctx δ) (t : T δ), (c.plug t).leftOnly → t.leftOnly := by
    intro c
    induction c with
    | top => exact fun t h => h
    | left c p d r ih => exact fun t h => (ih _ h).2
    | right c l p d ih => intro t h; rw [(ih _ h).1]; trivial
  exact (this c _ h).1

/-- Some node has a right child. -/
theorem exists_right {t : T δ} (h : ¬ t.leftOnly) :
    ∃ (c : Ctx δ) (l r : T δ) (p : Nat) (d : δ), t = c.plug (.node l p d r) ∧ r ≠ .nil := by
  have : ∀ (t : T δ), ¬ t.leftOnly → ∀ c0 : Ctx δ,
      ∃ (c : Ctx δ) (l r : T δ) (p : Nat) (d : δ), c0.plug t = c.plug (.node l p d r) ∧ r ≠ .nil := by
    intro t
    induction t with
    | nil => intro h; exact absurd trivial h
    | node l p d r ihl _ =>
      intro h c0
      by_cases hr : r = .nil
      · have hl : ¬ l.leftOnly := fun x => h ⟨hr, x⟩
        exact ihl hl (.left c0 p d r)
      · exact ⟨c0, l, r, p, d, rfl, hr⟩
  exact this t h .top

theorem plug_postorder (c : Ctx δ) (t : T δ) :
    ∃ xs ys, (c.plug t).postorder = xs ++ t.postorder ++ ys := by
  induction c generalizing t with
  | top => exact ⟨[], [], by simp [Ctx.plug]⟩
  | left c p d r ih =>
    obtain ⟨xs, ys, e⟩ := ih (.node t p d r)
    exact ⟨xs, r.postorder ++ [(p, d)] ++ ys, by rw [Ctx.plug, e]; simp [T.postorder]⟩
  | right c l p d ih =>
    obtain ⟨xs, ys, e⟩ := ih (.node l p d t)
    exact ⟨xs ++ l.postorder, [(p, d)] ++ ys, by rw [Ctx.plug, e]; simp [T.postorder]⟩

/-- One step of an iteration. -/
theorem iterFrom_step {o : Order} {s : St δ} {p : Nat} {d : δ} {q : Ptr} {L : List (Nat × δ)}
    (hd : s.dat p = some (some d)) (hq : Returns (nextFn o (some p)) s q s)
    (hL : Returns (iterFrom o q) s L s) : Returns (iterFrom o (some p)) s ((p, d) :: L) s := by
  unfold Returns iterFrom
  rw [if_neg (by simp), bind_returns (touch_ok ⟨d, hd⟩), bind_returns (getData_ok hd),
    bind_returns hq, bind_returns hL]
  rfl

/-- Post-order iteration from any node terminates. -/
theorem iterPost_returns {s : St δ} {t : T δ} (h : IsTree s t) : ∀ (ys xs : List (Nat × δ)) (p : Nat) (d : δ),
    t.inorder = xs ++ (p, d) :: ys → ∃ L, Returns (iterFrom .post (some p)) s ((p, d) :: L) s := by
  have key : ∀ (k : Nat) (ys xs : List (Nat × δ)) (p : Nat) (d : δ), ys.length < k →
      t.inorder = xs ++ (p, d) :: ys → ∃ L, Returns (iterFrom .post (some p)) s ((p, d) :: L) s := by
    intro k
    induction k with
    | zero => intro ys xs p d hk; omega
    | succ k ih =>
      intro ys xs p d hk e
      obtain ⟨c, l, r, e1, e2, e3⟩ := split_in .top e
      simp only [Ctx.plug, Ctx.after, Ctx.before, List.append_nil, List.nil_append] at e1 e2 e3
      have hat := (e1 ▸ h : IsTree s (c.plug (.node l p d r))).at
      have hdat := hat.dat
      obtain ⟨n1, n2⟩ := nextPost_at hat
      by_cases hr : r = .nil
      · have hq := n1 hr
        subst hr
        cases hca : c.after with
        | nil =>
          rw [hca] at hq
          exact ⟨[], iterFrom_step hdat hq (iterFrom_none _ s)⟩
        | cons a ca =>
          obtain ⟨q, f⟩ := a
          rw [hca] at hq
          have hys : ys = (q, f) :: ca := by rw [e3, hca]; rfl
          obtain ⟨L, hL⟩ := ih ca (xs ++ [(p, d)]) q f (by rw [hys] at hk; simp at hk; omega)
            (by rw [e, hys]; simp)
          exact ⟨_, iterFrom_step hdat hq hL⟩
      · obtain ⟨q, hq, hr'⟩ := n2 hr
        rw [T.ptrs_eq, List.mem_map] at hq
        obtain ⟨⟨q', f⟩, hq, rfl⟩ := hq
        obtain ⟨us, vs, huv⟩ := List.append_of_mem hq
        have hys : ys = us ++ (q', f) :: (vs ++ c.after) := by rw [e3, huv]; simp
        obtain ⟨L, hL⟩ := ih (vs ++ c.after) (xs ++ (p, d) :: us) q' f
          (by rw [hys] at hk; simp at hk ⊢; omega) (by rw [e, hys]; simp)
        exact ⟨_, iterFrom_step hdat hr' hL⟩
  intro ys xs p d e
  exact key _ ys xs p d (Nat.lt_succ_self _) e

/-- In a finished iteration each element is followed by its successor. -/
theorem iterFrom_next {o : Order} {s : St δ} {b : Ptr} {xs ys : List (Nat × δ)} {p : Nat} {d : δ}
    (hpure : ∀ n ∈ (xs ++ (p, d) :: ys).map (·.1), ∃ q, Returns (nextFn o (some n)) s q s)
    (h : Returns (iterFrom o b) s (xs ++ (p, d) :: ys) s) :
    Returns (nextFn o (some p)) s (hd ys) s := by
  have key : ∀ (L : List (Nat × δ)) (b : Ptr), (∀ n ∈ L.map (·.1), ∃ q, Returns (nextFn o (some n)) s q s) →
      Returns (iterFrom o b) s L s → b = hd L ∧
      ∀ xs p d ys, L = xs ++ (p, d) :: ys → Returns (nextFn o (some p)) s (hd ys) s := by
    intro L
    induction L with
    | nil =>
      intro b _ h
      refine ⟨?_, fun xs p d ys e => by simp at e⟩
      cases b with
      | none => rfl
      | some n =>
        exfalso
        unfold Returns iterFrom at h
        rw [if_neg (by simp)] at h
        obtain ⟨_, _, _, h⟩ := (wp_bind _ _ (fun L _ => L = []) s).1 ⟨_, _, h, rfl⟩
        obtain ⟨_, _, _, h⟩ := (wp_bind _ _ _ _).1 h
        obtain ⟨_, _, _, h⟩ := (wp_bind _ _ _ _).1 h
        obtain ⟨_, _, _, h⟩ := (wp_bind _ _ _ _).1 h
        exact absurd ((wp_pure _ _ _).1 h) (by simp)
    | cons a L ih =>
      intro b hp h
      cases b with
      | none => rw [Returns, iterFrom] at h; cases h
      | some n =>
        unfold Returns iterFrom at h
        rw [if_neg (by simp)] at h
        obtain ⟨m, s1, g1, h⟩ := (wp_bind _ _ (fun L' s' => L' = a :: L ∧ s' = s) s).1 ⟨_, _, h, rfl, rfl⟩
        have hm : m = n ∧ s1 = s := by
          unfold touch at g1
          rcases hx : s.dat n with _ | _ | x <;> simp [hx] at g1
          exact ⟨g1.1.symm, g1.2.symm⟩
        obtain ⟨rfl, rfl⟩ := hm
        obtain ⟨d, s2, g2, h⟩ := (wp_bind _ _ _ _).1 h
        have hs2 : s2 = s1 := by
          unfold getData at g2
          rcases hx : s1.dat m with _ | _ | x <;> simp [hx] at g2
          exact g2.2.symm
        subst hs2
        obtain ⟨q, s3, g3, h⟩ := (wp_bind _ _ _ _).1 h
        obtain ⟨L', s4, g4, h⟩ := (wp_bind _ _ _ _).1 h
        obtain ⟨h1, rfl⟩ := (wp_pure _ _ _).1 h
        simp only [List.cons.injEq] at h1
        obtain ⟨rfl, rfl⟩ := h1
        obtain ⟨q', hq'⟩ := hp m (by simp)
        obtain ⟨rfl, rfl⟩ := hq'.det g3
        obtain ⟨e1, e2⟩ := ih q' (fun n hn => hp n (by simp at hn ⊢; exact Or.inr hn)) g4
        refine ⟨rfl, fun xs p d' ys e => ?_⟩
        cases xs with
        | nil =>
          simp at e
          obtain ⟨⟨rfl, rfl⟩, rfl⟩ := e
          rw [← e1]; exact hq'
        | cons x xs =>
          simp at e
          exact e2 xs p d' ys e.2
  exact (key _ b hpure h).2 xs p d ys rfl

/-- **C48, iteration** (the exact condition).  Iteration in `PostOrder` over a non-empty tree
always terminates, but visits the nodes in post-order exactly when no node has a right child. -/
theorem postorder_iteration_partial {s : St δ} {t : T δ} (h : IsTree s t) (hn : t ≠ .nil) :
    ∃ L, Returns (iterate .post) s L s ∧ (L = t.postorder ↔ t.leftOnly) := by
  obtain ⟨⟨p, d⟩, ys, e⟩ : ∃ a ys, t.inorder = a :: ys := by
    cases t with
    | nil => exact absurd rfl hn
    | node l p d r => cases hl : l.inorder <;> simp [T.inorder, hl]
  obtain ⟨L, hL⟩ := iterPost_returns h ys [] p d e
  have hb := begin_in h hn (o := .post) (by simp)
  rw [e] at hb
  have hit : Returns (iterate .post) s ((p, d) :: L) s := by
    unfold iterate Returns; rw [bind_returns hb]; exact hL
  refine ⟨_, hit, ?_, ?_⟩
  · intro hpost
    apply Classical.byContradiction
    intro hlo
    obtain ⟨c, l, r, p', d', e1, hr⟩ := exists_right hlo
    have hat := (e1 ▸ h : IsTree s (c.plug (.node l p' d' r))).at
    obtain ⟨m, hm, hnext⟩ := (nextPost_at hat).2 hr
    obtain ⟨us, vs, huv⟩ := plug_postorder c (.node l p' d' r)
    rw [← e1] at huv
    simp only [T.postorder] at huv
    have hsplit : (p, d) :: L = (us ++ (l.postorder ++ r.postorder)) ++ (p', d') :: vs := by
      rw [hpost, huv]; simp
    rw [hsplit] at hL
    have hnx := iterFrom_next (o := .post) (fun n hn => ?_) hL
    · obtain ⟨e2, _⟩ := hnx.det hnext
      have hmr : m ∈ r.postorder.map (·.1) := by
        rw [(r.postorder_perm.map _).mem_iff, ← T.ptrs_eq]; exact hm
      have hmv : m ∈ vs.map (·.1) := by
        cases vs with
        | nil => cases e2
        | cons v vs => cases e2; simp
      have hnd : (t.postorder.map (·.1)).Nodup := by
        rw [(t.postorder_perm.map _).nodup_iff, ← T.ptrs_eq]; exact h.nodup
      rw [huv] at hnd
      simp only [List.map_append, List.nodup_append] at hnd
      exact hnd.2.2 m (by simp only [List.mem_append]; exact Or.inr (Or.inl (Or.inr hmr))) m hmv rfl
    · rw [← hsplit, hpost, (t.postorder_perm.map _).mem_iff, List.mem_map] at hn
      obtain ⟨⟨n, f⟩, hn, rfl⟩ := hn
      obtain ⟨xs, zs, e5⟩ := List.append_of_mem hn
      obtain ⟨c2, l2, r2, e6, _, _⟩ := split_in .top e5
      have hat2 := (e6 ▸ (show IsTree s (Ctx.top.plug t) from h) : IsTree s (c2.plug (.node l2 n f r2))).at
      by_cases hr2 : r2 = .nil
      · exact ⟨_, (nextPost_at hat2).1 hr2⟩
      · obtain ⟨q, _, hq⟩ := (nextPost_at hat2).2 hr2
        exact ⟨_, hq⟩
  · intro hlo
    rw [leftOnly_post hlo]
    have : Returns (iterFrom .post (hd t.inorder)) s t.inorder s := by
      refine iterFrom_ok fun xs q f zs e5 => ?_
      obtain ⟨c2, l2, r2, e6, _, e7⟩ := split_in .top e5
      simp only [Ctx.plug, Ctx.after, List.append_nil] at e6 e7
      have hat2 := (e6 ▸ h : IsTree s (c2.plug (.node l2 q f r2))).at
      have hr2 : r2 = .nil := leftOnly_sub (e6 ▸ hlo)
      refine ⟨hat2.dat, ?_⟩
      have := (nextPost_at hat2).1 hr2
      rw [e7, hr2]; exact this
    rw [e] at this ⊢
    exact (hL.det this).1

example : IsTree exS exT ∧ exT ≠ .nil ∧ ¬ exT.leftOnly ∧
    exT.postorder = [(2, 2), (1, 1), (5, 5), (6, 6), (4, 4)] :=
  ⟨exS_isTree, by simp [exT], by simp [exT, T.leftOnly], rfl⟩

/-- A left spine in memory: post-order iteration is right here. -/
example : ∃ s : St Nat, IsTree s (.node (.node .nil 1 10 .nil) 2 20 .nil) ∧
    (T.node (.node .nil 1 10 .nil) 2 20 .nil : T Nat).leftOnly := by
  refine ⟨⟨fun n => if n = 1 then some (some 10) else if n = 2 then some (some 20) else none,
    fun n => if n = 1 then some 2 else none, fun n => if n = 2 then some 1 else none, fun _ => none,
    3, 0, some 2, 2⟩, ⟨rfl, by simp [Rep, T.root], by decide⟩, by simp [T.leftOnly]⟩

/-- The leftmost node of a tree, with its right subtree. -/
theorem leftmost_sub {s : St δ} {pa : Ptr} {t : T δ} (h : Rep s pa t) (hn : t ≠ .nil) :
    ∃ p d r pa', Rep s pa' (.node .nil p d r) ∧ Returns (leftmost t.root) s (some p) s ∧
      (T.node .nil p d r).count ≤ t.count ∧
      ((T.node .nil p d r).count = t.count → t = .node .nil p d r) := by
  induction t generalizing pa with
  | nil => exact absurd rfl hn
  | node l p d r ihl _ =>
    obtain ⟨h1, h2, h3, h4, h5, h6⟩ := h
    cases l with
    | nil =>
      refine ⟨p, d, r, pa, ⟨h1, h2, h3, h4, h5, h6⟩, ?_, Nat.le_refl _, fun _ => rfl⟩
      simp only [T.root]
      unfold leftmost Returns
      rw [bind_returns (getLeft_ok ⟨d, h1⟩), h3]; rfl
    | node a q e b =>
      obtain ⟨p', d', r', pa', g1, g2, g3, _⟩ := ihl h5 (by simp)
      refine ⟨p', d', r', pa', g1, ?_, ?_, ?_⟩
      · simp only [T.root] at g2 ⊢
        unfold leftmost Returns
        rw [bind_returns (getLeft_ok ⟨d, h1⟩), h3, if_pos (by simp [T.root])]
        exact g2
      · have : (T.node (.node a q e b) p d r).count = (T.node a q e b).count + r.count + 1 := rfl
        omega
      · have : (T.node (.node a q e b) p d r).count = (T.node a q e b).count + r.count + 1 := rfl
        intro h; omega

/-- **C48, traversal** (the exact condition).  `traversal(cb, InOrder)` and
`traversal(cb, PostOrder)` start at the leftmost node instead of the root: on a non-empty tree
they terminate, and visit the nodes in the named order exactly when the root has no left child. -/
theorem traversal_partial {s : St δ} {t : T δ} (h : IsTree s t) (hn : t ≠ .nil) :
    (∃ L, Returns (traversal .ino) s L s ∧ (L = t.inorder ↔ ∃ p d r, t = .node .nil p d r)) ∧
    (∃ L, Returns (traversal .post) s L s ∧ (L = t.postorder ↔ ∃ p d r, t = .node .nil p d r)) := by
  obtain ⟨p, d, r, pa, g1, g2, g3, g4⟩ := leftmost_sub h.rep hn
  have hf : ∀ o : Order, o ≠ .pre → Returns (firstNode s.root o) s (some p) s := by
    intro o ho
    unfold firstNode
    rw [if_pos ho, h.root]; exact g2
  have uniq : ∀ p' d' r', t = .node .nil p' d' r' → t = .node .nil p d r := by
    rintro p' d' r' rfl
    have : some p = some p' := by
      have e : Returns (leftmost (some p')) s (some p') s := by
        unfold leftmost Returns
        rw [bind_returns (getLeft_ok ⟨d', h.rep.1⟩), h.rep.2.2.1]; rfl
      exact (g2.det e).1
    cases this
    obtain ⟨a1, a2, a3, a4, a5, a6⟩ := h.rep
    obtain ⟨b1, b2, b3, b4, b5, b6⟩ := g1
    have hd' : d = d' := by rw [a1] at b1; cases b1; rfl
    have hr' : ∀ (x y : T δ) (pa pb : Ptr), Rep s pa x → Rep s pb y → x.root = y.root → x = y := by
      intro x
      induction x with
      | nil => intro y pa pb _ _ e; exact (T.root_none.1 e.symm).symm
      | node l q f r ihl ihr =>
        intro y pa pb hx hy e
        cases y with
        | nil => cases e
        | node l' q' f' r' =>
          cases e
          obtain ⟨x1, _, x3, x4, x5, x6⟩ := hx
          obtain ⟨y1, _, y3, y4, y5, y6⟩ := hy
          rw [x1] at y1; cases y1
          rw [ihl l' _ _ x5 y5 (x3.symm.trans y3), ihr r' _ _ x6 y6 (x4.symm.trans y4)]
    rw [hd', hr' r' r _ _ a6 b6 (a4.symm.trans b4)]
  have hcount : ∀ L : List (Nat × δ), L.Perm (T.node .nil p d r).inorder → L.Perm t.inorder →
      t = .node .nil p d r := by
    intro L h1 h2
    have := (h1.symm.trans h2).length_eq
    rw [← T.count_eq, ← T.count_eq] at this
    exact g4 this
  refine ⟨⟨(T.node .nil p d r).inorder, ?_, ?_, ?_⟩, ⟨(T.node .nil p d r).postorder, ?_, ?_, ?_⟩⟩
  · unfold traversal Returns
    rw [bind_returns (show Returns getRoot s s.root s from rfl), bind_returns (hf .ino (by simp))]
    exact inTraversal_ok g1
  · intro e; exact ⟨p, d, r, hcount _ (.refl _) (by rw [← e])⟩
  · rintro ⟨p', d', r', e⟩; rw [← uniq p' d' r' e]
  · unfold traversal Returns
    rw [bind_returns (show Returns getRoot s s.root s from rfl), bind_returns (hf .post (by simp))]
    exact postTraversal_ok g1
  · intro e
    exact ⟨p, d, r, hcount _ (T.postorder_perm _) (by rw [e]; exact t.postorder_perm)⟩
  · rintro ⟨p', d', r', e⟩; rw [← uniq p' d' r' e]

example : IsTree exS exT ∧ exT ≠ .nil ∧ ¬ ∃ p d r, exT = .node .nil p d r :=
  ⟨exS_isTree, by simp [exT], by simp [exT]⟩

/-- **C48, failing case.**  On an empty tree they dereference a null pointer. -/
theorem traversal_empty_faults {s : St δ} (h : IsTree s .nil) :
    Faults (traversal .ino) s .nullDeref ∧ Faults (traversal .post) s .nullDeref ∧
    Faults (iterate .post) s .nullDeref := by
  have key : Faults (leftmost none : Prog (St δ) Ptr) s .nullDeref := by unfold leftmost; rfl
  have hf : ∀ o : Order, o ≠ .pre → Faults (firstNode s.root o) s .nullDeref := by
    intro o ho
    unfold firstNode
    rw [if_pos ho, h.root]; exact key
  refine ⟨?_, ?_, bind_faults (begin_null (s := s) h.root (o := .post) (by simp))⟩
  · unfold traversal Faults
    rw [bind_returns (show Returns getRoot s s.root s from rfl)]
    exact bind_faults (hf .ino (by simp))
  · unfold traversal Faults
    rw [bind_returns (show Returns getRoot s s.root s from rfl)]
    exact bind_faults (hf .post (by simp))

/-! ## Rotations -/

/-- **C49, left.**  Let the tree `t` have its root under any parent and let the root have a right
child.  `left_rotate` returns the root of a tree `t'` with the same nodes in the same in-order
sequence, consistent parent and child links, and the same parent; nothing outside changes. -/
theorem left_rotation {s : St δ} {pa : Ptr} {a b c : T δ} {p q : Nat} {d e : δ}
    (h : Rep s pa (.node a p d (.node b q e c)))
    (hn : (T.node a p d (.node b q e c)).ptrs.Nodup) :
    ∃ (s' : St δ) (t' : T δ), Returns (leftRotate (some p)) s t'.root s' ∧ Rep s' pa t' ∧
      t'.inorder = (T.node a p d (.node b q e c)).inorder ∧
      t' = .node (.node a p d b) q e c ∧ s'.root = s.root ∧ s'.size = s.size ∧
      ∀ n, n ∉ (T.node a p d (.node b q e c)).ptrs →
        s'.dat n = s.dat n ∧ s'.par n = s.par n ∧ s'.lft n = s.lft n ∧ s'.rgt n = s.rgt n := by
  obtain ⟨x, s', h1, rfl, h2, h3, _, h4⟩ := leftRotate_ok h hn
  exact ⟨s', .node (.node a p d b) q e c, h1, h2, by simp [T.inorder], rfl, h3.root, h3.size,
    fun n hn => ⟨(h4 n hn).dat, (h4 n hn).par, (h4 n hn).lft, (h4 n hn).rgt⟩⟩

/-- **C49, right.** -/
theorem right_rotation {s : St δ} {pa : Ptr} {a b c : T δ} {p q : Nat} {d e : δ}
    (h : Rep s pa (.node (.node a q e b) p d c))
    (hn : (T.node (.node a q e b) p d c).ptrs.Nodup) :
    ∃ (s' : St δ) (t' : T δ), Returns (rightRotate (some p)) s t'.root s' ∧ Rep s' pa t' ∧
      t'.inorder = (T.node (.node a q e b) p d c).inorder ∧
      t' = .node a q e (.node b p d c) ∧ s'.root = s.root ∧ s'.size = s.size ∧
      ∀ n, n ∉ (T.node (.node a q e b) p d c).ptrs →
        s'.dat n = s.dat n ∧ s'.par n = s.par n ∧ s'.lft n = s.lft n ∧ s'.rgt n = s.rgt n := by
  obtain ⟨x, s', h1, rfl, h2, h3, _, h4⟩ := rightRotate_ok h hn
  exact ⟨s', .node a q e (.node b p d c), h1, h2, by simp [T.inorder], rfl, h3.root, h3.size,
    fun n hn => ⟨(h4 n hn).dat, (h4 n hn).par, (h4 n hn).lft, (h4 n hn).rgt⟩⟩

example : Rep exS none (.node (.node .nil 1 1 (.node .nil 2 2 .nil)) 4 4 (.node (.node .nil 5 5 .nil) 6 6 .nil)) ∧
    (T.node (.node .nil 1 1 (.node .nil 2 2 .nil)) 4 4 (.node (.node .nil 5 5 .nil) 6 6 .nil) : T Nat).ptrs.Nodup :=
  ⟨exS_isTree.rep, by decide⟩

/-- **C49, rotation of a subtree inside a tree.**  Rotating the subtree at any node of a tree and
storing the result in the link that led to that node gives again a tree, with the same in-order
sequence. -/
theorem left_rotation_inside {s : St δ} {x : Ctx δ} {a b c : T δ} {p q : Nat} {d e : δ}
    (h : IsTree s (x.plug (.node a p d (.node b q e c)))) :
    ∃ s', Returns (leftRotate (some p)) s (some q) s' ∧
      ∀ s'', (∀ n, s''.dat n = s'.dat n ∧ s''.par n = s'.par n) →
        (match x with
         | .top => s''.root = some q ∧ s''.lft = s'.lft ∧ s''.rgt = s'.rgt
         | .left _ m _ _ => s''.root = s'.root ∧ s''.lft = upd s'.lft m (some q) ∧ s''.rgt = s'.rgt
         | .right _ _ m _ => s''.root = s'.root ∧ s''.rgt = upd s'.rgt m (some q) ∧ s''.lft = s'.lft) →
        ∃ t', IsTree s'' t' ∧ t'.inorder = (x.plug (.node a p d (.node b q e c))).inorder := by
  obtain ⟨n1, n2, n3⟩ := Ctx.nodup_plug.1 h.nodup
  obtain ⟨h1, h2⟩ := rep_plug.1 ⟨h.root, h.rep⟩
  obtain ⟨y, s', e1, rfl, e2, e3, _, e4⟩ := leftRotate_ok h1 n1
  refine ⟨s', e1, fun s'' k1 k2 => ⟨x.plug (.node (.node a p d b) q e c), ?_, ?_⟩⟩
  · have hnd : (x.plug (.node (.node a p d b) q e c)).ptrs.Nodup := by
      have : (x.plug (.node (.node a p d b) q e c)).ptrs = (x.plug (.node a p d (.node b q e c))).ptrs := by
        simp [T.ptrs_eq, Ctx.inorder_plug, T.inorder]
      rw [this]; exact h.nodup
    obtain ⟨m1, m2, m3⟩ := Ctx.nodup_plug.1 hnd
    have hin : ∀ n ∈ (T.node (.node a p d b) q e c).ptrs, n ∉ x.ptrs := m3
    have hrep : Rep s'' x.ptr (.node (.node a p d b) q e c) := by
      refine e2.congr fun n hn => ⟨(k1 n).1, (k1 n).2, ?_, ?_⟩
      · cases x with
        | top => rw [k2.2.1]
        | left c' m f r' =>
          rw [k2.2.1, upd_ne _ _ (fun e => hin n hn (by simp [Ctx.ptrs, e]))]
        | right c' l' m f => rw [k2.2.2]
      · cases x with
        | top => rw [k2.2.2]
        | left c' m f r' => rw [k2.2.2]
        | right c' l' m f =>
          rw [k2.2.1, upd_ne _ _ (fun e => hin n hn (by simp [Ctx.ptrs, e]))]
    have hout : ∀ n ∈ x.ptrs, SameAt s s' n := fun n hn => e4 n fun hx => n3 n hx hn
    have hc : CRep s'' x (some q) := by
      cases x with
      | top => exact k2.1
      | left c' m f r' =>
        obtain ⟨a1, a2, a3, a4, a5, a6⟩ := h2.congr hout e3.root
        simp only [Ctx.ptrs, List.nodup_cons, List.mem_append, not_or] at n2
        refine ⟨(k1 m).1.trans a1, (k1 m).2.trans a2, by rw [k2.2.1]; simp, by rw [k2.2.2]; exact a4, ?_, ?_⟩
        · refine a5.congr fun n hn => ⟨(k1 n).1, (k1 n).2, ?_, by rw [k2.2.2]⟩
          rw [k2.2.1, upd_ne _ _ (fun e => n2.1.1 (by rw [← e]; exact hn))]
        · refine a6.congr (fun n hn => ⟨(k1 n).1, (k1 n).2, ?_, by rw [k2.2.2]⟩) k2.1
          rw [k2.2.1, upd_ne _ _ (fun e => n2.1.2 (by rw [← e]; exact hn))]
      | right c' l' m f =>
        obtain ⟨a1, a2, a3, a4, a5, a6⟩ := h2.congr hout e3.root
        simp only [Ctx.ptrs, List.nodup_cons, List.mem_append, not_or] at n2
        refine ⟨(k1 m).1.trans a1, (k1 m).2.trans a2, by rw [k2.2.2]; exact a3, by rw [k2.2.1]; simp, ?_, ?_⟩
        · refine a5.congr fun n hn => ⟨(k1 n).1, (k1 n).2, by rw [k2.2.2], ?_⟩
          rw [k2.2.1, upd_ne _ _ (fun e => n2.1.1 (by rw [← e]; exact hn))]
        · refine a6.congr (fun n hn => ⟨(k1 n).1, (k1 n).2, by rw [k2.2.2], ?_⟩) k2.1
          rw [k2.2.1, upd_ne _ _ (fun e => n2.1.2 (by rw [← e]; exact hn))]
    obtain ⟨r1, r2⟩ := rep_plug.2 ⟨hrep, hc⟩
    exact ⟨r1, r2, hnd⟩
  · simp [Ctx.inorder_plug, T.inorder]

/-- **C49, the mirror image of `left_rotation_inside`.** -/
theorem right_rotation_inside {s : St δ} {x : Ctx δ} {a b c : T δ} {p q : Nat} {d e : δ}
    (h : IsTree s (x.plug (.node (.node a q e b) p d c))) :
    ∃ s', Returns (rightRotate (some p)) s (some q) s' ∧
      ∀ s'', (∀ n, s''.dat n = s'.dat n ∧ s''.par n = s'.par n) →
        (match x with
         | .top => s''.root = some q ∧ s''.lft = s'.lft ∧ s''.rgt = s'.rgt
         | .left _ m _ _ => s''.root = s'.root ∧ s''.lft = upd s'.lft m (some q) ∧ s''.rgt = s'.rgt
         | .right _ _ m _ => s''.root = s'.root ∧ s''.rgt = upd s'.rgt m (some q) ∧ s''.lft = s'.lft) →
        ∃ t', IsTree s'' t' ∧ t'.inorder = (x.plug (.node (.node a q e b) p d c)).inorder := by
  obtain ⟨n1, n2, n3⟩ := Ctx.nodup_plug.1 h.nodup
  obtain ⟨h1, h2⟩ := rep_plug.1 ⟨h.root, h.rep⟩
  obtain ⟨y, s', e1, rfl, e2, e3, _, e4⟩ := rightRotate_ok h1 n1
  refine ⟨s', e1, fun s'' k1 k2 => ⟨x.plug (.node a q e (.node b p d c)), ?_, ?_⟩⟩
  · have hnd : (x.plug (.node a q e (.node b p d c))).ptrs.Nodup := by
      have : (x.plug (.node a q e (.node b p d c))).ptrs = (x.plug (.node (.node a q e b) p d c)).ptrs := by
        simp [T.ptrs_eq, Ctx.inorder_plug, T.inorder]
      rw [this]; exact h.nodup
    obtain ⟨m1, m2, m3⟩ := Ctx.nodup_plug.1 hnd
    have hin : ∀ n ∈ (T.node a q e (.node b p d c)).ptrs, n ∉ x.ptrs := m3
    have hrep : Rep s'' x.ptr (.node a q e (.node b p d c)) := by
      refine e2.congr fun n hn => ⟨(k1 n).1, (k1 n).2, ?_, ?_⟩
      · cases x with
        | top => rw [k2.2.1]
        | left c' m f r' =>
          rw [k2.2.1, upd_ne _ _ (fun e => hin n hn (by simp [Ctx.ptrs, e]))]
        | right c' l' m f => rw [k2.2.2]
      · cases x with
        | top => rw [k2.2.2]
        | left c' m f r' => rw [k2.2.2]
        | right c' l' m f =>
          rw [k2.2.1, upd_ne _ _ (fun e => hin n hn (by simp [Ctx.ptrs, e]))]
    have hout : ∀ n ∈ x.ptrs, SameAt s s' n := fun n hn => e4 n fun hx => n3 n hx hn
    have hc : CRep s'' x (some q) := by
      cases x with
      | top => exact k2.1
      | left c' m f r' =>
        obtain ⟨a1, a2, a3, a4, a5, a6⟩ := h2.congr hout e3.root
        simp only [Ctx.ptrs, List.nodup_cons, List.mem_append, not_or] at n2
        refine ⟨(k1 m).1.trans a1, (k1 m).2.trans a2, by rw [k2.2.1]; simp, by rw [k2.2.2]; exact a4, ?_, ?_⟩
        · refine a5.congr fun n hn => ⟨(k1 n).1, (k1 n).2, ?_, by rw [k2.2.2]⟩
          rw [k2.2.1, upd_ne _ _ (fun e => n2.1.1 (by rw [← e]; exact hn))]
        · refine a6.congr (fun n hn => ⟨(k1 n).1, (k1 n).2, ?_, by rw [k2.2.2]⟩) k2.1
          rw [k2.2.1, upd_ne _ _ (fun e => n2.1.2 (by rw [← e]; exact hn))]
      | right c' l' m f =>
        obtain ⟨a1, a2, a3, a4, a5, a6⟩ := h2.congr hout e3.root
        simp only [Ctx.ptrs, List.nodup_cons, List.mem_append, not_or] at n2
        refine ⟨(k1 m).1.trans a1, (k1 m).2.trans a2, by rw [k2.2.2]; exact a3, by rw [k2.2.1]; simp, ?_, ?_⟩
        · refine a5.congr fun n hn => ⟨(k1 n).1, (k1 n).2, by rw [k2.2.2], ?_⟩
          rw [k2.2.1, upd_ne _ _ (fun e => n2.1.1 (by rw [← e]; exact hn))]
        · refine a6.congr (fun n hn => ⟨(k1 n).1, (k1 n).2, by rw [k2.2.2], ?_⟩) k2.1
          rw [k2.2.1, upd_ne _ _ (fun e => n2.1.2 (by rw [← e]; exact hn))]
    obtain ⟨r1, r2⟩ := rep_plug.2 ⟨hrep, hc⟩
    exact ⟨r1, r2, hnd⟩
  · simp [Ctx.inorder_plug, T.inorder]

/-! ## Releasing -/

/-- **C43, any tree shape.**  `clear` (and the destructor, which does the same) runs without
fault, so no node is touched after its release or released twice; afterwards every node of the
tree is released, none was lost, all other memory is as before, and the object is empty. -/
theorem clear_releases {s : St δ} {t : T δ} (h : IsTree s t) :
    ∃ s', Returns clear s () s' ∧ IsTree s' .nil ∧ s'.size = 0 ∧ s'.lost = s.lost ∧
      (∀ n ∈ t.ptrs, s'.dat n = none) ∧ ∀ n, n ∉ t.ptrs → s'.dat n = s.dat n := by
  obtain ⟨_, s', h1, h2, h3, _, h5, h6, h7⟩ := clear_ok h
  exact ⟨s', h1, ⟨h2, trivial, by simp [T.ptrs]⟩, h3, h5, h6, fun n hn => (h7 n hn).dat⟩

example : IsTree exS exT ∧ exT.ptrs = [1, 2, 4, 5, 6] := ⟨exS_isTree, rfl⟩

/-- `tree::height` is the height of the tree. -/
theorem height_exact {s : St δ} {t : T δ} (h : IsTree s t) :
    Returns (height s.root) s (t.height : Int) s := by
  rw [h.root]; exact height_ok h.rep

example : IsTree exS exT ∧ exT.height = 3 := ⟨exS_isTree, rfl⟩

end Verif.Tree
