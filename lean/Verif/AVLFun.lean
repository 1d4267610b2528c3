import Verif.AVLTree
import Verif.TreeWalk

/-!
# The AVL operations as functions on trees

Helper definitions for the proofs: what the pointer operations of `AVLTree.lean` do to the tree
in memory, and that these functions keep the balance and the elements.
-/

namespace Verif.AVL

open Prog Verif.Tree

variable {α : Type}

abbrev Tr (α : Type) := T (D α)

/-- Stored height. -/
def ht : Tr α → Int
  | .nil => 0
  | .node _ _ d _ => d.height

/-- The stored heights are right and differ by at most one between siblings. -/
def Avl : Tr α → Prop
  | .nil => True
  | .node l _ d r => Avl l ∧ Avl r ∧ d.height = max (ht l) (ht r) + 1 ∧
      ht l - ht r ≤ 1 ∧ ht r - ht l ≤ 1

@[simp] theorem ht_nil : ht (.nil : Tr α) = 0 := rfl
@[simp] theorem ht_node (l r : Tr α) (p : Nat) (d : D α) : ht (.node l p d r) = d.height := rfl

theorem maxI_eq (a b : Int) : maxI a b = max a b := by
  unfold maxI Utils.max
  simp only [decide_eq_true_eq]
  split <;> omega

theorem ht_nonneg {t : Tr α} (h : Avl t) : 0 ≤ ht t := by
  induction t with
  | nil => simp [ht]
  | node l p d r ihl ihr =>
    obtain ⟨h1, h2, h3, _⟩ := h
    have := ihl h1
    have := ihr h2
    simp only [ht_node]
    omega

theorem ht_pos {l r : Tr α} {p : Nat} {d : D α} (h : Avl (.node l p d r)) : 1 ≤ d.height := by
  obtain ⟨h1, h2, h3, _⟩ := h
  have := ht_nonneg h1
  have := ht_nonneg h2
  omega

theorem exists_node {t : Tr α} (h : 1 ≤ ht t) : ∃ l p d r, t = .node l p d r := by
  cases t with
  | nil => simp [ht] at h
  | node l p d r => exact ⟨l, p, d, r, rfl⟩

theorem ht_height {t : Tr α} (h : Avl t) : ht t = (t.height : Int) := by
  induction t with
  | nil => rfl
  | node l p d r ihl ihr =>
    obtain ⟨h1, h2, h3, _⟩ := h
    have := ihl h1
    have := ihr h2
    simp only [ht_node, T.height]
    omega

/-- Data with another height. -/
def setH (d : D α) (h : Int) : D α := { d with height := h }

@[simp] theorem setH_height (d : D α) (h : Int) : (setH d h).height = h := rfl
@[simp] theorem setH_val (d : D α) (h : Int) : (setH d h).val = d.val := rfl

/-- The elements with their addresses, from left to right. -/
def items (t : Tr α) : List (Nat × α) := t.inorder.map fun a => (a.1, a.2.val)

/-- The elements from left to right. -/
def vals (t : Tr α) : List α := t.inorder.map fun a => a.2.val

@[simp] theorem items_nil : items (.nil : Tr α) = [] := rfl
@[simp] theorem items_node (l r : Tr α) (p : Nat) (d : D α) :
    items (.node l p d r) = items l ++ (p, d.val) :: items r := by simp [items, T.inorder]

theorem vals_eq (t : Tr α) : vals t = (items t).map (·.2) := by simp [vals, items]
theorem ptrs_items (t : Tr α) : t.ptrs = (items t).map (·.1) := by
  simp [T.ptrs_eq, items]

def updH : Tr α → Tr α
  | .nil => .nil
  | .node l p d r => .node l p (setH d (max (ht l) (ht r) + 1)) r

def fRotL : Tr α → Tr α
  | .node a p d (.node b q e c) =>
    let h := max (ht a) (ht b) + 1
    .node (.node a p (setH d h) b) q (setH e (max h h + 1)) c
  | t => t

def fRotR : Tr α → Tr α
  | .node (.node a q e b) p d c =>
    let h := max (ht b) (ht c) + 1
    .node a q (setH e (max (ht a) h + 1)) (.node b p (setH d h) c)
  | t => t

def bf : Tr α → Int
  | .nil => 0
  | .node l _ _ r => ht l - ht r

def fBal : Tr α → Tr α
  | .nil => .nil
  | .node l p d r =>
    if ht l - ht r > 1 then
      fRotR (.node (if bf l < 0 then fRotL l else l) p d r)
    else if ht l - ht r < -1 then
      fRotL (.node l p d (if bf r > 0 then fRotR r else r))
    else .node l p d r

@[simp] theorem items_updH (t : Tr α) : items (updH t) = items t := by
  cases t <;> simp [updH]

@[simp] theorem items_rotL (t : Tr α) : items (fRotL t) = items t := by
  unfold fRotL; split <;> simp

@[simp] theorem items_rotR (t : Tr α) : items (fRotR t) = items t := by
  unfold fRotR; split <;> simp

@[simp] theorem items_bal (t : Tr α) : items (fBal t) = items t := by
  cases t with
  | nil => rfl
  | node l p d r =>
    simp only [fBal]
    split
    · rw [items_rotR]; split <;> simp
    · split
      · rw [items_rotL]; split <;> simp
      · rfl

@[simp] theorem ptrs_updH (t : Tr α) : (updH t).ptrs = t.ptrs := by simp [ptrs_items]
@[simp] theorem ptrs_rotL (t : Tr α) : (fRotL t).ptrs = t.ptrs := by simp [ptrs_items]
@[simp] theorem ptrs_rotR (t : Tr α) : (fRotR t).ptrs = t.ptrs := by simp [ptrs_items]
@[simp] theorem ptrs_bal (t : Tr α) : (fBal t).ptrs = t.ptrs := by simp [ptrs_items]

/-- Rebalancing a node whose subtrees are balanced and differ by at most two in height. -/
theorem bal_ok {l r : Tr α} {p : Nat} {d : D α} (hl : Avl l) (hr : Avl r)
    (hd : d.height = max (ht l) (ht r) + 1)
    (h1 : ht l - ht r ≤ 2) (h2 : ht r - ht l ≤ 2) :
    Avl (fBal (.node l p d r)) ∧
      (ht (fBal (.node l p d r)) = max (ht l) (ht r) + 1 ∨
        ((ht l - ht r = 2 ∨ ht r - ht l = 2) ∧ ht (fBal (.node l p d r)) = max (ht l) (ht r))) ∧
      (ht l - ht r ≤ 1 → ht r - ht l ≤ 1 → fBal (.node l p d r) = .node l p d r) := by
  have nl := ht_nonneg hl
  have nr := ht_nonneg hr
  simp only [fBal]
  by_cases c1 : ht l - ht r > 1
  · rw [if_pos c1]
    obtain ⟨a, q, e, b, rfl⟩ := exists_node (t := l) (by omega)
    obtain ⟨ha, hb, he, g1, g2⟩ := hl
    have na := ht_nonneg ha
    have nb := ht_nonneg hb
    simp only [ht_node, ht_nil] at nl h1 h2 c1 ⊢
    have hbf : bf (.node a q e b) = ht a - ht b := rfl
    by_cases c2 : bf (.node a q e b) < 0
    · rw [if_pos c2]
      obtain ⟨b1, q1, e1, b2, rfl⟩ := exists_node (t := b) (by omega)
      obtain ⟨hb1, hb2, he1, k1, k2⟩ := hb
      have := ht_nonneg hb1
      have := ht_nonneg hb2
      simp only [ht_node, ht_nil] at *
      simp only [fRotL, fRotR, Avl, ht_node, setH_height, setH_val]
      refine ⟨⟨⟨ha, hb1, by trivial, by omega, by omega⟩, ⟨hb2, hr, by trivial, by omega, by omega⟩, by trivial, by omega, by omega⟩,
        by omega, by omega⟩
    · rw [if_neg c2]
      simp only [fRotR, Avl, ht_node, setH_height]
      refine ⟨⟨ha, ⟨hb, hr, by trivial, by omega, by omega⟩, by trivial, by omega, by omega⟩, by omega, by omega⟩
  · rw [if_neg c1]
    by_cases c2 : ht l - ht r < -1
    · rw [if_pos c2]
      obtain ⟨a, q, e, b, rfl⟩ := exists_node (t := r) (by omega)
      obtain ⟨ha, hb, he, g1, g2⟩ := hr
      have na := ht_nonneg ha
      have nb := ht_nonneg hb
      simp only [ht_node, ht_nil] at nr h1 h2 c1 c2 ⊢
      have hbf : bf (.node a q e b) = ht a - ht b := rfl
      by_cases c3 : bf (.node a q e b) > 0
      · rw [if_pos c3]
        obtain ⟨a1, q1, e1, a2, rfl⟩ := exists_node (t := a) (by omega)
        obtain ⟨ha1, ha2, he1, k1, k2⟩ := ha
        have := ht_nonneg ha1
        have := ht_nonneg ha2
        simp only [ht_node, ht_nil] at *
        simp only [fRotL, fRotR, Avl, ht_node, setH_height, setH_val]
        refine ⟨⟨⟨hl, ha1, by trivial, by omega, by omega⟩, ⟨ha2, hb, by trivial, by omega, by omega⟩, by omega, by omega, by omega⟩,
          by omega, by omega⟩
      · rw [if_neg c3]
        simp only [fRotL, Avl, ht_node, setH_height]
        refine ⟨⟨⟨hl, ha, by trivial, by omega, by omega⟩, hb, by omega, by omega, by omega⟩, by omega, by omega⟩
    · rw [if_neg c2]
      exact ⟨⟨hl, hr, hd, by omega, by omega⟩, Or.inl (by simp [hd]), fun _ _ => rfl⟩

/-! ## Insertion -/

section
variable (lt : α → α → Bool)

def rootVal : Tr α → Option α
  | .nil => none
  | .node _ _ d _ => some d.val

/-- Rotations after the insertion into the left subtree. -/
def balL (x : α) (l : Tr α) (p : Nat) (d : D α) (r : Tr α) : Tr α :=
  if ht l - ht r = 2 then
    fRotR (.node (if (rootVal l).any (lt · x) then fRotL l else l) p d r)
  else .node l p d r

def balR (x : α) (l : Tr α) (p : Nat) (d : D α) (r : Tr α) : Tr α :=
  if ht r - ht l = 2 then
    fRotL (.node l p d (if (rootVal r).any (lt x ·) then fRotR r else r))
  else .node l p d r

def fIns (x : α) (q : Nat) : Tr α → Tr α
  | .nil => .node .nil q ⟨1, x⟩ .nil
  | .node l p d r =>
    if lt x d.val then updH (balL lt x (fIns x q l) p d r)
    else updH (balR lt x l p d (fIns x q r))

/-- What the rotations need to know about a subtree that has become higher. -/
def Grew (x : α) : Tr α → Prop
  | .nil => False
  | .node l _ d r => (lt x d.val = true ∧ lt d.val x = false ∧ ht l = ht r + 1) ∨
      (lt x d.val = false ∧ lt d.val x = true ∧ ht r = ht l + 1)

theorem items_balL (x : α) (l : Tr α) (p : Nat) (d : D α) (r : Tr α) :
    items (balL lt x l p d r) = items l ++ (p, d.val) :: items r := by
  unfold balL
  split
  · rw [items_rotR]; split <;> simp
  · simp

theorem items_balR (x : α) (l : Tr α) (p : Nat) (d : D α) (r : Tr α) :
    items (balR lt x l p d r) = items l ++ (p, d.val) :: items r := by
  unfold balR
  split
  · rw [items_rotL]; split <;> simp
  · simp

/-- The new node is somewhere between the others, which keep their order. -/
theorem perm_ins (x : α) (q : Nat) (t : Tr α) : (items (fIns lt x q t)).Perm ((q, x) :: items t) := by
  induction t with
  | nil => simp [fIns]
  | node l p d r ihl ihr =>
    simp only [fIns]
    split
    · rw [items_updH, items_balL, items_node]
      exact ihl.append_right _
    · rw [items_updH, items_balR, items_node]
      refine (List.Perm.append_left _ (ihr.cons _)).trans ?_
      refine (List.Perm.append_left _ (List.Perm.swap _ _ _)).trans ?_
      exact List.perm_middle

theorem ptrs_ins (x : α) (q : Nat) (t : Tr α) : (fIns lt x q t).ptrs.Perm (q :: t.ptrs) := by
  rw [ptrs_items, ptrs_items]
  exact (perm_ins lt x q t).map (·.1)

variable {lt}

/-- Every element is on one side of `x`. -/
def Apart (lt : α → α → Bool) (x : α) (t : Tr α) : Prop :=
  ∀ v ∈ vals t, (lt x v = true ∧ lt v x = false) ∨ (lt x v = false ∧ lt v x = true)

theorem Apart.node {x : α} {l r : Tr α} {p : Nat} {d : D α} (h : Apart lt x (.node l p d r)) :
    Apart lt x l ∧ Apart lt x r ∧
      ((lt x d.val = true ∧ lt d.val x = false) ∨ (lt x d.val = false ∧ lt d.val x = true)) := by
  refine ⟨fun v hv => h v ?_, fun v hv => h v ?_, h _ ?_⟩ <;>
    simp [vals_eq, items_node] at *
  · exact Or.inl hv
  · exact Or.inr (Or.inr hv)

theorem balL_ok {x : α} {l r : Tr α} {p : Nat} {d : D α} (hl : Avl l) (hr : Avl r)
    (h1 : ht l - ht r ≤ 2) (h2 : ht r - ht l ≤ 1) (hg : ht l - ht r = 2 → Grew lt x l) :
    Avl (updH (balL lt x l p d r)) ∧
    (ht l - ht r = 2 → ht (updH (balL lt x l p d r)) = ht l) ∧
    (ht l - ht r ≠ 2 → updH (balL lt x l p d r) = .node l p (setH d (max (ht l) (ht r) + 1)) r) := by
  unfold balL
  by_cases c : ht l - ht r = 2
  · rw [if_pos c]
    have nr := ht_nonneg hr
    obtain ⟨a, q, e, b, rfl⟩ := exists_node (t := l) (by omega)
    obtain ⟨ha1, hb, he, g1, g2⟩ := hl
    have na := ht_nonneg ha1
    have nb := ht_nonneg hb
    have hany : (rootVal (.node a q e b)).any (lt · x) = lt e.val x := rfl
    rcases hg c with ⟨_, g3, g4⟩ | ⟨_, g3, g4⟩
    · rw [if_neg (by rw [hany, g3]; simp)]
      simp only [ht_node, ht_nil] at *
      simp only [fRotR, updH, Avl, ht_node, setH_height]
      refine ⟨⟨ha1, ⟨hb, hr, by trivial, by omega, by omega⟩, by trivial, by omega, by omega⟩, fun _ => by omega, fun h => absurd c h⟩
    · rw [if_pos (by rw [hany, g3])]
      obtain ⟨b1, q1, e1, b2, rfl⟩ := exists_node (t := b) (by omega)
      obtain ⟨hb1, hb2, he1, k1, k2⟩ := hb
      have := ht_nonneg hb1
      have := ht_nonneg hb2
      simp only [ht_node, ht_nil] at *
      simp only [fRotL, fRotR, updH, Avl, ht_node, setH_height]
      refine ⟨⟨⟨ha1, hb1, by trivial, by omega, by omega⟩, ⟨hb2, hr, by trivial, by omega, by omega⟩, by trivial, by omega, by omega⟩,
        fun _ => by omega, fun h => absurd c h⟩
  · rw [if_neg c]
    refine ⟨?_, fun h => absurd h c, fun _ => rfl⟩
    simp only [updH, Avl, setH_height]
    exact ⟨hl, hr, by trivial, by omega, by omega⟩

theorem balR_ok {x : α} {l r : Tr α} {p : Nat} {d : D α} (hl : Avl l) (hr : Avl r)
    (h1 : ht r - ht l ≤ 2) (h2 : ht l - ht r ≤ 1) (hg : ht r - ht l = 2 → Grew lt x r) :
    Avl (updH (balR lt x l p d r)) ∧
    (ht r - ht l = 2 → ht (updH (balR lt x l p d r)) = ht r) ∧
    (ht r - ht l ≠ 2 → updH (balR lt x l p d r) = .node l p (setH d (max (ht l) (ht r) + 1)) r) := by
  unfold balR
  by_cases c : ht r - ht l = 2
  · rw [if_pos c]
    have nl := ht_nonneg hl
    obtain ⟨a, q, e, b, rfl⟩ := exists_node (t := r) (by omega)
    obtain ⟨ha1, hb, he, g1, g2⟩ := hr
    have na := ht_nonneg ha1
    have nb := ht_nonneg hb
    have hany : (rootVal (.node a q e b)).any (lt x ·) = lt x e.val := rfl
    rcases hg c with ⟨g3, _, g4⟩ | ⟨g3, _, g4⟩
    · rw [if_pos (by rw [hany, g3])]
      obtain ⟨b1, q1, e1, b2, rfl⟩ := exists_node (t := a) (by omega)
      obtain ⟨hb1, hb2, he1, k1, k2⟩ := ha1
      have := ht_nonneg hb1
      have := ht_nonneg hb2
      simp only [ht_node, ht_nil] at *
      simp only [fRotL, fRotR, updH, Avl, ht_node, setH_height]
      refine ⟨⟨⟨hl, hb1, by trivial, by omega, by omega⟩, ⟨hb2, hb, by trivial, by omega, by omega⟩, by trivial, by omega, by omega⟩,
        fun _ => by omega, fun h => absurd c h⟩
    · rw [if_neg (by rw [hany, g3]; simp)]
      simp only [ht_node, ht_nil] at *
      simp only [fRotL, updH, Avl, ht_node, setH_height]
      refine ⟨⟨⟨hl, ha1, by trivial, by omega, by omega⟩, hb, by trivial, by omega, by omega⟩, fun _ => by omega, fun h => absurd c h⟩
  · rw [if_neg c]
    refine ⟨?_, fun h => absurd h c, fun _ => rfl⟩
    simp only [updH, Avl, setH_height]
    exact ⟨hl, hr, by trivial, by omega, by omega⟩

theorem ins_ok {x : α} {q : Nat} {t : Tr α} (h : Avl t) (ha : Apart lt x t) :
    Avl (fIns lt x q t) ∧ (ht (fIns lt x q t) = ht t ∨ ht (fIns lt x q t) = ht t + 1) ∧
    (t ≠ .nil → ht (fIns lt x q t) = ht t + 1 → Grew lt x (fIns lt x q t)) := by
  induction t with
  | nil => simp [fIns, Avl]
  | node l p d r ihl ihr =>
    obtain ⟨a1, a2, a3⟩ := ha.node
    obtain ⟨h1, h2, h3, h4, h5⟩ := h
    have nl := ht_nonneg h1
    have nr := ht_nonneg h2
    simp only [fIns, ht_node]
    rcases a3 with ⟨a3, a4⟩ | ⟨a3, a4⟩
    · rw [if_pos a3]
      obtain ⟨i1, i2, i3⟩ := ihl h1 a1
      have hne : ht (fIns lt x q l) - ht r = 2 → l ≠ .nil := by
        rintro e rfl; simp only [ht_nil] at *; omega
      obtain ⟨b1, b2, b3⟩ := balL_ok (lt := lt) (x := x) (p := p) (d := d) i1 h2 (by omega) (by omega)
        (fun e => i3 (hne e) (by omega))
      refine ⟨b1, ?_⟩
      by_cases c : ht (fIns lt x q l) - ht r = 2
      · rw [b2 c]; exact ⟨by omega, fun _ _ => by omega⟩
      · rw [b3 c]; simp only [ht_node, setH_height]
        exact ⟨by omega, fun _ _ => Or.inl ⟨a3, a4, by omega⟩⟩
    · rw [if_neg (by simp [a3])]
      obtain ⟨i1, i2, i3⟩ := ihr h2 a2
      have hne : ht (fIns lt x q r) - ht l = 2 → r ≠ .nil := by
        rintro e rfl; simp only [ht_nil] at *; omega
      obtain ⟨b1, b2, b3⟩ := balR_ok (lt := lt) (x := x) (p := p) (d := d) h1 i1 (by omega) (by omega)
        (fun e => i3 (hne e) (by omega))
      refine ⟨b1, ?_⟩
      by_cases c : ht (fIns lt x q r) - ht l = 2
      · rw [b2 c]; exact ⟨by omega, fun _ _ => by omega⟩
      · rw [b3 c]; simp only [ht_node, setH_height]
        exact ⟨by omega, fun _ _ => Or.inr ⟨a3, a4, by omega⟩⟩
end

/-! ## Deletion -/

/-- Address and data of the leftmost node. -/
def minNode : Tr α → Option (Nat × D α)
  | .nil => none
  | .node .nil p d _ => some (p, d)
  | .node (.node a q e b) _ _ _ => minNode (.node a q e b)

/-- Another node in the place of the leftmost one. -/
def setMin (z : Nat) (f : D α) : Tr α → Tr α
  | .nil => .nil
  | .node .nil _ _ r => .node .nil z f r
  | .node (.node a q e b) p d r => .node (setMin z f (.node a q e b)) p d r

def fDelMin : Tr α → Tr α
  | .nil => .nil
  | .node .nil _ _ r => r
  | .node (.node a q e b) p d r => fBal (updH (.node (fDelMin (.node a q e b)) p d r))

/-- A tree that may have become lower by one. -/
def Shrunk (t t' : Tr α) : Prop := Avl t' ∧ (ht t' = ht t ∨ ht t' = ht t - 1)

theorem Shrunk.left {l l' r : Tr α} {p p' : Nat} {d d' : D α} (h : Avl (.node l p d r)) (hs : Shrunk l l') :
    Shrunk (.node l p d r) (fBal (updH (.node l' p' d' r))) := by
  obtain ⟨h1, h2, h3, h4, h5⟩ := h
  obtain ⟨s1, s2⟩ := hs
  obtain ⟨b1, b2, b3⟩ := bal_ok (l := l') (r := r) (p := p') (d := setH d' (max (ht l') (ht r) + 1))
    s1 h2 rfl (by omega) (by omega)
  refine ⟨b1, ?_⟩
  simp only [updH, ht_node]
  omega

theorem Shrunk.right {l r r' : Tr α} {p p' : Nat} {d d' : D α} (h : Avl (.node l p d r)) (hs : Shrunk r r') :
    Shrunk (.node l p d r) (fBal (updH (.node l p' d' r'))) := by
  obtain ⟨h1, h2, h3, h4, h5⟩ := h
  obtain ⟨s1, s2⟩ := hs
  obtain ⟨b1, b2, b3⟩ := bal_ok (l := l) (r := r') (p := p') (d := setH d' (max (ht l) (ht r') + 1))
    h1 s1 rfl (by omega) (by omega)
  refine ⟨b1, ?_⟩
  simp only [updH, ht_node]
  omega

theorem delMin_ok {t : Tr α} (h : Avl t) (hn : t ≠ .nil) : Shrunk t (fDelMin t) := by
  induction t with
  | nil => exact absurd rfl hn
  | node l p d r ihl _ =>
    cases l with
    | nil =>
      obtain ⟨h1, h2, h3, h4, h5⟩ := h
      have := ht_nonneg h2
      simp only [ht_nil] at *
      exact ⟨h2, Or.inr (by simp only [fDelMin, ht_node]; omega)⟩
    | node a q e b =>
      simp only [fDelMin]
      exact Shrunk.left h (ihl h.1 (by simp))

theorem minNode_some {t : Tr α} (hn : t ≠ .nil) : ∃ q e, minNode t = some (q, e) := by
  induction t with
  | nil => exact absurd rfl hn
  | node l p d r ihl _ =>
    cases l with
    | nil => exact ⟨p, d, rfl⟩
    | node a q e b => exact ihl (by simp)

theorem items_min {t : Tr α} {q : Nat} {e : D α} (h : minNode t = some (q, e)) :
    items t = (q, e.val) :: items (fDelMin t) ∧
      ∀ z f, items (setMin z f t) = (z, f.val) :: items (fDelMin t) := by
  induction t with
  | nil => cases h
  | node l p d r ihl _ =>
    cases l with
    | nil => cases h; simp [fDelMin, setMin]
    | node a q' e' b =>
      obtain ⟨i1, i2⟩ := ihl h
      simp only [fDelMin, setMin, items_bal, items_updH]
      rw [items_node, i1]
      refine ⟨by simp, fun z f => ?_⟩
      rw [items_node, i2]; simp

theorem delMin_setMin (z : Nat) (f : D α) (t : Tr α) : fDelMin (setMin z f t) = fDelMin t := by
  induction t with
  | nil => rfl
  | node l p d r ihl _ =>
    cases l with
    | nil => rfl
    | node a q e b =>
      simp only [setMin, fDelMin]
      rw [← ihl]
      cases h : setMin z f (.node a q e b) with
      | nil => cases a <;> simp [setMin] at h
      | node a' q' e' b' => rfl

theorem setMin_ne {z : Nat} {f : D α} {t : Tr α} (h : t ≠ .nil) : setMin z f t ≠ .nil := by
  cases t with
  | nil => exact absurd rfl h
  | node l p d r => cases l <;> simp [setMin]

theorem setMin_avl {z : Nat} {f : D α} {t : Tr α} {q : Nat} {e : D α} (hm : minNode t = some (q, e))
    (hf : f.height = e.height) (h : Avl t) : Avl (setMin z f t) ∧ ht (setMin z f t) = ht t := by
  induction t with
  | nil => cases hm
  | node l p d r ihl _ =>
    cases l with
    | nil =>
      cases hm
      obtain ⟨h1, h2, h3, h4, h5⟩ := h
      exact ⟨⟨h1, h2, by rw [hf]; exact h3, h4, h5⟩, by simp [setMin, hf]⟩
    | node a q' e' b =>
      obtain ⟨h1, h2, h3, h4, h5⟩ := h
      obtain ⟨i1, i2⟩ := ihl hm h1
      simp only [setMin, Avl, ht_node]
      exact ⟨⟨i1, h2, by rw [i2]; exact h3, by rw [i2]; exact h4, by rw [i2]; exact h5⟩, by trivial⟩

/-- The path to the leftmost node. -/
theorem min_split {t : Tr α} {q : Nat} {e : D α} (hm : minNode t = some (q, e)) (c0 : Ctx (D α)) :
    ∃ (c : Ctx (D α)) (r : Tr α), c0.plug t = c.plug (.node .nil q e r) ∧
      (∀ z f, c0.plug (setMin z f t) = c.plug (.node .nil z f r)) ∧ (c0 ≠ .top → c ≠ .top) := by
  induction t generalizing c0 with
  | nil => cases hm
  | node l p d r ihl _ =>
    cases l with
    | nil => cases hm; exact ⟨c0, r, rfl, fun z f => rfl, id⟩
    | node a q' e' b =>
      obtain ⟨c, r', e1, e2, e3⟩ := ihl hm (.left c0 p d r)
      exact ⟨c, r', e1, fun z f => e2 z f, fun _ => e3 (by simp)⟩

/-- The tree after exchanging a node with the leftmost one of its right subtree. -/
def swapT (l : Tr α) (p : Nat) (d : D α) (r : Tr α) : Tr α :=
  match minNode r with
  | none => .node l p d r
  | some (q, e) => .node l q (setH e d.height) (setMin p (setH d e.height) r)

section
variable (lt : α → α → Bool)

/-- Address of the node the search for `x` ends at. -/
def fFind (x : α) : Tr α → Ptr
  | .nil => none
  | .node l p d r =>
    if lt x d.val then fFind x l
    else if lt d.val x then fFind x r
    else some p

def fDel (x : α) : Tr α → Tr α
  | .nil => .nil
  | .node l p d r =>
    if lt x d.val then fBal (updH (.node (fDel x l) p d r))
    else if lt d.val x then fBal (updH (.node l p d (fDel x r)))
    else if l.root = none then r
    else if r.root = none then l
    else match minNode r with
      | none => l
      | some (q, e) => fBal (updH (.node l q (setH e d.height) (fDelMin r)))

variable {lt}

theorem del_items {x : α} {t : Tr α} {z : Nat} (hf : fFind lt x t = some z) :
    ∃ xs v ys, items t = xs ++ (z, v) :: ys ∧ items (fDel lt x t) = xs ++ ys ∧
      lt x v = false ∧ lt v x = false := by
  induction t with
  | nil => cases hf
  | node l p d r ihl ihr =>
    simp only [fFind] at hf
    simp only [fDel]
    by_cases c1 : lt x d.val
    · rw [if_pos c1] at hf ⊢
      obtain ⟨xs, v, ys, e1, e2, e3⟩ := ihl hf
      exact ⟨xs, v, ys ++ (p, d.val) :: items r, by simp [e1], by simp [e2], e3⟩
    · rw [if_neg c1] at hf ⊢
      by_cases c2 : lt d.val x
      · rw [if_pos c2] at hf ⊢
        obtain ⟨xs, v, ys, e1, e2, e3⟩ := ihr hf
        exact ⟨items l ++ (p, d.val) :: xs, v, ys, by simp [e1], by simp [e2], e3⟩
      · rw [if_neg c2] at hf ⊢
        cases hf
        refine ⟨items l, d.val, items r, by simp, ?_, by simpa using c1, by simpa using c2⟩
        by_cases hl : l = .nil
        · rw [if_pos (T.root_none.2 hl), hl]; simp
        · rw [if_neg (fun x => hl (T.root_none.1 x))]
          by_cases hr : r = .nil
          · rw [if_pos (T.root_none.2 hr), hr]; simp
          · rw [if_neg (fun x => hr (T.root_none.1 x))]
            obtain ⟨q, e, hm⟩ := minNode_some hr
            rw [hm]
            simp only [items_bal, items_updH, items_node, setH_val]
            rw [(items_min hm).1]

theorem del_ok {x : α} {t : Tr α} {z : Nat} (h : Avl t) (hf : fFind lt x t = some z) :
    Shrunk t (fDel lt x t) := by
  induction t with
  | nil => cases hf
  | node l p d r ihl ihr =>
    simp only [fFind] at hf
    simp only [fDel]
    by_cases c1 : lt x d.val
    · rw [if_pos c1] at hf ⊢
      exact Shrunk.left h (ihl h.1 hf)
    · rw [if_neg c1] at hf ⊢
      by_cases c2 : lt d.val x
      · rw [if_pos c2] at hf ⊢
        exact Shrunk.right h (ihr h.2.1 hf)
      · rw [if_neg c2]
        by_cases hl : l = .nil
        · rw [if_pos (T.root_none.2 hl)]
          subst hl
          obtain ⟨h1, h2, h3, h4, h5⟩ := h
          have := ht_nonneg h2
          simp only [ht_nil] at *
          exact ⟨h2, Or.inr (by simp only [ht_node]; omega)⟩
        · rw [if_neg (fun x => hl (T.root_none.1 x))]
          by_cases hr : r = .nil
          · rw [if_pos (T.root_none.2 hr)]
            subst hr
            obtain ⟨h1, h2, h3, h4, h5⟩ := h
            have := ht_nonneg h1
            simp only [ht_nil] at *
            exact ⟨h1, Or.inr (by simp only [ht_node]; omega)⟩
          · rw [if_neg (fun x => hr (T.root_none.1 x))]
            obtain ⟨q, e, hm⟩ := minNode_some hr
            rw [hm]
            exact Shrunk.right h (delMin_ok h.2.1 hr)

end

/-! ## Rebalancing towards the root -/

def fReb : Ctx (D α) → Tr α → Tr α
  | .top, t => fBal t
  | .left c p d r, t => fReb c (updH (.node (fBal t) p d r))
  | .right c l p d, t => fReb c (updH (.node l p d (fBal t)))

theorem items_plug (c : Ctx (D α)) {t t' : Tr α} (h : items t' = items t) :
    items (c.plug t') = items (c.plug t) := by
  induction c generalizing t t' with
  | top => exact h
  | left c p d r ih => exact ih (by simp [h])
  | right c l p d ih => exact ih (by simp [h])

theorem items_reb (c : Ctx (D α)) (t : Tr α) : items (fReb c t) = items (c.plug t) := by
  induction c generalizing t with
  | top => simp [fReb, Ctx.plug]
  | left c p d r ih => rw [fReb, ih]; exact items_plug c (by simp)
  | right c l p d ih => rw [fReb, ih]; exact items_plug c (by simp)

theorem avl_sub {c : Ctx (D α)} {t : Tr α} (h : Avl (c.plug t)) : Avl t := by
  induction c generalizing t with
  | top => exact h
  | left c p d r ih => exact (ih h).1
  | right c l p d ih => exact (ih h).2.1

/-- Replacing a subtree by one of the same height. -/
theorem avl_plug {c : Ctx (D α)} {t t' : Tr α} (h : Avl (c.plug t)) (h' : Avl t') (e : ht t' = ht t) :
    Avl (c.plug t') ∧ ht (c.plug t') = ht (c.plug t) := by
  induction c generalizing t t' with
  | top => exact ⟨h', e⟩
  | left c p d r ih =>
    obtain ⟨h1, h2, h3, h4, h5⟩ := avl_sub (t := .node t p d r) h
    exact ih h ⟨h', h2, by rw [e]; exact h3, by rw [e]; exact h4, by rw [e]; exact h5⟩ rfl
  | right c l p d ih =>
    obtain ⟨h1, h2, h3, h4, h5⟩ := avl_sub (t := .node l p d t) h
    exact ih h ⟨h1, h', by rw [e]; exact h3, by rw [e]; exact h4, by rw [e]; exact h5⟩ rfl

/-- `t` stands where `t0` stood and needs at most one rotation to be balanced. -/
def Near (t0 t : Tr α) : Prop :=
  ∃ l p d r, t = .node l p d r ∧ Avl l ∧ Avl r ∧ d.height = max (ht l) (ht r) + 1 ∧
    ht l - ht r ≤ 2 ∧ ht r - ht l ≤ 2 ∧ Shrunk t0 (fBal t)

theorem near_left {t0 t r : Tr α} {p : Nat} {d : D α} (h : Avl (.node t0 p d r)) (hs : Shrunk t0 t) :
    Near (.node t0 p d r) (updH (.node t p d r)) := by
  have hs' := Shrunk.left (p' := p) (d' := d) h hs
  obtain ⟨h1, h2, h3, h4, h5⟩ := h
  obtain ⟨s1, s2⟩ := hs
  exact ⟨t, p, _, r, rfl, s1, h2, rfl, by omega, by omega, hs'⟩

theorem near_right {t0 t l : Tr α} {p : Nat} {d : D α} (h : Avl (.node l p d t0)) (hs : Shrunk t0 t) :
    Near (.node l p d t0) (updH (.node l p d t)) := by
  have hs' := Shrunk.right (p' := p) (d' := d) h hs
  obtain ⟨h1, h2, h3, h4, h5⟩ := h
  obtain ⟨s1, s2⟩ := hs
  exact ⟨l, p, _, t, rfl, h1, s1, rfl, by omega, by omega, hs'⟩

theorem reb_ok {c : Ctx (D α)} {t0 t : Tr α} (h : Avl (c.plug t0)) (hn : Near t0 t) :
    Avl (fReb c t) := by
  induction c generalizing t0 t with
  | top =>
    obtain ⟨_, _, _, _, _, _, _, _, _, _, hs⟩ := hn
    exact hs.1
  | left c p d r ih =>
    obtain ⟨_, _, _, _, _, _, _, _, _, _, hs⟩ := hn
    exact ih h (near_left (avl_sub (t := .node t0 p d r) h) hs)
  | right c l p d ih =>
    obtain ⟨_, _, _, _, _, _, _, _, _, _, hs⟩ := hn
    exact ih h (near_right (avl_sub (t := .node l p d t0) h) hs)

end Verif.AVL
