import Verif.BST
import Verif.AVLWorldLemmas

/-! # Search trees as values -/

namespace Verif.BST

open Prog Verif.Tree
open Verif.AVL (StrictWeak Ascending Equiv same with_ without same_iff asc_append split_spec with_split)

variable {α : Type}

/-- The elements from left to right. -/
def vals (t : T α) : List α := t.inorder.map (·.2)

@[simp] theorem vals_nil : vals (.nil : T α) = [] := rfl

theorem vals_node (l r : T α) (p : Nat) (d : α) : vals (.node l p d r) = vals l ++ d :: vals r := by
  simp [vals, T.inorder]

theorem vals_eq_nil {t : T α} : vals t = [] ↔ t = .nil := by
  cases t with
  | nil => simp
  | node l p d r => simp [vals_node]

theorem vals_length (t : T α) : (vals t).length = t.count := by simp [vals, T.count_eq]

theorem count_ptrs (t : T α) : t.count = t.ptrs.length := by
  rw [T.count_eq, T.ptrs_eq, List.length_map]

theorem vals_plug (c : Ctx α) (t : T α) :
    vals (c.plug t) = c.before.map (·.2) ++ vals t ++ c.after.map (·.2) := by
  simp [vals, Ctx.inorder_plug]

variable (lt : α → α → Bool)

/-- Where the search for `x` ends. -/
def fFind (x : α) : T α → Option Nat
  | .nil => none
  | .node l p d r => if lt x d then fFind x l else if lt d x then fFind x r else some p

/-- The tree with a new node `q` for `x`. -/
def fIns (x : α) (q : Nat) : T α → T α
  | .nil => .node .nil q x .nil
  | .node l p d r => if lt x d then .node (fIns x q l) p d r else .node l p d (fIns x q r)

/-- What `_try_to_delete` makes of a tree: the remaining tree and the released node; `none` when
it dereferences a null pointer. -/
def fTry : T α → Option (T α × Nat)
  | .nil => none
  | .node .nil p _ r => some (r, p)
  | .node l p _ .nil => some (l, p)
  | .node _ _ _ (.node .nil _ _ _) => none
  | .node l p _ (.node (.node a q e b) rp rd rr) =>
    (fTry (.node (.node a q e b) rp rd rr)).map fun u => (.node l p rd u.1, u.2)

/-- What `_delete` makes of a tree. -/
def fDel (x : α) : T α → Option (T α × Nat)
  | .nil => none
  | .node l p d r =>
    if lt x d then (fDel x l).map fun u => (.node u.1 p d r, u.2)
    else if lt d x then (fDel x r).map fun u => (.node l p d u.1, u.2)
    else fTry (.node l p d r)

variable {lt}

theorem asc_node {l r : T α} {p : Nat} {d : α} (h : Ascending lt (vals (.node l p d r))) :
    Ascending lt (vals l) ∧ Ascending lt (vals r) ∧ (∀ v ∈ vals l, lt v d = true) ∧
      (∀ v ∈ vals r, lt d v = true) := by
  rw [vals_node] at h
  obtain ⟨h1, h2, h3, h4, _⟩ := asc_append h
  exact ⟨h1, h2, h3, h4⟩

/-! ## Searching -/

theorem find_some {x : α} {t : T α} {z : Nat} (h : fFind lt x t = some z) :
    ∃ v, (z, v) ∈ t.inorder ∧ Equiv lt x v := by
  induction t with
  | nil => cases h
  | node l p d r ihl ihr =>
    simp only [fFind] at h
    by_cases c1 : lt x d
    · rw [if_pos c1] at h
      obtain ⟨v, h1, h2⟩ := ihl h
      exact ⟨v, by simp [T.inorder, h1], h2⟩
    · rw [if_neg c1] at h
      by_cases c2 : lt d x
      · rw [if_pos c2] at h
        obtain ⟨v, h1, h2⟩ := ihr h
        exact ⟨v, by simp [T.inorder, h1], h2⟩
      · rw [if_neg c2] at h
        cases h
        exact ⟨d, by simp [T.inorder], by simpa using c1, by simpa using c2⟩

theorem find_of_mem (w : StrictWeak lt) {x v : α} {t : T α} {z : Nat} (ha : Ascending lt (vals t))
    (hm : (z, v) ∈ t.inorder) (he : Equiv lt x v) : fFind lt x t = some z := by
  induction t with
  | nil => simp [T.inorder] at hm
  | node l p d r ihl ihr =>
    obtain ⟨a1, a2, a3, a4⟩ := asc_node ha
    simp only [T.inorder, List.mem_append, List.mem_cons, Prod.mk.injEq] at hm
    simp only [fFind]
    rcases hm with hm | ⟨rfl, rfl⟩ | hm
    · have h1 := a3 v (List.mem_map_of_mem hm)
      rw [if_pos (w.lt_of_equiv he h1)]
      exact ihl a1 hm
    · rw [if_neg (by simp [he.1]), if_neg (by simp [he.2])]
    · have h1 := a4 v (List.mem_map_of_mem hm)
      have h2 := w.gt_of_equiv he h1
      rw [if_neg (by simp [w.asymm h2]), if_pos h2]
      exact ihr a2 hm

theorem find_none (w : StrictWeak lt) {x : α} {t : T α} (ha : Ascending lt (vals t)) :
    fFind lt x t = none ↔ ∀ v ∈ vals t, ¬ Equiv lt x v := by
  constructor
  · intro h v hv he
    obtain ⟨⟨z, v'⟩, hm, rfl⟩ := List.mem_map.1 hv
    rw [find_of_mem w ha hm he] at h; cases h
  · intro h
    cases hf : fFind lt x t with
    | none => rfl
    | some z =>
      obtain ⟨v, h1, h2⟩ := find_some hf
      exact absurd h2 (h v (List.mem_map.2 ⟨_, h1, rfl⟩))

theorem any_find (w : StrictWeak lt) {x : α} {t : T α} (ha : Ascending lt (vals t)) :
    (vals t).any (same lt x) = (fFind lt x t).isSome := by
  cases hf : fFind lt x t with
  | none =>
    rw [find_none w ha] at hf
    simp only [Option.isSome_none, List.any_eq_false]
    exact fun v hv e => hf v hv (same_iff.1 e)
  | some z =>
    obtain ⟨v, h1, h2⟩ := find_some hf
    simp only [Option.isSome_some, List.any_eq_true]
    exact ⟨v, List.mem_map.2 ⟨_, h1, rfl⟩, same_iff.2 h2⟩

/-! ## Inserting -/

theorem ptrs_ins (x : α) (q : Nat) (t : T α) : (fIns lt x q t).ptrs.Perm (q :: t.ptrs) := by
  induction t with
  | nil => exact .refl _
  | node l p d r ihl ihr =>
    simp only [fIns]
    split
    · exact ihl.append_right _
    · simp only [T.ptrs]
      exact ((ihr.cons p).append_left _).trans (by
        refine List.perm_iff_count.2 fun x => ?_
        simp only [List.count_append, List.count_cons]; omega)

theorem vals_ins (w : StrictWeak lt) {x : α} {q : Nat} {t : T α} (ha : Ascending lt (vals t))
    (hf : fFind lt x t = none) : vals (fIns lt x q t) = with_ lt (vals t) x := by
  suffices h : ∃ xs ys, vals t = xs ++ ys ∧ vals (fIns lt x q t) = xs ++ x :: ys ∧ (∀ a ∈ xs, lt a x = true) ∧
      (∀ b ∈ ys, lt x b = true) by
    obtain ⟨xs, ys, h1, h2, h3, h4⟩ := h
    rw [h1, h2, with_split w h3 h4]
  induction t with
  | nil => exact ⟨[], [], rfl, rfl, by simp, by simp⟩
  | node l p d r ihl ihr =>
    obtain ⟨a1, a2, a3, a4⟩ := asc_node ha
    simp only [fIns]
    simp only [fFind] at hf
    by_cases c1 : lt x d
    · rw [if_pos c1] at hf ⊢
      obtain ⟨xs, ys, h1, h2, h3, h4⟩ := ihl a1 hf
      refine ⟨xs, ys ++ d :: vals r, by rw [vals_node, h1]; simp, by rw [vals_node, h2]; simp, h3, fun b hb => ?_⟩
      rcases List.mem_append.1 hb with hb | hb
      · exact h4 b hb
      · rcases List.mem_cons.1 hb with rfl | hb
        · exact c1
        · exact w.trans _ _ _ c1 (a4 b hb)
    · rw [if_neg c1] at hf ⊢
      by_cases c2 : lt d x
      · rw [if_pos c2] at hf
        obtain ⟨xs, ys, h1, h2, h3, h4⟩ := ihr a2 hf
        refine ⟨vals l ++ d :: xs, ys, by rw [vals_node, h1]; simp, by rw [vals_node, h2]; simp, fun b hb => ?_, h4⟩
        rcases List.mem_append.1 hb with hb | hb
        · exact w.trans _ _ _ (a3 b hb) c2
        · rcases List.mem_cons.1 hb with rfl | hb
          · exact c2
          · exact h3 b hb
      · rw [if_neg c2] at hf; cases hf

/-! ## Deleting -/

theorem try_one {l r u : T α} {p : Nat} {d : α} (h : (l = .nil ∧ u = r) ∨ (r = .nil ∧ u = l)) :
    fTry (.node l p d r) = some (u, p) := by
  rcases h with ⟨rfl, rfl⟩ | ⟨rfl, rfl⟩
  · cases u <;> rfl
  · cases u <;> rfl

theorem try_ptrs {t t' : T α} {z : Nat} (h : fTry t = some (t', z)) : t.ptrs.Perm (z :: t'.ptrs) := by
  induction t generalizing t' z with
  | nil => cases h
  | node l p d r _ ihr =>
    cases l with
    | nil => cases h; simp [T.ptrs]
    | node a1 q1 e1 b1 =>
      cases r with
      | nil =>
        cases h
        refine List.perm_iff_count.2 fun x => ?_
        simp only [T.ptrs, List.count_append, List.count_cons, List.count_nil]; omega
      | node rl rp rd rr =>
        cases rl with
        | nil => cases h
        | node a q e b =>
          simp only [fTry, Option.map_eq_some_iff] at h
          obtain ⟨⟨r', z'⟩, h1, h2⟩ := h
          cases h2
          have := ihr h1
          refine List.perm_iff_count.2 fun x => ?_
          have := this.count_eq x
          simp only [T.ptrs, List.count_append, List.count_cons] at this ⊢; omega

/-- The element at the root goes away and no other. -/
theorem try_vals {l r t' : T α} {p z : Nat} {d : α} (h : fTry (.node l p d r) = some (t', z)) :
    (vals t').Perm (vals l ++ vals r) := by
  induction r generalizing l p d t' z with
  | nil =>
    cases l with
    | nil => cases h; exact .refl _
    | node a1 q1 e1 b1 => cases h; simp
  | node rl rp rd rr _ ih =>
    cases l with
    | nil => cases h; simp
    | node a1 q1 e1 b1 =>
      cases rl with
      | nil => cases h
      | node a q e b =>
        simp only [fTry, Option.map_eq_some_iff] at h
        obtain ⟨⟨r', z'⟩, h1, h2⟩ := h
        cases h2
        have := ih h1
        rw [vals_node (.node a1 q1 e1 b1), vals_node (.node a q e b)]
        refine List.Perm.append_left _ ?_
        exact (this.cons rd).trans List.perm_middle.symm

/-- The search goes down to the node at which the tree changes. -/
theorem find_split {x : α} {t : T α} {z : Nat} (h : fFind lt x t = some z) (c0 : Ctx α) :
    ∃ (c : Ctx α) (l : T α) (d : α) (r : T α), c0.plug t = c.plug (.node l z d r) ∧ Equiv lt x d ∧
      (fDel lt x t).map (fun u => (c0.plug u.1, u.2)) = (fTry (.node l z d r)).map fun u => (c.plug u.1, u.2) := by
  induction t generalizing c0 with
  | nil => cases h
  | node l p d r ihl ihr =>
    simp only [fFind] at h
    simp only [fDel]
    by_cases c1 : lt x d
    · rw [if_pos c1] at h ⊢
      obtain ⟨c, l', d', r', e1, e2, e3⟩ := ihl h (.left c0 p d r)
      exact ⟨c, l', d', r', e1, e2, by rw [← e3]; simp [Function.comp_def, Ctx.plug]⟩
    · rw [if_neg c1] at h ⊢
      by_cases c2 : lt d x
      · rw [if_pos c2] at h ⊢
        obtain ⟨c, l', d', r', e1, e2, e3⟩ := ihr h (.right c0 l p d)
        exact ⟨c, l', d', r', e1, e2, by rw [← e3]; simp [Function.comp_def, Ctx.plug]⟩
      · rw [if_neg c2] at h ⊢
        cases h
        exact ⟨c0, l, d, r, rfl, ⟨by simpa using c1, by simpa using c2⟩, rfl⟩

theorem find_split' {x : α} {t : T α} {z : Nat} (h : fFind lt x t = some z) :
    ∃ (c : Ctx α) (l : T α) (d : α) (r : T α), t = c.plug (.node l z d r) ∧ Equiv lt x d ∧
      fDel lt x t = (fTry (.node l z d r)).map fun u => (c.plug u.1, u.2) := by
  obtain ⟨c, l, d, r, e1, e2, e3⟩ := find_split h .top
  exact ⟨c, l, d, r, e1, e2, by rw [← e3]; simp [Ctx.plug]⟩

theorem del_absent {x : α} {t : T α} (h : fFind lt x t = none) : fDel lt x t = none := by
  induction t with
  | nil => rfl
  | node l p d r ihl ihr =>
    simp only [fFind] at h
    simp only [fDel]
    by_cases c1 : lt x d
    · rw [if_pos c1] at h ⊢; rw [ihl h]; rfl
    · rw [if_neg c1] at h ⊢
      by_cases c2 : lt d x
      · rw [if_pos c2] at h ⊢; rw [ihr h]; rfl
      · rw [if_neg c2] at h; cases h

/-- Deleting a node with two children breaks the order: the left subtree of its right child ends
up to the right of a greater element, and the search for any element of it fails. -/
theorem try_two {l r t' : T α} {p z : Nat} {d : α} (hl : l ≠ .nil) (hr : r ≠ .nil)
    (h : fTry (.node l p d r) = some (t', z)) :
    ∃ rl rp rd rr r', r = .node rl rp rd rr ∧ rl ≠ .nil ∧ t' = .node l p rd r' ∧
      (vals r').Perm (vals rl ++ vals rr) := by
  cases l with
  | nil => exact absurd rfl hl
  | node a1 q1 e1 b1 =>
    cases r with
    | nil => exact absurd rfl hr
    | node rl rp rd rr =>
      cases rl with
      | nil => cases h
      | node a q e b =>
        simp only [fTry, Option.map_eq_some_iff] at h
        obtain ⟨⟨r', z'⟩, h1, h2⟩ := h
        cases h2
        exact ⟨_, rp, rd, rr, r', rfl, by simp, rfl, try_vals h1⟩

end Verif.BST
