import Verif.Props.AVLTree
import Verif.Props.Map
import Verif.Props.BST

/-! # Lookups touch one path (C76) -/

namespace Verif.Tree

open Prog

variable {δ β : Type}

/-- The two worlds agree on the members of object `k` and on the data and child links of the
nodes `P`; all other nodes may differ, or be released. -/
def AgreeOn (k : Nat) (P : List Nat) (w w' : World δ) : Prop :=
  w'.obj k = w.obj k ∧ ∀ p ∈ P, w'.mem.dat p = w.mem.dat p ∧ w'.mem.lft p = w.mem.lft p ∧ w'.mem.rgt p = w.mem.rgt p

/-- Running `p` on object `k` in `w` consults no nodes but `P`: it gives the same result in every
world that agrees with `w` on them, and changes nothing. -/
def Consults (p : Prog (St δ) β) (k : Nat) (w : World δ) (P : List Nat) : Prop :=
  ∃ b, ∀ w', AgreeOn k P w w' → Returns (on k p) w' b w'

/-- The world with all nodes but `P` released. -/
def only (w : World δ) (P : List Nat) : World δ :=
  { w with mem := { w.mem with dat := fun n => if n ∈ P then w.mem.dat n else none } }

theorem agreeOn_only (k : Nat) (P : List Nat) (w : World δ) : AgreeOn k P w (only w P) :=
  ⟨rfl, fun p hp => ⟨by simp [only, hp], rfl, rfl⟩⟩

theorem consults_of {p : Prog (St δ) β} {k : Nat} {w : World δ} {o : Ptr × Nat} {P : List Nat} {b : β} (hk : w.obj k = some o)
    (h : ∀ s' : St δ, s'.root = o.1 → (∀ n ∈ P, s'.dat n = w.mem.dat n ∧ s'.lft n = w.mem.lft n ∧ s'.rgt n = w.mem.rgt n) →
      Returns p s' b s') : Consults p k w P := by
  refine ⟨b, fun w' hw' => ?_⟩
  exact on_observes (hw'.1.trans hk) (h _ rfl hw'.2)

end Verif.Tree

namespace Verif.BST

open Prog Verif.Tree
open Verif.AVL (StrictWeak natLt)

variable {α : Type} {lt : α → α → Bool}

theorem findFrom_path {s : St α} {pa : Ptr} {t : T α} (h : Rep s pa t) (hn : t.ptrs.Nodup) (x : α) :
    ∃ P : List Nat, P.length ≤ t.height ∧ P.Nodup ∧ (∀ p ∈ P, p ∈ t.ptrs) ∧
      ∀ s' : St α, (∀ n ∈ P, s'.dat n = s.dat n ∧ s'.lft n = s.lft n ∧ s'.rgt n = s.rgt n) →
        Returns (findFrom lt t.root x) s' (fFind lt x t) s' := by
  induction t generalizing pa with
  | nil => exact ⟨[], by simp, by simp, by simp, fun s' _ => by unfold findFrom; rfl⟩
  | node l p d r ihl ihr =>
    obtain ⟨h1, h2, h3, h4, h5, h6⟩ := h
    obtain ⟨n1, n2, n3, n4, n5⟩ := nodup_node hn
    by_cases c1 : lt x d
    · obtain ⟨P, q1, q2, q3, q4⟩ := ihl h5 n1
      refine ⟨p :: P, by simp only [List.length_cons, T.height]; omega, List.nodup_cons.2 ⟨fun hp => n3 (q3 p hp), q2⟩, ?_, ?_⟩
      · intro n hn
        rcases List.mem_cons.1 hn with rfl | hn
        · simp [T.ptrs]
        · simp [T.ptrs, q3 n hn]
      · intro s' hs
        have e := hs p (List.mem_cons_self ..)
        unfold findFrom Returns
        rw [if_neg (by simp [T.root])]
        simp only [T.root, fFind]
        rw [bind_returns (getData_ok (e.1.trans h1)), if_pos c1, if_pos c1, bind_returns (getLeft_ok ⟨d, e.1.trans h1⟩), e.2.1, h3]
        exact q4 s' fun n hn => hs n (List.mem_cons_of_mem _ hn)
    · by_cases c2 : lt d x
      · obtain ⟨P, q1, q2, q3, q4⟩ := ihr h6 n2
        refine ⟨p :: P, by simp only [List.length_cons, T.height]; omega, List.nodup_cons.2 ⟨fun hp => n4 (q3 p hp), q2⟩, ?_, ?_⟩
        · intro n hn
          rcases List.mem_cons.1 hn with rfl | hn
          · simp [T.ptrs]
          · simp [T.ptrs, q3 n hn]
        · intro s' hs
          have e := hs p (List.mem_cons_self ..)
          unfold findFrom Returns
          rw [if_neg (by simp [T.root])]
          simp only [T.root, fFind]
          rw [bind_returns (getData_ok (e.1.trans h1)), if_neg c1, if_neg c1, if_pos c2, if_pos c2,
            bind_returns (getRight_ok ⟨d, e.1.trans h1⟩), e.2.2, h4]
          exact q4 s' fun n hn => hs n (List.mem_cons_of_mem _ hn)
      · refine ⟨[p], by simp [T.height], by simp, by simp [T.ptrs], fun s' hs => ?_⟩
        have e := hs p (List.mem_cons_self ..)
        unfold findFrom Returns
        rw [if_neg (by simp [T.root])]
        simp only [T.root, fFind]
        rw [bind_returns (getData_ok (e.1.trans h1)), if_neg c1, if_neg c1, if_neg c2, if_neg c2]; rfl

/-- **C76**, binary search trees: in every reachable state `find(x)` consults at most as many nodes
as the tree is high. -/
theorem bst_find_path (hw : StrictWeak lt) {w : World α} {sw : SWorld α} (h : Reach lt w sw) {k n : Nat} {l : List α}
    (hk : sw k = some (l, n)) (x : α) :
    ∃ o t P, w.obj k = some o ∧ IsTree (w.load o) t ∧ t.inorder.map (·.2) = l ∧
      List.Nodup P ∧ P.length ≤ t.height ∧ Consults (find lt x) k w P := by
  obtain ⟨g, c, h, hg⟩ := h.holds hw
  obtain ⟨t, ht, rfl, _⟩ := hg.get hk
  obtain ⟨P, q1, q2, q3, q4⟩ := findFrom_path (lt := lt) (h.load ht).rep (h.load ht).nodup x
  refine ⟨_, t, P, h.live ht, h.load ht, rfl, q2, q1, consults_of (b := fFind lt x t) (h.live ht) fun s' e1 e2 => ?_⟩
  unfold find Returns
  rw [bind_returns (show Returns getRoot s' s'.root s' from rfl), e1]
  exact q4 s' e2

example : ∃ (w : World Nat) (sw : SWorld Nat), Reach natLt w sw ∧ sw 0 = some ([2, 5, 7, 8, 9], 1) := by
  obtain ⟨w, sw, h, h0, _⟩ := exReach
  exact ⟨w, sw, h, h0⟩

end Verif.BST

namespace Verif.AVL

open Prog Verif.Tree

variable {α : Type} {lt : α → α → Bool}

theorem findFrom_path {s : St α} {pa : Ptr} {t : Tr α} (h : Rep s pa t) (hn : t.ptrs.Nodup) (x : α) :
    ∃ P : List Nat, P.length ≤ t.height ∧ P.Nodup ∧ (∀ p ∈ P, p ∈ t.ptrs) ∧
      ∀ s' : St α, (∀ n ∈ P, s'.dat n = s.dat n ∧ s'.lft n = s.lft n ∧ s'.rgt n = s.rgt n) →
        Returns (findFrom lt t.root x) s' (fFind lt x t) s' := by
  induction t generalizing pa with
  | nil => exact ⟨[], by simp, by simp, by simp, fun s' _ => by unfold findFrom; rfl⟩
  | node l p d r ihl ihr =>
    obtain ⟨h1, h2, h3, h4, h5, h6⟩ := h
    obtain ⟨n1, n2, n3, n4, n5⟩ := nodup_node hn
    by_cases c1 : lt x d.val
    · obtain ⟨P, q1, q2, q3, q4⟩ := ihl h5 n1
      refine ⟨p :: P, by simp only [List.length_cons, T.height]; omega, List.nodup_cons.2 ⟨fun hp => n3 (q3 p hp), q2⟩, ?_, ?_⟩
      · intro n hn
        rcases List.mem_cons.1 hn with rfl | hn
        · simp [T.ptrs]
        · simp [T.ptrs, q3 n hn]
      · intro s' hs
        have e := hs p (List.mem_cons_self ..)
        unfold findFrom Returns
        rw [if_neg (by simp [T.root])]
        simp only [root_node, fFind]
        rw [bind_returns (getData_ok (e.1.trans h1)), if_pos c1, if_pos c1, bind_returns (getLeft_ok ⟨d, e.1.trans h1⟩), e.2.1, h3]
        exact q4 s' fun n hn => hs n (List.mem_cons_of_mem _ hn)
    · by_cases c2 : lt d.val x
      · obtain ⟨P, q1, q2, q3, q4⟩ := ihr h6 n2
        refine ⟨p :: P, by simp only [List.length_cons, T.height]; omega, List.nodup_cons.2 ⟨fun hp => n4 (q3 p hp), q2⟩, ?_, ?_⟩
        · intro n hn
          rcases List.mem_cons.1 hn with rfl | hn
          · simp [T.ptrs]
          · simp [T.ptrs, q3 n hn]
        · intro s' hs
          have e := hs p (List.mem_cons_self ..)
          unfold findFrom Returns
          rw [if_neg (by simp [T.root])]
          simp only [root_node, fFind]
          rw [bind_returns (getData_ok (e.1.trans h1)), if_neg c1, if_neg c1, if_pos c2, if_pos c2,
            bind_returns (getRight_ok ⟨d, e.1.trans h1⟩), e.2.2, h4]
          exact q4 s' fun n hn => hs n (List.mem_cons_of_mem _ hn)
      · refine ⟨[p], by simp [T.height], by simp, by simp [T.ptrs], fun s' hs => ?_⟩
        have e := hs p (List.mem_cons_self ..)
        unfold findFrom Returns
        rw [if_neg (by simp [T.root])]
        simp only [root_node, fFind]
        rw [bind_returns (getData_ok (e.1.trans h1)), if_neg c1, if_neg c1, if_neg c2, if_neg c2]; rfl

theorem height_log {t : Tr α} (h : Avl t) : t.height ≤ 2 * (t.count + 1).log2 + 1 := by
  have h1 := fib_count (avl_balanced_of h)
  have h2 := fib_exp (t.height / 2)
  have h3 : fib (2 * (t.height / 2) + 2) ≤ fib (t.height + 2) := fib_le (by omega)
  have h4 : t.height / 2 ≤ (t.count + 1).log2 := (Nat.le_log2 (by omega)).2 (by omega)
  omega

theorem find_consults {w : World α} {g : Nat → Option (Tr α)} (h : Tree.Holds (Good lt) w g) {k : Nat} {t : Tr α}
    (ht : g k = some t) (x : α) :
    ∃ P : List Nat, P.Nodup ∧ P.length ≤ 2 * ((vals t).length + 1).log2 + 1 ∧ Consults (find lt x) k w P := by
  obtain ⟨P, q1, q2, q3, q4⟩ := findFrom_path (lt := lt) (h.load ht).rep (h.load ht).nodup x
  refine ⟨P, q2, ?_, consults_of (b := fFind lt x t) (h.obj k t ht) fun s' e1 e2 => ?_⟩
  · rw [show (vals t).length = t.count from by rw [vals_eq, List.length_map, ← count_items]]
    exact Nat.le_trans q1 (height_log (h.good k t ht).1)
  · unfold find Returns
    rw [bind_returns (show Returns getRoot s' s'.root s' from rfl), e1]
    exact q4 s' e2

/-- **C76.**  In every reachable state `find(x)` on an AVL tree of `n` elements consults at most
`2 log₂ (n + 1) + 1` nodes. -/
theorem avl_find_path (hw : StrictWeak lt) {w : World α} {sw : SWorld α} (h : Reach lt w sw) {k : Nat} {l : List α}
    (hk : sw k = some l) (x : α) :
    ∃ P : List Nat, P.Nodup ∧ P.length ≤ 2 * (l.length + 1).log2 + 1 ∧ Consults (find lt x) k w P := by
  obtain ⟨g, h, hg⟩ := h.holds hw
  obtain ⟨t, ht, rfl⟩ := HoldsSet.get hg hk
  exact find_consults h ht x

/-- Finding 7 in {1, 5, 7, 9} works with all but at most five nodes released. -/
example : ∃ (w : World Nat) (sw : SWorld Nat) (P : List Nat) (it : Ptr), Reach natLt w sw ∧ sw 0 = some [1, 5, 7, 9] ∧
    P.length ≤ 5 ∧ Returns (on 0 (find natLt 7)) (only w P) it (only w P) := by
  obtain ⟨w, sw, h, h0, _⟩ := exReach
  obtain ⟨P, _, h1, it, h2⟩ := avl_find_path natLt_strictWeak h h0 7
  refine ⟨w, sw, P, it, h, h0, ?_, h2 _ (agreeOn_only 0 P w)⟩
  simpa [Nat.log2_def] using h1

end Verif.AVL

namespace Verif.Map

open Prog Verif.Tree
open Verif.AVL (StrictWeak HoldsSet natLt natLt_strictWeak)

variable {K V : Type} {lt : K → K → Bool} {dflt : V}

/-- **C76**, maps: in every reachable state `find(key)` on a map of `n` keys consults at most
`2 log₂ (n + 1) + 1` nodes. -/
theorem map_find_path (hw : StrictWeak lt) {w : World K V} {sw : SWorld K V} (h : Reach lt dflt w sw) {k : Nat}
    {l : List (K × V)} (hk : sw k = some l) (key : K) :
    ∃ P : List Nat, P.Nodup ∧ P.length ≤ 2 * (l.length + 1).log2 + 1 ∧ Consults (find lt dflt key) k w P := by
  obtain ⟨g, hm⟩ := h.maps hw
  obtain ⟨t, ht, rfl⟩ := HoldsSet.get hm.val hk
  exact AVL.find_consults hm.holds ht (key, dflt)

example : ∃ (w : World Nat Nat) (sw : SWorld Nat Nat) (P : List Nat), Reach natLt 0 w sw ∧
    sw 0 = some [(3, 0), (5, 51), (8, 80), (9, 80)] ∧ Consults (find natLt 0 8) 0 w P := by
  obtain ⟨w, sw, h, h0, _⟩ := exReach
  obtain ⟨P, _, _, h2⟩ := map_find_path natLt_strictWeak h h0 8
  exact ⟨w, sw, P, h, h0, h2⟩

end Verif.Map
