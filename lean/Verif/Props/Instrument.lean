import Verif.VectorLemmas
import Verif.Tree
import Verif.LinkedList

/-!
# The counters of lost objects count

The theorems on the release of memory say that a counter of objects that disappear without a
destructor stays at zero.  Here: each primitive that can make an object disappear that way raises the
counter by the number of objects that do.
-/

namespace Verif

/-- Constructing over an object of a vector's storage. -/
theorem vec_construct_counts {α : Type} (m : Vec.Mem α) {b j : Nat} {k : Vec.Blk α} {y : α} (x : α)
    (hb : b ≠ 0) (hk : m.blk b = some k) (hj : j < k.len) (hy : k.slot j = some y) :
    wp (Vec.construct b (j : Int) (.val x)) (fun _ m' => m'.lost = m.lost + 1) m := by
  unfold Vec.construct
  have h1 : Returns (Prog.check (σ := Vec.Mem α) (b ≠ 0 ∨ (j : Int) ≠ 0) Fault.crash) m () m := by
    simp [Returns, Prog.check, hb]
  have h2 : Returns (Vec.Arg.get (.val x)) m x m := rfl
  rw [wp_bind]; refine (wp_of_returns h1 _).2 ?_
  rw [wp_bind]; refine (wp_of_returns h2 _).2 ?_
  rw [wp_bind]; refine (wp_of_returns (Vec.access_ok hb hk hj) _).2 ?_
  simp [wp, Prog.modify, hy]

/-- Releasing a vector's storage with objects in it. -/
theorem vec_dealloc_counts {α : Type} (m : Vec.Mem α) {b : Nat} {k : Vec.Blk α}
    (hk : m.blk b = some k) (js : List Nat) (hd : js.Nodup)
    (hjs : ∀ j, j ∈ js ↔ j < k.len ∧ (k.slot j).isSome) :
    wp (Vec.dealloc b k.len) (fun _ m' => m'.lost = m.lost + js.length) m := by
  have h : Returns (Vec.dealloc b k.len) m ()
      { m with blk := fun x => if x = b then none else m.blk x
               lost := m.lost + k.live } := by simp [Returns, Vec.dealloc, hk]
  refine (wp_of_returns h _).2 ?_
  show m.lost + k.live = _
  have : js.Perm ((List.range k.len).filter fun i => (k.slot i).isSome) :=
    (List.perm_ext_iff_of_nodup hd (List.nodup_range.filter _)).2 fun j => by
      rw [hjs, List.mem_filter, List.mem_range]
  rw [this.length_eq, Vec.Blk.live, List.countP_eq_length_filter]

/-- Constructing over a tree node, and releasing one that was not destroyed. -/
theorem tree_node_counts {δ : Type} (s : Tree.St δ) {n : Nat} {x : δ} (y : δ)
    (h : s.dat n = some (some x)) :
    wp (Tree.constructNode n y) (fun _ s' => s'.lost = s.lost + 1) s ∧
    wp (Tree.freeNode (some n)) (fun _ s' => s'.lost = s.lost + 1) s := by
  constructor
  · simp [wp, Tree.constructNode, h]
  · simp [wp, Tree.freeNode, h]

/-- Constructing over a list node, and releasing one that was not destroyed. -/
theorem list_node_counts {α : Type} (m : LL.Mem α) {n : Nat} {x : LL.Cell α} (y : LL.Cell α)
    (h : m.cell (.node n) = some (some x)) :
    wp (LL.constructNode (.node n) y) (fun _ m' => m'.lost = m.lost + 1) m ∧
    wp (LL.freeNode (.node n)) (fun _ m' => m'.lost = m.lost + 1) m := by
  constructor
  · simp [wp, LL.constructNode, h]
  · simp [wp, LL.freeNode, h]

/-- A memory in which the hypotheses hold. -/
example : ∃ (m : Vec.Mem Nat) (k : Vec.Blk Nat), m.blk 1 = some k ∧ 0 < k.len ∧ k.slot 0 = some 5 :=
  ⟨⟨fun _ => some ⟨2, fun _ => some 5⟩, 2, 0, 0, 0⟩, ⟨2, fun _ => some 5⟩, rfl, by decide, rfl⟩

end Verif
