import Verif.Props.AVLTree

/-!
# Iterators and references of `AVLTree` stay with their element (C73)

A node is never moved to another element: rotations and the removal of other elements relink
nodes but leave their values alone.
-/

namespace Verif.AVL

open Prog Verif.Tree

variable {α : Type} {lt : α → α → Bool}

/-- **C73.**  Take the iterator `find(v)` gives for an element `v` of a tree.  Whatever statements
follow, on this tree or on others, as long as none of them removes `v`, the iterator still refers
to `v`, and `find(v)` still gives the same iterator.  Missing for C73: histories that contain one
of the defective uses (`Safe`), after which the program state is not defined. -/
theorem avl_references_partial (hw : StrictWeak lt) {w : World α} {sw : SWorld α} (h : Reach lt w sw) {k : Nat} {l : List α}
    (hk : sw k = some l) {v : α} (hv : v ∈ l) :
    ∃ it, it ≠ none ∧ Returns (on k (find lt v)) w it w ∧ Returns (on k (deref it)) w v w ∧
      ∀ ops w' sw', Steps lt w sw ops w' sw' → (∀ op ∈ ops, Keeps lt k v op) →
        Returns (on k (deref it)) w' v w' ∧ Returns (on k (find lt v)) w' it w' := by
  obtain ⟨g, h, hg⟩ := h.holds hw
  obtain ⟨t, ht, rfl⟩ := HoldsSet.get hg hk
  rw [vals_eq, List.mem_map] at hv
  obtain ⟨⟨z, v'⟩, hm, rfl⟩ := hv
  have key : ∀ {w' : World α} {g' : Nat → Option (Tr α)}, Tree.Holds (Good lt) w' g' → AtNode g' k z v' →
      Returns (on k (find lt v')) w' (some z) w' ∧ Returns (on k (deref (some z))) w' v' w' := by
    rintro w' g' h ⟨u, hu, hm⟩
    have ha := (h.good k u hu).2
    obtain ⟨d, d1, d2⟩ := dat_item (h.load hu).rep hm
    have hf := find_of_mem hw ha hm ⟨hw.irrefl _, hw.irrefl _⟩
    refine ⟨on_observes (h.obj k u hu) (hf ▸ find_ok (h.load hu) v'), on_observes (h.obj k u hu) ?_⟩
    unfold deref Returns
    rw [bind_returns (getData_ok d1), d2]; rfl
  obtain ⟨h1, h2⟩ := key h ⟨t, ht, hm⟩
  refine ⟨some z, by simp, h1, h2, fun ops w' sw' hst hkeep => ?_⟩
  obtain ⟨g', h3, _, h5⟩ := steps_ghost hw hst h hg
  exact (key h3 (h5 k z v' ⟨t, ht, hm⟩ hkeep)).symm

/-- Statements that can follow. -/
theorem steps_exist (hw : StrictWeak lt) (ops : List (Op α)) {w : World α} {sw sw' : SWorld α} (h : Reach lt w sw)
    (hs : specRun lt ops sw = some sw') (hsafe : SafeAll lt ops sw) : ∃ w', Steps lt w sw ops w' sw' := by
  induction ops generalizing w sw with
  | nil => cases hs; exact ⟨w, .nil⟩
  | cons op ops ih =>
    simp only [specRun, Option.bind_eq_some_iff] at hs
    obtain ⟨sw1, hs1, hs⟩ := hs
    have hsf := SafeIn.safe hw h hs1 hsafe.1
    obtain ⟨w1, r1, r2, _⟩ := avl_runs_partial hw h op hs1 hsf
    obtain ⟨w', r3⟩ := ih r2 hs (hsafe.2 _ hs1)
    exact ⟨w', .cons hs1 hsf r1 r3⟩

example : ∃ (w w' : World Nat) (sw sw' : SWorld Nat) (ops : List (Op Nat)), Reach natLt w sw ∧ sw 0 = some [1, 5, 7, 9] ∧
    Steps natLt w sw ops w' sw' ∧ (∀ op ∈ ops, Keeps natLt 0 7 op) ∧ sw' 0 = some [1, 2, 6, 7] := by
  obtain ⟨sw, h1, h2, h3, h4⟩ := exOps_meaning
  obtain ⟨w, _, h5, _⟩ := avl_history_partial natLt_strictWeak exOps .init h1 h4
  cases h1
  obtain ⟨w', h6⟩ := steps_exist natLt_strictWeak [.push 0 6, .push 0 2, .pop 0 5, .erase 0 9, .clear 1] h5 rfl (by
    repeat' first
      | (refine ⟨?_, fun w' e => ?_⟩; rotate_left; have e : some _ = some w' := e; cases e)
      | trivial
      | (intro l hl; have hl : some _ = some l := hl; cases hl; decide))
  exact ⟨w, w', _, _, _, h5, rfl, h6, by simp [Keeps, same, natLt], rfl⟩

end Verif.AVL
