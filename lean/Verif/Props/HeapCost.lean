import Verif.HeapCost
import Verif.Props.Heap

/-! # Cost of heaps (C75) -/

namespace Verif.Heap

open Prog Vec

variable {α : Type}

/-- **C75.**  In a history that completes, heaps construct and assign at most as many elements as
the history is charged for: with `n` elements added altogether, `4 + 2 log₂ n` per `push` and
`pop`, `4 m + 3` for a heap built from `m` elements, `2 n + 4` per copy and 2 per other
construction or move.  Nothing is assumed of the comparator. -/
theorem heap_work (triv : Bool) (cmp : α → α → Bool) (ops : List (Op α)) (hn : (ops.map adds).sum + 1 < 2 ^ 31)
    (w : World α) (hr : Returns (run triv cmp ops) World.init () w) :
    w.mem.built + w.mem.moved ≤ (ops.map (charge (ops.map adds).sum)).sum := by
  obtain ⟨N, hN⟩ := within_exists ops
  have h0 : Small 0 (World.init : World α) := fun k v hv => by cases hv
  have := (run_paid h0 hN (by omega) hn () w hr).2
  have e : slacks N (World.init : World α).obj = 0 := by
    clear hN this
    induction N with
    | zero => rfl
    | succ N ih => rw [slacks_succ, ih]; rfl
  rw [e] at this
  simp only [work, World.init, Mem.init] at this
  omega

/-- **C75**, `n` operations `push` and `pop` in any order: at most `n (4 + 2 log₂ n)` elements are
constructed and assigned, besides the first sentinel. -/
theorem heap_push_pop_work (triv : Bool) (cmp : α → α → Bool) (obj : α) (ops : List (Op α)) (hn : ops.length + 1 < 2 ^ 31)
    (hops : ∀ op ∈ ops, (∃ x, op = .push 0 x) ∨ op = .pop 0)
    (w : World α) (hr : Returns (run triv cmp (.new 0 obj :: ops)) World.init () w) :
    w.mem.built + w.mem.moved ≤ ops.length * (4 + 2 * ops.length.log2) + 2 := by
  have h1 : (ops.map adds).sum ≤ ops.length := by
    clear hn hr
    induction ops with
    | nil => simp
    | cons op ops ih =>
      have := ih fun o ho => hops o (List.mem_cons_of_mem _ ho)
      rcases hops op (List.mem_cons_self ..) with ⟨x, rfl⟩ | rfl <;> simp [adds] <;> omega
  have h2 := heap_work triv cmp (.new 0 obj :: ops) (by simp only [List.map_cons, List.sum_cons, adds]; omega) w hr
  refine Nat.le_trans h2 ?_
  simp only [List.map_cons, List.sum_cons, adds, charge, Nat.zero_add]
  have h3 := log2_mono h1
  generalize (ops.map adds).sum = n at h1 h3 ⊢
  generalize ops.length.log2 = L at h3 ⊢
  clear h1 h2 hr hn
  induction ops with
  | nil => simp
  | cons op ops ih =>
    have := ih fun o ho => hops o (List.mem_cons_of_mem _ ho)
    have hc : charge n op ≤ 4 + 2 * L := by
      rcases hops op (List.mem_cons_self ..) with ⟨x, rfl⟩ | rfl <;> simp [charge] <;> omega
    simp only [List.map_cons, List.sum_cons, List.length_cons]
    rw [show (ops.length + 1) * (4 + 2 * L) = ops.length * (4 + 2 * L) + (4 + 2 * L) from Nat.succ_mul _ _]
    omega

theorem iterate_length {v : Vec} {m m' : Mem α} {l : List α} (h : Returns (iterate v) m l m') : l.length = v.sz - 1 := by
  have := wlp_forRange (I := fun i (l : List α) (_ : Mem α) => l.length = i - 1) (f := fun (i : Nat) acc => do
      let x ← read v.c i
      pure (acc ++ [x])) (v.sz - 1) 1 [] m rfl
    fun i a t h1 _ h2 => wlp_bind fun x u _ => wlp_pure (by simp [h2]; omega)
  have := this _ _ h
  omega

/-- **C75**, worst case: a `push` on a heap of `n` elements assigns at most `2 log₂ (n + 1)` elements. -/
theorem heap_push_assignments (triv : Bool) (cmp : α → α → Bool) (w : World α) (k : Nat) (v : Vec) (x : α) (l : List α)
    (hv : w.obj k = some v) (hit : Returns (iterate v) w.mem l w.mem) (hl : l.length + 1 < 2 ^ 31)
    (w' : World α) (hr : Returns (step triv cmp (.push k x)) w () w') :
    w'.mem.moved ≤ w.mem.moved + 2 * (l.length + 1).log2 := by
  have hlen := iterate_length hit
  have : wlp (step triv cmp (.push k x)) (fun _ w' => w'.mem.moved ≤ w.mem.moved + 2 * (l.length + 1).log2) w := by
    refine wlp_bind (wlp_getObj fun u hu => ?_)
    rw [hv] at hu; cases hu
    refine wlp_bind (wlp_lift (wlp_mono (push_moves (by omega)) fun v' m' hm => wlp_putObj ?_))
    have := log2_mono (show v.sz ≤ l.length + 1 by omega)
    have := hm.2
    unfold Moves at this
    dsimp only; omega
  exact this _ _ hr

/-- **C75**, worst case: a `pop` on a heap of `n` elements assigns at most `1 + 2 log₂ (n - 1)` elements. -/
theorem heap_pop_assignments (triv : Bool) (cmp : α → α → Bool) (w : World α) (k : Nat) (v : Vec) (l : List α)
    (hv : w.obj k = some v) (hit : Returns (iterate v) w.mem l w.mem) (hl : l.length + 1 < 2 ^ 31)
    (w' : World α) (hr : Returns (step triv cmp (.pop k)) w () w') :
    w'.mem.moved ≤ w.mem.moved + (1 + 2 * (l.length - 1).log2) := by
  have hlen := iterate_length hit
  have : wlp (step triv cmp (.pop k)) (fun _ w' => w'.mem.moved ≤ w.mem.moved + (1 + 2 * (l.length - 1).log2)) w := by
    refine wlp_bind (wlp_getObj fun u hu => ?_)
    rw [hv] at hu; cases hu
    refine wlp_bind (wlp_lift (wlp_mono (pop_moves (by omega)) fun v' m' hm => wlp_putObj ?_))
    have := log2_mono (show v.sz - 2 ≤ l.length - 1 by omega)
    have := hm.2
    unfold Moves at this
    dsimp only; omega
  exact this _ _ hr

/-- **C75**, `Heap::build(begin, end)` on `n` elements constructs and assigns at most `4 n + 2`. -/
theorem heap_build_work (triv : Bool) (cmp : α → α → Bool) (obj : α) (m m' : Mem α) (b lo n : Nat) (v : Vec)
    (hn : n + 1 < 2 ^ 31) (hr : Returns (build triv cmp obj b lo n) m v m') :
    m'.built + m'.moved ≤ m.built + m.moved + (4 * n + 2) := build_work hn _ _ hr

/-- **C75**, `Heap::sort(begin, end)` on `n` elements constructs and assigns at most
`8 n + 3 + 2 n log₂ n`. -/
theorem heap_sort_work (triv : Bool) (cmp : α → α → Bool) (obj : α) (m m' : Mem α) (b lo n : Nat)
    (hn : n + 1 < 2 ^ 31) (hr : Returns (sort triv cmp obj b lo n) m () m') :
    m'.built + m'.moved ≤ m.built + m.moved + (8 * n + 3 + 2 * (n * n.log2)) := sort_work hn _ _ hr

theorem lt_order : Order (fun a b : Int => a ≤ b) (fun a b => decide (a < b)) :=
  ⟨fun _ => Int.le_refl _, fun _ _ _ => Int.le_trans, fun _ _ h => by simp at h; omega, fun _ _ h => by simpa using h⟩

/-- Hypotheses met: a history that completes, with its charge. -/
example : ∃ w, Returns (run false (fun a b : Int => decide (a < b)) [Op.new 0 0, .push 0 5, .push 0 1, .push 0 3, .pop 0])
      World.init () w ∧
    ([Op.new 0 (0 : Int), .push 0 5, .push 0 1, .push 0 3, .pop 0].map adds).sum = 3 ∧
    ([Op.new 0 (0 : Int), .push 0 5, .push 0 1, .push 0 3, .pop 0].map (charge 3)).sum = 26 ∧
    w.mem.built + w.mem.moved ≤ 26 := by
  have hl : Legal (fun a b : Int => a ≤ b) [Op.new 0 0, .push 0 5, .push 0 1, .push 0 3, .pop 0] (fun _ => none) := by
    refine ⟨rfl, ?_⟩
    rintro _ rfl
    refine ⟨⟨0, rfl, by simp⟩, ?_⟩
    rintro _ ⟨_, h, rfl⟩
    cases h
    refine ⟨⟨_, rfl, by simp⟩, ?_⟩
    rintro _ ⟨_, h, rfl⟩
    cases h
    refine ⟨⟨_, rfl, by simp⟩, ?_⟩
    rintro _ ⟨_, h, rfl⟩
    cases h
    exact ⟨⟨_, rfl, by simp⟩, fun _ _ => trivial⟩
  obtain ⟨_, w, h1, _⟩ := run_refines lt_order (triv := false) WInv.init (Abs.init _) hl (by simp [Avoids])
  have e : ([Op.new 0 (0 : Int), .push 0 5, .push 0 1, .push 0 3, .pop 0].map (charge 3)).sum = 26 := by
    simp [charge, Nat.log2_def]
  exact ⟨w, h1, rfl, e, e ▸ heap_work false _ _ (by decide) w h1⟩

/-- Hypotheses met: sorting three elements inside a larger block. -/
example : ∃ m m' : Mem Int, Returns (sort false (fun a b : Int => decide (a < b)) 0 1 2 3) m () m' ∧
    m'.built + m'.moved ≤ m.built + m.moved + 33 := by
  have h : (Mem.WF (⟨fun b => if b = 1 then some ⟨8, fun j => [0, 0, 5, 1, 4, 7, 7, 7][j]?⟩ else none, 2, 0, 0, 0⟩ : Mem Int)) := by
    refine ⟨by simp, ?_, by simp⟩
    intro b hb; simp only at hb ⊢; rw [if_neg (by omega)]
  obtain ⟨m', out, h1, _⟩ := heap_sort_partial lt_order false 0 _ h 1 2 [5, 1, 4] (by simp) ⟨_, rfl, by simp, by
    intro i hi
    simp at hi
    obtain rfl | rfl | rfl : i = 0 ∨ i = 1 ∨ i = 2 := by omega
    all_goals rfl⟩ (by simp)
  refine ⟨_, m', h1, ?_⟩
  have := heap_sort_work false _ 0 _ m' 1 2 3 (by decide) h1
  simpa [Nat.log2_def] using this

end Verif.Heap
