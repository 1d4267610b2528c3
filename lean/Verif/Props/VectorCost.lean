import Verif.VectorCost

/-! # Cost of vectors (C74) -/

namespace Verif.Vec

open Prog

variable {α : Type}

/-- **C74.**  The number of objects that vectors construct during a history that completes, for
elements added and for elements carried over to new storage together, is at most what the history
is charged for: 4 per `push_back`, 2 per `pop_back`, `2 n` for every operation given the size `n`,
size and capacity of the source for a copy, and nothing for the rest. -/
theorem vector_amortised (triv : Bool) (ops : List (Op α)) (sw : SWorld α)
    (hs : specRun ops (fun _ => none) = some sw) (w : World α) (hw : Returns (run triv ops) World.init () w) :
    w.mem.built ≤ chargeAll ops (fun _ => none) := by
  obtain ⟨N, hN⟩ := within_exists ops
  have := run_paid WInv.init hN hs hw
  have h0 : pot N (fun _ => none : SWorld α) = 0 := by
    unfold pot
    clear hN this
    induction N with
    | zero => rfl
    | succ N ih => rw [List.range_succ, List.map_append, List.sum_append, ih]; rfl
  simp only [h0, World.init, Mem.init] at this
  omega

/-- **C74**, histories without sized operations and copies: the number of constructed objects is
linear in the number of operations, whatever the order of `push_back` and `pop_back`. -/
theorem vector_linear (triv : Bool) (ops : List (Op α)) (sw : SWorld α)
    (hops : ∀ op ∈ ops, (∃ k, op = .new k) ∨ (∃ k x, op = .push k x) ∨ (∃ k j i, op = .pushElem k j i) ∨
      (∃ k, op = .pop k) ∨ (∃ k i x, op = .set k i x) ∨ (∃ k, op = .clear k) ∨ (∃ d s, op = .move d s) ∨
      ∃ k, op = .drop k)
    (hs : specRun ops (fun _ => none) = some sw) (w : World α) (hw : Returns (run triv ops) World.init () w) :
    w.mem.built ≤ 4 * ops.length := by
  refine Nat.le_trans (vector_amortised triv ops sw hs w hw) ?_
  clear hs hw
  generalize (fun _ => none : SWorld α) = sw0
  induction ops generalizing sw0 with
  | nil => simp [chargeAll]
  | cons op ops ih =>
    have h1 : charge op sw0 ≤ 4 := by
      rcases hops op (List.mem_cons_self ..) with
        ⟨_, rfl⟩ | ⟨_, _, rfl⟩ | ⟨_, _, _, rfl⟩ | ⟨_, rfl⟩ | ⟨_, _, _, rfl⟩ | ⟨_, rfl⟩ | ⟨_, _, rfl⟩ | ⟨_, rfl⟩ <;>
      simp [charge]
    simp only [chargeAll, List.length_cons]
    split
    · have := ih (fun o ho => hops o (List.mem_cons_of_mem _ ho)) ‹_›
      omega
    · omega

/-- **C74**, allocations: filling a new vector with `n` elements by `push_back` allocates at most
`log₂ n + 1` times. -/
theorem vector_push_allocations (triv : Bool) (xs : List α) :
    ∃ w, Returns (run triv (.new 0 :: xs.map (.push 0))) World.init () w ∧
      2 ^ (w.mem.next - 1) ≤ 2 * max 1 xs.length := by
  have key : ∀ (xs : List α) (w : World α) (sw : SWorld α) (s : SVec α), WInv w sw → sw 0 = some s →
      1 ≤ w.mem.next → 2 ^ (w.mem.next - 1) ≤ max 1 s.cap → s.cap ≤ max 2 (2 * (s.data.length - 1)) →
      wp (run triv (xs.map (.push 0))) (fun _ w' => 2 ^ (w'.mem.next - 1) ≤
        max 2 (2 * (s.data.length + xs.length - 1))) w := by
    intro xs
    induction xs with
    | nil =>
      intro w sw s _ _ _ h1 h2
      refine (wp_pure _ _ _).2 ?_
      simp only [List.length_nil]; omega
    | cons x xs ih =>
      intro w sw s h h0 hn h1 h2
      have hle := h.cap_le h0
      have hs : specStep (.push 0 x) sw =
          some (sw.put 0 (some ⟨s.data ++ [x], capAfterPush s.data.length s.cap⟩)) := by simp [specStep, h0]
      obtain ⟨_, w1, e1, h3⟩ := step_ok (triv := triv) h hs (by simp [Avoids])
      have hsp := step_spent h hs _ _ e1
      simp only [allocs, h0] at hsp
      have hmono : w.mem.next ≤ w1.mem.next := by
        obtain ⟨_, t, f1, f2⟩ := step_buf (triv := triv) h hs (by simp [Avoids])
        obtain ⟨_, rfl⟩ := Returns.det f1 e1
        exact f2.1.1
      show wp (step triv (.push 0 x) >>= fun _ => run triv (xs.map (.push 0))) _ _
      rw [wp_bind]
      refine Returns.wp e1 (wp_mono (ih w1 _ ⟨s.data ++ [x], capAfterPush s.data.length s.cap⟩ h3 (by simp [SWorld.put])
        (by omega) ?_ ?_) ?_)
      · by_cases c : s.data.length < s.cap
        · rw [if_pos c] at hsp
          have e : w1.mem.next = w.mem.next := by have := hsp.2; omega
          simp only [capAfterPush, if_pos c, e]; exact h1
        · rw [if_neg c] at hsp
          simp only [capAfterPush, if_neg c]
          have e : 2 ^ (w1.mem.next - 1) ≤ 2 * 2 ^ (w.mem.next - 1) := by
            rw [← Nat.pow_succ']
            exact Nat.pow_le_pow_right (by omega) (by have := hsp.2; omega)
          omega
      · simp only [capAfterPush, List.length_append, List.length_singleton]
        split <;> omega
      · intro _ t ht
        simp only [List.length_append, List.length_cons, List.length_nil] at ht ⊢
        rw [show s.data.length + (xs.length + 1) - 1 = s.data.length + (0 + 1) + xs.length - 1 by omega]
        exact ht
  have hs : specStep (.new 0) (fun _ => none : SWorld α) = some (SWorld.put (fun _ => none) 0 (some ⟨[], 0⟩)) := rfl
  obtain ⟨_, w1, e1, h3⟩ := step_ok (triv := triv) (w := World.init) WInv.init hs trivial
  have hm : w1.mem = Mem.init := by cases e1; rfl
  obtain ⟨_, w, e2, h4⟩ := key xs w1 _ ⟨[], 0⟩ h3 (by simp [SWorld.put]) (by rw [hm]; simp [Mem.init])
    (by rw [hm]; simp [Mem.init]) (by simp)
  refine ⟨w, ?_, ?_⟩
  · show (step triv (.new 0) >>= fun _ => run triv (xs.map (.push 0))) _ = _
    rw [bind_returns e1]; exact e2
  · refine Nat.le_trans h4 ?_
    simp only [List.length_nil]; omega

/-- Hypotheses met: alternating between growing and shrinking. -/
example : ∃ sw w, specRun [Op.new 0, .push 0 1, .push 0 2, .push 0 3, .pop 0, .push 0 4, .push 0 5, .pop 0, .pop 0, .pop 0, .pop 0]
      (fun _ => none) = some sw ∧ sw 0 = some ⟨[], 2⟩ ∧
    chargeAll [Op.new 0, .push 0 1, .push 0 2, .push 0 3, .pop 0, .push 0 4, .push 0 5, .pop 0, .pop 0, .pop 0, .pop 0]
      (fun _ => none) = 30 ∧
    Returns (run false [Op.new 0, .push 0 1, .push 0 2, .push 0 3, .pop 0, .push 0 4, .push 0 5, .pop 0, .pop 0, .pop 0, .pop 0])
      World.init () w := by
  obtain ⟨_, w, h, _⟩ := run_ok (triv := false)
    (ops := [Op.new 0, .push 0 1, .push 0 2, .push 0 3, .pop 0, .push 0 4, .push 0 5, .pop 0, .pop 0, .pop 0, .pop 0])
    WInv.init rfl (by simp [AvoidsAll, Avoids])
  exact ⟨_, w, rfl, rfl, rfl, h⟩

end Verif.Vec
