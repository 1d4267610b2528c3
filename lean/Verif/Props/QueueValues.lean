import Verif.Props.Queue

/-! # Queues are values, and `operator[]` (C83) -/

namespace Verif.Queue

open Prog

variable {σ α : Type}

/-! ## The linked-list-backed queue -/

/-- The operation does not move from an empty queue (into another one). -/
def Avoids : Op α → Spec α → Prop
  | .move d s, w => d = s ∨ w s ≠ some []
  | _, _ => True

/-- No operation of the history moves from an empty queue. -/
def AvoidsAll : List (Op α) → Spec α → Prop
  | [], _ => True
  | op :: ops, w => Avoids op w ∧ ∀ w', specStep op w = some w' → AvoidsAll ops w'

theorem AvoidsAll.dl {ops : List (Op α)} {w : Spec α} (h : AvoidsAll ops w) : DL.AvoidsAll (ops.map Op.dl) w := by
  induction ops generalizing w with
  | nil => trivial
  | cons op ops ih =>
    refine ⟨?_, fun w' hw' => ih (h.2 w' (by rw [dl_specStep]; exact hw'))⟩
    have := h.1
    cases op <;> first | trivial | exact this

/-- **C83**, linked-list-backed queues (partial: no move from an empty queue into another one, see
`queue_list_move_empty`).  Any history of construction, push, pop (not on empty), copying, moving and destruction
runs without fault; a copy has the same elements and each queue changes only by its own operations; a move
transfers the elements and leaves the source empty and usable. -/
theorem queue_values_list_partial (dflt : Option α) (ops : List (Op α)) (w : Spec α)
    (hs : specRun ops (fun _ => none) = some w) (ha : AvoidsAll ops (fun _ => none)) :
    ∃ m, Returns (run (dlist dflt) ops) LL.Mem.init () m ∧ Shows (dlist dflt) m w ∧
      ∀ k q, w k = some q → Returns (iterate (dlist dflt) k) m q m := by
  rw [dl_specRun] at hs
  obtain ⟨_, m, h1, h3⟩ := DL.run_ok (dflt := dflt) DL.Holds.init hs ha.dl
  have h2 := h3.shows
  refine ⟨m, by rw [dl_run]; exact h1, fun k q hk => ?_, fun k q hk => ((h2 k).2 q hk).1⟩
  obtain ⟨_, _, e3, e4, e5, e6⟩ := (h2 k).2 q hk
  exact ⟨e3, e4, e5, e6⟩

example : ∃ w, specRun [Op.new 0, .push 0 1, .push 0 2, .push 0 3, .new 1, .copy 1 0, .pop 1, .new 2, .move 2 0,
      .push 0 9] (fun _ => none) = some w ∧ w 0 = some [9] ∧ w 1 = some [2, 3] ∧ w 2 = some [1, 2, 3] :=
  ⟨_, rfl, rfl, rfl, rfl⟩

example : AvoidsAll [Op.new 0, .push 0 1, .push 0 2, .push 0 3, .new 1, .copy 1 0, .pop 1, .new 2, .move 2 0,
      .push 0 9] (fun _ => none) := by
  simp [AvoidsAll, Avoids, specStep, Spec.put]

/-- **C83, failing case.**  Moving an empty linked-list-backed queue breaks both: `empty()` and the destructor of
either stop at an assertion. -/
theorem queue_list_move_empty (dflt : Option α) :
    ∃ m, Returns (run (dlist dflt) [.new 0, .new 1, .move 1 0]) LL.Mem.init () m ∧
      ∀ k, k = 0 ∨ k = 1 → Faults (empty (dlist dflt) k) m .assert ∧
        Faults (step (dlist dflt) (.drop k)) m .assert := by
  obtain ⟨m1, m2, h1, h2, h3, h4, h5, h6⟩ := DL.dlist_move_empty_faults dflt [.new 0, .new 1] _ 1 0 []
    (by decide) rfl (DL.avoidsAll_of_noMove (by simp) _) rfl rfl
  refine ⟨m2, ?_, ?_⟩
  · show (do DL.step dflt (.new 0); DL.step dflt (.new 1); DL.step dflt (.move 1 0); pure ()) LL.Mem.init = _
    have hw := h1.wp (Q := fun _ t => t = m1) rfl
    simp only [DL.run, List.map_cons, List.map_nil, seqAll] at hw
    rw [wp_bind] at hw
    obtain ⟨_, w1, e1, hw⟩ := hw
    rw [wp_bind] at hw
    obtain ⟨_, w2, e2, hw⟩ := hw
    rw [wp_pure] at hw
    subst hw
    rw [bind_returns e1, bind_returns e2, bind_returns h2]
    rfl
  · rintro k (rfl | rfl)
    · exact ⟨h4, h6⟩
    · exact ⟨h3, h5⟩

/-! ## The deque-backed queue -/

theorem dq_specStep' {op : Op α} {dw : Deq.SWorld α} {w w' : Spec α} (h : Abs dw w)
    (hs : specStep op w = some w') : ∃ dw', Deq.specStep op.dq dw = some dw' ∧ Abs dw' w' := by
  cases op with
  | copy d s =>
    cases hd : dw d with
    | none => simp [specStep, h d, hd] at hs
    | some a =>
      cases hk : dw s with
      | none => simp [specStep, h d, h s, hd, hk] at hs
      | some b =>
        simp only [specStep, h d, h s, hd, hk, Option.map_some, Option.bind_some, Option.some.injEq] at hs
        subst hs
        by_cases hds : d = s
        · subst hds
          rw [hd] at hk; cases hk
          refine ⟨dw, by simp [Deq.specStep, Op.dq, hd], fun j => ?_⟩
          simp only [Spec.put]
          split
          · rename_i e; rw [e, hd]; rfl
          · exact h j
        · refine ⟨_, by simp [Deq.specStep, Op.dq, hd, hk, hds]; rfl, h.put d _ _ ?_⟩
          by_cases hb : b.l = [] <;> simp [hb, Deq.SD.clear]
  | move d s =>
    cases hd : dw d with
    | none => simp [specStep, h d, hd] at hs
    | some a =>
      cases hk : dw s with
      | none => simp [specStep, h d, h s, hd, hk] at hs
      | some b =>
        simp only [specStep, h d, h s, hd, hk, Option.map_some, Option.bind_some] at hs
        by_cases hds : d = s
        · rw [if_pos hds] at hs; cases hs
          exact ⟨dw, by simp [Deq.specStep, Op.dq, hk, hds], h⟩
        · rw [if_neg hds] at hs; cases hs
          exact ⟨_, by simp [Deq.specStep, Op.dq, hd, hk, hds]; rfl, (h.put d _ _ rfl).put s _ _ rfl⟩
  | _ => exact dq_specStep (by simp) h hs

theorem dq_specRun' {ops : List (Op α)} {dw : Deq.SWorld α} {w w' : Spec α} (h : Abs dw w)
    (hs : specRun ops w = some w') : ∃ dw', Deq.specRun (ops.map Op.dq) dw = some dw' ∧ Abs dw' w' := by
  induction ops generalizing dw w with
  | nil => cases hs; exact ⟨dw, rfl, h⟩
  | cons op ops ih =>
    simp only [specRun, Option.bind_eq_some_iff] at hs
    obtain ⟨w1, h1, h2⟩ := hs
    obtain ⟨dw1, h3, h4⟩ := dq_specStep' h h1
    obtain ⟨dw2, h5, h6⟩ := ih h4 h2
    exact ⟨dw2, by simp only [List.map_cons, Deq.specRun, h3, Option.bind_some]; exact h5, h6⟩

/-- **C83**, deque-backed queues (partial: blocks that touch are in order of allocation, see `queue_adjacent_wrong`; no
defective copy or move of C33 and C35).  Any history of construction, push, pop (not on empty), copying, moving
and destruction without those runs without fault; `size()` counts the elements; and, unless the queue was the
target of a move (C35), `front`, `back`, the loop and `operator[]`
(`Deq.elemAt`: negative indices count from the newest element) show them. -/
theorem queue_values_deque_partial (cfg : Deq.Cfg α) (hA : 0 < cfg.A) (hadj : Deq.AdjUp cfg)
    (ops : List (Op α)) (w : Spec α) (hs : specRun ops (fun _ => none) = some w)
    (ha : Deq.AvoidsAll (ops.map Op.dq) (fun _ => none)) :
    ∃ m dw, Returns (run (deque cfg) ops) Deq.World.init () m ∧
      Deq.specRun (ops.map Op.dq) (fun _ => none) = some dw ∧
      ∀ k q, w k = some q →
        Returns (size (deque cfg) k) m q.length m ∧ Returns (empty (deque cfg) k) m (q.length == 0) m ∧
        (Deq.Sound dw k → q ≠ [] →
          (∀ x, q.head? = some x → Returns (front (deque cfg) k) m x m) ∧
          (∀ x, q.getLast? = some x → Returns (back (deque cfg) k) m x m) ∧
          (∀ i x, Deq.elemAt q i = some x → Returns (index cfg k i) m x m) ∧
          Returns (iterate (deque cfg) k) m q m) := by
  obtain ⟨dw, h1, h2⟩ := dq_specRun' (dw := fun _ => none) (fun _ => rfl) hs
  obtain ⟨_, m, h3, h4⟩ := Deq.run_ok hA hadj Deq.WInv.init h1 ha
  refine ⟨m, dw, by rw [dq_run]; exact h3, h1, fun k q hk => ?_⟩
  rw [h2 k] at hk
  cases hd : dw k with
  | none => rw [hd] at hk; cases hk
  | some s =>
    rw [hd] at hk
    cases hk
    obtain ⟨e1, e2, e3⟩ := (h4.shows hA hadj k).2 s hd
    refine ⟨e1, e2, fun hsd hne => ?_⟩
    obtain ⟨x, _, hI, _⟩ := h4.get hd
    obtain ⟨hu, _⟩ := hI.used (hsd s hd) hne
    have hfull := e3 (Or.inl hu)
    exact ⟨hfull.front, hfull.back, hfull.index, hfull.iter⟩

example : ∃ w, specRun [Op.new 0, .push 0 1, .push 0 2, .push 0 3, .pop 0, .new 1, .copy 1 0, .pop 1, .push 0 9]
    (fun _ => none) = some w ∧ w 0 = some [2, 3, 9] ∧ w 1 = some [3] ∧ Deq.elemAt [2, 3, 9] 1 = some 3 ∧
      Deq.elemAt [2, 3, 9] (-1) = some 9 := ⟨_, rfl, rfl, rfl, rfl, rfl⟩

example : Deq.AvoidsAll ([Op.new 0, .push 0 1, .push 0 2, .push 0 3, .pop 0, .new 1, .copy 1 0, .pop 1,
      .push 0 9].map Op.dq) (fun _ => none) := by
  simp [Deq.AvoidsAll, Deq.Avoids, Op.dq, Deq.specStep, Deq.SWorld.put, Deq.Sound]

end Verif.Queue
