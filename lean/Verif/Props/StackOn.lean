import Verif.StackOn
import Verif.Props.Stack
import Verif.Props.Deque
import Verif.Props.DList

/-! # Property of `Stack` over `DoubleEndedQueue` and `DoublyLinkedList` (C80)

The specification of a history is the one of `Verif.Props.Stack`: a stack is a list with its top first. -/

namespace Verif.StackOn

open Prog
open Stack (Op Spec specStep specRun)

variable {σ α : Type}

/-- What the observers show of every stack: `size`, `empty` and the most recent element on `top`. -/
def Shows (ds : DS σ α) (m : σ) (w : Spec α) : Prop :=
  ∀ k s, w k = some s → Returns (size ds k) m s.length m ∧ Returns (empty ds k) m (s.length == 0) m ∧
    (∀ x, s.head? = some x → Returns (top ds k) m x m)

/-! ## The linked-list-backed stack -/

/-- The list operation that has the effect of a stack operation. -/
def dlOp : Op α → DL.Op α
  | .new k => .new k
  | .push k x => .pushBack k x
  | .pop k => .popBack k
  | .clear k => .clear k
  | .copy d s => .copy d s
  | .move d s => .move d s
  | .drop k => .drop k

/-- Contents of the lists. -/
def AbsL (dw : DL.SWorld α) (w : Spec α) : Prop := ∀ k, w k = (dw k).map List.reverse

theorem AbsL.put {dw : DL.SWorld α} {w : Spec α} (h : AbsL dw w) (k : Nat) (v t : Option (List α))
    (ht : t = v.map List.reverse) : AbsL (dw.put k v) (w.put k t) := by
  intro j
  simp only [DL.SWorld.put, Spec.put]
  split
  · exact ht
  · exact h j

theorem rev_cons {l : List α} {x : α} {t : List α} (h : l.reverse = x :: t) :
    l ≠ [] ∧ l.getLast? = some x ∧ l.dropLast.reverse = t := by
  have : l = t.reverse ++ [x] := by
    have := congrArg List.reverse h
    simpa using this
  subst this
  simp

theorem dl_specStep {op : Op α} {dw : DL.SWorld α} {w w' : Spec α} (h : AbsL dw w)
    (hs : specStep op w = some w') : ∃ dw', DL.specStep (dlOp op) dw = some dw' ∧ AbsL dw' w' := by
  cases op with
  | new k =>
    simp only [specStep] at hs
    split at hs
    · rename_i hk
      cases hs
      have : dw k = none := by rw [h k] at hk; simpa using hk
      exact ⟨_, by simp [DL.specStep, dlOp, this]; rfl, h.put k _ _ rfl⟩
    · cases hs
  | push k x =>
    cases hk : dw k with
    | none => simp [specStep, h k, hk] at hs
    | some s =>
      simp only [specStep, h k, hk, Option.map_some, Option.bind_some, Option.some.injEq] at hs
      subst hs
      exact ⟨_, by simp [DL.specStep, dlOp, hk]; rfl, h.put k _ _ (by simp)⟩
  | pop k =>
    cases hk : dw k with
    | none => simp [specStep, h k, hk] at hs
    | some s =>
      simp only [specStep, h k, hk, Option.map_some] at hs
      cases hl : s.reverse with
      | nil => simp [hl] at hs
      | cons x q =>
        simp only [hl, Option.some.injEq] at hs
        subst hs
        obtain ⟨h1, _, h3⟩ := rev_cons hl
        exact ⟨_, by simp [DL.specStep, dlOp, hk, h1]; rfl, h.put k _ _ (by simp [← h3])⟩
  | clear k =>
    cases hk : dw k with
    | none => simp [specStep, h k, hk] at hs
    | some s =>
      simp only [specStep, h k, hk, Option.map_some, Option.bind_some, Option.some.injEq] at hs
      subst hs
      exact ⟨_, by simp [DL.specStep, dlOp, hk]; rfl, h.put k _ _ rfl⟩
  | copy d s =>
    cases hd : dw d with
    | none => simp [specStep, h d, hd] at hs
    | some a =>
      cases hk : dw s with
      | none => simp [specStep, h d, h s, hd, hk] at hs
      | some b =>
        simp only [specStep, h d, h s, hd, hk, Option.map_some, Option.bind_some, Option.some.injEq] at hs
        subst hs
        exact ⟨_, by simp [DL.specStep, dlOp, hd, hk]; rfl, h.put d _ _ rfl⟩
  | move d s =>
    cases hd : dw d with
    | none => simp [specStep, h d, hd] at hs
    | some a =>
      cases hk : dw s with
      | none => simp [specStep, h d, h s, hd, hk] at hs
      | some b =>
        simp only [specStep, h d, h s, hd, hk, Option.map_some, Option.bind_some] at hs
        by_cases hds : d = s
        · rw [if_pos hds] at hs; cases hs
          exact ⟨dw, by simp [DL.specStep, dlOp, hk, hds], h⟩
        · rw [if_neg hds] at hs; cases hs
          exact ⟨_, by simp [DL.specStep, dlOp, hd, hk, hds]; rfl, (h.put d _ _ rfl).put s _ _ rfl⟩
  | drop k =>
    cases hk : dw k with
    | none => simp [specStep, h k, hk] at hs
    | some s =>
      simp only [specStep, h k, hk, Option.map_some, Option.bind_some, Option.some.injEq] at hs
      subst hs
      exact ⟨_, by simp [DL.specStep, dlOp, hk]; rfl, h.put k _ _ rfl⟩

theorem dl_step {dflt : Option α} {op : Op α} {m : LL.Mem α} {dw dw' : DL.SWorld α} (h : DL.Holds m dw)
    (hs : DL.specStep (dlOp op) dw = some dw') (ha : DL.Avoids (dlOp op) dw) :
    wp (step (dlist dflt) op) (fun _ m' => DL.Holds m' dw') m := by
  have hok := DL.step_ok (dflt := dflt) h hs ha
  cases op with
  | pop k =>
    simp only [dlOp, DL.specStep, Option.bind_eq_some_iff] at hs
    obtain ⟨l, hl, hs⟩ := hs
    split at hs
    · cases hs
    · rename_i hne
      have hb := (((h.shows k).2 l hl).2.2.2.2.2) _ (List.getLast?_eq_some_getLast hne)
      show wp (DL.back k >>= fun _ => DL.popBack k) _ m
      rw [wp_bind, wp_of_returns hb]
      exact hok
  | _ => exact hok

/-- The operation does not move from an empty stack (into another one). -/
def Avoids : Op α → Spec α → Prop
  | .move d s, w => d = s ∨ w s ≠ some []
  | _, _ => True

/-- No operation of the history moves from an empty stack. -/
def AvoidsAll : List (Op α) → Spec α → Prop
  | [], _ => True
  | op :: ops, w => Avoids op w ∧ ∀ w', specStep op w = some w' → AvoidsAll ops w'

theorem dl_run {dflt : Option α} {ops : List (Op α)} {m : LL.Mem α} {dw : DL.SWorld α} {w w' : Spec α}
    (h : DL.Holds m dw) (habs : AbsL dw w) (hs : specRun ops w = some w') (ha : AvoidsAll ops w) :
    wp (run (dlist dflt) ops) (fun _ m' => ∃ dw', DL.Holds m' dw' ∧ AbsL dw' w') m := by
  induction ops generalizing m dw w with
  | nil =>
    cases hs
    exact (wp_pure _ _ _).2 ⟨dw, h, habs⟩
  | cons op ops ih =>
    simp only [specRun, Option.bind_eq_some_iff] at hs
    obtain ⟨w1, h1, h2⟩ := hs
    obtain ⟨dw1, h3, h4⟩ := dl_specStep habs h1
    show wp (do step (dlist dflt) op; run (dlist dflt) ops) _ m
    rw [wp_bind]
    refine wp_mono (dl_step h h3 ?_) (fun _ m1 hm1 => ih hm1 h4 h2 (ha.2 w1 h1))
    cases op with
    | move d s =>
      refine ha.1.imp id fun hn he => hn ?_
      rw [habs s, he]; rfl
    | _ => trivial

/-- **C80**, linked-list-backed stacks (partial: no move from an empty stack into another one, see
`stack_list_move_empty`).  Any history of construction, push, pop (not on empty), clear,
copying, moving and destruction runs without fault; afterwards `top` is the most recent element not yet
popped, `size` counts them, and the loop visits them from the bottom to the top. -/
theorem stack_lifo_list_partial (dflt : Option α) (ops : List (Op α)) (w : Spec α)
    (hs : specRun ops (fun _ => none) = some w) (ha : AvoidsAll ops (fun _ => none)) :
    ∃ m, Returns (run (dlist dflt) ops) LL.Mem.init () m ∧ Shows (dlist dflt) m w ∧
      ∀ k s, w k = some s → Returns (iterate (dlist dflt) k) m s.reverse m := by
  obtain ⟨_, m, h1, dw, h2, h3⟩ := dl_run (dflt := dflt) DL.Holds.init (fun _ => rfl) hs ha
  have key : ∀ k s, w k = some s → ∃ l, dw k = some l ∧ s = l.reverse := by
    intro k s hk
    rw [h3 k] at hk
    cases hd : dw k with
    | none => rw [hd] at hk; cases hk
    | some l => rw [hd] at hk; exact ⟨l, rfl, by simpa using hk.symm⟩
  refine ⟨m, h1, fun k s hk => ?_, fun k s hk => ?_⟩
  · obtain ⟨l, hl, rfl⟩ := key k s hk
    obtain ⟨_, _, e3, e4, _, e6⟩ := (h2.shows k).2 l hl
    rw [List.length_reverse]
    refine ⟨e3, e4, fun x hx => e6 x ?_⟩
    rwa [List.head?_reverse] at hx
  · obtain ⟨l, hl, rfl⟩ := key k s hk
    rw [List.reverse_reverse]
    exact ((h2.shows k).2 l hl).1

example : ∃ w, specRun [Op.new 0, .push 0 1, .push 0 2, .push 0 3, .pop 0, .new 1, .copy 1 0, .pop 1,
      .move 1 0, .push 0 7] (fun _ => none) = some w ∧ w 0 = some [7] ∧ w 1 = some [2, 1] :=
  ⟨_, rfl, rfl, rfl⟩

example : AvoidsAll [Op.new 0, .push 0 1, .push 0 2, .push 0 3, .pop 0, .new 1, .copy 1 0, .pop 1,
      .move 1 0, .push 0 7] (fun _ => none) := by
  simp [AvoidsAll, Avoids, specStep, Spec.put]

/-- **C80, failing case.**  Moving an empty linked-list-backed stack breaks both: `empty()` and the destructor of
either stop at an assertion. -/
theorem stack_list_move_empty (dflt : Option α) :
    ∃ m, Returns (run (dlist dflt) [.new 0, .new 1, .move 1 0]) LL.Mem.init () m ∧
      ∀ k, k = 0 ∨ k = 1 → Faults (empty (dlist dflt) k) m .assert ∧
        Faults (step (dlist dflt) (.drop k)) m .assert := by
  obtain ⟨m1, m2, h1, h2, h3, h4, h5, h6⟩ := DL.dlist_move_empty_faults dflt [.new 0, .new 1] _ 1 0 []
    (by decide) rfl (DL.avoidsAll_of_noMove (by simp) _) rfl rfl
  refine ⟨m2, ?_, ?_⟩
  · show (do DL.step dflt (.new 0); DL.step dflt (.new 1); DL.step dflt (.move 1 0); pure ()) LL.Mem.init = _
    have hw := h1.wp (Q := fun _ t => t = m1) rfl
    simp only [DL.run, List.map_cons, List.map_nil, seqAll] at hw
    rw [wp_bind] at hw
    obtain ⟨_, w1, e1, hw⟩ := hw
    rw [wp_bind] at hw
    obtain ⟨_, w2, e2, hw⟩ := hw
    rw [wp_pure] at hw
    subst hw
    rw [bind_returns e1, bind_returns e2, bind_returns h2]
    rfl
  · rintro k (rfl | rfl)
    · exact ⟨h4, h6⟩
    · exact ⟨h3, h5⟩

/-! ## The deque-backed stack -/

/-- The deque operation that has the effect of a stack operation. -/
def dqOp : Op α → Deq.Op α
  | .new k => .new k
  | .push k x => .pushBack k x
  | .pop k => .popBack k
  | .clear k => .clear k
  | .copy d s => .copy d s
  | .move d s => .move d s
  | .drop k => .drop k

/-- Contents of the deques. -/
def AbsD (dw : Deq.SWorld α) (w : Spec α) : Prop := ∀ k, w k = (dw k).map (·.l.reverse)

theorem AbsD.put {dw : Deq.SWorld α} {w : Spec α} (h : AbsD dw w) (k : Nat) (v : Option (Deq.SD α))
    (t : Option (List α)) (ht : t = v.map (·.l.reverse)) : AbsD (dw.put k v) (w.put k t) := by
  intro j
  simp only [Deq.SWorld.put, Spec.put]
  split
  · exact ht
  · exact h j

theorem dq_specStep {op : Op α} {dw : Deq.SWorld α} {w w' : Spec α} (h : AbsD dw w)
    (hs : specStep op w = some w') : ∃ dw', Deq.specStep (dqOp op) dw = some dw' ∧ AbsD dw' w' := by
  cases op with
  | new k =>
    simp only [specStep] at hs
    split at hs
    · rename_i hk
      cases hs
      have : dw k = none := by rw [h k] at hk; simpa using hk
      exact ⟨_, by simp [Deq.specStep, dqOp, this]; rfl, h.put k _ _ rfl⟩
    · cases hs
  | push k x =>
    cases hk : dw k with
    | none => simp [specStep, h k, hk] at hs
    | some s =>
      simp only [specStep, h k, hk, Option.map_some, Option.bind_some, Option.some.injEq] at hs
      subst hs
      exact ⟨_, by simp [Deq.specStep, dqOp, hk]; rfl, h.put k _ _ (by simp)⟩
  | pop k =>
    cases hk : dw k with
    | none => simp [specStep, h k, hk] at hs
    | some s =>
      simp only [specStep, h k, hk, Option.map_some] at hs
      cases hl : s.l.reverse with
      | nil => simp [hl] at hs
      | cons x q =>
        simp only [hl, Option.some.injEq] at hs
        subst hs
        obtain ⟨h1, _, h3⟩ := rev_cons hl
        exact ⟨_, by simp [Deq.specStep, dqOp, hk, h1]; rfl, h.put k _ _ (by simp [← h3])⟩
  | clear k =>
    cases hk : dw k with
    | none => simp [specStep, h k, hk] at hs
    | some s =>
      simp only [specStep, h k, hk, Option.map_some, Option.bind_some, Option.some.injEq] at hs
      subst hs
      exact ⟨_, by simp [Deq.specStep, dqOp, hk]; rfl, h.put k _ _ (by simp [Deq.SD.clear])⟩
  | copy d s =>
    cases hd : dw d with
    | none => simp [specStep, h d, hd] at hs
    | some a =>
      cases hk : dw s with
      | none => simp [specStep, h d, h s, hd, hk] at hs
      | some b =>
        simp only [specStep, h d, h s, hd, hk, Option.map_some, Option.bind_some, Option.some.injEq] at hs
        subst hs
        by_cases hds : d = s
        · subst hds
          rw [hd] at hk; cases hk
          refine ⟨dw, by simp [Deq.specStep, dqOp, hd], fun j => ?_⟩
          simp only [Spec.put]
          split
          · rename_i e; rw [e, hd]; rfl
          · exact h j
        · refine ⟨_, by simp [Deq.specStep, dqOp, hd, hk, hds]; rfl, h.put d _ _ ?_⟩
          by_cases hb : b.l = [] <;> simp [hb, Deq.SD.clear]
  | move d s =>
    cases hd : dw d with
    | none => simp [specStep, h d, hd] at hs
    | some a =>
      cases hk : dw s with
      | none => simp [specStep, h d, h s, hd, hk] at hs
      | some b =>
        simp only [specStep, h d, h s, hd, hk, Option.map_some, Option.bind_some] at hs
        by_cases hds : d = s
        · rw [if_pos hds] at hs; cases hs
          exact ⟨dw, by simp [Deq.specStep, dqOp, hk, hds], h⟩
        · rw [if_neg hds] at hs; cases hs
          exact ⟨_, by simp [Deq.specStep, dqOp, hd, hk, hds]; rfl, (h.put d _ _ rfl).put s _ _ rfl⟩
  | drop k =>
    cases hk : dw k with
    | none => simp [specStep, h k, hk] at hs
    | some s =>
      simp only [specStep, h k, hk, Option.map_some, Option.bind_some, Option.some.injEq] at hs
      subst hs
      exact ⟨_, by simp [Deq.specStep, dqOp, hk]; rfl, h.put k _ _ rfl⟩

/-- A stack that has elements and is sound shows them in full. -/
theorem dq_full {cfg : Deq.Cfg α} (hA : 0 < cfg.A) (hadj : Deq.AdjUp cfg) {m : Deq.World α}
    {dw : Deq.SWorld α} (h : Deq.WInv cfg m dw) {k : Nat} {s : Deq.SD α} (hk : dw k = some s)
    (hsd : s.ph ≠ .stale) (hne : s.l ≠ []) : Deq.ShowsSeq cfg m k s.l := by
  obtain ⟨x, _, hI, _⟩ := h.get hk
  obtain ⟨hu, _⟩ := hI.used hsd hne
  exact ((h.shows hA hadj k).2 s hk).2.2 (Or.inl hu)

theorem dq_step {cfg : Deq.Cfg α} (hA : 0 < cfg.A) (hadj : Deq.AdjUp cfg) {op : Op α} {m : Deq.World α}
    {dw dw' : Deq.SWorld α} (h : Deq.WInv cfg m dw) (hs : Deq.specStep (dqOp op) dw = some dw')
    (ha : Deq.Avoids (dqOp op) dw) :
    wp (step (deque cfg) op) (fun _ m' => Deq.WInv cfg m' dw') m := by
  have hok := Deq.step_ok hA hadj h hs ha
  cases op with
  | pop k =>
    simp only [dqOp, Deq.specStep, Option.bind_eq_some_iff] at hs
    obtain ⟨s, hk, hs⟩ := hs
    split at hs
    · cases hs
    · rename_i hne
      have hb := (dq_full hA hadj h hk (ha s hk) hne).back _ (List.getLast?_eq_some_getLast hne)
      show wp (Deq.back cfg k >>= fun _ => Deq.popBack cfg k) _ m
      rw [wp_bind, wp_of_returns hb]
      exact hok
  | _ => exact hok

theorem dq_run {cfg : Deq.Cfg α} (hA : 0 < cfg.A) (hadj : Deq.AdjUp cfg) {ops : List (Op α)}
    {m : Deq.World α} {dw : Deq.SWorld α} {w w' : Spec α} (h : Deq.WInv cfg m dw) (habs : AbsD dw w)
    (hs : specRun ops w = some w') (ha : Deq.AvoidsAll (ops.map dqOp) dw) :
    wp (run (deque cfg) ops)
      (fun _ m' => ∃ dw', Deq.specRun (ops.map dqOp) dw = some dw' ∧ Deq.WInv cfg m' dw' ∧ AbsD dw' w') m := by
  induction ops generalizing m dw w with
  | nil =>
    cases hs
    exact (wp_pure _ _ _).2 ⟨dw, rfl, h, habs⟩
  | cons op ops ih =>
    simp only [specRun, Option.bind_eq_some_iff] at hs
    obtain ⟨w1, h1, h2⟩ := hs
    obtain ⟨dw1, h3, h4⟩ := dq_specStep habs h1
    show wp (do step (deque cfg) op; run (deque cfg) ops) _ m
    rw [wp_bind]
    refine wp_mono (dq_step hA hadj h h3 ha.1) (fun _ m1 hm1 => ?_)
    refine wp_mono (ih hm1 h4 h2 (ha.2 dw1 h3)) ?_
    rintro _ m2 ⟨dw2, e1, e2, e3⟩
    exact ⟨dw2, by simp only [List.map_cons, Deq.specRun, h3, Option.bind_some]; exact e1, e2, e3⟩

/-- **C80**, deque-backed stacks (partial: blocks that touch are in order of allocation, see
`stack_adjacent_wrong`; no defective copy or move of C33 and C35).  Any history of construction, push, pop
(not on empty), clear, copying, moving and destruction without those runs without fault;
afterwards `size` counts the elements pushed and not popped, and, unless the stack was the target of a
move (C35), `top` is the most recent of them and the loop visits them from the bottom to the top. -/
theorem stack_lifo_deque_partial (cfg : Deq.Cfg α) (hA : 0 < cfg.A) (hadj : Deq.AdjUp cfg)
    (ops : List (Op α)) (w : Spec α) (hs : specRun ops (fun _ => none) = some w)
    (ha : Deq.AvoidsAll (ops.map dqOp) (fun _ => none)) :
    ∃ m dw, Returns (run (deque cfg) ops) Deq.World.init () m ∧
      Deq.specRun (ops.map dqOp) (fun _ => none) = some dw ∧
      ∀ k s, w k = some s →
        Returns (size (deque cfg) k) m s.length m ∧ Returns (empty (deque cfg) k) m (s.length == 0) m ∧
        (Deq.Sound dw k → (∀ x, s.head? = some x → Returns (top (deque cfg) k) m x m) ∧
          (s ≠ [] → Returns (iterate (deque cfg) k) m s.reverse m)) := by
  obtain ⟨_, m, h1, dw, h2, h3, h4⟩ := dq_run hA hadj Deq.WInv.init (fun _ => rfl) hs ha
  refine ⟨m, dw, h1, h2, fun k s hk => ?_⟩
  rw [h4 k] at hk
  cases hd : dw k with
  | none => rw [hd] at hk; cases hk
  | some t =>
    rw [hd] at hk
    cases hk
    obtain ⟨e1, e2, _⟩ := (h3.shows hA hadj k).2 t hd
    rw [List.length_reverse]
    refine ⟨e1, e2, fun hsd => ⟨fun x hx => ?_, fun hne => ?_⟩⟩
    · rw [List.head?_reverse] at hx
      exact (dq_full hA hadj h3 hd (hsd t hd) (by intro h0; rw [h0] at hx; cases hx)).back x hx
    · rw [List.reverse_reverse]
      exact (dq_full hA hadj h3 hd (hsd t hd) (by simpa using hne)).iter

example : ∃ w, specRun [Op.new 0, .push 0 1, .push 0 2, .push 0 3, .pop 0, .new 1, .copy 1 0, .pop 1, .push 0 9]
    (fun _ => none) = some w ∧ w 0 = some [9, 2, 1] ∧ w 1 = some [1] := ⟨_, rfl, rfl, rfl⟩

example : Deq.AvoidsAll ([Op.new 0, .push 0 1, .push 0 2, .push 0 3, .pop 0, .new 1, .copy 1 0, .pop 1,
      .push 0 9].map dqOp) (fun _ => none) := by
  simp [Deq.AvoidsAll, Deq.Avoids, dqOp, Deq.specStep, Deq.SWorld.put, Deq.Sound]

/-- Blocks of one element; block 2 lies just behind block 5. -/
def badCfg : Deq.Cfg Nat := { A := 1, d := 0, adj := fun b c => b == 5 && c == 2 }

/-- Reading off a computed outcome. -/
theorem read_outcome {β : Type} [DecidableEq β] {p : Prog σ Unit} {q r : Prog σ β} {s : σ} {x y : β}
    (key : (match p s with
      | some (.ok (_, m)) => (match q m with
        | some (.ok (n, _)) => decide (n = x)
        | _ => false) && (match r m with
        | some (.ok (n, _)) => decide (n = y)
        | _ => false)
      | _ => false) = true) :
    ∃ m, Returns p s () m ∧ (∃ m', Returns q m x m') ∧ ∃ m', Returns r m y m' := by
  unfold Returns
  match hp : p s, key with
  | some (.ok (_, m)), key =>
    refine ⟨m, rfl, ?_⟩
    simp only [Bool.and_eq_true] at key
    obtain ⟨k1, k2⟩ := key
    constructor
    · match hq : q m, k1 with
      | some (.ok (n, m')), k1 => exact ⟨m', by simp only [decide_eq_true_eq] at k1; rw [k1]⟩
    · match hr : r m, k2 with
      | some (.ok (n, m')), k2 => exact ⟨m', by simp only [decide_eq_true_eq] at k2; rw [k2]⟩

/-- **C80, failing case.**  With blocks of one element, seven pushes and four pops leave a deque-backed stack of
three elements whose `top` is none of the elements pushed, when the block with the first element happens to lie just
behind the last block of an earlier growth. -/
theorem stack_adjacent_wrong :
    ∃ m, Returns (run (deque badCfg) [.new 0, .push 0 10, .push 0 20, .push 0 30, .push 0 40, .push 0 50,
        .push 0 60, .push 0 70, .pop 0, .pop 0, .pop 0, .pop 0]) Deq.World.init () m ∧
      (∃ m', Returns (size (deque badCfg) 0) m 3 m') ∧ ∃ m', Returns (top (deque badCfg) 0) m 0 m' :=
  read_outcome (by decide +kernel)

end Verif.StackOn
