import Verif.Queue
import Verif.Props.Deque
import Verif.Props.DList

/-! # Property of `Queue` (C36) -/

namespace Verif.Queue

open Prog

variable {σ α : Type}

/-! ## Specification: a queue is a list with its oldest element first -/

abbrev Spec (α : Type) := Nat → Option (List α)

def Spec.put (w : Spec α) (k : Nat) (v : Option (List α)) : Spec α := fun x => if x = k then v else w x

/-- The meaning of one operation; `none` when its precondition fails. -/
def specStep : Op α → Spec α → Option (Spec α)
  | .new k, w => if (w k).isNone then some (w.put k (some [])) else none
  | .push k x, w => (w k).bind fun q => some (w.put k (some (q ++ [x])))
  | .pop k, w => match w k with
    | some (_ :: q) => some (w.put k (some q))
    | _ => none
  | .copy d s, w => (w d).bind fun _ => (w s).bind fun q => some (w.put d (some q))
  | .move d s, w => (w d).bind fun _ => (w s).bind fun q =>
      if d = s then some w else some ((w.put d (some q)).put s (some []))
  | .drop k, w => (w k).bind fun _ => some (w.put k none)

def specRun : List (Op α) → Spec α → Option (Spec α)
  | [], w => some w
  | op :: ops, w => (specStep op w).bind (specRun ops)

/-- What the observers show of every queue: `size`, `empty`, the oldest element at the front and
the newest at the back. -/
def Shows (ds : DS σ α) (m : σ) (w : Spec α) : Prop :=
  ∀ k q, w k = some q → Returns (size ds k) m q.length m ∧ Returns (empty ds k) m (q.length == 0) m ∧
    (∀ x, q.head? = some x → Returns (front ds k) m x m) ∧
    (∀ x, q.getLast? = some x → Returns (back ds k) m x m)

/-! ## The linked-list-backed queue -/

/-- The list operation behind a queue operation. -/
def Op.dl : Op α → DL.Op α
  | .new k => .new k
  | .push k x => .pushBack k x
  | .pop k => .popFront k
  | .copy d s => .copy d s
  | .move d s => .move d s
  | .drop k => .drop k

theorem dl_step (dflt : Option α) (op : Op α) : step (dlist dflt) op = DL.step dflt op.dl := by
  cases op <;> rfl

theorem dl_run (dflt : Option α) (ops : List (Op α)) :
    run (dlist dflt) ops = DL.run dflt (ops.map Op.dl) := by
  unfold run DL.run
  rw [List.map_map]
  congr 1
  exact List.map_congr_left (fun op _ => dl_step dflt op)

theorem dl_specStep (op : Op α) (w : Spec α) : specStep op w = DL.specStep op.dl w := by
  cases op with
  | pop k =>
    simp only [specStep, DL.specStep, Op.dl]
    cases hk : w k with
    | none => rfl
    | some q => cases q <;> rfl
  | _ => rfl

theorem dl_specRun (ops : List (Op α)) (w : Spec α) : specRun ops w = DL.specRun (ops.map Op.dl) w := by
  induction ops generalizing w with
  | nil => rfl
  | cons op ops ih =>
    simp only [specRun, DL.specRun, List.map_cons, dl_specStep]
    congr 1
    funext w'
    exact ih w'

/-- **C36**, linked-list-backed queues.  Any history of construction, push, pop (not on empty),
copying and destruction runs without fault; afterwards `front` is the oldest element not yet
popped, `back` the newest, and `size` counts them. -/
theorem queue_fifo_list (dflt : Option α) (ops : List (Op α)) (w : Spec α)
    (hm : ∀ op ∈ ops, ∀ d s, op ≠ .move d s) (hs : specRun ops (fun _ => none) = some w) :
    ∃ m, Returns (run (dlist dflt) ops) LL.Mem.init () m ∧ Shows (dlist dflt) m w ∧
      ∀ k q, w k = some q → Returns (iterate (dlist dflt) k) m q m := by
  rw [dl_specRun] at hs
  obtain ⟨m, h1, h2⟩ := DL.dlist_sequence dflt (ops.map Op.dl) w (by
    intro op hop d s he
    obtain ⟨o, ho, rfl⟩ := List.mem_map.1 hop
    have := hm o ho
    cases o <;> simp_all [Op.dl]) hs
  refine ⟨m, by rw [dl_run]; exact h1, fun k q hk => ?_, fun k q hk => ((h2 k).2 q hk).1⟩
  obtain ⟨_, _, e3, e4, e5, e6⟩ := (h2 k).2 q hk
  exact ⟨e3, e4, e5, e6⟩

example : ∃ w, specRun [Op.new 0, .push 0 1, .push 0 2, .push 0 3, .pop 0, .new 1, .copy 1 0, .pop 1]
    (fun _ => none) = some w ∧ w 0 = some [2, 3] ∧ w 1 = some [3] := ⟨_, rfl, rfl, rfl⟩

/-! ## The deque-backed queue -/

/-- The deque operation behind a queue operation. -/
def Op.dq : Op α → Deq.Op α
  | .new k => .new k
  | .push k x => .pushBack k x
  | .pop k => .popFront k
  | .copy d s => .copy d s
  | .move d s => .move d s
  | .drop k => .drop k

theorem dq_step (cfg : Deq.Cfg α) (op : Op α) : step (deque cfg) op = Deq.step cfg op.dq := by
  cases op <;> rfl

theorem dq_run (cfg : Deq.Cfg α) (ops : List (Op α)) :
    run (deque cfg) ops = Deq.run cfg (ops.map Op.dq) := by
  unfold run Deq.run
  rw [List.map_map]
  congr 1
  exact List.map_congr_left (fun op _ => dq_step cfg op)

/-- Contents of the deques. -/
def Abs (dw : Deq.SWorld α) (w : Spec α) : Prop := ∀ k, w k = (dw k).map (·.l)

theorem Abs.put {dw : Deq.SWorld α} {w : Spec α} (h : Abs dw w) (k : Nat) (v : Option (Deq.SD α))
    (t : Option (List α)) (ht : t = v.map (·.l)) : Abs (dw.put k v) (w.put k t) := by
  intro j
  simp only [Deq.SWorld.put, Spec.put]
  split
  · exact ht
  · exact h j

theorem dq_specStep {op : Op α} (hp : ∀ d s, op ≠ .copy d s ∧ op ≠ .move d s) {dw : Deq.SWorld α}
    {w w' : Spec α} (h : Abs dw w) (hs : specStep op w = some w') :
    ∃ dw', Deq.specStep op.dq dw = some dw' ∧ Abs dw' w' := by
  cases op with
  | copy d s => exact absurd rfl (hp d s).1
  | move d s => exact absurd rfl (hp d s).2
  | new k =>
    simp only [specStep] at hs
    split at hs
    · rename_i hk
      cases hs
      have : dw k = none := by rw [h k] at hk; simpa using hk
      exact ⟨_, by simp [Deq.specStep, Op.dq, this]; rfl, h.put k _ _ rfl⟩
    · cases hs
  | push k x =>
    cases hk : dw k with
    | none => simp [specStep, h k, hk] at hs
    | some s =>
      simp only [specStep, h k, hk, Option.map_some, Option.bind_some, Option.some.injEq] at hs
      subst hs
      exact ⟨_, by simp [Deq.specStep, Op.dq, hk]; rfl, h.put k _ _ rfl⟩
  | pop k =>
    cases hk : dw k with
    | none => simp [specStep, h k, hk] at hs
    | some s =>
      simp only [specStep, h k, hk, Option.map_some] at hs
      cases hl : s.l with
      | nil => simp [hl] at hs
      | cons x q =>
        simp only [hl, Option.some.injEq] at hs
        subst hs
        exact ⟨_, by simp [Deq.specStep, Op.dq, hk, hl]; rfl, h.put k _ _ rfl⟩
  | drop k =>
    cases hk : dw k with
    | none => simp [specStep, h k, hk] at hs
    | some s =>
      simp only [specStep, h k, hk, Option.map_some, Option.bind_some, Option.some.injEq] at hs
      subst hs
      exact ⟨_, by simp [Deq.specStep, Op.dq, hk]; rfl, h.put k _ _ rfl⟩

theorem dq_specRun {ops : List (Op α)} (hp : ∀ op ∈ ops, ∀ d s, op ≠ .copy d s ∧ op ≠ .move d s)
    {dw : Deq.SWorld α} {w w' : Spec α} (h : Abs dw w) (hs : specRun ops w = some w') :
    ∃ dw', Deq.specRun (ops.map Op.dq) dw = some dw' ∧ Abs dw' w' := by
  induction ops generalizing dw w with
  | nil => cases hs; exact ⟨dw, rfl, h⟩
  | cons op ops ih =>
    simp only [specRun, Option.bind_eq_some_iff] at hs
    obtain ⟨w1, h1, h2⟩ := hs
    obtain ⟨dw1, h3, h4⟩ := dq_specStep (hp op (List.mem_cons_self ..)) h h1
    obtain ⟨dw2, h5, h6⟩ := ih (fun o ho => hp o (List.mem_cons_of_mem _ ho)) h4 h2
    exact ⟨dw2, by simp only [List.map_cons, Deq.specRun, h3, Option.bind_some]; exact h5, h6⟩

/-- **C36**, deque-backed queues (partial: blocks that touch are in order of allocation, see
`queue_adjacent_wrong`).  Any history of construction, push, pop (not on empty) and destruction runs
without fault; afterwards `front` is the oldest element not yet popped, `back` the newest, and
`size` counts them. -/
theorem queue_fifo_deque_partial (cfg : Deq.Cfg α) (hA : 0 < cfg.A) (hadj : Deq.AdjUp cfg)
    (ops : List (Op α)) (w : Spec α) (hp : ∀ op ∈ ops, ∀ d s, op ≠ .copy d s ∧ op ≠ .move d s)
    (hs : specRun ops (fun _ => none) = some w) :
    ∃ m, Returns (run (deque cfg) ops) Deq.World.init () m ∧ Shows (deque cfg) m w ∧
      ∀ k q, w k = some q → q ≠ [] → Returns (iterate (deque cfg) k) m q m := by
  obtain ⟨dw, h1, h2⟩ := dq_specRun hp (dw := fun _ => none) (fun _ => rfl) hs
  have hpl : ∀ op ∈ ops.map Op.dq, op.plain := by
    intro op hop
    obtain ⟨o, ho, rfl⟩ := List.mem_map.1 hop
    cases o with
    | copy d s => exact absurd rfl (hp _ ho d s).1
    | move d s => exact absurd rfl (hp _ ho d s).2
    | _ => trivial
  have hav := Deq.avoidsAll_of_plain hpl _ Deq.sound_nil
  obtain ⟨_, m, h3, h4⟩ := Deq.run_ok hA hadj Deq.WInv.init h1 hav
  -- without copies and moves no deque is stale
  have hsound : ∀ (os : List (Deq.Op α)), (∀ op ∈ os, op.plain) → ∀ a b : Deq.SWorld α,
      (∀ k, Deq.Sound a k) → Deq.specRun os a = some b → ∀ k, Deq.Sound b k := by
    intro os
    induction os with
    | nil => intro _ a b ha hb; cases hb; exact ha
    | cons o os ih =>
      intro hp a b ha hb
      simp only [Deq.specRun, Option.bind_eq_some_iff] at hb
      obtain ⟨c, hc, hb⟩ := hb
      exact ih (fun x hx => hp x (List.mem_cons_of_mem _ hx)) c b
        (Deq.plain_step (hp o (List.mem_cons_self ..)) ha hc) hb
  have hsd := hsound _ hpl _ _ Deq.sound_nil h1
  have full : ∀ k q, w k = some q → q ≠ [] → Deq.ShowsSeq cfg m k q := by
    intro k q hk hq
    rw [h2 k] at hk
    cases hd : dw k with
    | none => rw [hd] at hk; cases hk
    | some s =>
      rw [hd] at hk
      cases hk
      obtain ⟨x, _, hI, _⟩ := h4.get hd
      obtain ⟨hu, _⟩ := hI.used (hsd k s hd) hq
      exact ((h4.shows hA hadj k).2 s hd).2.2 (Or.inl hu)
  refine ⟨m, by rw [dq_run]; exact h3, fun k q hk => ?_, fun k q hk hq => (full k q hk hq).iter⟩
  have hk' := hk
  rw [h2 k] at hk
  cases hd : dw k with
  | none => rw [hd] at hk; cases hk
  | some s =>
    rw [hd] at hk
    cases hk
    obtain ⟨e1, e2, _⟩ := (h4.shows hA hadj k).2 s hd
    refine ⟨e1, e2, ?_, ?_⟩
    · intro x hx
      exact (full k _ hk' (by intro h0; rw [h0] at hx; cases hx)).front x hx
    · intro x hx
      exact (full k _ hk' (by intro h0; rw [h0] at hx; cases hx)).back x hx

example : ∃ w, specRun [Op.new 0, .push 0 1, .push 0 2, .push 0 3, .pop 0, .new 1, .push 1 9]
    (fun _ => none) = some w ∧ w 0 = some [2, 3] ∧ w 1 = some [9] := ⟨_, rfl, rfl, rfl⟩

/-- Blocks of one element; block 2 lies just behind block 5. -/
def badCfg : Deq.Cfg Nat := { A := 1, d := 0, adj := fun b c => b == 5 && c == 2 }

/-- Reading off a computed outcome. -/
theorem read_outcome (r : Option (Except Fault (Unit × Deq.World Nat)))
    (key : (match r with
      | some (.ok (_, m)) => (match size (deque badCfg) 0 m with
        | some (.ok (n, _)) => n == 4
        | _ => false) && (match front (deque badCfg) 0 m with
        | some (.ok (x, _)) => x == 40
        | _ => false)
      | _ => false) = true) :
    ∃ m, r = some (.ok ((), m)) ∧
      Returns (size (deque badCfg) 0) m 4 m ∧ Returns (front (deque badCfg) 0) m 40 m := by
  match r, key with
  | some (.ok (_, m)), key =>
    refine ⟨m, rfl, ?_⟩
    simp only [Bool.and_eq_true] at key
    obtain ⟨k1, k2⟩ := key
    cases hk : m.obj 0 with
    | none =>
      have : Faults (size (deque badCfg) 0) m .useAfterFree := bind_faults (by unfold Faults Deq.getObj; rw [hk])
      rw [this] at k1; cases k1
    | some d =>
      have e1 : Returns (size (deque badCfg) 0) m d.sz m := by
        show (Deq.getObj 0 >>= fun d => pure d.sz) m = _
        rw [bind_returns (Deq.getObj_ok hk)]; rfl
      rw [e1] at k1
      have e2 : d.sz = 4 := by simpa using k1
      refine ⟨by rw [← e2]; exact e1, ?_⟩
      cases hc : d.beg.cur with
      | none =>
        have : Faults (front (deque badCfg) 0) m .uninit :=
          Deq.bind_faults_of (Deq.getObj_ok hk) (bind_faults (by unfold Faults Deq.Iter.getCur; rw [hc]; rfl))
        rw [this] at k2; cases k2
      | some c =>
        have e3 : front (deque badCfg) 0 m = Deq.readPtr badCfg c m := by
          show (Deq.getObj 0 >>= fun d => d.beg.getCur >>= fun c => Deq.readPtr badCfg c) m = _
          rw [bind_returns (Deq.getObj_ok hk), bind_returns (Deq.getCur_some hc m)]
        unfold Returns
        rw [e3] at k2 ⊢
        cases c with
        | null => cases k2
        | «at» b o =>
          unfold Deq.readPtr Deq.access at k2 ⊢
          simp only [bind, Prog.bind] at k2 ⊢
          cases hb : m.blk b with
          | none => rw [hb] at k2; cases k2
          | some f =>
            rw [hb] at k2
            simp only at k2 ⊢
            by_cases ho : o < badCfg.A
            · simp only [ho, if_true] at k2 ⊢
              cases hf : f o with
              | raw => rw [hf] at k2; cases k2
              | dflt x => rw [hf] at k2; have : x = 40 := by simpa using (show (x == 40) = true from k2)
                          subst this; rfl
              | elem x => rw [hf] at k2; have : x = 40 := by simpa using (show (x == 40) = true from k2)
                          subst this; rfl
            · simp only [ho, if_false] at k2; cases k2

/-- **C36, failing case.**  With blocks of one element, the fourth push of a deque-backed queue
loses everything but the new element when the block holding the front happens to lie just behind
the last block: the growth takes the front iterator for the back one. -/
theorem queue_adjacent_wrong :
    ∃ m, Returns (run (deque badCfg) [.new 0, .push 0 10, .push 0 20, .push 0 30, .push 0 40])
        Deq.World.init () m ∧
      Returns (size (deque badCfg) 0) m 4 m ∧ Returns (front (deque badCfg) 0) m 40 m :=
  read_outcome _ (by decide +kernel)

end Verif.Queue
