import Verif.DequePoolRel

/-!
# Deques in the pool: what the functions leave alone
-/

namespace Verif.DeqPool

open Prog Pool Lean.Order
open Deq (CPtr Iter Deque Arg Op)

variable {α β γ : Type} {cfg : Deq.Cfg α}

/-! ## Functions that only read -/

section
local notation "Ro" => Pres (σ := Deq.World α) (fun s t => t = s)

theorem ro_getObj (k : Nat) : Ro (Deq.getObj k) := by
  intro w a m h
  unfold Returns Deq.getObj at h
  split at h
  · cases h
  · cases h; rfl

theorem ro_getCur (it : Iter) : Ro it.getCur := by
  unfold Deq.Iter.getCur
  split
  · exact Pres.fail _
  · exact Pres.pure Pre.eq _

theorem ro_getIdx (it : Iter) : Ro it.getIdx := by
  unfold Deq.Iter.getIdx
  split
  · exact Pres.fail _
  · exact Pres.pure Pre.eq _

theorem ro_copyIter (it : Iter) : Ro (Deq.copyIter it) :=
  Pres.bind Pre.eq (ro_getIdx it) fun _ => Pres.bind Pre.eq (ro_getCur it) fun _ => Pres.pure Pre.eq _

theorem ro_pincr (c : CPtr) : Ro (c.incr cfg) := by
  cases c with
  | null => exact Pres.fail _
  | «at» b o => exact Pres.bind Pre.eq (Pres.check Pre.eq _ _) fun _ => Pres.pure Pre.eq _

theorem ro_pdecr (c : CPtr) : Ro c.decr := by
  cases c with
  | null => exact Pres.fail _
  | «at» b o => exact Pres.bind Pre.eq (Pres.check Pre.eq _ _) fun _ => Pres.pure Pre.eq _

theorem ro_listAt (t : List Nat) (i : Int) : Ro (Deq.listAt t i) := by
  refine Pres.bind Pre.eq (Pres.dassert Pre.eq _) fun _ => Pres.bind Pre.eq (Pres.check Pre.eq _ _) fun _ => ?_
  split
  · exact Pres.pure Pre.eq _
  · exact Pres.fail _

theorem ro_table (t : Option Nat) : Ro (Deq.table t) := by
  cases t with
  | none => exact Pres.fail _
  | some k => exact Pres.bind Pre.eq (ro_getObj k) fun _ => Pres.pure Pre.eq _

theorem ro_tblAt (t : Option Nat) (i : Int) : Ro (Deq.tblAt t i) :=
  Pres.bind Pre.eq (ro_table t) fun _ => ro_listAt _ _

theorem ro_arrBegin (b : Nat) : Ro (Deq.arrBegin b) := by
  intro w a m h
  unfold Returns Deq.arrBegin at h
  split at h
  · cases h
  · split at h
    · cases h
    · cases h; rfl

theorem ro_arrEnd (b : Nat) : Ro (Deq.arrEnd cfg b) :=
  Pres.bind Pre.eq (ro_arrBegin b) fun _ => Pres.pure Pre.eq _

theorem ro_access (c : CPtr) : Ro (Deq.access cfg c) := by
  cases c with
  | null => exact Pres.fail _
  | «at» b o =>
    intro w a m h
    unfold Returns Deq.access at h
    simp only at h
    split at h
    · cases h
    · split at h
      · cases h; rfl
      · cases h

theorem ro_readPtr (c : CPtr) : Ro (Deq.readPtr cfg c) := by
  refine Pres.bind Pre.eq (ro_access c) fun a => ?_
  simp only
  split
  · exact Pres.fail _
  · exact Pres.pure Pre.eq _
  · exact Pres.pure Pre.eq _

theorem ro_arg (x : Arg α) : Ro (x.get cfg) := by
  cases x with
  | val x => exact Pres.pure Pre.eq _
  | ref c => exact ro_readPtr c

theorem ro_begin (k : Nat) : Ro (Deq.begin_ k) :=
  Pres.bind Pre.eq (ro_getObj k) fun _ => ro_copyIter _

end

/-! ## Functions that change only what blocks hold -/

/-- The same blocks are in use, and tables and capacities are as large as before. -/
structure KeepR (w m : Deq.World α) : Prop where
  blk : ∀ b, (m.blk b).isSome = (w.blk b).isSome
  next : m.next = w.next
  len : ∀ k, lenOf m k = lenOf w k
  cap : ∀ k, capOf m k = capOf w k

theorem Pre.keep : Pre (KeepR (α := α)) :=
  ⟨fun _ => ⟨fun _ => rfl, rfl, fun _ => rfl, fun _ => rfl⟩, fun h1 h2 =>
    ⟨fun b => (h2.blk b).trans (h1.blk b), h2.next.trans h1.next, fun k => (h2.len k).trans (h1.len k),
      fun k => (h2.cap k).trans (h1.cap k)⟩⟩

theorem keep_ro {p : Prog (Deq.World α) β} (h : Pres (fun s t => t = s) p) : Pres KeepR p :=
  h.mono fun s t e => by subst e; exact Pre.keep.refl _

theorem returns_getObj {k : Nat} {w m : Deq.World α} {d : Deque} (h : Returns (Deq.getObj k) w d m) :
    w.obj k = some d ∧ m = w := by
  unfold Returns Deq.getObj at h
  split at h
  · cases h
  · rename_i e
    cases h; exact ⟨e, rfl⟩

theorem returns_updObj {k : Nat} {f : Deque → Deque} {w m : Deq.World α} (h : Returns (Deq.updObj k f) w () m) :
    ∃ d, w.obj k = some d ∧ m = { w with obj := fun x => if x = k then some (f d) else w.obj x } := by
  obtain ⟨d, m1, h1, h2⟩ := returns_bind h
  obtain ⟨h3, rfl⟩ := returns_getObj h1
  cases h2
  exact ⟨d, h3, rfl⟩

theorem lenOf_put (w : Deq.World α) (k : Nat) (v : Option Deque) (j : Nat) :
    lenOf { w with obj := fun x => if x = k then v else w.obj x } j =
      if j = k then (v.map fun d => d.tbl.length).getD 0 else lenOf w j := by
  unfold lenOf
  simp only
  split <;> rfl

theorem capOf_put (w : Deq.World α) (k : Nat) (v : Option Deque) (j : Nat) :
    capOf { w with obj := fun x => if x = k then v else w.obj x } j =
      if j = k then (v.map fun d => d.cap).getD 0 else capOf w j := by
  unfold capOf
  simp only
  split <;> rfl

theorem lenOf_some {w : Deq.World α} {k : Nat} {d : Deque} (h : w.obj k = some d) : lenOf w k = d.tbl.length := by
  unfold lenOf; rw [h]; rfl

theorem capOf_some {w : Deq.World α} {k : Nat} {d : Deque} (h : w.obj k = some d) : capOf w k = d.cap := by
  unfold capOf; rw [h]; rfl

theorem keep_updObj {k : Nat} {f : Deque → Deque}
    (hf : ∀ d, (f d).tbl.length = d.tbl.length ∧ (f d).cap = d.cap) : Pres (KeepR (α := α)) (Deq.updObj k f) := by
  intro w a m h
  obtain ⟨d, hd, rfl⟩ := returns_updObj h
  refine ⟨fun _ => rfl, rfl, fun j => ?_, fun j => ?_⟩
  · rw [lenOf_put]
    split
    · rename_i e
      subst e
      rw [lenOf_some hd]
      exact (hf d).1
    · rfl
  · rw [capOf_put]
    split
    · rename_i e
      subst e
      rw [capOf_some hd]
      exact (hf d).2
    · rfl

theorem keep_setTbl (k i b : Nat) : Pres (KeepR (α := α)) (Deq.setTbl k i b) := by
  intro w a m h
  obtain ⟨d, m1, h1, h2⟩ := returns_bind h
  obtain ⟨h3, rfl⟩ := returns_getObj h1
  obtain ⟨_, m2, h4, h5⟩ := returns_bind h2
  obtain ⟨_, rfl⟩ := returns_check h4
  cases h5
  refine ⟨fun _ => rfl, rfl, fun j => ?_, fun j => ?_⟩
  · rw [lenOf_put]
    split
    · rename_i e
      subst e
      rw [lenOf_some h3]
      exact List.length_set
    · rfl
  · rw [capOf_put]
    split
    · rename_i e
      subst e
      rw [capOf_some h3]
      rfl
    · rfl

/-- A store into a block. -/
theorem keep_put {w w1 m : Deq.World α} {c : CPtr} {r : Nat × Nat × (Nat → Deq.Slot α)} {s : Deq.Slot α}
    (h : Returns (Deq.access cfg c) w r w1) (hb : m.blk = (w.put r.1 r.2.1 r.2.2 s).blk) (hn : m.next = w.next)
    (ho : m.obj = w.obj) : KeepR w m := by
  refine ⟨fun b => ?_, hn, fun k => by unfold lenOf; rw [ho], fun k => by unfold capOf; rw [ho]⟩
  rw [hb]
  unfold Deq.World.put
  simp only
  split
  · rename_i e
    subst e
    cases c with
    | null => cases h
    | «at» b' o =>
      unfold Returns Deq.access at h
      simp only at h
      split at h
      · cases h
      · rename_i f hf
        split at h
        · cases h
          simp only
          rw [hf]
          rfl
        · cases h
  · rfl

theorem keep_construct (c : CPtr) (x : Arg α) : Pres KeepR (Deq.construct cfg c x) := by
  intro w a m h
  obtain ⟨_, m1, h1, h2⟩ := returns_bind h
  obtain ⟨_, rfl⟩ := returns_check h1
  obtain ⟨v, m2, h3, h4⟩ := returns_bind h2
  have := ro_arg _ _ _ _ h3
  subst this
  obtain ⟨r, m3, h5, h6⟩ := returns_bind h4
  have := ro_access _ _ _ _ h5
  subst this
  cases h6
  exact keep_put h5 rfl rfl rfl

theorem keep_destroy (c : CPtr) : Pres KeepR (Deq.destroy cfg c) := by
  intro w a m h
  obtain ⟨_, m1, h1, h2⟩ := returns_bind h
  obtain ⟨_, rfl⟩ := returns_check h1
  obtain ⟨r, m3, h5, h6⟩ := returns_bind h2
  have := ro_access _ _ _ _ h5
  subst this
  obtain ⟨_, m4, h7, h8⟩ := returns_bind h6
  obtain ⟨_, rfl⟩ := returns_check h7
  cases h8
  exact keep_put h5 rfl rfl rfl

theorem keep_writePtr (c : CPtr) (x : α) : Pres KeepR (Deq.writePtr cfg c x) := by
  intro w a m h
  obtain ⟨r, m3, h5, h6⟩ := returns_bind h
  have := ro_access _ _ _ _ h5
  subst this
  simp only at h6
  split at h6
  · cases h6
  · cases h6
    exact keep_put h5 rfl rfl rfl
  · cases h6
    exact keep_put h5 rfl rfl rfl

/-! ## Addresses are given once -/

/-- The addresses given out stay as they are. -/
abbrev Mono (q : Prog (PWorld α) β) : Prop := Pres Later q

theorem mono_on {p : Prog (Deq.World α) β} (h : Pres (fun w m => w.next ≤ m.next) p) : Mono (on p) := by
  intro w a w' hr
  obtain ⟨m, h1, rfl⟩ := returns_on hr
  exact ⟨h _ _ _ h1, fun _ _ => rfl, id⟩

theorem mono_keep {p : Prog (Deq.World α) β} (h : Pres KeepR p) : Mono (on p) :=
  mono_on (h.mono fun _ _ e => Nat.le_of_eq e.next.symm)

theorem mono_ro {p : Prog (Deq.World α) β} (h : Pres (fun s t => t = s) p) : Mono (on p) := mono_keep (keep_ro h)

theorem mono_updObj (k : Nat) (f : Deque → Deque) : Mono (on (Deq.updObj k f) : Prog (PWorld α) Unit) :=
  mono_on fun w a m h => by
    obtain ⟨d, _, rfl⟩ := returns_updObj h
    exact Nat.le_refl _

theorem mono_putObj (k : Nat) (v : Option Deque) : Mono (on (Deq.putObj k v) : Prog (PWorld α) Unit) :=
  mono_on fun w a m h => by cases h; exact Nat.le_refl _

theorem mono_inPool (p : Prog Sma.St β) : Mono (inPool p : Prog (PWorld α) β) := by
  intro w a w' hr
  obtain ⟨m, _, rfl⟩ := returns_inPool hr
  exact Pre.later.refl _

theorem mono_setTab (k a : Nat) : Mono (setTab k a : Prog (PWorld α) Unit) :=
  Pres.modify fun _ => Pre.later.refl _

variable {P : Cfg α}

theorem mono_cmp (p q : CPtr) : Mono (cmp P p q) := by
  intro w a w' h
  unfold Returns cmp at h
  split at h
  · cases h; exact Pre.later.refl _
  · split at h
    · cases h; exact Pre.later.refl _
    · cases h

theorem mono_newBlock : Mono (newBlock P) := by
  intro w a w' h
  obtain ⟨x, w1, h1, h2⟩ := returns_bind h
  obtain ⟨s, _, rfl⟩ := returns_inPool h1
  obtain ⟨_, w2, h3, h4⟩ := returns_bind h2
  cases h3
  obtain ⟨m, h5, rfl⟩ := returns_on h4
  cases h5
  refine ⟨Nat.le_succ _, fun b hb => ?_, fun h => ?_⟩
  · simp only
    rw [if_neg (by omega)]
  · simp only
    rw [h]
    rfl

theorem mono_freeBlock (b : Nat) : Mono (freeBlock P b) := by
  refine Pres.bind Pre.later (mono_on fun w a m h => ?_) fun _ => Pres.bind Pre.later (Pres.get Pre.later) fun _ =>
    mono_inPool _
  unfold Returns Deq.freeBlock at h
  split at h
  · cases h
  · cases h; exact Nat.le_refl _

theorem mono_newTable (n : Nat) : Mono (newTable P n) := mono_inPool _

theorem mono_freeTable (a n : Nat) : Mono (freeTable P a n) := Pres.when Pre.later (mono_inPool _)

/-- Prove that a function is `Mono` part by part. -/
macro "mono1" : tactic => `(tactic| with_reducible first
  | exact mono_cmp _ _
  | exact mono_newBlock
  | exact mono_freeBlock _
  | exact mono_newTable _
  | exact mono_freeTable _ _
  | exact mono_setTab _ _
  | exact mono_updObj _ _
  | exact mono_putObj _ _
  | exact Pres.get Pre.later
  | exact Pres.pure Pre.later _
  | exact Pres.dassert Pre.later _
  | exact mono_ro (ro_getObj _)
  | exact mono_ro (ro_getCur _)
  | exact mono_ro (ro_getIdx _)
  | exact mono_ro (ro_copyIter _)
  | exact mono_ro (ro_pincr _)
  | exact mono_ro (ro_pdecr _)
  | exact mono_ro (ro_listAt _ _)
  | exact mono_ro (ro_table _)
  | exact mono_ro (ro_tblAt _ _)
  | exact mono_ro (ro_arrBegin _)
  | exact mono_ro (ro_arrEnd _)
  | exact mono_ro (ro_readPtr _)
  | exact mono_ro (ro_begin _)
  | exact mono_keep (keep_setTbl _ _ _)
  | exact mono_keep (keep_construct _ _)
  | exact mono_keep (keep_destroy _)
  | exact mono_keep (keep_writePtr _ _)
  | refine Pres.bind Pre.later ?_ fun _ => ?_
  | refine Pres.ite ?_ ?_
  | refine Pres.when Pre.later ?_
  | refine Pres.forRange Pre.later (fun _ _ => ?_) _ _ _)

theorem mono_resizeTable (k len n : Nat) (f : Deque → Deque) : Mono (resizeTable P k len n f) := by
  unfold resizeTable
  repeat' mono1

theorem mono_clearTable (k len : Nat) (f : Deque → Deque) : Mono (clearTable P k len f) := by
  unfold clearTable
  repeat' mono1

theorem mono_incr (it : Iter) : Mono (incr P it) := by
  unfold incr
  repeat' mono1

theorem mono_decr (it : Iter) : Mono (decr P it) := by
  unfold decr
  repeat' mono1

theorem mono_incrN (n : Nat) (it : Iter) : Mono (incrN P n it) := by
  induction n generalizing it with
  | zero => exact Pres.pure Pre.later _
  | succ n ih => exact Pres.bind Pre.later (mono_incr it) fun _ => ih _

theorem mono_decrN (n : Nat) (it : Iter) : Mono (decrN P n it) := by
  induction n generalizing it with
  | zero => exact Pres.pure Pre.later _
  | succ n ih => exact Pres.bind Pre.later (mono_decr it) fun _ => ih _

theorem mono_plus (it : Iter) (n : Int) : Mono (plus P it n) := by
  unfold plus
  repeat' mono1
  · exact mono_decrN _ _
  · exact mono_incrN _ _

theorem mono_onlyInit (k : Nat) : Mono (onlyInit P k) := by
  unfold onlyInit
  repeat' with_reducible first | exact mono_resizeTable _ _ _ _ | mono1

theorem mono_fillStep (k : Nat) (old : List Nat) (a b c : Int) (i : Nat) : Mono (fillStep P k old a b c i) := by
  unfold fillStep
  repeat' mono1

theorem mono_releaseStep (old : List Nat) (a b : Int) (i : Nat) : Mono (releaseStep P old a b i) := by
  unfold releaseStep
  repeat' mono1

theorem mono_resizeFix (k : Nat) (e : Int) : Mono (resizeFix P k e) := by
  unfold resizeFix
  repeat' mono1

theorem mono_resize (k n : Nat) : Mono (resize P k n) := by
  unfold resize
  repeat' with_reducible first
    | exact mono_resizeTable _ _ _ _ | exact mono_fillStep _ _ _ _ _ _ | exact mono_releaseStep _ _ _ _
    | exact mono_resizeFix _ _ | mono1

/-- A statement about the outcomes of a function can be established by fixpoint induction. -/
theorem adm_one {σ ι : Type} (Q : ι → σ → β → σ → Prop) :
    admissible fun X : ι → Prog σ β => ∀ i s a t, Returns (X i) s a t → Q i s a t :=
  Prog.admissible_wlp Q

theorem mono_destroyLoop (it fin : Iter) : Mono (destroyLoop P it fin) := by
  refine destroyLoop.fixpoint_induct P fin (fun X => ∀ it s a t, Returns (X it) s a t → Later s t)
    (adm_one _) ?_ it
  intro X ih it
  show Mono _
  repeat' with_reducible first | exact mono_incr _ | mono1
  exact ih _

theorem mono_onlyClear (k : Nat) : Mono (onlyClear P k) := by
  unfold onlyClear
  repeat' with_reducible first | exact mono_destroyLoop _ _ | exact mono_clearTable _ _ _ | mono1
  refine Pres.seqAll Pre.later fun p hp => ?_
  obtain ⟨b, _, rfl⟩ := List.mem_map.1 hp
  exact mono_freeBlock b

theorem mono_pushBack (k : Nat) (x : Arg α) : Mono (pushBack P k x) := by
  unfold pushBack
  repeat' with_reducible first | exact mono_onlyInit _ | exact mono_resize _ _ | exact mono_incr _ | mono1

theorem mono_pushFront (k : Nat) (x : Arg α) : Mono (pushFront P k x) := by
  unfold pushFront
  repeat' with_reducible first | exact mono_onlyInit _ | exact mono_resize _ _ | exact mono_decr _ | mono1

theorem mono_maybeShrink (k : Nat) : Mono (maybeShrink P k) := by
  unfold maybeShrink
  repeat' with_reducible first | exact mono_resize _ _ | mono1

theorem mono_popBack (k : Nat) : Mono (popBack P k) := by
  unfold popBack
  repeat' with_reducible first | exact mono_maybeShrink _ | exact mono_decr _ | mono1

theorem mono_popFront (k : Nat) : Mono (popFront P k) := by
  unfold popFront
  repeat' with_reducible first | exact mono_maybeShrink _ | exact mono_incr _ | mono1

theorem mono_indexRef (k : Nat) (i : Int) : Mono (indexRef P k i) := by
  unfold indexRef
  repeat' with_reducible first | exact mono_plus _ _ | mono1

theorem mono_setElem (k i : Nat) (x : α) : Mono (setElem P k i x) := by
  unfold setElem
  repeat' with_reducible first | exact mono_plus _ _ | mono1

theorem mono_copyLoop (d : Nat) (it e : Iter) : Mono (copyLoop P d it e) := by
  refine copyLoop.fixpoint_induct P d e (fun X => ∀ it s a t, Returns (X it) s a t → Later s t)
    (adm_one _) ?_ it
  intro X ih it
  show Mono _
  repeat' with_reducible first | exact mono_pushBack _ _ | exact mono_incr _ | mono1
  exact ih _

theorem mono_copyAssign (d s : Nat) : Mono (copyAssign P d s) := by
  unfold copyAssign
  repeat' with_reducible first | exact mono_onlyClear _ | exact mono_copyLoop _ _ _ | mono1

theorem mono_moveTable (d s len : Nat) (src : Deque) : Mono (moveTable P d s len src) := by
  unfold moveTable
  repeat' mono1
  refine mono_on fun w a m h => ?_
  obtain ⟨_, m1, h1, h2⟩ := returns_bind h
  obtain ⟨_, _, rfl⟩ := returns_updObj h1
  obtain ⟨_, _, rfl⟩ := returns_updObj h2
  exact Nat.le_refl _

theorem mono_moveAssign (d s : Nat) : Mono (moveAssign P d s) := by
  unfold moveAssign
  repeat' with_reducible first | exact mono_onlyClear _ | exact mono_moveTable _ _ _ _ | mono1

theorem mono_dropTable (k : Nat) : Mono (dropTable P k) := by
  unfold dropTable
  repeat' mono1

theorem mono_step (op : Op α) : Mono (step P op) := by
  unfold step
  split
  all_goals repeat' with_reducible first
    | exact mono_pushBack _ _ | exact mono_pushFront _ _ | exact mono_indexRef _ _ | exact mono_popBack _
    | exact mono_popFront _ | exact mono_onlyClear _ | exact mono_setElem _ _ _ | exact mono_copyAssign _ _
    | exact mono_moveAssign _ _ | exact mono_dropTable _ | mono1

theorem mono_run (ops : List (Op α)) : Mono (run P ops) := by
  refine Pres.seqAll Pre.later fun p hp => ?_
  obtain ⟨op, _, rfl⟩ := List.mem_map.1 hp
  exact mono_step op

end Verif.DeqPool
