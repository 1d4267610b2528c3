import Verif.XValueStackLemmas

/-! # Properties of `XValueStack` (C11, C12, C77, C78) -/

namespace Verif.XStack

open Prog Vec
open Heap (Order)

variable {α : Type}

/-- **C11 and C12.**  For every history in which no pushed value equals the current extremum (or
the comparator is non-strict), the stack is LIFO, `empty()` is right and `getXValue()` is an
extremum of the elements.  Missing from the full statement: pushing a value equal to the
current extremum under a strict comparator (`less`, `greater`), which
`xvalue_duplicate_breaks` shows to corrupt the stack. -/
theorem xvalue_stack_partial [DecidableEq α] {R : α → α → Prop} {cmp : α → α → Bool} (hc : Order R cmp)
    (triv : Bool) (x0 : α) (ops : List (Op α)) (s : List α) (hs : specRun ops [] = some s)
    (ha : AvoidsAll R cmp ops []) :
    ∃ o m, Returns (run triv cmp (new x0) ops) Mem.init o m ∧ Shows R m o s := by
  obtain ⟨o, m, h1, ⟨hw, r, hr, he⟩⟩ := run_ok hc (triv := triv) (Inv.init cmp x0) hs ha
  refine ⟨o, m, h1, ?_, ?_, he.ext hc⟩
  · simp [empty, hr.size, he.nil_iff]
  · rintro y t rfl
    obtain ⟨r', rfl⟩ := he.top
    exact top_st hr

/-- With a non-strict comparator no guard is needed. -/
theorem xvalue_stack_nonstrict [DecidableEq α] {R : α → α → Prop} {cmp : α → α → Bool}
    (hc : Order R cmp) (hrefl : ∀ a, cmp a a = true) (triv : Bool) (x0 : α) (ops : List (Op α))
    (s : List α) (hs : specRun ops [] = some s) :
    ∃ o m, Returns (run triv cmp (new x0) ops) Mem.init o m ∧ Shows R m o s := by
  refine xvalue_stack_partial hc triv x0 ops s hs ?_
  generalize ([] : List α) = s0
  clear hs
  induction ops generalizing s0 with
  | nil => trivial
  | cons op ops ih =>
    refine ⟨?_, fun s' _ => ih s'⟩
    cases op
    · exact Or.inl (hrefl _)
    · trivial
    · trivial

example : specRun [Op.push 3, .push 1, .push 2, .pop, .pop, .push 5] ([] : List Int) = some [5, 3] := rfl

/-- A guarded history under `<` (a `MinStack<int>`): 3, 1, 2 with pops. -/
example : AvoidsAll (fun a b : Int => a ≤ b) (fun a b => decide (a < b))
    [.push 3, .push 1, .push 2, .pop, .pop, .push 5] [] := by
  simp [AvoidsAll, Avoids, specStep, Ext]

/-- **C11 and C12, failing case.**  Let the stack hold `u :: s` after a guarded history and let `v` be
equal to the current extremum under a strict comparator.  Then `push(v)` followed by `pop()`
returns normally but removes one stored entry too many: the raw stack is one shorter than
before the push. -/
theorem xvalue_duplicate_breaks [DecidableEq α] {R : α → α → Prop} {cmp : α → α → Bool}
    (hc : Order R cmp) (triv : Bool) (x0 : α) (ops : List (Op α)) (u : α) (s : List α)
    (hs : specRun ops [] = some (u :: s)) (ha : AvoidsAll R cmp ops []) :
    ∃ o m, Returns (run triv cmp (new x0) ops) Mem.init o m ∧ Shows R m o (u :: s) ∧
      (cmp (getXValue o) (getXValue o) = false →
        ∃ o' m', Returns (run triv cmp o [.push (getXValue o), .pop]) m o' m' ∧
        o'.st.sz + 1 = o.st.sz) := by
  obtain ⟨o, m, h1, ⟨hw, r, hr, he⟩⟩ := run_ok hc (triv := triv) (Inv.init cmp x0) hs ha
  refine ⟨o, m, h1, ⟨?_, ?_, he.ext hc⟩, ?_⟩
  · simp [empty, hr.size, he.nil_iff]
  · rintro y t e
    cases e
    obtain ⟨r', rfl⟩ := he.top
    exact top_st hr
  · intro hstrict
    change cmp o.x o.x = false at hstrict
    obtain ⟨r', rfl⟩ := he.top
    have hsz : o.st.sz = r'.length + 1 := by rw [hr.size]; simp
    have : wp (run triv cmp o [.push o.x, .pop]) (fun o' m' => o'.st.sz + 1 = o.st.sz) m := by
      simp only [run, step, push, pop]
      rw [if_neg (by simp [hstrict, hsz])]
      simp only [pure_bind, bind_assoc]
      rw [wp_bind]
      refine wp_mono (push_st o.x hw hr) ?_
      rintro st1 m1 ⟨r1, _, w1⟩
      rw [wp_bind, wp_of_returns (top_st r1), wp_bind]
      refine wp_mono (pop_st w1 r1) ?_
      rintro st2 m2 ⟨r2, _, w2⟩
      simp only [if_true, bind_assoc, pure_bind]
      rw [wp_bind, wp_of_returns (top_st r2), wp_bind]
      refine wp_mono (pop_st w2 r2) ?_
      rintro st3 m3 ⟨r3, _, w3⟩
      rw [wp_pure]
      simp only
      rw [r3.size, hsz]; simp
    obtain ⟨o', m', e1, e2⟩ := this
    exact ⟨o', m', e1, e2⟩

/-- **C11, failing case, concretely.**  `push(v); push(v); pop();` under a strict comparator should leave
the single element `v`; instead `top()` is the initial value `x0` of the hidden member. -/
theorem xvalue_push_push_pop [DecidableEq α] {cmp : α → α → Bool}
    (triv : Bool) (x0 v : α) (hstrict : cmp v v = false) :
    ∃ o m, Returns (run triv cmp (new x0) [.push v, .push v, .pop]) Mem.init o m ∧
      Returns (top o) m x0 m := by
  have : wp (run triv cmp (new x0) [.push v, .push v, .pop]) (fun o m => Returns (top o) m x0 m)
      Mem.init := by
    simp only [run, step, push, pop]
    rw [if_pos (show (new x0).st.sz = 0 ∨ cmp v (new x0).x = true from Or.inl rfl)]
    simp only [bind_assoc, pure_bind]
    rw [wp_bind]
    refine wp_mono (push_st (r := []) x0 Mem.WF.init (Rep.empty Mem.WF.init)) ?_
    rintro st1 m1 ⟨r1, _, w1⟩
    rw [wp_bind]
    refine wp_mono (push_st v w1 r1) ?_
    rintro st2 m2 ⟨r2, _, w2⟩
    have hsz : st2.sz = 2 := by rw [r2.size]; simp
    rw [if_neg (by simp [hstrict, hsz])]
    simp only [pure_bind]
    rw [wp_bind]
    refine wp_mono (push_st v w2 r2) ?_
    rintro st3 m3 ⟨r3, _, w3⟩
    rw [wp_bind, wp_of_returns (top_st r3), wp_bind]
    refine wp_mono (pop_st w3 r3) ?_
    rintro st4 m4 ⟨r4, _, w4⟩
    simp only [if_true, bind_assoc, pure_bind]
    rw [wp_bind, wp_of_returns (top_st r4), wp_bind]
    refine wp_mono (pop_st w4 r4) ?_
    rintro st5 m5 ⟨r5, _, w5⟩
    rw [wp_pure]
    exact top_st r5
  obtain ⟨o, m, e1, e2⟩ := this
  exact ⟨o, m, e1, e2⟩

/-! ## Several objects -/

variable {ι : Type}

/-- **C77.**  For every history of constructions, pushes, pops, clears, copies, moves and destructions of any
number of stacks with any comparators, avoiding the defective situations, nothing faults and afterwards
every stack shows its own elements, extremum and comparator; storage is released exactly once, and none is left
when no stack is left.  Missing from the full statement: pushing a value equal to the extremum under a
strict comparator (`xvalue_duplicate_breaks`) and copying a non-empty stack of a type with a
non-trivial destructor (`xvalue_copy_faults`). -/
theorem xvalue_copy_move_partial [DecidableEq α] {R : ι → α → α → Prop} {cmp : ι → α → α → Bool}
    (hc : ∀ c, Order (R c) (cmp c)) (triv : Bool) (gone : α → α) (ops : List (WOp ι α)) (sw : SWorld ι α)
    (hs : wspecRun ops (fun _ => none) = some sw) (ha : WAvoidsAll R cmp triv ops (fun _ => none)) :
    ∃ w, Returns (wrun triv cmp gone ops) World.init () w ∧ WShows R w sw ∧ w.mem.lost = 0 ∧
      ((∀ k, sw k = none) → ∀ b, w.mem.blk b = none) := by
  obtain ⟨_, w, h1, vw, h2⟩ := wrun_ok (gone := gone) hc WInv.init hs ha
  refine ⟨w, h1, h2.shows hc, h2.vec.lost, fun hn b => ?_⟩
  refine Classical.byContradiction fun hb => ?_
  obtain ⟨k, v, e, _⟩ := h2.vec.owned b hb
  simp [vecs, h2.none (hn k)] at e

/-- A history with a copy and a move under two comparators (0 is `<`, 1 is `>`). -/
example : ∃ sw : SWorld (Fin 2) Int,
    wspecRun [.new 0 0 9, .op 0 (.push 3), .op 0 (.push 5), .new 1 1 9, .copy 1 0, .op 1 .pop, .new 2 1 9,
      .move 2 0, .op 2 (.push 1)] (fun _ => none) = some sw ∧
    sw 0 = some ⟨0, []⟩ ∧ sw 1 = some ⟨0, [3]⟩ ∧ sw 2 = some ⟨0, [1, 5, 3]⟩ :=
  ⟨_, rfl, rfl, rfl, rfl⟩

example : WAvoidsAll (fun c : Fin 2 => fun a b : Int => if c = 0 then a ≤ b else b ≤ a)
    (fun c a b => if c = 0 then decide (a < b) else decide (b < a)) true
    [.new 0 0 9, .op 0 (.push 3), .op 0 (.push 5), .new 1 1 9, .copy 1 0, .op 1 .pop, .new 2 1 9,
      .move 2 0, .op 2 (.push 1)] (fun _ => none) := by
  simp [WAvoidsAll, WAvoids, wspecStep, SWorld.put, Avoids, specStep, Ext]

/-- Those two comparators meet the hypothesis on comparators. -/
example (c : Fin 2) : Order (fun a b : Int => if c = 0 then a ≤ b else b ≤ a)
    (fun a b => if c = 0 then decide (a < b) else decide (b < a)) := by
  by_cases h : c = 0
  · constructor <;> simp only [h, if_true] <;> grind
  · constructor <;> simp only [h, if_false] <;> grind

/-- **C77, failing case.**  Copying a non-empty stack of a type with a non-trivial destructor runs the
destructor on raw storage. -/
theorem xvalue_copy_faults [DecidableEq α] {R : ι → α → α → Prop} {cmp : ι → α → α → Bool}
    (hc : ∀ c, Order (R c) (cmp c)) (gone : α → α) (ops : List (WOp ι α)) (sw : SWorld ι α)
    (hs : wspecRun ops (fun _ => none) = some sw) (ha : WAvoidsAll R cmp false ops (fun _ => none))
    (d s : Nat) (hds : d ≠ s) (t u : SObj ι α) (hd : sw d = some t) (hu : sw s = some u) (hne : u.s ≠ []) :
    ∃ w, Returns (wrun false cmp gone ops) World.init () w ∧
      Faults (wstep false cmp gone (.copy d s)) w .badDestroy := by
  obtain ⟨_, w, h1, vw, h2⟩ := wrun_ok (gone := gone) hc WInv.init hs ha
  refine ⟨w, h1, ?_⟩
  obtain ⟨o, _, e1, _, e3, _⟩ := h2.rep hd
  obtain ⟨p, r, f1, _, f3, f4⟩ := h2.rep hu
  rw [wstep]
  refine faults_bind_of_wp ((wp_getObj e1 _).2 (faults_bind_of_wp ((wp_getObj f1 _).2 ?_)))
  rw [if_neg hds]
  refine bind_faults (faults_lift ?_)
  rw [copyAssign]
  exact bind_faults (copyAssign_faults h2.vec.wf e3 f3 (fun h => hne (f4.nil_iff.1 (by simpa using h))))

/-- **C78.**  A range-`for` loop over a stack visits its elements from bottom to top, but not only them:
what it visits contains the elements in order, and is empty when the stack is.  Missing from the full
statement: that nothing else is visited, which is false for every non-empty stack
(`xvalue_iterate_wrong`). -/
theorem xvalue_iterate_partial [DecidableEq α] {R : ι → α → α → Prop} {cmp : ι → α → α → Bool}
    (hc : ∀ c, Order (R c) (cmp c)) (triv : Bool) (gone : α → α) (ops : List (WOp ι α)) (sw : SWorld ι α)
    (hs : wspecRun ops (fun _ => none) = some sw) (ha : WAvoidsAll R cmp triv ops (fun _ => none))
    (k : Nat) (v : SObj ι α) (hk : sw k = some v) :
    ∃ w u l, Returns (wrun triv cmp gone ops) World.init () w ∧ w.obj k = some u ∧
      Returns (iterate u.o) w.mem l w.mem ∧ v.s.reverse.Sublist l ∧ (v.s = [] → l = []) := by
  obtain ⟨_, w, h1, vw, h2⟩ := wrun_ok (gone := gone) hc WInv.init hs ha
  obtain ⟨u, r, e1, _, e3, e4⟩ := h2.rep hk
  exact ⟨w, u, r.reverse, h1, e1, iterate_ok e3, List.reverse_sublist.2 e4.sublist, fun h => by
    rw [e4.nil_iff.2 h]; rfl⟩

/-- **C78, failing case.**  For every non-empty stack the loop also visits saved extrema: it visits more values
than there are elements. -/
theorem xvalue_iterate_wrong [DecidableEq α] {R : ι → α → α → Prop} {cmp : ι → α → α → Bool}
    (hc : ∀ c, Order (R c) (cmp c)) (triv : Bool) (gone : α → α) (ops : List (WOp ι α)) (sw : SWorld ι α)
    (hs : wspecRun ops (fun _ => none) = some sw) (ha : WAvoidsAll R cmp triv ops (fun _ => none))
    (k : Nat) (v : SObj ι α) (hk : sw k = some v) (hne : v.s ≠ []) :
    ∃ w u l, Returns (wrun triv cmp gone ops) World.init () w ∧ w.obj k = some u ∧
      Returns (iterate u.o) w.mem l w.mem ∧ v.s.length < l.length := by
  obtain ⟨_, w, h1, vw, h2⟩ := wrun_ok (gone := gone) hc WInv.init hs ha
  obtain ⟨u, r, e1, _, e3, e4⟩ := h2.rep hk
  exact ⟨w, u, r.reverse, h1, e1, iterate_ok e3, by simpa using e4.longer hne⟩

/-- **C78, failing case, concretely.**  After one `push(v)` the loop visits the initial value of the hidden
member, which was never pushed, and then `v`. -/
theorem xvalue_iterate_first [DecidableEq α] (triv : Bool) (cmp : α → α → Bool) (x0 v : α) :
    ∃ o m, Returns (run triv cmp (new x0) [.push v]) Mem.init o m ∧ Returns (iterate o) m [x0, v] m := by
  have : wp (run triv cmp (new x0) [.push v]) (fun o m => Returns (iterate o) m [x0, v] m) Mem.init := by
    simp only [run, step, push]
    rw [if_pos (show (new x0).st.sz = 0 ∨ cmp v (new x0).x = true from Or.inl rfl)]
    simp only [bind_assoc, pure_bind]
    rw [wp_bind]
    refine wp_mono (push_st (r := []) x0 Mem.WF.init (Rep.empty Mem.WF.init)) ?_
    rintro st1 m1 ⟨r1, _, w1⟩
    rw [wp_bind]
    refine wp_mono (push_st v w1 r1) ?_
    rintro st2 m2 ⟨r2, _, w2⟩
    rw [wp_pure]
    simpa [iterate] using iterate_ok r2
  obtain ⟨o, m, e1, e2⟩ := this
  exact ⟨o, m, e1, e2⟩

end Verif.XStack
