import Verif.HeapWorld

/-! # Properties of `Heap` (C13–C17) -/

namespace Verif.Heap

open Prog Vec

variable {α : Type}

/-- A history without copies. -/
def NoCopy (ops : List (Op α)) : Prop := ∀ op ∈ ops, (∀ d s, op ≠ .copy d s) ∧ (∀ d s, op ≠ .newCopy d s)

theorem NoCopy.avoids {ops : List (Op α)} (h : NoCopy ops) (triv : Bool) :
    ∀ op ∈ ops, Avoids triv op := by
  intro op ho
  have := h op ho
  cases op <;> simp_all [Avoids]

/-- `<` on the integers is a comparator in the sense of `Order` … -/
example : Order (fun a b : Int => a ≤ b) (fun a b => decide (a < b)) :=
  ⟨fun a => Int.le_refl a, fun _ _ _ => Int.le_trans, fun _ _ h => by simp at h; omega,
    fun _ _ h => by simp at h; omega⟩

/-- … and so is `≤`. -/
example : Order (fun a b : Int => a ≤ b) (fun a b => decide (a ≤ b)) :=
  ⟨fun a => Int.le_refl a, fun _ _ _ => Int.le_trans, fun _ _ h => by simpa using h,
    fun _ _ h => by simp at h; omega⟩

/-- **C13 (and C14)** (partial: heaps of at most `2 ^ 30` elements, which is part of `Legal`; beyond
that the code overflows, see `heap_pop_overflow`).  Every legal history of constructions, pushes, pops and moves runs without
fault and follows the priority-queue specification; afterwards `top()` of every non-empty heap
is an element of it that precedes or ties with every element, `size()` is the number of
elements and iteration shows exactly them. -/
theorem heap_top_partial {R : α → α → Prop} {cmp : α → α → Bool} (hc : Order R cmp) (triv : Bool)
    (ops : List (Op α)) (hn : NoCopy ops) (hl : Legal R ops (fun _ => none)) :
    ∃ w sw, Returns (run triv cmp ops) World.init () w ∧ specRun R ops (fun _ => none) sw ∧
      Shows R w sw := by
  obtain ⟨_, w, h1, vw, sw, h2, h3, h4⟩ :=
    run_refines hc (triv := triv) WInv.init (Abs.init R) hl (hn.avoids triv)
  exact ⟨w, sw, h1, h4, h3.shows hc h2⟩

example : Legal (fun a b : Int => a ≤ b)
    [Op.new 0 0, .push 0 3, .push 0 1, .pop 0, .newRange 1 0 [5, 2, 9], .pop 1] (fun _ => none) := by
  refine ⟨rfl, ?_⟩
  rintro _ rfl
  refine ⟨⟨0, rfl, by simp⟩, ?_⟩
  rintro _ ⟨_, h, rfl⟩
  cases h
  refine ⟨⟨_, rfl, by simp⟩, ?_⟩
  rintro _ ⟨_, h, rfl⟩
  cases h
  refine ⟨⟨_, rfl, by simp⟩, ?_⟩
  rintro _ ⟨x, s, h, _, rfl⟩
  refine ⟨⟨rfl, by simp⟩, ?_⟩
  rintro _ rfl
  exact ⟨⟨_, rfl, by simp⟩, fun _ _ => trivial⟩

/-- **C14** (partial as above).  After any legal history, `pop()` removes exactly the element `top()` reported. -/
theorem heap_pop_removes_top_partial {R : α → α → Prop} {cmp : α → α → Bool} (hc : Order R cmp) (triv : Bool)
    (ops : List (Op α)) (ha : ∀ op ∈ ops, Avoids triv op) (hl : Legal R ops (fun _ => none))
    (w : World α) (hr : Returns (run triv cmp ops) World.init () w)
    (k : Nat) (v : Vec) (x : α) (l : List α) (hv : w.obj k = some v)
    (ht : Returns (top v) w.mem x w.mem) (hit : Returns (iterate v) w.mem l w.mem) :
    ∃ w' v' l', Returns (step triv cmp (.pop k)) w () w' ∧ w'.obj k = some v' ∧
      Returns (iterate v') w'.mem l' w'.mem ∧ l.Perm (x :: l') ∧ v'.sz + 1 = v.sz ∧
      (∀ y ∈ l', R x y) := by
  obtain ⟨_, w0, h1, vw, sw, h2, h3, h4⟩ :=
    run_refines hc (triv := triv) WInv.init (Abs.init R) hl ha
  obtain ⟨_, rfl⟩ := Returns.det h1 hr
  rcases hk : sw k with _ | s
  · rw [h2.dead k (h3.dead k hk)] at hv; cases hv
  obtain ⟨v0, z, hs, cap, g1, g2, g3, g4, g5, g6⟩ := h3.get h2 hk
  rw [hv] at g1; cases g1
  obtain ⟨rfl, _⟩ := Returns.det hit (iterate_ok g4.rep)
  rcases l with _ | ⟨a, t⟩
  · -- an empty heap has no top
    have hf : Faults (top v) w0.mem .assert := by
      have hsz := g4.rep.size
      simp only [List.length_cons, List.length_nil] at hsz
      refine bind_faults (faults_dassert ?_ _)
      rw [bmod32 _ (by omega) (by omega)]
      simp [normIndex, hsz]
    rw [Faults] at hf; rw [Returns, hf] at ht; cases ht
  · simp only [List.length_cons] at g6
    obtain ⟨e1, e2⟩ := top_ok hc g4 (by omega)
    obtain ⟨rfl, _⟩ := Returns.det ht e1
    have : wp (step triv cmp (.pop k)) (fun _ w' => ∃ v' l', w'.obj k = some v' ∧
        Rep w'.mem v' (z :: l') ∧ l'.Perm t) w0 := by
      rw [step, wp_bind, wp_getObj hv, wp_bind, wp_lift]
      refine wp_mono (pop_ok hc h2.wf g4 (by omega)) ?_
      rintro v' m' ⟨hs', q1, q2, q3, q4⟩
      rw [wp_putObj]
      exact ⟨v', hs', by simp, q1.rep, q2⟩
    obtain ⟨_, w', q0, v', l', q1, q2, q3⟩ := this
    refine ⟨w', v', l', q0, q1, iterate_ok q2, (List.Perm.cons _ q3).symm, ?_, ?_⟩
    · rw [q2.size, g4.rep.size]; simp [q3.length_eq]
    · intro y hy
      exact e2 y (List.mem_cons_of_mem _ (q3.subset hy))

/-- **C14** (partial as above).  After any legal history, `push(x)` adds exactly `x`. -/
theorem heap_push_adds_partial {R : α → α → Prop} {cmp : α → α → Bool} (hc : Order R cmp) (triv : Bool)
    (ops : List (Op α)) (ha : ∀ op ∈ ops, Avoids triv op) (hl : Legal R ops (fun _ => none))
    (w : World α) (hr : Returns (run triv cmp ops) World.init () w)
    (k : Nat) (v : Vec) (x : α) (l : List α) (hv : w.obj k = some v) (hsz : v.sz ≤ 2 ^ 30)
    (hit : Returns (iterate v) w.mem l w.mem) :
    ∃ w' v' l', Returns (step triv cmp (.push k x)) w () w' ∧ w'.obj k = some v' ∧
      Returns (iterate v') w'.mem l' w'.mem ∧ l'.Perm (x :: l) ∧ v'.sz = v.sz + 1 := by
  obtain ⟨_, w0, h1, vw, sw, h2, h3, h4⟩ :=
    run_refines hc (triv := triv) WInv.init (Abs.init R) hl ha
  obtain ⟨_, rfl⟩ := Returns.det h1 hr
  rcases hk : sw k with _ | s
  · rw [h2.dead k (h3.dead k hk)] at hv; cases hv
  obtain ⟨v0, z, hs, cap, g1, g2, g3, g4, g5, g6⟩ := h3.get h2 hk
  rw [hv] at g1; cases g1
  obtain ⟨rfl, _⟩ := Returns.det hit (iterate_ok g4.rep)
  have hsz' := g4.rep.size
  simp only [List.length_cons] at hsz'
  have : wp (step triv cmp (.push k x)) (fun _ w' => ∃ v' l', w'.obj k = some v' ∧
      Rep w'.mem v' (z :: l') ∧ l'.Perm (x :: l)) w0 := by
    rw [step, wp_bind, wp_getObj hv, wp_bind, wp_lift]
    refine wp_mono (push_ok hc h2.wf g4 (by omega) (val_get x _) (fun _ => Or.inl rfl)) ?_
    rintro v' m' ⟨hs', q1, q2, q3, q4⟩
    rw [wp_putObj]
    exact ⟨v', hs', by simp, q1.rep, q2⟩
  obtain ⟨_, w', q0, v', l', q1, q2, q3⟩ := this
  refine ⟨w', v', l', q0, q1, iterate_ok q2, q3, ?_⟩
  rw [q2.size, hsz']; simp [q3.length_eq]

/-- Slots `lo … lo + xs.length - 1` of block `b` hold `xs`. -/
def Slice (m : Mem α) (b lo : Nat) (xs : List α) : Prop :=
  ∃ k, m.blk b = some k ∧ lo + xs.length ≤ k.len ∧
    ∀ i, (h : i < xs.length) → k.slot (lo + i) = some xs[i]

/-- `m'` differs from `m` at most in slots `lo … lo + n - 1` of block `b`. -/
def OnlySlice (m m' : Mem α) (b lo n : Nat) : Prop :=
  (∀ b', b' ≠ b → m'.blk b' = m.blk b') ∧
  ∀ k, m.blk b = some k → ∃ k', m'.blk b = some k' ∧ k'.len = k.len ∧
    ∀ j, j < lo ∨ lo + n ≤ j → k'.slot j = k.slot j

theorem Wrote.slice {m : Mem α} {b lo : Nat} {k : Blk α} {out : List α} (h : Wrote m b k lo out)
    (hl : lo + out.length ≤ k.len) : Slice m b lo out := by
  refine ⟨_, h, hl, ?_⟩
  intro i hi
  simp [hi]

/-- **C15** (partial: ranges of fewer than `2 ^ 30` elements; longer ones overflow, see
`heap_sort_overflow`).  `Heap::sort(begin, end)` over any range of any live block leaves a permutation of the
original elements, ordered by the comparator, in the range; it touches nothing else, faults
nowhere and leaks nothing. -/
theorem heap_sort_partial {R : α → α → Prop} {cmp : α → α → Bool} (hc : Order R cmp) (triv : Bool)
    (obj : α) (m : Mem α) (hw : m.WF) (b lo : Nat) (xs : List α) (hb : b ≠ 0)
    (hx : Slice m b lo xs) (hlen : xs.length + 1 ≤ 2 ^ 30) :
    ∃ m' out, Returns (sort triv cmp obj b lo xs.length) m () m' ∧ Slice m' b lo out ∧
      out.Perm xs ∧ out.Pairwise R ∧ OnlySlice m m' b lo xs.length ∧ m'.lost = m.lost := by
  obtain ⟨k, hk, hl, hx⟩ := hx
  obtain ⟨_, m', h1, out, h2, h3, h4, h5, h6, h7⟩ := sort_ok hc (triv := triv) hw obj hb hk hl hx hlen
  have hle := h2.length_eq
  refine ⟨m', out, h1, h4.slice (by omega), h2, h3, ⟨h5, ?_⟩, h6⟩
  intro k' hk'
  rw [hk] at hk'; cases hk'
  refine ⟨_, h4, rfl, ?_⟩
  intro j hj
  simp only
  rw [if_neg (by omega)]

/-- **C16** (partial: ranges of fewer than `2 ^ 30` elements; longer ones overflow, see
`heap_build_overflow`).  `Heap::build(begin, end)` leaves in the range a permutation of the original elements in
which element `i` precedes or ties with elements `2i+1` and `2i+2`, and returns a heap with
the same elements. -/
theorem heap_build_partial {R : α → α → Prop} {cmp : α → α → Bool} (hc : Order R cmp) (triv : Bool)
    (obj : α) (m : Mem α) (hw : m.WF) (b lo : Nat) (xs : List α) (hb : b ≠ 0)
    (hx : Slice m b lo xs) (hlen : xs.length + 1 ≤ 2 ^ 30) :
    ∃ h m' out, Returns (build triv cmp obj b lo xs.length) m h m' ∧ Slice m' b lo out ∧
      out.Perm xs ∧
      (∀ i x y, out[i]? = some x → (out[2 * i + 1]? = some y ∨ out[2 * i + 2]? = some y) → R x y) ∧
      Returns (iterate h) m' out m' ∧ h.sz = xs.length + 1 := by
  obtain ⟨k, hk, hl, hx⟩ := hx
  obtain ⟨h, m', h1, out, h2, h3, h4, h5, h6, h7, _⟩ := build_ok hc (triv := triv) hw obj hb hk hl hx hlen
  have hle := h3.length_eq
  refine ⟨h, m', out, h1, h4.slice (by omega), h3, ?_, iterate_ok h2.rep, ?_⟩
  · intro i x y hx hy
    rcases hy with hy | hy
    · refine h2.ord (2 * i + 2) x y (by omega) (by omega) (by omega) ?_ (by simpa using hy)
      rw [show (2 * i + 2) / 2 = i + 1 by omega]; simpa using hx
    · refine h2.ord (2 * i + 3) x y (by omega) (by omega) (by omega) ?_ (by simpa using hy)
      rw [show (2 * i + 3) / 2 = i + 1 by omega]; simpa using hx
  · rw [h2.rep.size]; simp [hle]

/-- A concrete memory meeting the hypotheses of `heap_sort_partial` and `heap_build_partial`. -/
example : ∃ m : Mem Int, m.WF ∧ Slice m 1 2 [5, 1, 4] := by
  refine ⟨⟨fun b => if b = 1 then some ⟨8, fun j => if j < 8 then
    [0, 0, 5, 1, 4, 7, 7, 7][j]? else none⟩ else none, 2, 0, 0, 0⟩, ⟨by simp, ?_, by simp⟩, ?_⟩
  · intro b hb; simp only at hb ⊢; rw [if_neg (by omega)]
  · refine ⟨_, rfl, by simp, ?_⟩
    intro i hi
    simp at hi
    obtain rfl | rfl | rfl : i = 0 ∨ i = 1 ∨ i = 2 := by omega
    all_goals rfl

/-- **C17.**  Histories that also copy heaps (for trivially destructible element types) follow the
specification: a copy is an equal and independent heap, and a moved-from heap is a valid empty
heap.  Missing from the full statement: copying heaps of other element types, which
`heap_copy_faults` shows to go wrong. -/
theorem heap_copy_partial {R : α → α → Prop} {cmp : α → α → Bool} (hc : Order R cmp) (triv : Bool)
    (ops : List (Op α)) (ha : ∀ op ∈ ops, Avoids triv op) (hl : Legal R ops (fun _ => none)) :
    ∃ w sw, Returns (run triv cmp ops) World.init () w ∧ specRun R ops (fun _ => none) sw ∧
      Shows R w sw ∧ w.mem.lost = 0 ∧ ((∀ k, sw k = none) → ∀ b, w.mem.blk b = none) := by
  obtain ⟨_, w, h1, vw, sw, h2, h3, h4⟩ :=
    run_refines hc (triv := triv) WInv.init (Abs.init R) hl ha
  refine ⟨w, sw, h1, h4, h3.shows hc h2, h2.lost, ?_⟩
  intro hnone b
  by_cases hb : w.mem.blk b = none
  · exact hb
  · obtain ⟨j, v, g1, _⟩ := h2.owned b hb
    rw [h2.dead j (h3.dead j (hnone j))] at g1; cases g1

example : Legal (fun a b : Int => a ≤ b)
    [Op.new 0 0, .push 0 3, .newCopy 1 0, .push 1 7, .newMove 2 1, .push 1 4, .move 0 1]
    (fun _ => none) := by
  refine ⟨rfl, ?_⟩
  rintro _ rfl
  refine ⟨⟨0, rfl, by simp⟩, ?_⟩
  rintro _ ⟨_, h, rfl⟩
  cases h
  refine ⟨⟨rfl, by simp [Spec.put]⟩, ?_⟩
  rintro _ rfl
  refine ⟨⟨_, rfl, by simp⟩, ?_⟩
  rintro _ ⟨_, h, rfl⟩
  cases h
  refine ⟨⟨rfl, by simp [Spec.put]⟩, ?_⟩
  rintro _ rfl
  refine ⟨⟨_, rfl, by simp⟩, ?_⟩
  rintro _ ⟨_, h, rfl⟩
  cases h
  exact ⟨⟨by simp [Spec.put], by simp [Spec.put]⟩, fun _ _ => trivial⟩

/-- **C17, failing case.**  Copying any heap – even an empty one – of a type with a non-trivial
destructor runs a destructor on raw storage. -/
theorem heap_copy_faults {R : α → α → Prop} {cmp : α → α → Bool} (hc : Order R cmp)
    (ops : List (Op α)) (hn : NoCopy ops) (hl : Legal R ops (fun _ => none)) (d s : Nat)
    (hds : d ≠ s) :
    ∃ w, Returns (run false cmp ops) World.init () w ∧
      (w.obj d ≠ none → w.obj s ≠ none → Faults (step false cmp (.copy d s)) w .badDestroy) ∧
      (w.obj d = none → w.obj s ≠ none → Faults (step false cmp (.newCopy d s)) w .badDestroy) := by
  obtain ⟨_, w, h1, vw, sw, h2, h3, h4⟩ :=
    run_refines hc (triv := false) WInv.init (Abs.init R) hl (hn.avoids false)
  refine ⟨w, h1, ?_, ?_⟩
  · intro hd hs
    rcases hs' : sw s with _ | t
    · exact absurd (h2.dead s (h3.dead s hs')) hs
    rcases hd' : sw d with _ | t'
    · exact absurd (h2.dead d (h3.dead d hd')) hd
    obtain ⟨v, z, hl, cap, g1, g2, _⟩ := h3.get h2 hs'
    obtain ⟨v', z', hl', cap', g1', g2', _⟩ := h3.get h2 hd'
    exact step_copy_faults h2 hds g2' g2 (by simp)
  · intro hd hs
    rcases hs' : sw s with _ | t
    · exact absurd (h2.dead s (h3.dead s hs')) hs
    obtain ⟨v, z, hl, cap, g1, g2, _⟩ := h3.get h2 hs'
    have hvd : vw d = none := by
      rcases hvd : vw d with _ | t'
      · rfl
      · obtain ⟨v, g, _⟩ := h2.alive d t' hvd; rw [hd] at g; cases g
    rw [step]
    refine faults_bind_of_wp (wp_mono (new_ok h2 hvd) ?_)
    rintro _ w1 i1
    exact step_copy_faults i1 hds (t := ⟨[], 0⟩) (u := ⟨z :: hl, cap⟩) (by simp [SWorld.put])
      (by simp [SWorld.put, Ne.symm hds, g2]) (by simp)

/-- **C17.**  Moving: the destination has all the elements, the source is a valid empty heap, and
both can be used in any legal way afterwards (`ops'`). -/
theorem heap_move {R : α → α → Prop} {cmp : α → α → Bool} (hc : Order R cmp) (triv : Bool)
    (ops ops' : List (Op α)) (hn : NoCopy ops) (hn' : NoCopy ops') (d s : Nat)
    (hl : Legal R (ops ++ [.move d s] ++ ops') (fun _ => none)) :
    ∃ w sw w1 t, Returns (run triv cmp ops) World.init () w ∧ Shows R w sw ∧ sw s = some t ∧
      Returns (step triv cmp (.move d s)) w () w1 ∧
      Shows R w1 ((sw.put d (some t)).put s (some 0)) ∧
      ∃ w2 sw2, Returns (run triv cmp ops') w1 () w2 ∧ Shows R w2 sw2 ∧
        specRun R ops' ((sw.put d (some t)).put s (some 0)) sw2 := by
  have split : ∀ (a : List (Op α)) (x : Spec α), Legal R (a ++ [.move d s] ++ ops') x → Legal R a x ∧
      ∀ y, specRun R a x y → Legal R (.move d s :: ops') y := by
    intro a
    induction a with
    | nil =>
      intro x hx
      refine ⟨trivial, ?_⟩
      rintro y rfl
      exact hx
    | cons op a ih =>
      intro x hx
      refine ⟨⟨hx.1, fun w' hw' => (ih w' (hx.2 w' hw')).1⟩, ?_⟩
      rintro y ⟨w', hw', hy⟩
      exact (ih w' (hx.2 w' hw')).2 y hy
  obtain ⟨l1, l2⟩ := split ops _ hl
  obtain ⟨_, w, h1, vw, sw, h2, h3, h4⟩ :=
    run_refines hc (triv := triv) WInv.init (Abs.init R) l1 (hn.avoids triv)
  have l3 := l2 sw h4
  rcases hs : sw s with _ | t
  · exact absurd hs l3.1.2
  obtain ⟨_, w1, e1, vw1, sw1, i1, a1, s1⟩ := step_refines hc (triv := triv) h2 h3 l3.1 trivial
  obtain ⟨_, w2, e2, vw2, sw2, i2, a2, s2⟩ :=
    run_refines hc (triv := triv) i1 a1 (l3.2 sw1 s1) (hn'.avoids triv)
  have hsw1 : sw1 = (sw.put d (some t)).put s (some 0) := by rw [← hs]; exact s1
  subst hsw1
  exact ⟨w, sw, w1, t, h1, h3.shows hc h2, hs, e1, a1.shows hc i1, w2, sw2, e2, a2.shows hc i2, s2⟩

end Verif.Heap
