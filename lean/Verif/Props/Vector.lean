import Verif.VectorWorld

/-!
# Properties of `Vector` (C01 - C07)

`specRun` (in `Verif/Spec/Vector.lean`) is the meaning of a history in terms of lists;
`Shows w sw` says that all public observers of the model world `w` agree with it.
-/

namespace Verif.Vec

open Prog

variable {α : Type}

/-- Operations other than copying between vectors (C04) and appending a reference to an
element of a vector (C07). -/
def Op.plain : Op α → Prop
  | .copy _ _ => False
  | .pushElem _ _ _ => False
  | _ => True

theorem avoidsAll_of_plain {triv : Bool} {ops : List (Op α)} (h : ∀ op ∈ ops, op.plain) :
    ∀ sw, AvoidsAll triv ops sw := by
  induction ops with
  | nil => intro _; trivial
  | cons op ops ih =>
    intro sw
    refine ⟨?_, fun w' _ => ih (fun o ho => h o (List.mem_cons_of_mem _ ho)) w'⟩
    have := h op (List.mem_cons_self ..)
    cases op <;> simp_all [Op.plain, Avoids]

/-- **C01** (partial: `operator[]` is covered for vectors of fewer than `2 ^ 31` elements; larger ones
reject every index, see `vector_index_huge_faults`).  Any history of push_back, pop_back, `[]`-assignment, resize, fill-resize,
clear, construction, move and destruction that meets the operations' preconditions runs
without fault, and afterwards every vector shows exactly the list (and capacity) the
history means. -/
theorem vector_sequence_partial (triv : Bool) (ops : List (Op α)) (sw : SWorld α)
    (hplain : ∀ op ∈ ops, op.plain) (hs : specRun ops (fun _ => none) = some sw) :
    ∃ w, Returns (run triv ops) World.init () w ∧ Shows w sw := by
  obtain ⟨_, w, h1, h2⟩ := run_ok (triv := triv) WInv.init hs (avoidsAll_of_plain hplain _)
  exact ⟨w, h1, h2.shows⟩

/-- The hypotheses of `vector_sequence_partial` are met by a history that grows, shrinks, fills and
truncates. -/
example : ∃ sw, specRun [Op.new 0, .push 0 'a', .push 0 'b', .push 0 'c', .pop 0, .set 0 (-1) 'z',
      .resize 0 5, .resizeFill 0 3 'q'] (fun _ => none) = some sw ∧
    (sw 0).map (fun v => (v.data, v.cap)) = some (['a', 'z', 'q'], 3) := by
  exact ⟨_, rfl, rfl⟩

/-- **C02.**  In every state reached by a history, size ≤ capacity; `push_back` changes the
capacity only when the vector is full, and then to `max 2 (2*size)`; `pop_back` only when the
new size is below a third of the capacity, and then to half of it, which still holds every
remaining element. -/
theorem vector_capacity (triv : Bool) (ops : List (Op α)) (sw : SWorld α)
    (hs : specRun ops (fun _ => none) = some sw) (ha : AvoidsAll triv ops (fun _ => none))
    (k : Nat) (s : SVec α) (hk : sw k = some s) :
    ∃ w v, Returns (run triv ops) World.init () w ∧ w.obj k = some v ∧ v.sz ≤ v.cap ∧
      (∀ x, ∃ w' v', Returns (step triv (.push k x)) w () w' ∧ w'.obj k = some v' ∧
        v'.cap = if v.sz = v.cap then max 2 (2 * v.sz) else v.cap) ∧
      (0 < v.sz → ∃ w' v', Returns (step triv (.pop k)) w () w' ∧ w'.obj k = some v' ∧
        v'.sz = v.sz - 1 ∧ v'.sz ≤ v'.cap ∧
        v'.cap = if v.sz - 1 < v.cap / 3 then v.cap / 2 else v.cap) := by
  obtain ⟨_, w, h1, h2⟩ := run_ok (triv := triv) WInv.init hs ha
  obtain ⟨v, g1, g2, g3⟩ := h2.alive k s hk
  have hsz := g2.size
  have hle := h2.cap_le hk
  refine ⟨w, v, h1, g1, by omega, ?_, ?_⟩
  · intro x
    obtain ⟨_, w', e1, e2⟩ := step_ok (triv := triv) (op := .push k x) h2
      (by simp [specStep, hk]; rfl) trivial
    obtain ⟨v', p1, p2, p3⟩ := e2.alive k _ (by simp [SWorld.put]; rfl)
    refine ⟨w', v', e1, p1, ?_⟩
    rw [p3]
    simp only [capAfterPush]
    split <;> split <;> omega
  · intro hpos
    have hne : s.data ≠ [] := by intro h; rw [h] at hsz; simp at hsz; omega
    obtain ⟨_, w', e1, e2⟩ := step_ok (triv := triv) (op := .pop k) h2
      (by simp [specStep, hk, hne]; rfl) trivial
    obtain ⟨v', p1, p2, p3⟩ := e2.alive k _ (by simp [SWorld.put]; rfl)
    have q1 := p2.size
    have q2 := e2.cap_le (k := k) (by simp [SWorld.put]; rfl)
    simp only [List.length_dropLast] at q1 q2
    simp only at p3
    refine ⟨w', v', e1, p1, by omega, by omega, ?_⟩
    rw [p3]
    simp only [capAfterPop]
    split <;> split <;> omega

/-- A full vector of two elements grows to capacity four: the push case of
`vector_capacity` is exercised. -/
example : ∃ sw, specRun [Op.new 0, .push 0 1, .push 0 2, .push 0 3] (fun _ => none) = some sw ∧
    (sw 0).map (fun v => (v.data, v.cap)) = some ([1, 2, 3], 4) := ⟨_, rfl, rfl⟩

/-- **C03.**  Any such history is free of faults; no object is ever overwritten or released
without its destructor having run; every block still allocated belongs to a live vector and
has the element count of that vector's capacity, and if all vectors have been destroyed
nothing is allocated any more. -/
theorem vector_memory (triv : Bool) (ops : List (Op α)) (sw : SWorld α)
    (hplain : ∀ op ∈ ops, op.plain) (hs : specRun ops (fun _ => none) = some sw) :
    ∃ w, Returns (run triv ops) World.init () w ∧ w.mem.lost = 0 ∧
      (∀ b k, w.mem.blk b = some k → ∃ j v, w.obj j = some v ∧ v.c = b ∧ k.len = v.cap ∧
        ∀ i, (k.slot i).isSome ↔ i < v.sz) ∧
      ((∀ k, sw k = none) → ∀ b, w.mem.blk b = none) := by
  obtain ⟨_, w, h1, h2⟩ := run_ok (triv := triv) WInv.init hs (avoidsAll_of_plain hplain _)
  refine ⟨w, h1, h2.lost, ?_, ?_⟩
  · intro b k hb
    obtain ⟨j, v, g1, g2⟩ := h2.owned b (by rw [hb]; simp)
    refine ⟨j, v, g1, g2, ?_⟩
    rcases hsj : sw j with _ | s
    · rw [h2.dead j hsj] at g1; cases g1
    · obtain ⟨v', p1, p2, p3⟩ := h2.alive j s hsj
      rw [g1] at p1; cases p1
      have hv0 : v.c ≠ 0 := by
        intro h0
        rw [← g2, h0, h2.wf.null] at hb; cases hb
      obtain ⟨_, _, f, q1, q2⟩ := p2.buf hv0
      rw [g2, hb] at q1
      cases q1
      refine ⟨rfl, ?_⟩
      intro i
      simp [q2, p2.size]
  · intro hnone b
    by_cases hb : w.mem.blk b = none
    · exact hb
    · obtain ⟨j, v, g1, _⟩ := h2.owned b hb
      rw [h2.dead j (hnone j)] at g1; cases g1

/-- The final clause of `vector_memory` applies to a history with two vectors, a move and
both destructions. -/
example : ∃ sw, specRun [Op.new 0, .newFill 1 3 'x', .push 0 'a', .move 0 1, .push 1 'b', .drop 0,
      .drop 1] (fun _ => none) = some sw ∧ ∀ k, sw k = none := by
  refine ⟨_, rfl, fun k => ?_⟩
  simp only [SWorld.put]
  repeat' split
  all_goals first | rfl | omega

/-- **C04** (partial: only for element types with a trivial destructor, or copies of empty
vectors; see `vector_copy_faults` for the rest).  Histories that also copy vectors show
exactly the lists they mean, so a copy is equal to its source when made and neither is
affected by later operations on the other; no memory is lost. -/
theorem vector_copy_partial (triv : Bool) (ops : List (Op α)) (sw : SWorld α)
    (hs : specRun ops (fun _ => none) = some sw) (ha : AvoidsAll triv ops (fun _ => none)) :
    ∃ w, Returns (run triv ops) World.init () w ∧ Shows w sw ∧ w.mem.lost = 0 ∧
      ((∀ k, sw k = none) → ∀ b, w.mem.blk b = none) := by
  obtain ⟨_, w, h1, h2⟩ := run_ok (triv := triv) WInv.init hs ha
  refine ⟨w, h1, h2.shows, h2.lost, ?_⟩
  intro hnone b
  by_cases hb : w.mem.blk b = none
  · exact hb
  · obtain ⟨j, v, g1, _⟩ := h2.owned b hb
    rw [h2.dead j (hnone j)] at g1; cases g1

/-- For a trivially destructible element type the guard of `vector_copy_partial` excludes
only `v.push_back(v[i])` on a full vector: histories with arbitrary copies qualify. -/
theorem avoidsAll_of_triv {ops : List (Op α)} (h : ∀ op ∈ ops, ∀ k j i, op ≠ .pushElem k j i) :
    ∀ sw, AvoidsAll true ops sw := by
  induction ops with
  | nil => intro _; trivial
  | cons op ops ih =>
    intro sw
    refine ⟨?_, fun w' _ => ih (fun o ho => h o (List.mem_cons_of_mem _ ho)) w'⟩
    have := h op (List.mem_cons_self ..)
    cases op <;> simp_all [Avoids]

/-- Copy, then change both: the specification keeps them apart. -/
example : ∃ sw, specRun [Op.new 0, .push 0 1, .push 0 2, .new 1, .copy 1 0, .set 1 0 9, .push 0 7]
      (fun _ => none) = some sw ∧
    (sw 0).map (·.data) = some [1, 2, 7] ∧ (sw 1).map (·.data) = some [9, 2] := ⟨_, rfl, rfl, rfl⟩

/-- **C04, failing case.**  For an element type with a non-trivial destructor, *every* copy
assignment (hence copy construction) from a non-empty vector runs the destructor on raw
storage: undefined behaviour. -/
theorem vector_copy_faults (ops : List (Op α)) (sw : SWorld α)
    (hs : specRun ops (fun _ => none) = some sw) (ha : AvoidsAll false ops (fun _ => none))
    (d s : Nat) (hds : d ≠ s) (t u : SVec α) (hd : sw d = some t) (hsrc : sw s = some u)
    (hne : u.data ≠ []) :
    ∃ w, Returns (run false ops) World.init () w ∧ Faults (step false (.copy d s)) w .badDestroy := by
  obtain ⟨_, w, h1, h2⟩ := run_ok (triv := false) WInv.init hs ha
  exact ⟨w, h1, step_copy_faults h2 hds hd hsrc hne⟩

/-- A non-vacuous instance of `vector_copy_faults`: copying a one-element vector. -/
example : ∃ sw, specRun [Op.new 0, .push 0 'a', .new 1] (fun _ => none) = some sw ∧
    AvoidsAll false [Op.new 0, .push 0 'a', .new 1] (fun _ => none) ∧
    (sw 1).isSome ∧ (sw 0).map (·.data) = some ['a'] :=
  ⟨_, rfl, avoidsAll_of_plain (by simp [Op.plain]) _, rfl, rfl⟩

/-- **C05.**  After a move between two different vectors the destination holds the source's
elements and capacity, the source is an empty vector without a buffer, every other vector is
unchanged, the destination's old buffer has been released and no object was lost; any further
history (for example on the source) behaves as specified. -/
theorem vector_move (triv : Bool) (ops more : List (Op α)) (sw sw' : SWorld α) (d s : Nat)
    (t u : SVec α) (hds : d ≠ s)
    (hs : specRun ops (fun _ => none) = some sw) (ha : AvoidsAll triv ops (fun _ => none))
    (hd : sw d = some t) (hsrc : sw s = some u)
    (hmore : specRun more (fun x => if x = s then some ⟨[], 0⟩ else if x = d then some u else sw x)
      = some sw')
    (hmore' : AvoidsAll triv more
      (fun x => if x = s then some ⟨[], 0⟩ else if x = d then some u else sw x)) :
    ∃ w1 w2 w3, Returns (run triv ops) World.init () w1 ∧ Returns (step triv (.move d s)) w1 () w2 ∧
      Shows w2 (fun x => if x = s then some ⟨[], 0⟩ else if x = d then some u else sw x) ∧
      w2.obj s = some Vec.empty ∧ w2.obj d = w1.obj s ∧
      (∀ v, w1.obj d = some v → v.c ≠ 0 → w2.mem.blk v.c = none) ∧ w2.mem.lost = 0 ∧
      Returns (run triv more) w2 () w3 ∧ Shows w3 sw' := by
  obtain ⟨_, w1, h1, h2⟩ := run_ok (triv := triv) WInv.init hs ha
  have hstep := step_ok (triv := triv) (op := .move d s) h2
    (by simp [specStep, hd, hsrc, hds]; rfl) trivial
  obtain ⟨_, w2, e1, e2⟩ := hstep
  have heq : (SWorld.put (SWorld.put sw d (some u)) s (some ⟨[], 0⟩)) =
      (fun x => if x = s then some ⟨[], 0⟩ else if x = d then some u else sw x) := rfl
  rw [heq] at e2
  obtain ⟨_, w3, k1, k2⟩ := run_ok (triv := triv) e2 hmore hmore'
  obtain ⟨vd, d1, d2, d3⟩ := h2.alive d t hd
  obtain ⟨vs, s1, s2, s3⟩ := h2.alive s u hsrc
  -- the shape of the final world
  have hshape : wp (step triv (.move d s)) (fun _ w' => w'.obj s = some Vec.empty ∧
      w'.obj d = some vs ∧ (vd.c ≠ 0 → w'.mem.blk vd.c = none)) w1 := by
    rw [step, stepWith, wp_bind, wp_getObj d1, wp_bind, wp_getObj s1, if_neg hds, wp_bind, wp_lift, moveAssign,
      wp_bind]
    refine wp_mono (clear_ok h2.wf d2) ?_
    rintro v' m' ⟨rfl, g3, g4, _⟩
    rw [wp_pure]
    simp only
    rw [wp_bind, wp_putObj, wp_putObj]
    refine ⟨by simp, by simp [hds], ?_⟩
    intro h0
    exact g3.gone (Ne.symm h0) h0
  obtain ⟨_, w2', r1, r2, r3, r4⟩ := hshape
  obtain ⟨_, rfl⟩ := Returns.det e1 r1
  refine ⟨w1, w2, w3, h1, e1, e2.shows, r2, by rw [r3, s1], ?_, e2.lost, k1, k2.shows⟩
  intro v hv h0
  rw [d1] at hv; cases hv
  exact r4 h0

/-- A non-vacuous instance of `vector_move`, reusing the moved-from vector. -/
example : ∃ sw sw', specRun [Op.new 0, .push 0 1, .new 1, .push 1 2] (fun _ => none) = some sw ∧
    sw 0 = some ⟨[1], 2⟩ ∧ sw 1 = some ⟨[2], 2⟩ ∧
    specRun [Op.push 1 5] (fun x => if x = 1 then some ⟨[], 0⟩ else if x = 0 then some ⟨[2], 2⟩ else sw x)
      = some sw' ∧ (sw' 1).map (·.data) = some [5] := ⟨_, _, rfl, rfl, rfl, rfl, rfl⟩

/-- **C06** (partial: an index below `-size()` is not stopped by the assertion).  For every
vector of fewer than 2^31 elements and every `int` index: indices `0..size-1` and
`-size..-1` read the element they should; indices `≥ size` are stopped by the assertion. -/
theorem vector_index_partial (triv : Bool) (ops : List (Op α)) (sw : SWorld α)
    (hs : specRun ops (fun _ => none) = some sw) (ha : AvoidsAll triv ops (fun _ => none))
    (k : Nat) (s : SVec α) (hk : sw k = some s) (hlen : s.data.length < 2 ^ 31)
    (i : Int) (hlo : -(s.data.length : Int) ≤ i) (hhi : i < 2 ^ 31) :
    ∃ w v, Returns (run triv ops) World.init () w ∧ w.obj k = some v ∧
      ((∃ p x, pyIndex s.data.length i = some p ∧ s.data[p]? = some x ∧ Returns (index v i) w.mem x w.mem) ∨
       (pyIndex s.data.length i = none ∧ Faults (index v i) w.mem .assert)) := by
  obtain ⟨_, w, h1, h2⟩ := run_ok (triv := triv) WInv.init hs ha
  obtain ⟨v, g1, g2, g3⟩ := h2.alive k s hk
  refine ⟨w, v, h1, g1, ?_⟩
  have hsz := g2.size
  rcases hp : pyIndex s.data.length i with _ | p
  · right
    refine ⟨rfl, ?_⟩
    have hge : (s.data.length : Int) ≤ i := by
      unfold pyIndex at hp
      split at hp
      · cases hp
      · split at hp
        · cases hp
        · omega
    unfold index
    simp only
    apply bind_faults
    apply faults_dassert
    rw [normIndex_ok v i (by omega) (by omega), bmod32 _ (by omega) (by omega)]
    split <;> omega
  · left
    obtain ⟨hp1, hp2⟩ := pyIndex_some hp
    refine ⟨p, s.data[p], rfl, by simp [hp1], ?_⟩
    have := index_ok g2 hlen p hp1
    rcases hp2 with rfl | rfl
    · exact this.1
    · exact this.2

/-- **C06, writing.**  The same holds for assigning through `v[i]`: in range it changes the element it
should, an index `≥ size()` is stopped by the assertion. -/
theorem vector_index_write_partial (triv : Bool) (ops : List (Op α)) (sw : SWorld α)
    (hs : specRun ops (fun _ => none) = some sw) (ha : AvoidsAll triv ops (fun _ => none))
    (k : Nat) (s : SVec α) (hk : sw k = some s) (hlen : s.data.length < 2 ^ 31)
    (i : Int) (hlo : -(s.data.length : Int) ≤ i) (hhi : i < 2 ^ 31) (x : α) :
    ∃ w, Returns (run triv ops) World.init () w ∧
      ((∃ p w' v', pyIndex s.data.length i = some p ∧ Returns (step triv (.set k i x)) w () w' ∧
          w'.obj k = some v' ∧ Returns (iterate v') w'.mem (s.data.set p x) w'.mem) ∨
       (pyIndex s.data.length i = none ∧ Faults (step triv (.set k i x)) w .assert)) := by
  obtain ⟨_, w, h1, h2⟩ := run_ok (triv := triv) WInv.init hs ha
  obtain ⟨v, g1, g2, g3⟩ := h2.alive k s hk
  refine ⟨w, h1, ?_⟩
  have hsz := g2.size
  rcases hp : pyIndex s.data.length i with _ | p
  · right
    refine ⟨rfl, ?_⟩
    have hge : (s.data.length : Int) ≤ i := by
      unfold pyIndex at hp
      split at hp
      · cases hp
      · split at hp
        · cases hp
        · omega
    rw [step, stepWith]
    refine faults_bind_of_wp ?_
    rw [wp_getObj g1]
    refine faults_lift ?_
    unfold setIndex
    simp only
    apply bind_faults
    apply faults_dassert
    rw [normIndex_ok v i (by omega) (by omega), bmod32 _ (by omega) (by omega)]
    split <;> omega
  · left
    obtain ⟨_, w', e1, e2⟩ := step_ok (triv := triv) (op := .set k i x) h2
      (sw' := sw.put k (some ⟨s.data.set p x, s.cap⟩)) (by simp [specStep, hk, hp, hlen]) trivial
    obtain ⟨v', q1, q2, _⟩ := e2.alive k ⟨s.data.set p x, s.cap⟩ (by simp [SWorld.put])
    exact ⟨p, w', v', rfl, e1, q1, iterate_ok q2⟩

/-- **C01, C06, failing case.**  The assertion compares the index with `size()` converted to `int`.  A
vector of `2 ^ 31` up to `2 ^ 32 - 1` elements has a negative size there, and every index from the front
is rejected. -/
theorem vector_index_huge_faults (triv : Bool) (ops : List (Op α)) (sw : SWorld α)
    (hs : specRun ops (fun _ => none) = some sw) (ha : AvoidsAll triv ops (fun _ => none))
    (k : Nat) (s : SVec α) (hk : sw k = some s) (h1 : 2 ^ 31 ≤ s.data.length) (h2 : s.data.length < 2 ^ 32)
    (i : Int) (hi : 0 ≤ i) (x : α) :
    ∃ w v, Returns (run triv ops) World.init () w ∧ w.obj k = some v ∧ Faults (index v i) w.mem .assert ∧
      Faults (step triv (.set k i x)) w .assert := by
  obtain ⟨_, w, e1, e2⟩ := run_ok (triv := triv) WInv.init hs ha
  obtain ⟨v, g1, g2, g3⟩ := e2.alive k s hk
  have hsz := g2.size
  have hneg : Int.bmod (v.sz : Int) (2 ^ 32) < 0 := by
    rw [Int.bmod_def]; split <;> omega
  have hn : normIndex v i = i := by unfold normIndex; rw [if_neg (by omega)]
  refine ⟨w, v, e1, g1, ?_, ?_⟩
  · unfold index
    simp only
    exact bind_faults (faults_dassert (by omega) _)
  · rw [step, stepWith]
    refine faults_bind_of_wp ?_
    rw [wp_getObj g1]
    refine faults_lift ?_
    unfold setIndex
    simp only
    exact bind_faults (faults_dassert (by omega) _)

/-- Such a vector is made by one `resize(n, e)`. -/
example (n : Nat) : ∃ sw s, specRun [Op.new 0, .resizeFill 0 n 'x'] (fun _ => none) = some sw ∧ sw 0 = some s ∧
    s.data.length = n := by
  refine ⟨_, ⟨[].take n ++ List.replicate (n - 0) 'x', n⟩, rfl, rfl, by simp⟩

/-- **C06, failing case.**  Every `int` index below `-size()` passes the assertion and the
access leaves the buffer (or dereferences `nullptr` when there is none). -/
theorem vector_index_faults (triv : Bool) (ops : List (Op α)) (sw : SWorld α)
    (hs : specRun ops (fun _ => none) = some sw) (ha : AvoidsAll triv ops (fun _ => none))
    (k : Nat) (s : SVec α) (hk : sw k = some s) (hlen : s.data.length < 2 ^ 31)
    (i : Int) (hi : i < -(s.data.length : Int)) (hlo : -(2 ^ 31) ≤ i) :
    ∃ w v, Returns (run triv ops) World.init () w ∧ w.obj k = some v ∧
      Faults (index v i) w.mem (if s.cap = 0 then .nullDeref else .outOfBounds) := by
  obtain ⟨_, w, h1, h2⟩ := run_ok (triv := triv) WInv.init hs ha
  obtain ⟨v, g1, g2, g3⟩ := h2.alive k s hk
  refine ⟨w, v, h1, g1, ?_⟩
  have hsz := g2.size
  unfold index
  simp only
  rw [normIndex_ok v i (by omega) (by omega), bmod32 _ (by omega) (by omega), if_pos (by omega)]
  rw [dassert_pos (by omega), pure_bind]
  unfold read
  apply bind_faults
  unfold access Faults
  by_cases hv0 : v.c = 0
  · have : s.cap = 0 := by rw [← g3, (g2.null hv0).1]; rfl
    simp [hv0, this]
  · obtain ⟨c0, _, f, cb, _⟩ := g2.buf hv0
    simp only [if_neg hv0, cb]
    rw [if_neg (by omega), if_neg (by omega)]

example : ∃ sw, specRun [Op.new 0, .push 0 1] (fun _ => none) = some sw ∧
    sw 0 = some ⟨[1], 2⟩ ∧ (-2 : Int) < -(([1] : List Nat).length : Int) := ⟨_, rfl, rfl, by decide⟩

/-- **C07** (partial: not when the vector is full).  `k.push_back(j[i])`, for any two vectors
and also for `j = k` with spare capacity, appends the value `j[i]` had before the call. -/
theorem vector_push_own_element_partial (triv : Bool) (ops : List (Op α)) (sw : SWorld α)
    (hs : specRun ops (fun _ => none) = some sw) (ha : AvoidsAll triv ops (fun _ => none))
    (k j i : Nat) (s t : SVec α) (hk : sw k = some s) (hj : sw j = some t) (hi : i < t.data.length)
    (hroom : k ≠ j ∨ s.data.length < s.cap) :
    ∃ w w', Returns (run triv ops) World.init () w ∧ Returns (step triv (.pushElem k j i)) w () w' ∧
      Shows w' (sw.put k (some ⟨s.data ++ [t.data[i]], capAfterPush s.data.length s.cap⟩)) := by
  obtain ⟨_, w, h1, h2⟩ := run_ok (triv := triv) WInv.init hs ha
  obtain ⟨_, w', e1, e2⟩ := step_ok (triv := triv) (op := .pushElem k j i) h2
    (sw' := sw.put k (some ⟨s.data ++ [t.data[i]], capAfterPush s.data.length s.cap⟩))
    (by simp [specStep, hk, hj, hi]) (by
      rcases hroom with h | h
      · exact Or.inl h
      · exact Or.inr (fun v hv => by rw [hk] at hv; cases hv; exact h))
  exact ⟨w, w', h1, e1, e2.shows⟩

/-- **C07, failing case.**  When the vector is full, `v.push_back(v[i])` reads the element
from the buffer that was just released: a use after free, for *every* such state. -/
theorem vector_push_own_element_faults (triv : Bool) (ops : List (Op α)) (sw : SWorld α)
    (hs : specRun ops (fun _ => none) = some sw) (ha : AvoidsAll triv ops (fun _ => none))
    (k i : Nat) (s : SVec α) (hk : sw k = some s) (hi : i < s.data.length)
    (hfull : s.data.length = s.cap) :
    ∃ w, Returns (run triv ops) World.init () w ∧ Faults (step triv (.pushElem k k i)) w .useAfterFree := by
  obtain ⟨_, w, h1, h2⟩ := run_ok (triv := triv) WInv.init hs ha
  refine ⟨w, h1, ?_⟩
  obtain ⟨v, g1, g2, g3⟩ := h2.alive k s hk
  have hsz := g2.size
  rw [step, stepWith]
  refine faults_bind_of_wp ((wp_getObj g1 _).2 ?_)
  refine faults_bind_of_wp ((wp_getObj g1 _).2 ?_)
  refine faults_bind_of_wp ((wp_dassert _ _ _).2 ⟨by omega, ?_⟩)
  refine bind_faults (faults_lift ?_)
  exact pushBack_self_faults h2.wf g2 (fun h => by simp [h] at hi) (by omega) _

/-- The failing state of C07 is reachable: two pushes fill the initial capacity. -/
example : ∃ sw, specRun [Op.new 0, .push 0 1, .push 0 2] (fun _ => none) = some sw ∧
    sw 0 = some ⟨[1, 2], 2⟩ := ⟨_, rfl, rfl⟩

end Verif.Vec
