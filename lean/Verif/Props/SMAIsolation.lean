import Verif.Props.SMA
import Verif.Spec.SMATrace

/-!
# Clients of the static allocator do not disturb each other (C66)

`Trace c w ops w'`: the clients get from `w` to `w'` by the permitted steps `ops`;
`lastWrite a k ops x`: what `ops` last writes to the `k`-th eight bytes of the block at `a`.
-/

namespace Verif.Sma

open Prog

variable {c : Cfg}

/-! ## Helpers of this file -/

/-- Two blocks that clients hold and that share an address are the same. -/
theorem live_unique (hc : Legal c) {w : World} (h : Reach c w) {p q : Nat × Int} (hp : p ∈ w.live)
    (hq : q ∈ w.live) {k j : Nat} (hk : 8 * (k : Int) < p.2) (hj : 8 * (j : Int) < q.2)
    (e : p.1 + 8 * k = q.1 + 8 * j) : p = q := by
  obtain ⟨h1, h2, _⟩ := sma_blocks_partial hc h
  by_cases hpq : p = q
  · exact hpq
  have g1 := (h1 p hp).2.2.1
  have g2 := (h1 q hq).2.2.1
  have hd : Disj (p.1, up8 p.2) (q.1, up8 q.2) ∨ Disj (q.1, up8 q.2) (p.1, up8 p.2) := by
    obtain ⟨pre, t, ep⟩ := List.append_of_mem hp
    rw [ep] at hq h2
    obtain ⟨_, h3, h4⟩ := List.pairwise_append.1 h2
    rcases List.mem_append.1 hq with hq | hq
    · exact .inr (h4 q hq p List.mem_cons_self)
    · rcases List.mem_cons.1 hq with hq | hq
      · exact absurd hq.symm hpq
      · exact .inl ((List.pairwise_cons.1 h3).1 q hq)
  rcases hd with hd | hd <;> rcases hd with hd | hd <;> simp only at hd <;> omega

/-- A step other than giving the block back leaves it with its client. -/
theorem live_step (hc : Legal c) {w w1 : World} (h : Reach c w) {op : Op} {r a : Nat} {n : Int}
    (hs : Safe w op) (hr : Returns (step c op) w r w1) (hm : (a, n) ∈ w.live) (hf : op ≠ .free a n) :
    (a, n) ∈ w1.live := by
  obtain ⟨L, hL⟩ := reach_inv hc h
  cases op with
  | alloc k =>
    obtain ⟨_, w', _, h1, _, _, h3, _⟩ := step_alloc_ok hL hc hs.1 hs.2
    obtain ⟨_, rfl⟩ := hr.det h1
    exact h3 _ hm
  | free b k =>
    obtain ⟨w', _, h1, _, _, h3, _⟩ := step_free_ok hL hc hs
    obtain ⟨_, rfl⟩ := hr.det h1
    rw [h3]
    refine (List.mem_erase_of_ne ?_).2 hm
    intro e; cases e; exact hf rfl
  | merge =>
    obtain ⟨w', _, _, h1, _, _, h3, _⟩ := step_merge_ok hL hc
    obtain ⟨_, rfl⟩ := hr.det h1
    rw [h3]; exact hm
  | write b k j x =>
    obtain ⟨w', h1, _, h3⟩ := step_write_ok hL hc hs.1 hs.2 x
    obtain ⟨_, rfl⟩ := hr.det h1
    rw [h3]; exact hm

/-! ## C66 -/

/-- **C66.**  A client that holds a block reads back what was last written to it, whatever all
clients do in between: allocate, give back, merge, write to any of their blocks, in any order and
number, as long as this block is not given back. -/
theorem sma_isolation (hc : Legal c) {w w' : World} {ops : List Op} (h : Reach c w)
    (ht : Trace c w ops w') {a k : Nat} {n : Int} (hm : (a, n) ∈ w.live) (hk : 8 * (k : Int) < n)
    (hf : .free a n ∉ ops) :
    (a, n) ∈ w'.live ∧ w'.st.mem (a + 8 * k) = lastWrite a k ops (w.st.mem (a + 8 * k)) := by
  induction ht with
  | nil => exact ⟨hm, rfl⟩
  | @cons w w1 w' op ops r hs hr ht ih =>
    have hne : op ≠ .free a n := fun e => hf (e ▸ List.mem_cons_self)
    have hm1 := live_step hc h hs hr hm hne
    obtain ⟨i1, i2⟩ := ih (.step h hs hr) hm1 (fun hx => hf (List.mem_cons_of_mem _ hx))
    refine ⟨i1, ?_⟩
    rw [i2]
    have hother : (∀ b j i x, op ≠ .write b j i x) → w1.st.mem (a + 8 * k) = w.st.mem (a + 8 * k) := by
      intro hop
      have hup := (sma_blocks_partial hc h).1 (a, n) hm
      exact sma_contents hc h hs hop hr (a, n) hm hm1 _ (by simp only; omega)
        (by have := hup.2.2.1; simp only at this ⊢; omega)
    cases op with
    | alloc j => rw [hother (fun _ _ _ _ e => by cases e)]; rfl
    | free b j => rw [hother (fun _ _ _ _ e => by cases e)]; rfl
    | merge => rw [hother (fun _ _ _ _ e => by cases e)]; rfl
    | write b j i x =>
      have hw : w1.st.mem (a + 8 * k) = if b = a ∧ i = k then x else w.st.mem (a + 8 * k) := by
        have : w1 = { w with st := { w.st with mem := upd w.st.mem (b + 8 * i) x } } :=
          (hr.det (show Returns (step c (.write b j i x)) w 0
            { w with st := { w.st with mem := upd w.st.mem (b + 8 * i) x } } from rfl)).2
        rw [this]
        simp only [upd]
        by_cases e : a + 8 * k = b + 8 * i
        · have := live_unique hc h hm hs.1 hk hs.2 e
          cases this
          have : i = k := by omega
          subst this
          simp
        · rw [if_neg e, if_neg]
          rintro ⟨rfl, rfl⟩
          exact e rfl
      rw [hw]; rfl

/-- **C66, from the first write on.**  The content of a block is exactly what its client wrote,
also when the block has just been allocated and whoever held the memory before wrote something
else there. -/
theorem sma_read_your_writes (hc : Legal c) {w w1 w' : World} {ops : List Op} {r a k : Nat} {n : Int}
    {x : Cell} (h : Reach c w) (hs : Safe w (.write a n k x))
    (hr : Returns (step c (.write a n k x)) w r w1) (ht : Trace c w1 ops w')
    (hf : .free a n ∉ ops) : w'.st.mem (a + 8 * k) = lastWrite a k ops x := by
  have := (sma_isolation hc h (.cons hs hr ht) hs.1 hs.2 (by simpa using hf)).2
  simpa [lastWrite] using this

/-- Both theorems apply: in a reachable state of the small pool a client holds a block of 100
bytes, writes to it, another block is allocated and merging happens. -/
example : ∃ (w w' : World) (a : Nat), Reach smallSMA w ∧ (a, 100) ∈ w.live ∧
    Trace smallSMA w [.write a 100 2 (.raw 5), .alloc 40, .merge, .write a 100 3 (.raw 6)] w' ∧
    w'.st.mem (a + 16) = .raw 5 := by
  obtain ⟨w, h, ⟨a, hl⟩, _⟩ := example_state
  have hm : (a, (100 : Int)) ∈ w.live := by rw [hl]; simp
  have s1 : Safe w (.write a 100 2 (.raw 5)) := ⟨hm, by decide⟩
  obtain ⟨_, w1, r1⟩ := sma_runs_partial smallSMA_legal h s1
  have h1 := Reach.step h s1 r1
  have m1 := live_step smallSMA_legal h s1 r1 hm (by simp)
  have s2 : Safe w1 (.alloc 40) := ⟨by decide, by decide⟩
  obtain ⟨_, w2, r2⟩ := sma_runs_partial smallSMA_legal h1 s2
  have h2 := Reach.step h1 s2 r2
  have m2 := live_step smallSMA_legal h1 s2 r2 m1 (by simp)
  obtain ⟨_, w3, r3⟩ := sma_runs_partial smallSMA_legal h2 (op := .merge) trivial
  have h3 := Reach.step h2 (op := .merge) trivial r3
  have m3 := live_step smallSMA_legal h2 (op := .merge) trivial r3 m2 (by simp)
  have s4 : Safe w3 (.write a 100 3 (.raw 6)) := ⟨m3, by decide⟩
  obtain ⟨_, w4, r4⟩ := sma_runs_partial smallSMA_legal h3 s4
  have ht : Trace smallSMA w1 [.alloc 40, .merge, .write a 100 3 (.raw 6)] w4 :=
    .cons s2 r2 (.cons trivial r3 (.cons s4 r4 .nil))
  refine ⟨w, w4, a, h, hm, .cons s1 r1 ht, ?_⟩
  rw [show a + 16 = a + 8 * 2 from rfl, sma_read_your_writes smallSMA_legal h s1 r1 ht (by simp)]
  simp [lastWrite]

end Verif.Sma
