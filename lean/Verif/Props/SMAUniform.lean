import Verif.SMAUniform
import Verif.Props.SMA

/-!
# Requests of one size (C96)

The static allocator never joins small free blocks with large ones (C55), so clients that mix
sizes can find the pool useless although most of it is free.  Clients whose sizes are multiples
of the size they now ask for are never in this situation.
-/

namespace Verif.Sma

open Prog

variable {c : Cfg}

theorem ReachOnly.reach {P : Int → Prop} {w : World} (h : ReachOnly c P w) : Reach c w := by
  induction h with
  | init h => exact .init h
  | step _ hs _ hr ih => exact .step ih hs hr

theorem ReachOnly.mono {P Q : Int → Prop} (hPQ : ∀ n, P n → Q n) {w : World}
    (h : ReachOnly c P w) : ReachOnly c Q w := by
  induction h with
  | init h => exact .init h
  | step _ hs hp hr ih => exact .step ih hs (fun n e => hPQ n (hp n e)) hr

theorem ReachOnly.even (hc : Legal c) {d : Nat} {w : World}
    (h : ReachOnly c (fun n => d ∣ up8 n) w) : ∃ L, WInv c w L ∧ Even c d L (taken w.live) := by
  induction h with
  | init h => exact even_init hc h d
  | step _ hs hd hr ih =>
    obtain ⟨L, hL, he⟩ := ih
    exact even_step hc hL he hs hd hr

/-- A block that a client holds after a step was held before, or was allocated in it. -/
theorem live_new (hc : Legal c) {w w' : World} (h : Reach c w) {op : Op} (hs : Safe w op) {a : Nat}
    (hr : Returns (step c op) w a w') {p : Nat × Int} (hp : p ∈ w'.live) :
    p ∈ w.live ∨ (op = .alloc p.2 ∧ p.1 = a) := by
  obtain ⟨L, hL⟩ := reach_inv hc h
  cases op with
  | alloc n =>
    obtain ⟨a1, s1, h1, _⟩ := sma_success_partial hc h hs.1 hs.2
    by_cases ha : a1 = 0
    · have : Returns (step c (.alloc n)) w a1 ⟨s1, w.live⟩ := by
        unfold Returns step
        refine (bind_returns (onSt_returns h1)).trans ?_
        rw [bind_returns (a := ()) (s' := ⟨s1, w.live⟩)]
        · rfl
        · unfold Returns Prog.modify
          simp only
          rw [if_pos ha]
      obtain ⟨_, rfl⟩ := hr.det this
      exact .inl hp
    · have : Returns (step c (.alloc n)) w a1 ⟨s1, (a1, n) :: w.live⟩ := by
        unfold Returns step
        refine (bind_returns (onSt_returns h1)).trans ?_
        rw [bind_returns (a := ()) (s' := ⟨s1, (a1, n) :: w.live⟩)]
        · rfl
        · unfold Returns Prog.modify
          simp only
          rw [if_neg ha]
      obtain ⟨rfl, rfl⟩ := hr.det this
      rcases List.mem_cons.1 hp with rfl | hp
      · exact .inr ⟨rfl, rfl⟩
      · exact .inl hp
  | free b k =>
    obtain ⟨w1, _, h1, _, _, h3, _⟩ := step_free_ok hL hc hs
    obtain ⟨_, rfl⟩ := hr.det h1
    rw [h3] at hp
    exact .inl (List.mem_of_mem_erase hp)
  | merge =>
    obtain ⟨w1, _, _, h1, _, _, h3, _⟩ := step_merge_ok hL hc
    obtain ⟨_, rfl⟩ := hr.det h1
    rw [h3] at hp
    exact .inl hp
  | write b k j x =>
    obtain ⟨w1, h1, _, h3⟩ := step_write_ok hL hc hs.1 hs.2 x
    obtain ⟨_, rfl⟩ := hr.det h1
    rw [h3] at hp
    exact .inl hp

/-- **C96.**  Let the clients request only sizes whose multiples of 8 are multiples of `d`, and
let them allocate, give back, merge and write in any order.  Then a request that takes `d` bytes
succeeds exactly when `free_mem_size()` is at least `d`. -/
theorem sma_uniform (hc : Legal c) {d : Nat} {w : World} (h : ReachOnly c (fun n => d ∣ up8 n) w)
    {n : Int} (hn : 0 < n) (hm : n + 8 < 2 ^ 31) (hd : up8 n = d) :
    ∃ f a s', Returns freeMemSize w.st f w.st ∧ Returns (alloc c n) w.st a s' ∧
      (a ≠ 0 ↔ (d : Int) ≤ f) := by
  obtain ⟨L, hL, he⟩ := h.even hc
  obtain ⟨a, s', h1, h2, _⟩ := sma_success_partial hc h.reach hn hm
  have hup := up8_pos hn
  refine ⟨_, a, s', rfl, h1, ⟨fun ha => ?_, fun hle ha => ?_⟩⟩
  · have : ∃ f, FreeBlock c w.st f ∧ up8 n ≤ f.2 := Classical.byContradiction fun hno => ha (h2.2 hno)
    obtain ⟨f, hf, hfn⟩ := this
    have := total_mem (hL.1.freeBlock.1 hf)
    rw [hL.2.1]
    omega
  · have hno := h2.1 ha
    have := he.room hL.1.tile fun b hb => by
      have : ¬ up8 n ≤ b.2 := fun hle => hno ⟨b, hL.1.freeBlock.2 hb, hle⟩
      omega
    rw [hL.2.1] at hle
    omega

/-- **C96** (number of blocks).  If every request takes `d` bytes, the next one succeeds exactly
when there is room for one block more than the clients hold: `M / d` blocks can be held at once,
in whatever order blocks were given back before. -/
theorem sma_uniform_count (hc : Legal c) {d : Nat} {w : World} (h : ReachOnly c (fun n => up8 n = d) w)
    {n : Int} (hn : 0 < n) (hm : n + 8 < 2 ^ 31) (hd : up8 n = d) :
    ∃ a s', Returns (alloc c n) w.st a s' ∧ (a ≠ 0 ↔ w.live.length < c.M / d) := by
  obtain ⟨f, a, s', h1, h2, h3⟩ := sma_uniform hc (h.mono fun n e => e ▸ Nat.dvd_refl _) hn hm hd
  refine ⟨a, s', h2, ?_⟩
  have hsz : ∀ p ∈ w.live, up8 p.2 = d := by
    clear h1 h2 h3
    induction h with
    | init _ => simp
    | @step w0 w1 op0 a0 h0 hs hp hr ih =>
      intro p hp1
      rcases live_new hc h0.reach hs hr hp1 with h | ⟨e1, _⟩
      · exact ih p h
      · exact hp p.2 e1
  have htot : ∀ l : List (Nat × Int), (∀ p ∈ l, up8 p.2 = d) → total (taken l) = l.length * d := by
    intro l
    induction l with
    | nil => intro _; simp [taken, total]
    | cons p l ih =>
      intro hl
      have := ih fun q hq => hl q (List.mem_cons_of_mem _ hq)
      show up8 p.2 + total (taken l) = (l.length + 1) * d
      rw [this, hl p List.mem_cons_self, Nat.add_mul]
      omega
  obtain ⟨⟨K, hK⟩, hacc, _⟩ := sma_accounting hc h.reach
  obtain ⟨f', g1, g2, _⟩ := hacc K hK
  obtain ⟨rfl, _⟩ := h1.det g1
  rw [htot w.live hsz] at g2
  have hd0 : 0 < d := hd ▸ (up8_pos hn).1
  rw [h3, ← Nat.succ_le_iff, Nat.le_div_iff_mul_le hd0, Nat.succ_mul]
  omega

/-- **C96** (the port).  Under the same conditions `port::allocate` returns a block when at least
`d` bytes are free, without merging. -/
theorem sma_uniform_port (hc : Legal c) {d : Nat} {w : World} (h : ReachOnly c (fun n => d ∣ up8 n) w)
    {n : Int} (hn : 0 < n) (hm : n + 8 < 2 ^ 31) (hd : up8 n = d) :
    ∃ f, Returns freeMemSize w.st f w.st ∧
      ((d : Int) ≤ f → ∃ a s', Returns (portAlloc c n) w.st a s' ∧ a ≠ 0 ∧
        Returns (alloc c n) w.st a s') ∧
      (f < d → Faults (portAlloc c n) w.st .crash) := by
  obtain ⟨f, a, s', h1, h2, h3⟩ := sma_uniform hc h hn hm hd
  refine ⟨f, h1, fun hf => ?_, fun hf => ?_⟩
  · have ha := h3.2 hf
    refine ⟨a, s', ?_, ha, h2⟩
    unfold Returns portAlloc
    rw [bind_returns h2, if_neg ha]
    rfl
  · obtain ⟨m, hmerge, hfree, _⟩ := sma_merge hc h.reach
    refine (sma_port_alloc_partial hc h.reach hn hm hmerge).2 ?_
    rintro ⟨b, hb, hle⟩
    obtain ⟨L, hL⟩ := reach_inv hc (reach_merge h.reach hmerge)
    have := total_mem (hL.1.freeBlock.1 hb)
    have := hL.2.1
    have e : f = w.st.free := by obtain ⟨e, _⟩ := h1.det (show Returns freeMemSize w.st _ _ from rfl); exact e
    simp only at this
    omega

/-! ## The hypotheses can be met -/

/-- Nodes of 24 bytes in the small pool: a state in which clients hold blocks although one was
given back, and the next request succeeds; 42 blocks fit. -/
example : ∃ w : World, ReachOnly smallSMA (fun n => up8 n = 24) w ∧ w.live.length = 1 ∧
    smallSMA.M / 24 = 42 ∧ ∃ a s', Returns (alloc smallSMA 20) w.st a s' ∧ a ≠ 0 := by
  obtain ⟨s, h1⟩ := sma_construct smallSMA_legal ⟨fun _ => .raw 0, 0⟩
  have r1 : ReachOnly smallSMA (fun n => up8 n = 24) ⟨s, []⟩ := .init h1
  have more : ∀ {w : World}, ReachOnly smallSMA (fun n => up8 n = 24) w → w.live.length < 42 →
      ∃ a w', ReachOnly smallSMA (fun n => up8 n = 24) w' ∧ w'.live = (a, 20) :: w.live := by
    intro w h hl
    obtain ⟨a, s', h1, h2⟩ := sma_uniform_count smallSMA_legal h (n := 20) (by omega) (by omega) rfl
    have ha := h2.2 hl
    refine ⟨a, ⟨s', (a, 20) :: w.live⟩, h.step (op := .alloc 20) (a := a) ⟨by omega, by omega⟩ ?_ ?_, rfl⟩
    · intro n e; cases e; rfl
    · unfold Returns step
      refine (bind_returns (onSt_returns h1)).trans ?_
      rw [bind_returns (a := ()) (s' := ⟨s', (a, 20) :: w.live⟩)]
      · rfl
      · unfold Returns Prog.modify
        simp only
        rw [if_neg ha]
  obtain ⟨a, w1, r2, e1⟩ := more r1 (by show 0 < 42; omega)
  obtain ⟨b, w2, r3, e2⟩ := more r2 (by rw [e1]; show 1 < 42; omega)
  have hmem : (a, (20 : Int)) ∈ w2.live := by rw [e2, e1]; simp
  obtain ⟨L, hL⟩ := reach_inv smallSMA_legal r3.reach
  obtain ⟨w3, _, g1, _, _, g3, _⟩ := step_free_ok hL smallSMA_legal hmem
  have r4 : ReachOnly smallSMA (fun n => up8 n = 24) w3 :=
    r3.step (op := .free a 20) hmem (by intro n e; cases e) g1
  have hlen : w3.live.length = 1 := by
    rw [g3, List.length_erase_of_mem hmem, e2, e1]
    rfl
  obtain ⟨x, s', h1, h2⟩ := sma_uniform_count smallSMA_legal r4 (n := 20) (by omega) (by omega) rfl
  exact ⟨w3, r4, hlen, rfl, x, s', h1, h2.2 (by rw [hlen]; decide)⟩

end Verif.Sma
