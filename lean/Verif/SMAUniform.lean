import Verif.SMAFacts

/-! # Lemmas about requests of one size -/

namespace Verif.Sma

open Prog

/-- Disjoint blocks between `lo` and `hi` that leave out the byte `x` have less than `hi - lo`
bytes. -/
theorem total_lt (n : Nat) : ∀ (B : List Block), B.length ≤ n → ∀ {lo hi x : Nat}, B.Pairwise Disj →
    (∀ b ∈ B, lo ≤ b.1 ∧ b.1 + b.2 ≤ hi ∧ 0 < b.2) → lo ≤ hi →
    total B ≤ hi - lo ∧ (lo ≤ x → x < hi → (∀ b ∈ B, ¬ (b.1 ≤ x ∧ x < b.1 + b.2)) → total B < hi - lo) := by
  induction n with
  | zero =>
    intro B hB lo hi x _ _ _
    have : B = [] := List.length_eq_zero_iff.1 (by omega)
    subst this
    simp only [total]
    omega
  | succ n ih =>
    intro B hB lo hi x hd hf hlh
    cases B with
    | nil => simp only [total]; omega
    | cons b B =>
      rw [List.length_cons] at hB
      obtain ⟨hd1, hd2⟩ := List.pairwise_cons.1 hd
      obtain ⟨f1, f2, f3⟩ := hf b List.mem_cons_self
      -- the blocks before and behind `b`
      have hp : ∀ l : List Block, (∀ y ∈ l, y ∈ B) →
          total l = total (l.filter fun y => y.1 + y.2 ≤ b.1) +
            total (l.filter fun y => b.1 + b.2 ≤ y.1) := by
        intro l
        induction l with
        | nil => intro _; rfl
        | cons y l ihl =>
          intro hl
          have hy := hd1 y (hl y List.mem_cons_self)
          have fy := (hf y (List.mem_cons_of_mem _ (hl y List.mem_cons_self))).2.2
          have := ihl fun z hz => hl z (List.mem_cons_of_mem _ hz)
          unfold Disj at hy
          by_cases h1 : y.1 + y.2 ≤ b.1
          · have h2 : ¬ (b.1 + b.2 ≤ y.1) := by omega
            simp only [List.filter_cons, h1, h2, decide_true, decide_false, if_true,
              Bool.false_eq_true, if_false, total]
            omega
          · have h2 : b.1 + b.2 ≤ y.1 := by omega
            simp only [List.filter_cons, h1, h2, decide_true, decide_false, if_true,
              Bool.false_eq_true, if_false, total]
            omega
      have hp := hp B fun _ h => h
      have hA : (B.filter fun y => y.1 + y.2 ≤ b.1).length ≤ n :=
        Nat.le_trans (List.length_filter_le ..) (by omega)
      have hC : (B.filter fun y => b.1 + b.2 ≤ y.1).length ≤ n :=
        Nat.le_trans (List.length_filter_le ..) (by omega)
      obtain ⟨a1, a2⟩ := ih _ hA (lo := lo) (hi := b.1) (x := x) (hd2.filter _) (by
        intro y hy
        obtain ⟨m1, m2⟩ := List.mem_filter.1 hy
        have m2 := of_decide_eq_true m2
        obtain ⟨g1, _, g3⟩ := hf y (List.mem_cons_of_mem _ m1)
        exact ⟨g1, m2, g3⟩) f1
      obtain ⟨c1, c2⟩ := ih _ hC (lo := b.1 + b.2) (hi := hi) (x := x) (hd2.filter _) (by
        intro y hy
        obtain ⟨m1, m2⟩ := List.mem_filter.1 hy
        have m2 := of_decide_eq_true m2
        obtain ⟨_, g2, g3⟩ := hf y (List.mem_cons_of_mem _ m1)
        exact ⟨m2, g2, g3⟩) f2
      simp only [total]
      refine ⟨by omega, fun hx1 hx2 hx3 => ?_⟩
      have hxb := hx3 b List.mem_cons_self
      by_cases hxl : x < b.1
      · have := a2 hx1 hxl fun y hy => hx3 y (List.mem_cons_of_mem _ (List.mem_filter.1 hy).1)
        omega
      · have := c2 (by omega) hx2 fun y hy => hx3 y (List.mem_cons_of_mem _ (List.mem_filter.1 hy).1)
        omega

/-- Every byte of the pool is in a block. -/
theorem Tile.cover {c : Cfg} {B : List Block} (h : Tile c B) {x : Nat} (h1 : c.base ≤ x)
    (h2 : x < c.base + c.M) : ∃ b ∈ B, b.1 ≤ x ∧ x < b.1 + b.2 := by
  refine Classical.byContradiction fun hn => ?_
  have := (total_lt B.length B (Nat.le_refl _) (lo := c.base) (hi := c.base + c.M) (x := x) h.disj
    (fun b hb => ⟨(h.fits b hb).1.1, (h.fits b hb).1.2, (h.fits b hb).2.2.2⟩) (by omega)).2 h1 h2
    (fun b hb hx => hn ⟨b, hb, hx⟩)
  have := h.total
  omega

/-- Behind a block comes another one or the end of the pool. -/
theorem Tile.next {c : Cfg} {B : List Block} (h : Tile c B) {b : Block} (hb : b ∈ B) :
    b.1 + b.2 = c.base + c.M ∨ ∃ b' ∈ B, b'.1 = b.1 + b.2 := by
  have hf := h.fits b hb
  obtain ⟨⟨f1, f2⟩, _, _, f4⟩ := hf
  by_cases he : b.1 + b.2 = c.base + c.M
  · exact Or.inl he
  · right
    obtain ⟨b', hb', g1, g2⟩ := h.cover (x := b.1 + b.2) (by omega) (by omega)
    refine ⟨b', hb', ?_⟩
    have hne : b ≠ b' := by intro e; subst e; omega
    have := h.disj_mem hb hb' hne
    unfold Disj at this
    have := (h.fits b' hb').2.2.2
    omega

/-- Joining neighbours keeps whatever is true of the addresses. -/
theorem JStar.starts {B B' : List Block} (h : JStar B B') {P : Nat → Prop}
    (hB : ∀ b ∈ B, P b.1) : ∀ b ∈ B', P b.1 := by
  induction h with
  | refl hp => exact fun b hb => hB b (hp.mem_iff.2 hb)
  | tail _ h2 ih =>
    obtain ⟨x, y, R, e1, e2, e3⟩ := h2
    intro b hb
    rcases List.mem_cons.1 (e3.mem_iff.1 hb) with rfl | hb
    · exact ih x (e1.mem_iff.2 List.mem_cons_self)
    · exact ih b (e1.mem_iff.2 (List.mem_cons_of_mem _ (List.mem_cons_of_mem _ hb)))

/-- All blocks start at a multiple of `d`, those of the clients also end there. -/
structure Even (c : Cfg) (d : Nat) (L : Nat → List Block) (V : List Block) : Prop where
  free : ∀ b ∈ flat (c.max / 8) L, d ∣ b.1 - c.base
  start : ∀ b ∈ V, d ∣ b.1 - c.base
  size : ∀ b ∈ V, d ∣ b.2

variable {c : Cfg}

/-- Then less than `d` bytes are free if no free block has `d` bytes. -/
theorem Even.room {d : Nat} {L : Nat → List Block} {V : List Block} (h : Even c d L V)
    (ht : Tile c (flat (c.max / 8) L ++ V))
    (hs : ∀ b ∈ flat (c.max / 8) L, b.2 < d) : total (flat (c.max / 8) L) < d ∨ d = 0 := by
  have hend : ∀ b ∈ flat (c.max / 8) L, b.1 + b.2 = c.base + c.M := by
    intro b hb
    rcases ht.next (List.mem_append_left _ hb) with e | ⟨b', hb', e⟩
    · exact e
    · exfalso
      obtain ⟨⟨f1, _⟩, _, _, f4⟩ := ht.fits b (List.mem_append_left _ hb)
      have h1 : d ∣ b'.1 - c.base := by
        rcases List.mem_append.1 hb' with hb' | hb'
        · exact h.free b' hb'
        · exact h.start b' hb'
      have h2 := h.free b hb
      have h3 : d ∣ b.2 := by
        have := Nat.dvd_sub h1 h2
        rwa [show b'.1 - c.base - (b.1 - c.base) = b.2 by omega] at this
      have := Nat.le_of_dvd f4 h3
      have := hs b hb
      omega
  have hd := List.pairwise_append.1 ht.disj
  generalize hF : flat (c.max / 8) L = F at *
  cases F with
  | nil => simp only [total]; omega
  | cons b F =>
    left
    cases F with
    | nil => simp only [total]; have := hs b List.mem_cons_self; omega
    | cons b' F =>
      exfalso
      have := (List.pairwise_cons.1 hd.1).1 b' List.mem_cons_self
      have e1 := hend b List.mem_cons_self
      have e2 := hend b' (List.mem_cons_of_mem _ List.mem_cons_self)
      have f1 := (ht.fits b (by simp)).2.2.2
      have f2 := (ht.fits b' (by simp)).2.2.2
      unfold Disj at this
      omega

/-- `Even` in the states brought about by requests whose rounded sizes are multiples of `d`. -/
theorem even_step (hc : Legal c) {d : Nat} {w : World} {L : Nat → List Block} (hL : WInv c w L)
    (he : Even c d L (taken w.live)) {op : Op} (hs : Safe w op) (hd : ∀ n, op = .alloc n → d ∣ up8 n)
    {a : Nat} {w' : World} (hr : Returns (step c op) w a w') :
    ∃ L', WInv c w' L' ∧ Even c d L' (taken w'.live) := by
  cases op with
  | alloc n =>
    have hn := hd n rfl
    rcases alloc_ok hL.1 hc hL.2.1 hs.1 hs.2 with ⟨_, h2⟩ | ⟨i, pre, b, post, s', L', h1, h2, h3, h4, h5, h6, h7, h8⟩
    · have : Returns (step c (.alloc n)) w 0 w := by
        unfold Returns step
        exact (bind_returns (onSt_returns h2)).trans rfl
      obtain ⟨_, rfl⟩ := hr.det this
      exact ⟨L, hL, he⟩
    · have hb0 := (hL.1.fits h1 (b := b) (by rw [h2]; simp)).ok.1
      have : Returns (step c (.alloc n)) w b.1 ⟨s', (b.1, n) :: w.live⟩ := by
        unfold Returns step
        refine (bind_returns (onSt_returns h4)).trans ?_
        refine (bind_returns (a := ()) (s' := ⟨s', (b.1, n) :: w.live⟩) ?_).trans rfl
        unfold Returns Prog.modify
        simp only
        rw [if_neg hb0]
      obtain ⟨_, rfl⟩ := hr.det this
      have hbm : b ∈ flat (c.max / 8) L := mem_flat.2 ⟨i, h1, by rw [h2]; simp⟩
      have hbd := he.free b hbm
      have hsub : ∀ x ∈ flat (c.max / 8) (setL L i (pre ++ post)), x ∈ flat (c.max / 8) L := by
        intro x hx
        obtain ⟨j, hj, hxj⟩ := mem_flat.1 hx
        by_cases hij : j = i
        · subst hij
          rw [setL_self] at hxj
          refine mem_flat.2 ⟨j, hj, ?_⟩
          rw [h2]
          rcases List.mem_append.1 hxj with h | h
          · exact List.mem_append_left _ h
          · exact List.mem_append_right _ (List.mem_cons_of_mem _ h)
        · rw [setL_ne hij] at hxj
          exact mem_flat.2 ⟨j, hj, hxj⟩
      obtain ⟨f1, _⟩ := (hL.1.tile.fits b (List.mem_append_left _ hbm)).1
      obtain ⟨a1, w1, L1, g1, g2, _⟩ := step_alloc_ok hL hc hs.1 hs.2
      refine ⟨L', ⟨h5, ?_, ?_⟩, ?_, ?_, ?_⟩
      · have t1 := hL.1.tile.total
        have t2 := h5.tile.total
        rw [total_append] at t1 t2
        show s'.free = _
        rw [h7, hL.2.1]
        have : total ((b.1, up8 n) :: taken w.live) = up8 n + total (taken w.live) := rfl
        omega
      · intro p hp
        rcases List.mem_cons.1 hp with rfl | hp
        · exact hs
        · exact hL.2.2 p hp
      · intro x hx
        rcases h8 with ⟨_, rfl⟩ | ⟨hlt, hput⟩
        · exact he.free x (hsub x hx)
        · rcases List.mem_cons.1 (hput.flat.mem_iff.1 hx) with rfl | hx
          · show d ∣ b.1 + up8 n - c.base
            rw [show b.1 + up8 n - c.base = b.1 - c.base + up8 n by omega]
            exact Nat.dvd_add hbd hn
          · exact he.free x (hsub x hx)
      · intro x hx
        rcases List.mem_cons.1 hx with rfl | hx
        · exact hbd
        · exact he.start x hx
      · intro x hx
        rcases List.mem_cons.1 hx with rfl | hx
        · exact hn
        · exact he.size x hx
  | free b n =>
    obtain ⟨w1, L', h1, h2, _, h4, h5⟩ := step_free_ok hL hc hs
    obtain ⟨_, rfl⟩ := hr.det h1
    have hsub : ∀ x ∈ taken (w.live.erase (b, n)), x ∈ taken w.live := by
      intro x hx
      obtain ⟨p, hp, rfl⟩ := List.mem_map.1 hx
      exact List.mem_map.2 ⟨p, List.mem_of_mem_erase hp, rfl⟩
    refine ⟨L', h2, ?_, ?_, ?_⟩
    · intro x hx
      rcases List.mem_cons.1 (h5.flat.mem_iff.1 hx) with rfl | hx
      · exact he.start _ (List.mem_map.2 ⟨(b, n), hs, rfl⟩)
      · exact he.free x hx
    · rw [h4]; exact fun x hx => he.start x (hsub x hx)
    · rw [h4]; exact fun x hx => he.size x (hsub x hx)
  | merge =>
    obtain ⟨w1, L1, L', h1, _, h3, h4, _, h6, h7, _⟩ := step_merge_ok hL hc
    obtain ⟨_, rfl⟩ := hr.det h1
    refine ⟨L', h3, (h6.join.trans h7.join).starts (P := fun x => d ∣ x - c.base) he.free, ?_, ?_⟩
    · rw [h4]; exact he.start
    · rw [h4]; exact he.size
  | write b n k x =>
    obtain ⟨w1, h1, h2, h3⟩ := step_write_ok hL hc hs.1 hs.2 x
    obtain ⟨_, rfl⟩ := hr.det h1
    exact ⟨L, h2, he.free, by rw [h3]; exact he.start, by rw [h3]; exact he.size⟩

theorem even_init (hc : Legal c) {s0 s : St} (h : Returns (construct c) s0 () s) (d : Nat) :
    ∃ L, WInv c ⟨s, []⟩ L ∧ Even c d L [] := by
  refine ⟨_, winv_init hc h, ?_, by simp, by simp⟩
  intro b hb
  rw [List.mem_singleton.1 ((flat_init c).mem_iff.1 hb)]
  simp

end Verif.Sma
