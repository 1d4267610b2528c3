import Verif.Spec.SMASplit
import Verif.Props.SMAUniform

/-!
# Without merging the pieces of the static pool only get smaller (C98)

The containers of `dstruct-static.hpp` call `allocate` and `deallocate` of the static allocator,
never `memory_merge()`.  What this means for the sizes that can still be requested.
-/

namespace Verif.Sma

open Prog

variable {c : Cfg}

theorem NoMerge.reach {w w' : World} (h : Reach c w) (hn : NoMerge c w w') : Reach c w' := by
  induction hn with
  | refl => exact h
  | step _ hs _ hr ih => exact .step ih hs hr

theorem Inside.rfl' {b : Block} : Inside b b := ⟨Nat.le_refl _, Nat.le_refl _⟩

theorem Inside.trans {a b d : Block} (h : Inside a b) (h' : Inside b d) : Inside a d :=
  ⟨Nat.le_trans h'.1 h.1, Nat.le_trans h.2 h'.2⟩

/-- One step that is not a merge. -/
theorem split_step (hc : Legal c) {w w' : World} (h : Reach c w) {op : Op} (hs : Safe w op)
    (hop : op ≠ .merge) {a : Nat} (hr : Returns (step c op) w a w') {b : Block}
    (hb : Piece c w' b) : ∃ d, Piece c w d ∧ Inside b d := by
  obtain ⟨L, hL⟩ := reach_inv hc h
  cases op with
  | merge => exact absurd rfl hop
  | alloc n =>
    rcases alloc_ok hL.1 hc hL.2.1 hs.1 hs.2 with ⟨_, h2⟩ | ⟨i, pre, d, post, s', L', h1, h2, h3, h4, h5, _, _, h8⟩
    · have : Returns (step c (.alloc n)) w 0 w := by
        unfold Returns step
        exact (bind_returns (onSt_returns h2)).trans rfl
      obtain ⟨_, rfl⟩ := hr.det this
      exact ⟨b, hb, .rfl'⟩
    · have hb0 := (hL.1.fits h1 (b := d) (by rw [h2]; simp)).ok.1
      have : Returns (step c (.alloc n)) w d.1 ⟨s', (d.1, n) :: w.live⟩ := by
        unfold Returns step
        refine (bind_returns (onSt_returns h4)).trans ?_
        refine (bind_returns (a := ()) (s' := ⟨s', (d.1, n) :: w.live⟩) ?_).trans rfl
        unfold Returns Prog.modify
        simp only
        rw [if_neg hb0]
      obtain ⟨_, rfl⟩ := hr.det this
      have hdm : d ∈ flat (c.max / 8) L := mem_flat.2 ⟨i, h1, by rw [h2]; simp⟩
      have hd : Piece c w d := .inl (hL.1.freeBlock.2 hdm)
      have hsub : ∀ x ∈ flat (c.max / 8) (setL L i (pre ++ post)), x ∈ flat (c.max / 8) L := by
        intro x hx
        obtain ⟨j, hj, hxj⟩ := mem_flat.1 hx
        by_cases hij : j = i
        · subst hij
          rw [setL_self] at hxj
          refine mem_flat.2 ⟨j, hj, ?_⟩
          rw [h2]
          rcases List.mem_append.1 hxj with h | h
          · exact List.mem_append_left _ h
          · exact List.mem_append_right _ (List.mem_cons_of_mem _ h)
        · rw [setL_ne hij] at hxj
          exact mem_flat.2 ⟨j, hj, hxj⟩
      have old : ∀ x ∈ flat (c.max / 8) (setL L i (pre ++ post)), ∃ d, Piece c w d ∧ Inside x d :=
        fun x hx => ⟨x, .inl (hL.1.freeBlock.2 (hsub x hx)), .rfl'⟩
      rcases hb with hb | hb
      · have hb := h5.freeBlock.1 hb
        rcases h8 with ⟨_, rfl⟩ | ⟨hlt, hput⟩
        · exact old b hb
        · rcases List.mem_cons.1 (hput.flat.mem_iff.1 hb) with rfl | hx
          · refine ⟨d, hd, ?_⟩
            unfold Inside
            simp only
            omega
          · exact old b hx
      · rcases List.mem_cons.1 hb with rfl | hb
        · refine ⟨d, hd, ?_⟩
          unfold Inside
          simp only
          omega
        · exact ⟨b, .inr hb, .rfl'⟩
  | free p n =>
    obtain ⟨w1, L', h1, h2, _, h4, h5⟩ := step_free_ok hL hc hs
    obtain ⟨_, rfl⟩ := hr.det h1
    rcases hb with hb | hb
    · rcases List.mem_cons.1 (h5.flat.mem_iff.1 (h2.1.freeBlock.1 hb)) with rfl | hb
      · exact ⟨_, .inr (List.mem_map.2 ⟨(p, n), hs, rfl⟩), .rfl'⟩
      · exact ⟨b, .inl (hL.1.freeBlock.2 hb), .rfl'⟩
    · rw [h4] at hb
      obtain ⟨q, hq, rfl⟩ := List.mem_map.1 hb
      exact ⟨_, .inr (List.mem_map.2 ⟨q, List.mem_of_mem_erase hq, rfl⟩), .rfl'⟩
  | write p n k x =>
    obtain ⟨w1, h1, h2, h3⟩ := step_write_ok hL hc hs.1 hs.2 x
    obtain ⟨_, rfl⟩ := hr.det h1
    rcases hb with hb | hb
    · exact ⟨b, .inl (hL.1.freeBlock.2 (h2.1.freeBlock.1 hb)), .rfl'⟩
    · rw [h3] at hb
      exact ⟨b, .inr hb, .rfl'⟩

/-- **C98.**  As long as no client calls `memory_merge()`, every block – free or held by a
client – lies inside a block of any earlier state. -/
theorem sma_split (hc : Legal c) {w w' : World} (h : Reach c w) (hn : NoMerge c w w') {b : Block}
    (hb : Piece c w' b) : ∃ d, Piece c w d ∧ Inside b d := by
  induction hn generalizing b with
  | refl => exact ⟨b, hb, .rfl'⟩
  | step h1 hs hop hr ih =>
    obtain ⟨d, hd, hi⟩ := split_step hc (h1.reach h) hs hop hr hb
    obtain ⟨e, he, hj⟩ := ih hd
    exact ⟨e, he, hi.trans hj⟩

/-- **C98** (requests).  A request for more bytes than any block has – free or held – is refused
for ever if nobody merges, however much is given back. -/
theorem sma_split_refused (hc : Legal c) {w w' : World} (h : Reach c w) (hn : NoMerge c w w')
    {n : Int} (h0 : 0 < n) (hm : n + 8 < 2 ^ 31) (hbig : ∀ b, Piece c w b → b.2 < up8 n) :
    Returns (alloc c n) w'.st 0 w'.st := by
  obtain ⟨a, s', h1, h2, h3⟩ := sma_success_partial hc (hn.reach h) h0 hm
  have ha : a = 0 := h2.2 <| by
    rintro ⟨f, hf, hle⟩
    obtain ⟨d, hd, hi⟩ := sma_split hc h hn (.inl hf)
    have := hbig d hd
    unfold Inside at hi
    omega
  have := h3 ha
  rw [ha, this] at h1
  exact h1

/-- **C98** (the first request).  After the first request the pool is in two pieces for ever: no
request exceeding both the first one and the rest of the pool succeeds without a merge. -/
theorem sma_split_first (hc : Legal c) {s0 s1 s2 : St} {k : Int} {a : Nat}
    (hcon : Returns (construct c) s0 () s1) (hk : 0 < k) (hk' : k + 8 < 2 ^ 31) (hfit : up8 k ≤ c.M)
    (hal : Returns (alloc c k) s1 a s2) {w' : World} (hn : NoMerge c ⟨s2, [(a, k)]⟩ w')
    {n : Int} (h0 : 0 < n) (hm : n + 8 < 2 ^ 31) (hbig : up8 k < up8 n) (hrest : c.M < up8 n + up8 k) :
    Returns (alloc c n) w'.st 0 w'.st := by
  have hw := winv_init hc hcon
  have hin : ∀ b ∈ flat (c.max / 8) (initL c), b = (c.base, c.M) := fun b hb =>
    List.mem_singleton.1 ((flat_init c).mem_iff.1 hb)
  rcases alloc_ok hw.1 hc hw.2.1 hk hk' with ⟨g1, _⟩ | ⟨i, pre, d, post, s', L', h1, h2, h3, h4, h5, _, _, h8⟩
  · exfalso
    have hmem : (c.base, c.M) ∈ flat (c.max / 8) (initL c) :=
      (flat_init c).mem_iff.2 (List.mem_singleton.2 rfl)
    obtain ⟨i, hi, hb⟩ := mem_flat.1 hmem
    have := g1 i hi _ hb
    simp only at this
    omega
  · obtain ⟨rfl, rfl⟩ := hal.det h4
    have hd : d = (c.base, c.M) := hin d (mem_flat.2 ⟨i, h1, by rw [h2]; simp⟩)
    have hd0 := (hw.1.fits h1 (b := d) (by rw [h2]; simp)).ok.1
    have hrs : Reach c ⟨s2, [(d.1, k)]⟩ := by
      refine (Reach.init hcon).step (op := .alloc k) (a := d.1) ⟨hk, hk'⟩ ?_
      unfold Returns step
      refine (bind_returns (onSt_returns h4)).trans ?_
      refine (bind_returns (a := ()) (s' := ⟨s2, [(d.1, k)]⟩) ?_).trans rfl
      unfold Returns Prog.modify
      simp only
      rw [if_neg hd0]
    refine sma_split_refused hc hrs hn h0 hm fun b hb => ?_
    have hpp : flat (c.max / 8) (setL (initL c) i (pre ++ post)) = [] := by
      have e1 := (flat_split (initL c) h1).length_eq
      have e2 := (flat_set (initL c) (pre ++ post) h1).length_eq
      have e3 := (flat_init c).length_eq
      rw [h2] at e1
      simp only [List.length_append, List.length_cons, List.length_nil] at e1 e2 e3
      exact List.length_eq_zero_iff.1 (by omega)
    rcases hb with hb | hb
    · have hb := h5.freeBlock.1 hb
      rcases h8 with ⟨_, rfl⟩ | ⟨hlt, hput⟩
      · rw [hpp] at hb; cases hb
      · rcases List.mem_cons.1 (hput.flat.mem_iff.1 hb) with rfl | hb
        · show d.2 - up8 k < up8 n
          rw [hd]
          simp only
          omega
        · rw [hpp] at hb; cases hb
    · rw [List.mem_singleton.1 hb]
      exact hbig

/-- Sizes of the blocks that clients with one size hold. -/
theorem ReachOnly.sizes (hc : Legal c) {d : Nat} {w : World} (h : ReachOnly c (fun n => up8 n = d) w) :
    ∀ p ∈ w.live, up8 p.2 = d := by
  induction h with
  | init _ => simp
  | @step w0 w1 op0 a0 h0 hs hp hr ih =>
    intro p hp1
    rcases live_new hc h0.reach hs hr hp1 with h | ⟨e1, _⟩
    · exact ih p h
    · exact hp p.2 e1

/-- **C98** (small requests).  Once clients that request `d` bytes each have filled the pool, no
larger request ever succeeds without a merge, even when everything was given back. -/
theorem sma_split_small (hc : Legal c) {d : Nat} {w w' : World}
    (h : ReachOnly c (fun n => up8 n = d) w) (hd : 0 < d) (hfull : w.live.length = c.M / d)
    (hn : NoMerge c w w') {n : Int} (h0 : 0 < n) (hm : n + 8 < 2 ^ 31) (hbig : d < up8 n) :
    Returns (alloc c n) w'.st 0 w'.st := by
  refine sma_split_refused hc h.reach hn h0 hm fun b hb => ?_
  have hsz := h.sizes hc
  rcases hb with hb | hb
  · obtain ⟨L, hL⟩ := reach_inv hc h.reach
    have h1 := total_mem (hL.1.freeBlock.1 hb)
    have h2 := hL.1.tile.total
    rw [total_append] at h2
    have htot : ∀ l : List (Nat × Int), (∀ p ∈ l, up8 p.2 = d) → total (taken l) = l.length * d := by
      intro l
      induction l with
      | nil => intro _; simp [taken, total]
      | cons p l ih =>
        intro hl
        have := ih fun q hq => hl q (List.mem_cons_of_mem _ hq)
        show up8 p.2 + total (taken l) = (l.length + 1) * d
        rw [this, hl p List.mem_cons_self, Nat.add_mul]
        omega
    rw [htot w.live hsz, hfull] at h2
    have h3 := Nat.div_add_mod c.M d
    have h4 := Nat.mod_lt c.M hd
    rw [Nat.mul_comm] at h3
    generalize c.M / d * d = y at h2 h3
    omega
  · obtain ⟨p, hp, rfl⟩ := List.mem_map.1 hb
    have := hsz p hp
    show up8 p.2 < _
    omega

/-- Giving back everything, without merging. -/
theorem give_back (hc : Legal c) : ∀ (k : Nat) {w : World}, Reach c w → w.live.length = k →
    ∃ w', NoMerge c w w' ∧ w'.live = [] := by
  intro k
  induction k with
  | zero => intro w _ hl; exact ⟨w, .refl, List.length_eq_zero_iff.1 hl⟩
  | succ k ih =>
    intro w h hl
    obtain ⟨p, l, e⟩ : ∃ p l, w.live = p :: l := by
      cases hw : w.live with
      | nil => rw [hw] at hl; cases hl
      | cons p l => exact ⟨p, l, rfl⟩
    have hmem : (p.1, p.2) ∈ w.live := by rw [e]; exact List.mem_cons_self
    obtain ⟨L, hL⟩ := reach_inv hc h
    obtain ⟨w1, _, g1, _, _, g3, _⟩ := step_free_ok hL hc hmem
    obtain ⟨w2, n2, e2⟩ := ih (h.step (op := .free p.1 p.2) hmem g1) (by
      rw [g3, List.length_erase_of_mem hmem]; omega)
    refine ⟨w2, ?_, e2⟩
    clear ih
    have hfirst : NoMerge c w w1 := .step .refl (op := .free p.1 p.2) hmem (by simp) g1
    clear e2
    induction n2 with
    | refl => exact hfirst
    | step _ hs ho hr ih => exact ih.step hs ho hr

/-- **C98** (counterexample to reuse of memory without merging).  In every pool and for every size
`k`, clients can bring about a state in which the whole
pool is free and yet every request for more than `k` (rounded up) is refused. -/
theorem sma_split_all_free (hc : Legal c) {k : Int} (hk : 0 < k) (hk' : k + 8 < 2 ^ 31) :
    ∃ w : World, Reach c w ∧ w.live = [] ∧ Returns freeMemSize w.st c.M w.st ∧
      ∀ n : Int, 0 < n → n + 8 < 2 ^ 31 → up8 k < up8 n → Returns (alloc c n) w.st 0 w.st := by
  have hup := up8_pos hk
  have fill : ∀ j, j ≤ c.M / up8 k → ∃ w, ReachOnly c (fun n => up8 n = up8 k) w ∧ w.live.length = j := by
    intro j
    induction j with
    | zero =>
      intro _
      obtain ⟨s, h1⟩ := sma_construct hc ⟨fun _ => .raw 0, 0⟩
      exact ⟨⟨s, []⟩, .init h1, rfl⟩
    | succ j ih =>
      intro hj
      obtain ⟨w, hw, hl⟩ := ih (by omega)
      obtain ⟨a, s', h1, h2⟩ := sma_uniform_count hc hw hk hk' rfl
      have ha := h2.2 (by omega)
      refine ⟨⟨s', (a, k) :: w.live⟩, hw.step (op := .alloc k) (a := a) ⟨hk, hk'⟩ ?_ ?_, ?_⟩
      · intro n e; cases e; rfl
      · unfold Returns step
        refine (bind_returns (onSt_returns h1)).trans ?_
        rw [bind_returns (a := ()) (s' := ⟨s', (a, k) :: w.live⟩)]
        · rfl
        · unfold Returns Prog.modify
          simp only
          rw [if_neg ha]
      · rw [List.length_cons, hl]
  obtain ⟨w, hw, hl⟩ := fill _ (Nat.le_refl _)
  obtain ⟨w', hn, he⟩ := give_back hc _ hw.reach rfl
  refine ⟨w', hn.reach hw.reach, he, ?_, fun n h0 hm hbig =>
    sma_split_small hc hw hup.1 hl hn h0 hm hbig⟩
  obtain ⟨⟨K, hK⟩, hacc, _⟩ := sma_accounting hc (hn.reach hw.reach)
  obtain ⟨f, g1, g2, _⟩ := hacc K hK
  rw [he] at g2
  simp only [taken, List.map_nil, total] at g2
  rw [g2] at g1
  simpa using g1

/-! ## The hypotheses can be met -/

/-- In a pool of 1024 bytes: after one request for 24 bytes no request for more than 1000
succeeds, although the block is given back. -/
example : ∃ w, Reach smallSMA w ∧ w.live = [] ∧ Returns (alloc smallSMA 1001) w.st 0 w.st := by
  obtain ⟨s, h1⟩ := sma_construct smallSMA_legal ⟨fun _ => .raw 0, 0⟩
  obtain ⟨a, s', h2, h3⟩ := sma_uniform_count (n := 24) (d := 24) smallSMA_legal (.init h1)
    (by omega) (by omega) rfl
  have ha := h3.2 (by show 0 < 42; omega)
  have hr : Reach smallSMA ⟨s', [(a, 24)]⟩ := by
    refine (Reach.init h1).step (op := .alloc 24) (a := a) ⟨by omega, by omega⟩ ?_
    unfold Returns step
    refine (bind_returns (onSt_returns h2)).trans ?_
    rw [bind_returns (a := ()) (s' := ⟨s', [(a, 24)]⟩)]
    · rfl
    · unfold Returns Prog.modify
      simp only
      rw [if_neg ha]
  obtain ⟨w, hn, he⟩ := give_back smallSMA_legal 1 hr rfl
  exact ⟨w, hn.reach hr, he, sma_split_first smallSMA_legal h1 (by omega) (by omega) (by decide) h2 hn
    (by omega) (by omega) (by decide) (by decide)⟩

/-- Blocks of 24 bytes in a pool of 1024: everything is free, but 25 bytes are refused. -/
example : ∃ w, Reach smallSMA w ∧ w.live = [] ∧ Returns freeMemSize w.st 1024 w.st ∧
    Returns (alloc smallSMA 25) w.st 0 w.st := by
  obtain ⟨w, h1, h2, h3, h4⟩ := sma_split_all_free smallSMA_legal (k := 24) (by omega) (by omega)
  exact ⟨w, h1, h2, h3, h4 25 (by omega) (by omega) (by decide)⟩

end Verif.Sma
