import Verif.Props.SMA

/-!
# Which memory the static allocator hands out (C110)

Everything is said in terms of the free blocks, read off the memory (`Spec/SMA.lean`).
-/

namespace Verif.Sma

open Prog

variable {c : Cfg}

/-- Taking a block off a list. -/
theorem mem_taken_off {L : Nat → List Block} {i : Nat} (hi : i ≤ c.max / 8) {pre post : List Block} {b : Block}
    (he : L i = pre ++ b :: post) (hn : (flat (c.max / 8) L).Nodup) (f : Block) :
    f ∈ flat (c.max / 8) (setL L i (pre ++ post)) ↔ f ∈ flat (c.max / 8) L ∧ f ≠ b := by
  have hp : (flat (c.max / 8) L).Perm (b :: flat (c.max / 8) (setL L i (pre ++ post))) := by
    refine (flat_split L hi).trans ?_
    rw [he]
    refine (List.Perm.append_right _ List.perm_middle).trans ?_
    exact List.Perm.cons _ (flat_set L (pre ++ post) hi).symm
  have hn' := List.nodup_cons.1 (hp.nodup_iff.1 hn)
  rw [hp.mem_iff, List.mem_cons]
  constructor
  · intro h
    exact ⟨Or.inr h, fun e => hn'.1 (e ▸ h)⟩
  · rintro ⟨h | h, hne⟩
    · exact absurd h hne
    · exact h

/-- **C110** (allocation).  In every reachable state, a request that succeeds takes the front of one
definite free block and leaves the others alone.  If the request is not larger than `MAX_BLOCK_SIZE`
and fits into a block outside the list of large blocks, that is the smallest such block, the one with
the lowest address among these; otherwise it is the large block with the lowest address among those
that are large enough.  The rest of the block, if any, becomes a free block. -/
theorem sma_policy (hc : Legal c) {w : World} (h : Reach c w) {n : Int} (hn : 0 < n) (hm : n + 8 < 2 ^ 31)
    {a : Nat} {s' : St} (hr : Returns (alloc c n) w.st a s') (ha : a ≠ 0) :
    ∃ b, FreeBlock c w.st b ∧ b.1 = a ∧ up8 n ≤ b.2 ∧
      ((¬ LargeBlock c w.st b ∧ n ≤ c.max ∧
          ∀ f, FreeBlock c w.st f → ¬ LargeBlock c w.st f → up8 n ≤ f.2 →
            b.2 < f.2 ∨ (b.2 = f.2 ∧ b.1 ≤ f.1)) ∨
        (LargeBlock c w.st b ∧ (∀ f, LargeBlock c w.st f → up8 n ≤ f.2 → b.1 ≤ f.1) ∧
          (n ≤ c.max → ∀ f, FreeBlock c w.st f → up8 n ≤ f.2 → LargeBlock c w.st f))) ∧
      ∀ f, FreeBlock c s' f ↔ (FreeBlock c w.st f ∧ f ≠ b) ∨
        (up8 n < b.2 ∧ f = (b.1 + up8 n, b.2 - up8 n)) := by
  obtain ⟨L, hL⟩ := reach_inv hc h
  have hnd : (flat (c.max / 8) L).Nodup := (List.nodup_append.1 hL.1.tile.nodup).1
  rcases alloc_choice hL.1 hc hL.2.1 hn hm with ⟨_, h2⟩ |
    ⟨i, pre, b, post, s1, L', h1, h2, h3, h4, h5, _, _, h8, h9⟩
  · exact absurd (hr.det h2).1 ha
  obtain ⟨rfl, rfl⟩ := hr.det h4
  have hbi : b ∈ L i := by rw [h2]; simp
  have hbf : b ∈ flat (c.max / 8) L := mem_flat.2 ⟨i, h1, hbi⟩
  have honly : ∀ k, k ≤ c.max / 8 → ∀ f ∈ L k, ∀ j, j ≤ c.max / 8 → f ∈ L j → k = j := by
    intro k hk f hf j hj hf'
    refine Classical.byContradiction fun hne => ?_
    have hd := hL.1.disj_lists hk hj hne hf hf'
    have := (hL.1.fits hk hf).2.2.2
    unfold Disj at hd
    omega
  refine ⟨b, hL.1.freeBlock.2 hbf, rfl, h3, ?_, fun f => ?_⟩
  · rcases h9 with ⟨g1, g2, rfl, g4⟩ | ⟨rfl, g2, g3⟩
    · left
      refine ⟨fun hl => ?_, g2, fun f hf hfl hle => ?_⟩
      · have := honly i h1 b hbi _ (Nat.le_refl _) (hL.1.largeBlock.1 hl)
        omega
      · obtain ⟨k, hk, hfk⟩ := mem_flat.1 (hL.1.freeBlock.1 hf)
        have hkq : k < c.max / 8 := by
          refine Nat.lt_of_le_of_ne hk ?_
          rintro rfl
          exact hfl (hL.1.largeBlock.2 hfk)
        have e1 := hL.1.small i g1 b hbi
        have e2 := hL.1.small k hkq f hfk
        have hik : i ≤ k := by
          refine Nat.le_of_not_lt fun hlt => ?_
          have := g4 k hlt (by omega)
          rw [this] at hfk
          cases hfk
        by_cases hki : k = i
        · subst hki
          refine Or.inr ⟨by omega, ?_⟩
          have hs := hL.1.sorted k hk
          rw [h2] at hs hfk
          rcases List.mem_cons.1 hfk with rfl | hm
          · exact Nat.le_refl _
          · exact Nat.le_of_lt ((List.pairwise_cons.1 hs).1 f hm)
        · exact Or.inl (by omega)
    · right
      refine ⟨hL.1.largeBlock.2 hbi, fun f hf hle => ?_, fun hle f hf hle' => ?_⟩
      · have hfk := hL.1.largeBlock.1 hf
        have hs := hL.1.sorted _ (Nat.le_refl _)
        rw [h2] at hs hfk
        rcases List.mem_append.1 hfk with hm | hm
        · have := g2 f hm
          omega
        · rcases List.mem_cons.1 hm with rfl | hm
          · exact Nat.le_refl _
          · exact Nat.le_of_lt ((List.pairwise_cons.1 (List.pairwise_append.1 hs).2.1).1 f hm)
      · obtain ⟨k, hk, hfk⟩ := mem_flat.1 (hL.1.freeBlock.1 hf)
        by_cases hkq : k < c.max / 8
        · have e2 := hL.1.small k hkq f hfk
          rw [g3 hle k hkq (by omega)] at hfk
          cases hfk
        · have : k = c.max / 8 := by omega
          subst this
          exact hL.1.largeBlock.2 hfk
  · rw [h5.freeBlock, hL.1.freeBlock, ← mem_taken_off h1 h2 hnd f]
    rcases h8 with ⟨e, rfl⟩ | ⟨e, hput⟩
    · constructor
      · exact Or.inl
      · rintro (h | ⟨h, _⟩)
        · exact h
        · omega
    · rw [hput.flat.mem_iff, List.mem_cons]
      constructor
      · rintro (h | h)
        · exact Or.inr ⟨e, h⟩
        · exact Or.inl h
      · rintro (h | ⟨_, h⟩)
        · exact Or.inr h
        · exact Or.inl h

/-- **C110** (which blocks are large).  A free block outside the list of large blocks is not larger than
`MAX_BLOCK_SIZE`; one on that list is larger, unless it is the whole pool. -/
theorem sma_large (hc : Legal c) {w : World} (h : Reach c w) {b : Block} (hb : FreeBlock c w.st b) :
    (¬ LargeBlock c w.st b → b.2 ≤ c.max) ∧ (LargeBlock c w.st b → c.max < b.2 ∨ b.2 = c.M) := by
  obtain ⟨L, hL⟩ := reach_inv hc h
  constructor
  · intro hl
    obtain ⟨k, hk, hfk⟩ := mem_flat.1 (hL.1.freeBlock.1 hb)
    have hkq : k < c.max / 8 := by
      refine Nat.lt_of_le_of_ne hk ?_
      rintro rfl
      exact hl (hL.1.largeBlock.2 hfk)
    have := hL.1.small k hkq b hfk
    omega
  · intro hl
    rcases hL.1.big b (hL.1.largeBlock.1 hl) with h | h
    · left; omega
    · exact Or.inr h

/-- **C110** (deallocation).  Giving a block back makes it, rounded up to a multiple of 8 bytes, a free
block of its own; the other free blocks stay as they are. -/
theorem sma_policy_free (hc : Legal c) {w : World} (h : Reach c w) {a : Nat} {n : Int} (hl : (a, n) ∈ w.live) :
    ∃ s', Returns (dealloc c a n) w.st true s' ∧
      ∀ f, FreeBlock c s' f ↔ FreeBlock c w.st f ∨ f = (a, up8 n) := by
  obtain ⟨L, hL⟩ := reach_inv hc h
  obtain ⟨hn, hm⟩ := hL.2.2 (a, n) hl
  obtain ⟨s1, L', h1, h2, h3, _⟩ := dealloc_ok (hL.1.permV (taken_erase hl)) hc hL.2.1 hn hm
  refine ⟨s1, h1, fun f => ?_⟩
  rw [h2.freeBlock, hL.1.freeBlock, h3.flat.mem_iff, List.mem_cons, or_comm]

/-- **C110** (a new pool).  The constructor leaves one free block, the whole pool, on the list of large
blocks. -/
theorem sma_policy_new (hc : Legal c) {s0 s : St} (h0 : Returns (construct c) s0 () s) :
    (∀ f, FreeBlock c s f ↔ f = (c.base, c.M)) ∧ LargeBlock c s (c.base, c.M) := by
  have hw := winv_init hc h0
  refine ⟨fun f => ?_, hw.1.largeBlock.2 (by rw [initL, setL_self]; simp)⟩
  rw [hw.1.freeBlock, (flat_init c).mem_iff, List.mem_singleton]

/-- The hypotheses of `sma_policy` hold in a pool with a small free block: 16 bytes that were given back
serve a request of 8 bytes, although a much larger block is free. -/
example : ∃ w : World, Reach smallSMA w ∧ FreeBlock smallSMA w.st (smallSMA.base, 16) ∧
    FreeBlock smallSMA w.st (smallSMA.base + 16, 1008) ∧
    ∃ s', Returns (alloc smallSMA 8) w.st smallSMA.base s' ∧
      FreeBlock smallSMA s' (smallSMA.base + 8, 8) := by
  obtain ⟨s, h0⟩ := sma_construct smallSMA_legal ⟨fun _ => .raw 0, 0⟩
  have r0 : Reach smallSMA ⟨s, []⟩ := .init h0
  obtain ⟨n1, _⟩ := sma_policy_new smallSMA_legal h0
  obtain ⟨a, s1, h1, ha⟩ : ∃ a s1, Returns (alloc smallSMA 16) s a s1 ∧ a ≠ 0 := by
    obtain ⟨a, s1, e1, e2, _⟩ := sma_success_partial smallSMA_legal r0 (n := 16) (by omega) (by omega)
    exact ⟨a, s1, e1, fun h => e2.1 h ⟨_, (n1 _).2 rfl, by decide⟩⟩
  obtain ⟨b, b1, b2, _, _, b5⟩ := sma_policy smallSMA_legal r0 (by omega) (by omega) h1 ha
  obtain rfl := (n1 b).1 b1
  subst b2
  have r1 := reach_alloc r0 (by omega) (by omega) h1 ha
  obtain ⟨s2', d1, f2⟩ := sma_policy_free smallSMA_legal r1 (a := smallSMA.base) (n := 16) (by simp)
  have r2 := reach_free r1 (by simp) d1
  have fa : FreeBlock smallSMA s2' (smallSMA.base, 16) := (f2 _).2 (Or.inr (by decide))
  have fb : FreeBlock smallSMA s2' (smallSMA.base + 16, 1008) :=
    (f2 _).2 (Or.inl ((b5 _).2 (Or.inr ⟨by decide, by decide⟩)))
  have fall : ∀ f, FreeBlock smallSMA s2' f → f = (smallSMA.base, 16) ∨ f = (smallSMA.base + 16, 1008) := by
    intro f hf
    rcases (f2 f).1 hf with hf | rfl
    · rcases (b5 f).1 hf with ⟨hf, hne⟩ | ⟨_, rfl⟩
      · exact absurd ((n1 f).1 hf) hne
      · exact Or.inr (by decide)
    · exact Or.inl (by decide)
  obtain ⟨a', s3, h3, ha'⟩ : ∃ a s', Returns (alloc smallSMA 8) s2' a s' ∧ a ≠ 0 := by
    obtain ⟨a, s1, e1, e2, _⟩ := sma_success_partial smallSMA_legal r2 (n := 8) (by omega) (by omega)
    exact ⟨a, s1, e1, fun h => e2.1 h ⟨_, fa, by decide⟩⟩
  have hsmall : ¬ LargeBlock smallSMA s2' (smallSMA.base, 16) := by
    intro hl
    have := (sma_large smallSMA_legal r2 fa).2 hl
    revert this
    decide
  obtain ⟨d, d1, d2, d3, d4, d5⟩ := sma_policy smallSMA_legal r2 (by omega) (by omega) h3 ha'
  have hd : d = (smallSMA.base, 16) := by
    rcases fall d d1 with e | rfl
    · exact e
    · exfalso
      rcases d4 with ⟨g1, _, _⟩ | ⟨_, _, g3⟩
      · have := (sma_large smallSMA_legal r2 d1).1 g1
        revert this
        decide
      · exact hsmall (g3 (by decide) _ fa (by decide))
  subst hd
  refine ⟨⟨s2', _⟩, r2, fa, fb, s3, ?_, (d5 _).2 (Or.inr ⟨by decide, by decide⟩)⟩
  subst d2
  exact h3

end Verif.Sma
