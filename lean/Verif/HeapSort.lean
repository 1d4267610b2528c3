import Verif.HeapOps

/-! Helper lemmas: `Heap::sort` and `Heap::build` on a range of a block. -/

namespace Verif.Heap

open Prog Vec

variable {α : Type}

/-- The `n` slots of block `b` from `lo` hold `out`; the rest of the block is as in `k`. -/
def Wrote (m : Mem α) (b : Nat) (k : Blk α) (lo : Nat) (out : List α) : Prop :=
  m.blk b = some ⟨k.len, fun j => if lo ≤ j ∧ j < lo + out.length then out[j - lo]? else k.slot j⟩

theorem Wrote.nil {m : Mem α} {b : Nat} {k : Blk α} {lo : Nat} (h : m.blk b = some k) :
    Wrote m b k lo [] := by
  unfold Wrote
  rw [h]; cases k
  simp only [List.length_nil, Nat.add_zero, Option.some.injEq, Blk.mk.injEq, true_and]
  funext j
  rw [if_neg (by omega)]

theorem Wrote.assign {m : Mem α} {b : Nat} {k : Blk α} {lo : Nat} {out : List α} {x : α} {e : Arg α}
    (h : Wrote m b k lo out) (hb : b ≠ 0) (hl : lo + out.length < k.len)
    (hs : (k.slot (lo + out.length)).isSome) (hx : Returns e.get m x m) (hw : m.WF) :
    wp (assign b ((lo + out.length : Nat) : Int) e) (fun _ m' => Wrote m' b k lo (out ++ [x]) ∧
      (∀ b', b' ≠ b → m'.blk b' = m.blk b') ∧ m'.next = m.next ∧ m'.lost = m.lost ∧ m'.WF) m := by
  obtain ⟨y, hy⟩ := Option.isSome_iff_exists.1 hs
  have ha := assign_ok (y := y) hb hx h hl (by simp [hy])
  rw [wp_of_returns ha]
  refine ⟨?_, ?_, rfl, rfl, ⟨hw.pos, ?_, ?_⟩⟩
  · unfold Wrote
    rw [wrote_blk, put_blk, if_pos rfl]
    simp only [Option.some.injEq, Blk.mk.injEq, true_and]
    funext j
    grind
  · intro b' hb'
    rw [wrote_blk, put_blk, if_neg hb']
  · intro b' hb'
    have hne : b' ≠ b := by
      rintro rfl
      have := hw.unused _ hb'
      rw [h] at this; cases this
    rw [wrote_blk, put_blk, if_neg hne]; exact hw.unused _ hb'
  · rw [wrote_blk, put_blk, if_neg (Ne.symm hb)]; exact hw.null

theorem src_ok {m : Mem α} {b lo : Nat} {k : Blk α} {xs : List α} (hb : b ≠ 0) (hk : m.blk b = some k)
    (hl : lo + xs.length ≤ k.len) (hx : ∀ i, (hi : i < xs.length) → k.slot (lo + i) = some xs[i])
    (i : Nat) (hi : i < xs.length) :
    Returns (Arg.ref (α := α) b ((lo + i : Nat) : Int)).get m xs[i] m :=
  Vec.read_ok hb hk (by omega) (hx i hi)

theorem blk_lt {m : Mem α} {b : Nat} {k : Blk α} (hw : m.WF) (hk : m.blk b = some k) : b < m.next := by
  apply Decidable.byContradiction
  intro h
  rw [hw.unused b (by omega)] at hk; cases hk

theorem sort_ok {R : α → α → Prop} {cmp : α → α → Bool} (hc : Order R cmp) {triv : Bool}
    {m : Mem α} (hw : m.WF) (z : α) {b lo : Nat} {k : Blk α} {xs : List α} (hb : b ≠ 0)
    (hk : m.blk b = some k)
    (hl : lo + xs.length ≤ k.len) (hx : ∀ i, (hi : i < xs.length) → k.slot (lo + i) = some xs[i])
    (hlen : xs.length + 1 ≤ 2 ^ 30) :
    wp (sort triv cmp z b lo xs.length) (fun _ m' => ∃ out, out.Perm xs ∧ out.Pairwise R ∧
      Wrote m' b k lo out ∧ (∀ b', b' ≠ b → m'.blk b' = m.blk b') ∧ m'.lost = m.lost ∧ m'.WF) m := by
  unfold sort
  have hbn := blk_lt hw hk
  rw [wp_bind]
  refine wp_mono (ctorRange_ok hc hw z xs (fun i => .ref b ((lo + i : Nat) : Int)) hlen
    (src_ok hb hk hl hx) (fun i hi => Or.inr ⟨_, _, rfl, hbn⟩)) ?_
  rintro h m1 ⟨hs, h1, p1, f1, w1⟩
  have hfresh : m.next ≤ h.c := by
    rcases f1.new with e | e | e
    · exact absurd e h1.ne
    · exact absurd e h1.ne
    · exact e
  rw [wp_bind]
  have hloop := wp_forRange (σ := Mem α)
    (I := fun i h' m' => ∃ hs' out, HRep R m' h' z hs' ∧ out.length = i ∧ (out ++ hs').Perm xs ∧
      out.Pairwise R ∧ (∀ x ∈ out, ∀ y ∈ hs', R x y) ∧ Wrote m' b k lo out ∧
      (∀ b', b' ≠ b → b' ≠ h'.c → m'.blk b' = m.blk b') ∧ m'.WF ∧ m.next ≤ h'.c ∧
      m.next ≤ m'.next ∧ m'.lost = m.lost)
    (f := fun i h => do
      let x ← top h
      assign b ((lo + i : Nat) : Int) (.val x)
      pop triv cmp h) xs.length 0 h m1 ?_ ?_
  · refine wp_mono hloop ?_
    rintro h' m2 ⟨hs', out, q1, q2, q3, q4, q5, q6, q7, q8, q9, q10, q11⟩
    have hnil : hs' = [] := by
      have := q3.length_eq
      simp at this
      exact List.length_eq_zero_iff.1 (by omega)
    subst hnil
    rw [wp_bind]
    refine wp_mono (clear_ok q8 q1.rep) ?_
    rintro _ m3 ⟨_, f3, w3, n3⟩
    rw [wp_pure]
    refine ⟨out, by simpa using q3, q4, ?_, ?_, by rw [f3.lost, q11], w3⟩
    · unfold Wrote at q6 ⊢
      rw [f3.other b (by omega) hb]; exact q6
    · intro b' hb'
      by_cases hbh : b' = h'.c
      · rw [hbh, f3.gone (Ne.symm q1.ne) q1.ne, hw.unused _ q9]
      · by_cases hb0 : b' = 0
        · rw [hb0, w3.null, hw.null]
        · rw [f3.other b' hbh hb0, q7 b' hb' hbh]
  · refine ⟨hs, [], h1, rfl, by simpa using p1, List.Pairwise.nil, by simp, ?_, ?_, w1, hfresh,
      f1.next, f1.lost⟩
    · refine Wrote.nil ?_
      rw [f1.other b hb (by omega)]; exact hk
    · intro b' _ hb'
      by_cases hb0 : b' = 0
      · rw [hb0, w1.null, hw.null]
      · exact f1.other b' hb0 hb'
  · rintro i h' m2 _ hi ⟨hs', out, q1, q2, q3, q4, q5, q6, q7, q8, q9, q10, q11⟩
    have hlen' : out.length + hs'.length = xs.length := by simpa using q3.length_eq
    rcases hs' with _ | ⟨x, t⟩
    · simp at hlen'; omega
    · simp only [List.length_cons] at hlen'
      obtain ⟨ht1, ht2⟩ := top_ok hc q1 (by omega)
      rw [wp_bind, wp_of_returns ht1, wp_bind]
      have hi' : i < xs.length := by omega
      subst q2
      refine wp_mono (q6.assign (x := x) (e := .val x) hb (by omega) (by rw [hx _ hi']; rfl)
        (val_get x _) q8) ?_
      rintro _ m3 ⟨a1, a2, a3, a4, a5⟩
      have q1' : HRep R m3 h' z (x :: t) := q1.mono (a2 _ (by omega)) (by omega)
      refine wp_mono (pop_ok hc a5 q1' (by omega)) ?_
      rintro h'' m4 ⟨hs'', r1, r2, r3, r4⟩
      have hfr : m.next ≤ h''.c := by
        rcases r3.new with e | e | e
        · omega
        · exact absurd e r1.ne
        · omega
      refine ⟨hs'', out ++ [x], r1, by simp, ?_, ?_, ?_, ?_, ?_, r4, hfr, ?_, ?_⟩
      · refine List.Perm.trans ?_ q3
        simp only [List.append_assoc, List.cons_append, List.nil_append]
        exact List.Perm.append_left _ (List.Perm.cons _ r2)
      · refine List.pairwise_append.2 ⟨q4, List.pairwise_singleton _ _, ?_⟩
        intro a ha b' hb'
        rw [List.mem_singleton] at hb'; subst hb'
        exact q5 a ha _ (List.mem_cons_self ..)
      · intro a ha y hy
        have hy' : y ∈ t := r2.subset hy
        rcases List.mem_append.1 ha with ha | ha
        · exact q5 a ha y (List.mem_cons_of_mem _ hy')
        · rw [List.mem_singleton] at ha; subst ha
          exact ht2 y (List.mem_cons_of_mem _ hy')
      · unfold Wrote at a1 ⊢
        rw [r3.other b (by omega) (by omega)]; exact a1
      · intro b' hb' hbh
        by_cases hb1 : b' = h'.c
        · rw [hb1, hw.unused _ q9]
          exact r3.gone (by omega) q1.ne
        · rw [r3.other b' hb1 hbh, a2 b' hb', q7 b' hb' hb1]
      · have := r3.next; omega
      · rw [r3.lost, a4, q11]

theorem build_ok {R : α → α → Prop} {cmp : α → α → Bool} (hc : Order R cmp) {triv : Bool}
    {m : Mem α} (hw : m.WF) (z : α) {b lo : Nat} {k : Blk α} {xs : List α} (hb : b ≠ 0)
    (hk : m.blk b = some k)
    (hl : lo + xs.length ≤ k.len) (hx : ∀ i, (hi : i < xs.length) → k.slot (lo + i) = some xs[i])
    (hlen : xs.length + 1 ≤ 2 ^ 30) :
    wp (build triv cmp z b lo xs.length) (fun h m' => ∃ hs, HRep R m' h z hs ∧ hs.Perm xs ∧
      Wrote m' b k lo hs ∧ (∀ b', b' ≠ b → b' ≠ h.c → m'.blk b' = m.blk b') ∧ m'.lost = m.lost ∧
      m'.WF ∧ m.next ≤ h.c) m := by
  unfold build
  have hbn := blk_lt hw hk
  rw [wp_bind]
  refine wp_mono (ctorRange_ok hc hw z xs (fun i => .ref b ((lo + i : Nat) : Int)) hlen
    (src_ok hb hk hl hx) (fun i hi => Or.inr ⟨_, _, rfl, hbn⟩)) ?_
  rintro h m1 ⟨hs, h1, p1, f1, w1⟩
  have hfresh : m.next ≤ h.c := by
    rcases f1.new with e | e | e
    · exact absurd e h1.ne
    · exact absurd e h1.ne
    · exact e
  have hpl := p1.length_eq
  rw [wp_bind]
  have hloop := wp_forRange (σ := Mem α)
    (I := fun i _ m' => HRep R m' h z hs ∧ Wrote m' b k lo (hs.take i) ∧
      (∀ b', b' ≠ b → m'.blk b' = m1.blk b') ∧ m'.WF ∧ m'.next = m1.next ∧ m'.lost = m.lost)
    (f := fun i _ => assign b ((lo + i : Nat) : Int) (.ref h.c ((1 + i : Nat) : Int)))
    xs.length 0 () m1 ?_ ?_
  · refine wp_mono hloop ?_
    rintro _ m2 ⟨q1, q2, q3, q4, q5, q6⟩
    rw [wp_pure]
    refine ⟨hs, q1, p1, ?_, ?_, q6, q4, hfresh⟩
    · rwa [Nat.zero_add, List.take_of_length_le (by omega)] at q2
    · intro b' hb' hbh
      rw [q3 b' hb']
      by_cases hb0 : b' = 0
      · rw [hb0, w1.null, hw.null]
      · exact f1.other b' hb0 hbh
  · refine ⟨h1, ?_, fun _ _ => rfl, w1, rfl, f1.lost⟩
    refine Wrote.nil ?_
    rw [f1.other b hb (by omega)]; exact hk
  · rintro i _ m2 _ hi ⟨q1, q2, q3, q4, q5, q6⟩
    have hi' : i < hs.length := by omega
    have hread : Returns (Arg.ref (α := α) h.c ((1 + i : Nat) : Int)).get m2 hs[i] m2 := by
      have := q1.rep.read_ok (1 + i) (by simp; omega)
      simpa [Nat.add_comm 1 i, Arg.get] using this
    have hti : (hs.take i).length = i := by simp; omega
    have ha := q2.assign (x := hs[i]) hb (by omega) (by rw [hti, hx i (by omega)]; rfl) hread q4
    rw [hti] at ha
    refine wp_mono ha ?_
    rintro _ m3 ⟨a1, a2, a3, a4, a5⟩
    refine ⟨q1.mono (a2 _ (by omega)) (by omega), ?_, ?_, a5, by omega, by rw [a4, q6]⟩
    · rwa [List.take_succ_eq_append_getElem hi']
    · intro b' hb'
      rw [a2 b' hb', q3 b' hb']

end Verif.Heap
