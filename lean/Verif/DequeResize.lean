import Verif.DequeGrow

/-! # Lemmas about the deque model: `_resize` -/

namespace Verif.Deq

open Prog

variable {α : Type} {cfg : Cfg α}

theorem getIdx_mk (i : Int) (c : Option CPtr) (t : Option Nat) (w : World α) :
    Returns (Iter.getIdx { idx := some i, cur := c, tbl := t }) w i w := rfl

theorem getCur_mk (i : Option Int) (c : CPtr) (t : Option Nat) (w : World α) :
    Returns (Iter.getCur { idx := i, cur := some c, tbl := t }) w c w := rfl

theorem fillW_bal {w : World α} (h : Bal cfg w) (n : Nat) : Bal cfg (fillW cfg w n) := by
  induction n with
  | zero =>
    have : fillW cfg w 0 = w := by
      unfold fillW
      have : (fun b => if w.next ≤ b ∧ b < w.next then some (fun _ => Slot.dflt cfg.d) else w.blk b) = w.blk := by
        funext b; rw [if_neg (by omega)]
      simp only [Nat.add_zero, this]
    rw [this]; exact h
  | succ n ih => rw [← fillW_succ]; exact withBlock_bal ih

theorem getD_range_map {f : Nat → Nat} {N i : Nat} (h : i < N) :
    ((List.range N).map f).getD i 0 = f i := by
  rw [List.getD_eq_getElem?_getD]
  simp [h]

theorem nodup_range_map {f : Nat → Nat} {N : Nat} (h : ∀ i j, i < N → j < N → f i = f j → i = j) :
    ((List.range N).map f).Nodup := by
  rw [List.Nodup, List.pairwise_map]
  refine List.Pairwise.imp_of_mem ?_ (List.nodup_range (n := N))
  intro a b ha hb hab hf
  exact hab (h a b (List.mem_range.1 ha) (List.mem_range.1 hb) hf)

/-- Where the elements go when the table doubles. -/
structure Place (A nb len P bi bo ei eo ns an : Nat) : Prop where
  hP : P = bi * A + bo
  hE : P + len = ei * A + eo
  bo_le : bo ≤ A
  eo_le : eo ≤ A
  ei_lt : ei < nb
  an_eq : bi + an = ei
  ns_pos : 1 ≤ ns
  ne_lt : ns + an + 1 < 2 * nb
  edge : bo = A → bi = ei ∧ eo = A ∧ len = 0

theorem place {A nb len P : Nat} (hA : 0 < A) (two : 2 ≤ nb) (fits : P + len ≤ nb * A)
    (hfull : P = 0 ∨ P + len = nb * A) :
    Place A nb len P (bidx A nb P) (boff A nb P) (bidx A nb (P + len)) (boff A nb (P + len))
      ((nb * A * 2 - len) / 2 / A) (bidx A nb (P + len) - bidx A nb P) := by
  have hnb : 0 < nb := by omega
  have hP := pos_eq (A := A) hnb (show P ≤ nb * A by omega)
  have hE := pos_eq (A := A) hnb fits
  have hbo := boff_le (A := A) (nb := nb) (n := P) hA
  have heo := boff_le (A := A) (nb := nb) (n := P + len) hA
  have hbi := bidx_lt (A := A) (n := P) hnb
  have hei := bidx_lt (A := A) (n := P + len) hnb
  have hedge : boff A nb P = A → P = nb * A := by
    intro h
    unfold boff at h
    split at h
    · have := Nat.mod_lt P hA; omega
    · omega
  have heq : P + len = nb * A → bidx A nb (P + len) = nb - 1 ∧ boff A nb (P + len) = A := by
    intro h; rw [h]; exact ⟨bidx_end, boff_end⟩
  have h0 : P = 0 → bidx A nb P = 0 ∧ boff A nb P = 0 := by
    intro h
    have h1 : 0 < nb * A := Nat.mul_pos hnb hA
    rw [h]
    exact ⟨by simp [bidx, h1], by simp [boff, h1]⟩
  generalize bidx A nb P = bi at *
  generalize boff A nb P = bo at *
  generalize bidx A nb (P + len) = ei at *
  generalize boff A nb (P + len) = eo at *
  have hle : bi ≤ ei := by
    rcases hfull with h | h
    · have := h0 h; omega
    · have := heq h; omega
  have hanA : (ei - bi) * A + bi * A = ei * A := by
    rw [← Nat.add_mul]; congr 1; omega
  have hanlen : (ei - bi) * A ≤ len := by
    rcases hfull with h | h
    · obtain ⟨h1, h2⟩ := h0 h
      subst h1; simp at *; omega
    · have := heq h; omega
  have hns1 : A ≤ (nb * A * 2 - len) / 2 := by
    have := Nat.mul_le_mul_right A two
    omega
  refine ⟨hP, hE, hbo, heo, hei, by omega, ?_, ?_, ?_⟩
  · exact (Nat.le_div_iff_mul_le hA).2 (by omega)
  · have h1 : (nb * A * 2 - len) / 2 / A * A ≤ (nb * A * 2 - len) / 2 := Nat.div_mul_le_self _ _
    generalize (nb * A * 2 - len) / 2 / A = ns at h1 ⊢
    have h2 : (ei - bi) ≤ nb - 1 := by omega
    have h3 : (ei - bi) * A ≤ (nb - 1) * A := Nat.mul_le_mul_right A h2
    have h4 : (nb - 1) * A + A = nb * A := by rw [← Nat.succ_mul]; congr 1; omega
    -- 2 (ns + an) A ≤ 2 nb A + an A ≤ (3 nb - 1) A
    have h5 : 2 * (ns + (ei - bi)) * A ≤ (3 * nb - 1) * A := by
      have e1 : 2 * (ns + (ei - bi)) * A = 2 * (ns * A) + 2 * ((ei - bi) * A) := by
        rw [Nat.mul_assoc, Nat.add_mul, Nat.mul_add]
      have e2 : (3 * nb - 1) * A + A = 3 * (nb * A) := by
        rw [← Nat.succ_mul, ← Nat.mul_assoc]; congr 1; omega
      omega
    have h6 := Nat.le_of_mul_le_mul_right h5 hA
    omega
  · intro h
    have h1 := hedge h
    have h2 := heq (by omega)
    have h3 : len = 0 := by omega
    refine ⟨?_, h2.2, h3⟩
    subst h3
    have : bi * A = ei * A := by omega
    exact Nat.eq_of_mul_eq_mul_right hA this

/-- How far doubling moves the elements, and how many blocks it allocates. -/
structure Grown (A nb nb' P P' len new : Nat) : Prop where
  len' : nb' = 2 * nb
  pos : P' = (nb * A * 2 - len) / 2 / A * A + boff A nb P
  new_le : new ≤ 2 * nb
  new_ge : nb ≤ new

/-- `_resize` to double capacity when one of the ends of the table is reached. -/
theorem grow_ok (hA : 0 < cfg.A) (hadj : AdjUp cfg) {w : World α} {k own : Nat} {d : Deque} {l : List α}
    {P : Nat} (hk : w.obj k = some d) (hO : OwnOk w d.tbl) (hU : Used cfg w own d l P)
    (hfull : P = 0 ∨ P + l.length = d.tbl.length * cfg.A) :
    wp (resize cfg k (d.cap * 2)) (fun _ w' => ∃ d' P', w'.obj k = some d' ∧ Used cfg w' own d' l P' ∧
      Step cfg w w' k d.tbl d'.tbl ∧ 0 < P' ∧ P' + l.length < d'.tbl.length * cfg.A ∧
      (∃ new, w'.next = w.next + new ∧
        Grown cfg.A d.tbl.length d'.tbl.length P P' l.length new) ∧
      ∀ j, j < l.length → w'.blk (d.tbl.getD (bidx cfg.A d.tbl.length (P + j)) 0) =
        w.blk (d.tbl.getD (bidx cfg.A d.tbl.length (P + j)) 0) ∧
        curAt cfg.A d'.tbl (P' + j) = curAt cfg.A d.tbl (P + j)) w := by
  have hpl := place hA hU.two hU.fits hfull
  have hnewN : d.cap * 2 / cfg.A = 2 * d.tbl.length := by
    rw [hU.cap, Nat.mul_right_comm, Nat.mul_div_cancel _ hA, Nat.mul_comm]
  have hcap0 : 0 < d.cap := by
    rw [hU.cap]; exact Nat.mul_pos (by have := hU.two; omega) hA
  have hnsd : (d.cap * 2 - d.sz) / 2 / cfg.A =
      (d.tbl.length * cfg.A * 2 - l.length) / 2 / cfg.A := by rw [hU.cap, hU.sz]
  have hbegE := hU.beg
  have hfinE := hU.fin
  have hcurB : curAt cfg.A d.tbl P = .at (d.tbl.getD (bidx cfg.A d.tbl.length P) 0) (boff cfg.A d.tbl.length P) := rfl
  have hcurF : curAt cfg.A d.tbl (P + l.length) = .at (d.tbl.getD (bidx cfg.A d.tbl.length (P + l.length)) 0)
    (boff cfg.A d.tbl.length (P + l.length)) := rfl
  unfold itAt at hbegE hfinE
  rw [hcurB] at hbegE
  rw [hcurF] at hfinE
  unfold resize
  rw [wp_bind, wp_of_returns (getObj_ok hk)]
  simp only [hnewN, hnsd, hbegE, hfinE]
  generalize hnse : (d.tbl.length * cfg.A * 2 - l.length) / 2 / cfg.A = ns at hpl ⊢
  generalize hbie : bidx cfg.A d.tbl.length P = bi at hpl hbegE hfinE ⊢
  generalize hboe : boff cfg.A d.tbl.length P = bo at hpl hbegE hfinE ⊢
  generalize heie : bidx cfg.A d.tbl.length (P + l.length) = ei at hpl hbegE hfinE ⊢
  generalize heoe : boff cfg.A d.tbl.length (P + l.length) = eo at hpl hbegE hfinE ⊢
  generalize hane : ei - bi = an at hpl
  generalize hnbe : d.tbl.length = nb at *
  obtain ⟨hP, hE, hbo, heo, hei, han, hns, hne, hedge⟩ := hpl
  rw [wp_bind, wp_of_returns (getIdx_mk ..), wp_bind,
    wp_of_returns (getIdx_mk ..), wp_ite]
  refine ⟨fun h => absurd (show d.cap < d.cap * 2 by omega) h.1, fun _ => ?_⟩
  rw [wp_bind, wp_of_returns (updObj_ok hk _)]
  have hneI : (ns : Int) + ((ei : Int) - (bi : Int)) = ((ns + an : Nat) : Int) := by omega
  rw [hneI]
  generalize hd1 : ({ d with tbl := d.tbl.take (2 * nb) ++ List.replicate (2 * nb - d.tbl.length) 0 } : Deque) = d1
  have hd1l : d1.tbl.length = 2 * nb := by
    subst hd1
    simp only [List.length_append, List.length_take, List.length_replicate, hnbe]; omega
  rw [wp_bind, wp_of_returns (fill_ok hd1l (by omega)), wp_bind]
  generalize hTe : (List.range (2 * nb)).map (ent d.tbl w.next bi ns an) = T
  generalize hMe : fr ns an (2 * nb) = M
  have hTl : T.length = 2 * nb := by subst hTe; simp
  have hTget : ∀ i, i < 2 * nb → T.getD i 0 = ent d.tbl w.next bi ns an i := by
    intro i hi; subst hTe; exact getD_range_map hi
  have hold : ∀ i, i < nb → d.tbl.getD i 0 ∈ d.tbl ∧ d.tbl[i]? = some (d.tbl.getD i 0) := by
    intro i hi
    have : d.tbl[i]? = some (d.tbl.getD i 0) := by
      rw [List.getD_eq_getElem?_getD, List.getElem?_eq_getElem (by omega)]; rfl
    exact ⟨List.mem_of_getElem? this, this⟩
  have hinj : ∀ i j, i < nb → j < nb → d.tbl.getD i 0 = d.tbl.getD j 0 → i = j := by
    intro i j hi hj h
    have h1 := (hold i hi).2
    rw [h] at h1
    have h2 := (hold j hj).2
    obtain ⟨a1, a2⟩ := List.getElem?_eq_some_iff.1 h1
    obtain ⟨b1, b2⟩ := List.getElem?_eq_some_iff.1 h2
    exact (List.getElem_inj hO.1).1 (a2.trans b2.symm)
  have hblkF : ∀ b, b < w.next → (fillW cfg w M).blk b = w.blk b := by
    intro b hb; simp only [fillW]; rw [if_neg (by omega)]
  rw [← hnbe]
  have hslot : ∀ q r, q < nb → r < cfg.A →
      slotAt w cfg.A d.tbl (q * cfg.A + r) = (w.blk (d.tbl.getD q 0)).map fun f => f r := by
    intro q r hq hr
    unfold slotAt
    rw [hnbe, bidx_of hq hr, boff_of hq hr]
  have hmul : ∀ a b, a < b → a * cfg.A + cfg.A ≤ b * cfg.A := by
    intro a b h
    have := Nat.mul_le_mul_right cfg.A (show a + 1 ≤ b by omega)
    rwa [Nat.add_mul, Nat.one_mul] at this
  refine wp_mono (release_ok (cfg := cfg) (w := setObj (fillW cfg w M) k (some { d1 with tbl := T })) (bi := bi) (ei := ei) hO.1 ?_) ?_
  · intro b hb
    obtain ⟨g1, g2, f, g3⟩ := hO.2 b hb
    refine ⟨by simp only [setObj, fillW]; omega, f, ?_, ?_⟩
    · rw [setObj_blk, hblkF b g2]; exact g3
    · rintro ⟨i, hi, hio⟩ j hj
      obtain ⟨hi1, hi2⟩ := List.getElem?_eq_some_iff.1 hi
      have hin : i < nb := by omega
      have hbi : d.tbl.getD i 0 = b := by
        have := (hold i hin).2; rw [hi] at this; exact (Option.some.inj this).symm
      obtain ⟨s, hs1, hs2⟩ := hU.outside (i * cfg.A + j) (by have := hmul i nb hin; rw [hnbe]; omega) (by
        rcases hio with h | h
        · left; have := hmul i bi h; omega
        · right; have := hmul ei i h; omega)
      rw [hslot i j hin hj, hbi, g3] at hs1
      simp only [Option.map_some, Option.some.injEq] at hs1
      rw [hs1]; exact hs2
  rintro _ w3 ⟨ho3, hn3, he3, hb3, hblk3⟩
  rw [setObj_blk] at hblk3
  have hk3 : w3.obj k = some { d1 with tbl := T } := by rw [ho3]; exact setObj_obj ..
  -- the blocks of the new table
  have hkeep : ∀ q, bi ≤ q → q ≤ ei → w3.blk (d.tbl.getD q 0) = w.blk (d.tbl.getD q 0) := by
    intro q h1 h2
    have hq : q < nb := by omega
    rw [hblk3, if_neg, hblkF _ (hO.2 _ (hold q hq).1).2.1]
    rintro ⟨i, hi, hio⟩
    obtain ⟨hi1, _⟩ := List.getElem?_eq_some_iff.1 hi
    have : i = q := hinj i q (by omega) hq (by
      have := (hold i (by omega)).2; rw [hi] at this; exact (Option.some.inj this).symm)
    omega
  have hfresh : ∀ m, m < M → w3.blk (w.next + m) = some fun _ => .dflt cfg.d := by
    intro m hm
    rw [hblk3, if_neg]
    · simp only [fillW]; rw [if_pos (by omega)]
    · rintro ⟨i, hi, _⟩
      have := (hO.2 _ (List.mem_of_getElem? hi)).2.1
      omega
  have hMv : M = 2 * nb - (an + 1) := by
    rw [← hMe]; unfold fr
    rw [if_neg (by omega), if_neg (by omega)]
  have hfrlt : ∀ i, i < 2 * nb → (i < ns ∨ ns + an < i) → fr ns an i < M := by
    intro i hi hio
    rw [hMv]; unfold fr
    repeat' split
    all_goals omega
  have hTin : ∀ q, bi ≤ q → q ≤ ei → T.getD (ns + (q - bi)) 0 = d.tbl.getD q 0 := by
    intro q h1 h2
    rw [hTget _ (by omega)]
    unfold ent
    rw [if_neg (by omega)]
    congr 1; omega
  have hTout : ∀ i, i < 2 * nb → (i < ns ∨ ns + an < i) →
      w3.blk (T.getD i 0) = some fun _ => .dflt cfg.d := by
    intro i hi hio
    rw [hTget i hi]
    unfold ent
    rw [if_pos hio]
    exact hfresh _ (hfrlt i hi hio)
  have hTmem : ∀ b, b ∈ T ↔ ∃ i, i < 2 * nb ∧ T.getD i 0 = b := by
    intro b
    constructor
    · intro hb
      obtain ⟨i, hi, hib⟩ := List.mem_iff_getElem.1 hb
      refine ⟨i, by omega, ?_⟩
      rw [List.getD_eq_getElem?_getD, List.getElem?_eq_getElem hi]; exact hib
    · rintro ⟨i, hi, rfl⟩
      rw [List.getD_eq_getElem?_getD, List.getElem?_eq_getElem (by omega)]
      exact List.getElem_mem _
  have hTnd : T.Nodup := by
    rw [← hTe]
    refine nodup_range_map ?_
    intro i j hi hj h
    have hlt : ∀ i, i < 2 * nb → ¬ (i < ns ∨ ns + an < i) → d.tbl.getD (bi + (i - ns)) 0 < w.next := by
      intro i hi hio
      exact (hO.2 _ (hold (bi + (i - ns)) (by omega)).1).2.1
    unfold ent at h
    by_cases hi1 : i < ns ∨ ns + an < i
    · rw [if_pos hi1] at h
      by_cases hj1 : j < ns ∨ ns + an < j
      · rw [if_pos hj1] at h
        have h' : fr ns an i = fr ns an j := by omega
        unfold fr at h'
        repeat' split at h'
        all_goals omega
      · rw [if_neg hj1] at h
        have := hlt j hj hj1; omega
    · rw [if_neg hi1] at h
      by_cases hj1 : j < ns ∨ ns + an < j
      · rw [if_pos hj1] at h
        have := hlt i hi hi1; omega
      · rw [if_neg hj1] at h
        have := hinj _ _ (by omega) (by omega) h
        omega
  have hTcase : ∀ i, i < 2 * nb → (i < ns ∨ ns + an < i) ∨ ∃ q, bi ≤ q ∧ q ≤ ei ∧ i = ns + (q - bi) := by
    intro i hi
    by_cases h : i < ns ∨ ns + an < i
    · exact Or.inl h
    · exact Or.inr ⟨bi + (i - ns), by omega, by omega, by omega⟩
  have hTO : OwnOk w3 T := by
    refine ⟨hTnd, ?_⟩
    intro b hb
    obtain ⟨i, hi, hib⟩ := (hTmem b).1 hb
    have hnx : w3.next = w.next + M := by rw [hn3]; rfl
    rcases hTcase i hi with h | ⟨q, q1, q2, q3⟩
    · have h1 := hTout i hi h
      have h2 : b = w.next + fr ns an i := by
        rw [← hib, hTget i hi]; unfold ent; rw [if_pos h]
      have h3 := hfrlt i hi h
      refine ⟨?_, by omega, _, by rw [← hib]; exact h1⟩
      have := (hO.2 _ (hold ei hei).1)
      omega
    · subst q3
      rw [hTin q q1 q2] at hib
      subst hib
      obtain ⟨g1, g2, g3⟩ := hO.2 _ (hold q (by omega)).1
      exact ⟨g1, by omega, by rw [hkeep q q1 q2]; exact g3⟩
  have hn3' : w3.next = w.next + M := by rw [hn3]; rfl
  have hStep : Step cfg w w3 k d.tbl T := by
    have hnx : w3.next = w.next + M := by rw [hn3]; rfl
    refine ⟨?_, ?_, by omega, ?_, ?_, fun _ => hTO, ?_, ?_⟩
    · intro j hj; rw [ho3, setObj_other _ _ hj]; rfl
    · intro b hb hbn
      rw [hblk3, if_neg, hblkF b hbn]
      rintro ⟨i, hi, _⟩
      exact hb (List.mem_of_getElem? hi)
    · intro b hb
      obtain ⟨i, hi, hib⟩ := (hTmem b).1 hb
      rcases hTcase i hi with h | ⟨q, q1, q2, q3⟩
      · right
        rw [← hib, hTget i hi]; unfold ent; rw [if_pos h]; omega
      · left
        subst q3
        rw [← hib, hTin q q1 q2]
        exact (hold q (by omega)).1
    · intro b f hf
      by_cases hbo' : b ∈ d.tbl
      · left
        obtain ⟨i, hi, hib⟩ := List.mem_iff_getElem.1 hbo'
        have hib' : d.tbl[i]? = some b := by rw [List.getElem?_eq_getElem hi, hib]
        have hrange : bi ≤ i ∧ i ≤ ei := by
          refine Classical.byContradiction fun h => ?_
          rw [hblk3, if_pos ⟨i, hib', by omega⟩] at hf
          cases hf
        refine (hTmem b).2 ⟨ns + (i - bi), by omega, ?_⟩
        rw [hTin i hrange.1 hrange.2]
        have := (hold i (by omega)).2; rw [hib'] at this; exact (Option.some.inj this).symm
      · by_cases hr : w.next ≤ b ∧ b < w.next + M
        · left
          refine (hTmem b).2 ?_
          by_cases hm : b - w.next < ns
          · refine ⟨b - w.next, by omega, ?_⟩
            rw [hTget _ (by omega)]; unfold ent fr
            rw [if_pos (by omega), if_pos (by omega)]; omega
          · refine ⟨b - w.next + (an + 1), by omega, ?_⟩
            rw [hTget _ (by omega)]; unfold ent fr
            rw [if_pos (by omega), if_neg (by omega)]
            split <;> omega
        · right
          refine ⟨hbo', ?_⟩
          rw [hblk3, if_neg] at hf
          · simp only [fillW] at hf
            rwa [if_neg hr] at hf
          · rintro ⟨i, hi, _⟩
            exact hbo' (List.mem_of_getElem? hi)
    · rw [he3]; rfl
    · intro _ hb
      exact hb3 (fillW_bal hb M)
  have hTmax : LastMax T := by
    intro b hb
    obtain ⟨i, hi, hib⟩ := (hTmem b).1 hb
    have hlast : T.getD (T.length - 1) 0 = w.next + (M - 1) := by
      rw [hTl, hTget _ (by omega)]; unfold ent fr
      rw [if_pos (by omega), if_neg (by omega)]
      split <;> omega
    rw [hlast]
    rcases hTcase i hi with h | ⟨q, q1, q2, q3⟩
    · have := hfrlt i hi h
      have h2 : b = w.next + fr ns an i := by
        rw [← hib, hTget i hi]; unfold ent; rw [if_pos h]
      omega
    · subst q3
      rw [hTin q q1 q2] at hib
      subst hib
      have := (hO.2 _ (hold q (by omega)).1).2.1
      omega
  -- contents
  have hslotT : ∀ q r, q < 2 * nb → r < cfg.A →
      slotAt w3 cfg.A T (q * cfg.A + r) = (w3.blk (T.getD q 0)).map fun f => f r := by
    intro q r hq hr
    unfold slotAt
    rw [hTl, bidx_of hq hr, boff_of hq hr]
  have hmove : ∀ q r, bi ≤ q → q ≤ ei → r < cfg.A →
      slotAt w3 cfg.A T ((ns + (q - bi)) * cfg.A + r) = slotAt w cfg.A d.tbl (q * cfg.A + r) := by
    intro q r h1 h2 hr
    rw [hslotT _ r (by omega) hr, hTin q h1 h2, hkeep q h1 h2, hslot q r (by omega) hr]
  have hPE : ns * cfg.A + bo + l.length = (ns + an) * cfg.A + eo := by
    have e1 : (bi + an) * cfg.A = ei * cfg.A := by rw [han]
    rw [Nat.add_mul] at e1 ⊢
    omega
  have hins : ∀ j (h : j < l.length), slotAt w3 cfg.A T (ns * cfg.A + bo + j) = some (.elem l[j]) := by
    intro j hj
    have hn : P + j < nb * cfg.A := by have := hU.fits; rw [hnbe] at this; omega
    have hq1 : bi ≤ (P + j) / cfg.A := (Nat.le_div_iff_mul_le hA).2 (by omega)
    have hq2 : (P + j) / cfg.A ≤ ei := by
      have : (P + j) / cfg.A < ei + 1 := (Nat.div_lt_iff_lt_mul hA).2 (by rw [Nat.add_mul]; omega)
      omega
    have hdm := Nat.div_add_mod (P + j) cfg.A
    rw [Nat.mul_comm] at hdm
    have hr := Nat.mod_lt (P + j) hA
    generalize (P + j) / cfg.A = q at *
    generalize (P + j) % cfg.A = r at *
    have e : ns * cfg.A + bo + j = (ns + (q - bi)) * cfg.A + r := by
      have e1 : (q - bi) * cfg.A + bi * cfg.A = q * cfg.A := by rw [← Nat.add_mul]; congr 1; omega
      rw [Nat.add_mul]; omega
    rw [e, hmove q r hq1 hq2 hr, hdm]
    exact hU.inside j hj
  have houts : ∀ n, n < T.length * cfg.A → n < ns * cfg.A + bo ∨ ns * cfg.A + bo + l.length ≤ n →
      ∃ s, slotAt w3 cfg.A T n = some s ∧ s.isElem = false := by
    intro n hn ho
    rw [hTl] at hn
    have hq : n / cfg.A < 2 * nb := (Nat.div_lt_iff_lt_mul hA).2 hn
    have hdm := Nat.div_add_mod n cfg.A
    rw [Nat.mul_comm] at hdm
    have hr := Nat.mod_lt n hA
    generalize n / cfg.A = q' at *
    generalize n % cfg.A = r at *
    rcases hTcase q' hq with h | ⟨q, q1, q2, q3⟩
    · refine ⟨.dflt cfg.d, ?_, rfl⟩
      rw [← hdm, hslotT q' r hq hr, hTout q' hq h]; rfl
    · subst q3
      rw [← hdm, hmove q r q1 q2 hr]
      have e1 : (q - bi) * cfg.A + bi * cfg.A = q * cfg.A := by rw [← Nat.add_mul]; congr 1; omega
      rw [Nat.add_mul] at hdm
      have h3 := hmul q nb (by omega)
      exact hU.outside (q * cfg.A + r) (by rw [hnbe]; omega) (by omega)
  -- the pointers
  have hTT : ∀ D : Deque, D.tbl = T → Tbl (setObj w3 k (some D)) k T := fun D hD =>
    (show OwnOk (setObj w3 k (some D)) T from hTO).tbl (setObj_obj ..) hD
  have hgetT : ∀ i, i < 2 * nb → T[i]? = some (T.getD i 0) := by
    intro i hi
    rw [List.getD_eq_getElem?_getD, List.getElem?_eq_getElem (by omega)]; rfl
  have hTns : T.getD ns 0 = d.tbl.getD bi 0 := by
    have := hTin bi (Nat.le_refl _) (by omega); simpa using this
  have hTne : T.getD (ns + an) 0 = d.tbl.getD ei 0 := by
    have := hTin ei (by omega) (Nat.le_refl _)
    rwa [show ns + (ei - bi) = ns + an by omega] at this
  have hne1 := hmul (ns + an + 1) (2 * nb) hne
  have hne1' : (ns + an + 1) * cfg.A = (ns + an) * cfg.A + cfg.A := by
    rw [Nat.add_mul, Nat.one_mul]
  -- iterators at the new places
  have hitB : bo < cfg.A → itAt cfg.A T own (ns * cfg.A + bo) =
      { idx := some ((ns : Nat) : Int), cur := some (.at (d.tbl.getD bi 0) bo), tbl := some own } := by
    intro h
    simp only [itAt, curAt, hTl, bidx_of (show ns < 2 * nb by omega) h,
      boff_of (show ns < 2 * nb by omega) h, hTns]
  have hitE : eo < cfg.A → itAt cfg.A T own ((ns + an) * cfg.A + eo) =
      { idx := some ((ns + an : Nat) : Int), cur := some (.at (d.tbl.getD ei 0) eo), tbl := some own } := by
    intro h
    simp only [itAt, curAt, hTl, bidx_of (show ns + an < 2 * nb by omega) h,
      boff_of (show ns + an < 2 * nb by omega) h, hTne]
  have hitX : itAt cfg.A T own ((ns + an) * cfg.A + cfg.A) =
      { idx := some ((ns + an + 1 : Nat) : Int), cur := some (.at (T.getD (ns + an + 1) 0) 0), tbl := some own } := by
    have h1 := bidx_of (A := cfg.A) hne hA
    have h2 := boff_of (A := cfg.A) hne hA
    rw [Nat.add_zero] at h1 h2
    simp only [itAt, curAt, hTl, ← hne1', h1, h2]
  have hcur : ∀ j, j < l.length → curAt cfg.A T (ns * cfg.A + bo + j) = curAt cfg.A d.tbl (P + j) := by
    intro j hj
    have hn : P + j < nb * cfg.A := by have := hU.fits; rw [hnbe] at this; omega
    have hq1 : bi ≤ (P + j) / cfg.A := (Nat.le_div_iff_mul_le hA).2 (by omega)
    have hq2 : (P + j) / cfg.A ≤ ei := by
      have : (P + j) / cfg.A < ei + 1 := (Nat.div_lt_iff_lt_mul hA).2 (by rw [Nat.add_mul]; omega)
      omega
    have hdm := Nat.div_add_mod (P + j) cfg.A
    rw [Nat.mul_comm] at hdm
    have hr := Nat.mod_lt (P + j) hA
    generalize (P + j) / cfg.A = q at *
    generalize (P + j) % cfg.A = r at *
    have e : ns * cfg.A + bo + j = (ns + (q - bi)) * cfg.A + r := by
      have e1 : (q - bi) * cfg.A + bi * cfg.A = q * cfg.A := by rw [← Nat.add_mul]; congr 1; omega
      rw [Nat.add_mul]; omega
    rw [e, ← hdm]
    unfold curAt
    rw [hTl, hnbe, bidx_of (by omega) hr, boff_of (by omega) hr, bidx_of (by omega) hr,
      boff_of (by omega) hr, hTin q hq1 hq2]
  have hfin : ∀ D : Deque, D.sz = l.length → D.cap = d.cap * 2 → D.tbl = T →
      D.beg = itAt cfg.A T own (ns * cfg.A + bo) → D.fin = itAt cfg.A T own (ns * cfg.A + bo + l.length) →
      ∃ d' P', (setObj w3 k (some D)).obj k = some d' ∧ Used cfg (setObj w3 k (some D)) own d' l P' ∧
      Step cfg w (setObj w3 k (some D)) k d.tbl d'.tbl ∧ 0 < P' ∧ P' + l.length < d'.tbl.length * cfg.A ∧
      (∃ new, (setObj w3 k (some D)).next = w.next + new ∧
        Grown cfg.A d.tbl.length d'.tbl.length P P' l.length new) ∧
      ∀ j, j < l.length → (setObj w3 k (some D)).blk (d.tbl.getD (bidx cfg.A d.tbl.length (P + j)) 0) =
        w.blk (d.tbl.getD (bidx cfg.A d.tbl.length (P + j)) 0) ∧
        curAt cfg.A d'.tbl (P' + j) = curAt cfg.A d.tbl (P + j) := by
    intro D h1 h2 h3 h4 h5
    refine ⟨D, ns * cfg.A + bo, setObj_obj .., ⟨h1, ?_, ?_, ?_, ?_, ?_, ?_, ?_, ?_, ?_⟩, ?_, ?_, ?_,
      ⟨M, by rw [← hn3' ]; rfl, by rw [h3, hTl, hnbe], by rw [hnbe, hnse, hboe], by rw [hMv, hnbe]; omega,
        by rw [hMv, hnbe]; omega⟩, ?_⟩
    · rw [h2, h3, hTl, hU.cap, hnbe, Nat.mul_right_comm, Nat.mul_comm nb 2]
    · rw [h3, hTl]; omega
    · rw [h3, hTl]; omega
    · rw [h3]; exact hTmax
    · rw [h3]; exact h4
    · rw [h3]; exact h5
    · rw [h3, hTl, hPE]; omega
    · rw [h3]; exact hins
    · rw [h3]; exact houts
    · rw [h3]; exact hStep.trans (Step.setObj _)
    · have : 1 * cfg.A ≤ ns * cfg.A := Nat.mul_le_mul_right _ hns
      omega
    · rw [h3, hTl, hPE]; omega
    · intro j hj
      rw [setObj_blk]
      refine ⟨?_, by rw [h3]; exact hcur j hj⟩
      have hn : P + j < nb * cfg.A := by have := hU.fits; rw [hnbe] at this; omega
      have e : bidx cfg.A d.tbl.length (P + j) = (P + j) / cfg.A := by
        unfold bidx; rw [hnbe, if_pos hn]
      rw [e]
      refine hkeep _ ((Nat.le_div_iff_mul_le hA).2 (by omega)) ?_
      have : (P + j) / cfg.A < ei + 1 := (Nat.div_lt_iff_lt_mul hA).2 (by rw [Nat.add_mul]; omega)
      omega
  have hd1v : d1.sz = d.sz ∧ d1.beg = d.beg ∧ d1.fin = d.fin := by subst hd1; exact ⟨rfl, rfl, rfl⟩
  rw [wp_bind, wp_of_returns (updObj_ok hk3 _)]
  simp only [hd1v.1, hd1v.2.1, hd1v.2.2, hbegE, hfinE]
  rw [wp_bind]
  unfold resizeFix
  rw [wp_bind, wp_of_returns (getObj_ok (setObj_obj ..)), wp_bind,
    wp_of_returns (tblAt_ok (hTT _ rfl) (hgetT (ns + an) (by omega))), wp_bind, hTne]
  obtain ⟨g1, _, f, g3⟩ := hTO.2 (d.tbl.getD ei 0) (by rw [← hTne]; exact (hTmem _).2 ⟨_, by omega, rfl⟩)
  rw [wp_of_returns (arrEnd_ok (w := setObj w3 k _) g1 g3), wp_bind,
    wp_of_returns (getCur_mk ..), wp_bind,
    wp_of_returns (cmp_ok (live_at (w := setObj w3 k _) g3 (by omega)) (live_at (w := setObj w3 k _) g3 (by omega))), wp_when]
  constructor
  · intro hc
    rw [ptrEq_same hadj] at hc
    subst hc
    rw [wp_bind, show (((ns + an : Nat) : Int) + 1) = ((ns + an + 1 : Nat) : Int) by omega,
      wp_of_returns (tblAt_ok (hTT _ rfl) (hgetT (ns + an + 1) (by omega))), wp_bind]
    obtain ⟨k1, _, f', k3⟩ := hTO.2 (T.getD (ns + an + 1) 0) ((hTmem _).2 ⟨_, by omega, rfl⟩)
    rw [wp_of_returns (arrBegin_ok (w := setObj w3 k _) k1 k3), wp_bind,
      wp_of_returns (updObj_ok (setObj_obj ..) _), setObj_setObj, wp_bind,
      wp_of_returns (getCur_mk ..), wp_bind]
    obtain ⟨_, _, f2, k4⟩ := hTO.2 (d.tbl.getD bi 0) (by rw [← hTns]; exact (hTmem _).2 ⟨_, by omega, rfl⟩)
    rw [wp_of_returns (cmp_ok (live_at (w := setObj w3 k _) k4 (by omega)) (live_at (w := setObj w3 k _) g3 (by omega))), wp_when]
    have hlastei : P + l.length = nb * cfg.A := by
      rw [← hnbe]
      exact boff_eq_A hA hU.fits (by rw [hnbe]; exact heoe)
    have hnadj : cfg.adj (d.tbl.getD ei 0) (d.tbl.getD bi 0) = false := by
      cases hb : cfg.adj (d.tbl.getD ei 0) (d.tbl.getD bi 0) with
      | false => rfl
      | true =>
        have h1 := hadj _ _ hb
        have h2 := hU.last _ (hold bi (by omega)).1
        rw [hlastei, bidx_end] at heie
        rw [hnbe, heie] at h2
        omega
    have hpe : ptrEq cfg (.at (d.tbl.getD bi 0) bo) (.at (d.tbl.getD ei 0) cfg.A) = true ↔
        d.tbl.getD bi 0 = d.tbl.getD ei 0 ∧ bo = cfg.A :=
      ptrEq_at (fun _ h0 => absurd h0 (by omega)) (fun _ _ => hnadj)
    constructor
    · intro hc2
      rw [hpe] at hc2
      obtain ⟨e1, e2, e3⟩ := hedge hc2.2
      rw [wp_of_returns (updObj_ok (setObj_obj ..) _), setObj_setObj,
        wp_of_returns (updObj_ok (setObj_obj ..) _), setObj_setObj]
      have han0 : an = 0 := by omega
      refine hfin _ hU.sz rfl rfl ?_ ?_
      · rw [hc2.2, show ns * cfg.A = (ns + an) * cfg.A by rw [han0]; rfl]; exact hitX.symm
      · rw [hPE]; exact hitX.symm
    · intro hc2
      have hb : bo < cfg.A := by
        rcases Nat.lt_or_ge bo cfg.A with h | h
        · exact h
        · exfalso
          apply hc2
          rw [hpe]
          have hh : bo = cfg.A := by omega
          obtain ⟨e1, _, _⟩ := hedge hh
          exact ⟨by rw [e1], hh⟩
      rw [wp_of_returns (updObj_ok (setObj_obj ..) _), setObj_setObj]
      refine hfin _ hU.sz rfl rfl ?_ ?_
      · exact (hitB hb).symm
      · rw [hPE]; exact hitX.symm
  · intro hc
    have he : eo < cfg.A := by
      rcases Nat.lt_or_ge eo cfg.A with h | h
      · exact h
      · exfalso
        apply hc
        rw [ptrEq_same hadj]; omega
    have hb : bo < cfg.A := by
      rcases Nat.lt_or_ge bo cfg.A with h | h
      · exact h
      · have := hedge (by omega); omega
    rw [wp_of_returns (updObj_ok (setObj_obj ..) _), setObj_setObj]
    refine hfin _ hU.sz rfl rfl ?_ ?_
    · exact (hitB hb).symm
    · rw [hPE]; exact (hitE he).symm

end Verif.Deq
