import Verif.SMAWorld

/-! # Non-positive requests, and what merging can recover -/

namespace Verif.Sma

open Prog

section
variable {c : Cfg} {s : St} {L : Nat → List Block} {V : List Block}

/-! ## Requests for no bytes -/

/-- `quick_mem_allocate_d` with a negative list index. -/
theorem quickAlloc_nonpos (hc : Legal c) {n : Int} (h0 : n ≤ 0) (h1 : -2 ^ 31 ≤ n)
    {t : Int} (ht : roundUp n = 8 * t) :
    (quickAlloc c n) s = (do
      let h ← entry c (t - 1)
      let p ← rdNext c h
      let d ← indexToSize (t - 1)
      let r ← rdNext c p
      wrNext c h r
      pure (⟨p, some d⟩ : Found)) s := by
  have hmaxi := hc.maxint
  have ht0 : t ≤ 0 ∧ -2 ^ 28 ≤ t := by unfold roundUp at ht; omega
  have hu : u64 (t - 1) = (2 ^ 64 + (t - 1)).toNat := by
    unfold u64; omega
  unfold quickAlloc
  rw [bind_returns (alignUp_ok h1 (by omega) s), ht]
  have hz : Returns (sizeToIndex (8 * t)) s (t - 1) s := by
    unfold sizeToIndex Returns
    rw [bind_returns (alignUp_ok (by omega) (by omega) s), roundUp_mul]
    rw [show (8 * t).tdiv 8 = t from Int.mul_tdiv_cancel_left t (by omega)]
    rfl
  rw [bind_returns hz]
  have hq : Returns (quickSearch c (t - 1)) s (t - 1) s := by
    unfold Returns
    rw [quickSearch, if_neg (by rw [hu, N_sub]; omega)]
    rfl
  rw [bind_returns hq, if_neg (by rw [hu, N_sub]; omega)]

theorem alloc_nonpos (h : Inv c s L V) (hc : Legal c) {n : Int} (h0 : n ≤ 0) (h1 : -2 ^ 31 ≤ n)
    {t : Int} (ht : roundUp n = 8 * t) :
    ((c.max / 8 : Nat) + t < 0 ∧ Faults (alloc c n) s .outOfBounds) ∨
    ∃ k : Nat, (k : Int) = (c.max / 8 : Nat) + t ∧ k ≤ c.max / 8 ∧
      ((L k = [] ∧ Faults (alloc c n) s .nullDeref) ∨
       ∃ b post, L k = b :: post ∧
        ((s.free - 8 * t < 2 ^ 31 → -2 ^ 31 ≤ s.free - 8 * t →
          Returns (alloc c n) s b.1
            { (unlink c s k [] post) with free := s.free - 8 * t }) ∧
         (¬ (-2 ^ 31 ≤ s.free - 8 * t ∧ s.free - 8 * t < 2 ^ 31) →
          Faults (alloc c n) s .overflow))) := by
  have ht0 : t ≤ 0 ∧ -2 ^ 28 ≤ t := by unfold roundUp at ht; omega
  have hq := quickAlloc_nonpos (s := s) hc h0 h1 ht
  have hneg : ¬ n > (c.max : Int) := by omega
  by_cases hk : (c.max / 8 : Nat) + t < 0
  · left
    refine ⟨hk, ?_⟩
    unfold alloc
    rw [if_neg hneg]
    apply bind_faults
    apply bind_faults
    unfold Faults
    rw [hq]
    apply bind_faults
    unfold entry
    apply bind_faults
    have hneg1 : t - 1 < 0 := by omega
    unfold Faults check
    rw [if_neg (by rw [if_pos hneg1]; unfold Cfg.N; omega)]
  · right
    obtain ⟨k, hk'⟩ : ∃ k : Nat, (k : Int) = (c.max / 8 : Nat) + t := ⟨((c.max / 8 : Nat) + t).toNat, by omega⟩
    have hkq : k ≤ c.max / 8 := by omega
    refine ⟨k, hk', hkq, ?_⟩
    have he : Returns (entry c (t - 1)) s (c.lists + 8 * k) s := by
      unfold entry Returns
      rw [if_pos (by omega)]
      rw [bind_returns (a := ()) (s' := s)
        (by unfold Returns check; rw [if_pos (by unfold Cfg.N; omega)])]
      rw [show ((c.N : Int) + (t - 1)).toNat = k by unfold Cfg.N; omega]
      rfl
    have hr := rdNext_ok (s := s) (ok_head hc hkq) (h.next hkq (pre := []) (post := L k) rfl)
    have hi : Returns (indexToSize (t - 1)) s (8 * t) s := by
      have := indexToSize_ok (i := t - 1) (by omega) s
      rwa [show (t - 1 + 1) * 8 = 8 * t by omega] at this
    cases hL : L k with
    | nil =>
      left
      refine ⟨rfl, ?_⟩
      unfold alloc
      rw [if_neg hneg]
      apply bind_faults
      apply bind_faults
      unfold Faults
      rw [hq, bind_returns he, bind_returns hr, hL]
      rw [bind_returns hi]
      exact bind_faults (rdNext_null c s)
    | cons b post =>
      right
      refine ⟨b, post, rfl, ?_⟩
      have hbL : b ∈ L k := by rw [hL]; simp
      have hfb := h.fits hkq hbL
      have hqr : Returns (quickAlloc c n) s ⟨b.1, some (8 * t)⟩ (unlink c s k [] post) := by
        unfold Returns
        rw [hq, bind_returns he, bind_returns hr, hL]
        simp only [List.map_cons, List.headD_cons]
        rw [bind_returns hi, bind_returns (rdNext_ok hfb.ok.2 (h.next_of hkq (pre := []) hL)),
          bind_returns (wrNext_ok (ok_head hc hkq))]
        rfl
      have hstart : alloc c n s = (do
          let s ← Prog.get
          let n ← int (s.free - 8 * t)
          Prog.modify fun s => { s with free := n }
          pure b.1) (unlink c s k [] post) := by
        unfold alloc
        rw [if_neg hneg]
        have : Returns (do
            let f ← quickAlloc c n
            if f.next = 0 then poolAlloc c n else pure f) s ⟨b.1, some (8 * t)⟩
            (unlink c s k [] post) := by
          unfold Returns
          rw [bind_returns hqr, if_neg hfb.ok.1]; rfl
        rw [bind_returns this]
        simp only
        rw [if_neg hfb.ok.1, bind_returns (alignUp_ok h1 (by omega) _), ht, pure_bind]
        rw [bind_returns (int_ok (by omega) _)]
        have hins : Returns (insert c ((b.1 : Int) + 8 * t).toNat (8 * t - 8 * t))
            (unlink c s k [] post) () (unlink c s k [] post) := by
          unfold Returns insert
          rw [if_pos (by omega)]; rfl
        rw [bind_returns hins]
      refine ⟨fun hlt hge => ?_, fun hno => ?_⟩
      · unfold Returns
        rw [hstart, bind_returns (show Returns Prog.get (unlink c s k [] post) _ _ from rfl)]
        refine (bind_returns (int_ok ⟨hge, hlt⟩ _)).trans ?_
        rfl
      · unfold Faults
        rw [hstart, bind_returns (show Returns Prog.get (unlink c s k [] post) _ _ from rfl)]
        exact bind_faults (int_overflow hno _)

/-! ## What merging recovers -/

/-- Blocks in order that neither overlap nor touch leave gaps. -/
theorem gaps {l : List Block} {hi : Nat} (hs : l.Pairwise (fun a b => a.1 < b.1))
    (hd : l.Pairwise Disj) (hn : l.Pairwise (fun a b => a.1 + a.2 ≠ b.1))
    (hp : ∀ b ∈ l, 0 < b.2 ∧ b.1 + b.2 ≤ hi) {a : Block} {t : List Block} (e : l = a :: t) :
    total l + a.1 ≤ hi ∧ (t ≠ [] → total l + a.1 < hi) := by
  induction l generalizing a t with
  | nil => cases e
  | cons x l ih =>
    obtain ⟨rfl, rfl⟩ : x = a ∧ l = t := by simpa using e
    have hpa := hp x List.mem_cons_self
    cases l with
    | nil => simp only [total]; exact ⟨by omega, fun h => absurd rfl h⟩
    | cons b t =>
      have hs' := List.pairwise_cons.1 hs
      have hd' := List.pairwise_cons.1 hd
      have hn' := List.pairwise_cons.1 hn
      obtain ⟨h1, _⟩ := ih hs'.2 hd'.2 hn'.2 (fun y hy => hp y (List.mem_cons_of_mem _ hy)) rfl
      have g1 := hs'.1 b List.mem_cons_self
      have g2 := hd'.1 b List.mem_cons_self
      have g3 := hn'.1 b List.mem_cons_self
      have g4 := hp b (List.mem_cons_of_mem _ List.mem_cons_self)
      unfold Disj at g2
      rw [total]
      refine ⟨by omega, fun _ => by omega⟩

theorem flat_only_large (hsmall : ∀ i, i < c.max / 8 → L i = []) :
    (flat (c.max / 8) L).Perm (L (c.max / 8)) := by
  refine (flat_split L (Nat.le_refl _)).trans ?_
  have : flat (c.max / 8) (setL L (c.max / 8) []) = [] := by
    apply List.eq_nil_iff_forall_not_mem.2
    intro x hx
    obtain ⟨i, hi, hxi⟩ := mem_flat.1 hx
    by_cases hq : i = c.max / 8
    · rw [hq, setL_self] at hxi; cases hxi
    · rw [setL_ne hq, hsmall i (by omega)] at hxi; cases hxi
  rw [this, List.append_nil]

/-- With nothing taken and no small free block, the merged pool is one block. -/
theorem recovered (h : Inv c s L []) (hc : Legal c) (hsmall : ∀ i, i < c.max / 8 → L i = [])
    (hn : (L (c.max / 8)).Pairwise (fun a b => a.1 + a.2 ≠ b.1)) :
    L (c.max / 8) = [(c.base, c.M)] := by
  have hM := hc.M16
  have hp := flat_only_large hsmall
  have ht := h.tile
  rw [List.append_nil] at ht
  have ht := ht.perm hp
  cases hL : L (c.max / 8) with
  | nil => rw [hL] at ht; have := ht.total; simp [total] at this; omega
  | cons a t =>
    have hs := h.sorted _ (Nat.le_refl (c.max / 8))
    obtain ⟨h1, h2⟩ := gaps (hi := c.base + c.M) hs ht.disj hn
      (fun b hb => ⟨(ht.fits b hb).2.2.2, (ht.fits b hb).1.2⟩) hL
    have htot := ht.total
    have hfa := ht.fits a (by rw [hL]; simp)
    have hb1 := hfa.1.1
    have htn : t = [] := by
      cases t with
      | nil => rfl
      | cons b t => have := h2 (by simp); omega
    subst htn
    rw [hL] at htot
    simp only [total] at htot
    have e1 : a.1 = c.base := by rw [hL] at h1; simp only [total] at h1; omega
    have e2 : a.2 = c.M := by omega
    rw [show a = (c.base, c.M) from Prod.ext e1 e2]

/-- With at most one small block there is nothing to join among the small ones. -/
theorem QStar.one {L L' : Nat → List Block} (h : QStar c L L')
    (hpos : ∀ b ∈ flat (c.max / 8) L, 0 < b.2)
    (hone : ∀ i j x y, i < c.max / 8 → j < c.max / 8 → x ∈ L i → y ∈ L j → x = y) : L' = L := by
  cases h with
  | refl => rfl
  | head h1 _ =>
    obtain ⟨x, y, i, j, _, hi, hj, hx, hy, ha, _⟩ := h1
    have e := hone i j x y hi hj hx hy
    have := hpos x (mem_flat.2 ⟨i, by omega, hx⟩)
    subst e
    omega

/-- With at most one large block there is nothing to join among the large ones. -/
theorem PStar.one {L L' : Nat → List Block} (h : PStar c L L')
    (hone : (L (c.max / 8)).length ≤ 1) : L' = L := by
  cases h with
  | refl => rfl
  | head h1 _ =>
    obtain ⟨pre, b, y, t, e, _, _⟩ := h1
    rw [e] at hone
    simp at hone
    omega

theorem idx_small (hc : Legal c) : idx c 8 = 0 := by
  have := hc.max8
  unfold idx; rw [if_pos (by omega)]

theorem idx_large {sz : Nat} (h : 8 * (c.max / 8) + 8 ≤ sz) : idx c sz = c.max / 8 := by
  unfold idx; rw [if_neg (by omega)]

theorem perm_one {l : List Block} {b : Block} (h : l.Perm [b]) : l = [b] := by
  have := h.length_eq
  match l, this with
  | [x], _ =>
    have := h.mem_iff (a := x)
    simp at this
    rw [this]

end

end Verif.Sma
