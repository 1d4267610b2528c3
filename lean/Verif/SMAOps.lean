import Verif.SMAInv

/-! # allocate and deallocate preserve the invariant -/

namespace Verif.Sma

open Prog

/-- `L'` is `L` with the block `b` added to the list for its size. -/
def Put (c : Cfg) (L : Nat → List Block) (b : Block) (L' : Nat → List Block) : Prop :=
  ∃ l, l.Perm (b :: L (idx c b.2)) ∧ L' = setL L (idx c b.2) l

theorem Put.flat {c : Cfg} {L L' : Nat → List Block} {b : Block} (h : Put c L b L') :
    (flat (c.max / 8) L').Perm (b :: flat (c.max / 8) L) := by
  obtain ⟨l, hp, rfl⟩ := h
  refine (flat_set L l (idx_le c b.2)).trans ?_
  refine (hp.append_right _).trans ?_
  exact List.Perm.cons _ (flat_split L (idx_le c b.2)).symm

section
variable {c : Cfg} {s : St} {L : Nat → List Block} {V : List Block}

theorem insertWalk_ok {b : Block} (h : Inv c s L (b :: V)) (hc : Legal c) {i : Nat}
    (hi : i ≤ c.max / 8) {pre0 rest : List Block} (e : L i = pre0 ++ rest)
    (hpre : ∀ a ∈ pre0, a.1 < b.1) :
    ∃ pre post, L i = pre ++ post ∧ (∀ a ∈ pre, a.1 < b.1) ∧ (∀ a ∈ post, b.1 < a.1) ∧
      Returns (insertWalk c b.1 (loc (c.lists + 8 * i) (pre0.map (·.1)))) s
        (loc (c.lists + 8 * i) (pre.map (·.1))) s := by
  induction rest generalizing pre0 with
  | nil =>
    refine ⟨pre0, [], e, hpre, by simp, ?_⟩
    have hr := rdNext_ok (h.okChain hc hi (loc_onChain e)) (h.next hi e)
    unfold Returns
    rw [insertWalk, bind_returns hr]
    rfl
  | cons a rest ih =>
    have hr := rdNext_ok (h.okChain hc hi (loc_onChain e)) (h.next hi e)
    have haL : a ∈ L i := by rw [e]; simp
    have hne : a.1 ≠ b.1 := (h.disj hi haL List.mem_cons_self).start (h.fits hi haL).2.2.2
      (h.fitsV (b := b) List.mem_cons_self).2.2.2
    by_cases hlt : a.1 < b.1
    · have e' : L i = (pre0 ++ [a]) ++ rest := by rw [e]; simp
      have hpre' : ∀ x ∈ pre0 ++ [a], x.1 < b.1 := by
        intro x hx
        rcases List.mem_append.1 hx with hx | hx
        · exact hpre x hx
        · rw [List.mem_singleton.1 hx]; exact hlt
      obtain ⟨pre, post, h1, h2, h3, h4⟩ := ih e' hpre'
      refine ⟨pre, post, h1, h2, h3, ?_⟩
      unfold Returns
      rw [insertWalk, bind_returns hr]
      rw [loc_snoc] at h4
      simp only [List.map_cons, List.headD_cons]
      rw [if_pos ⟨(h.fits hi haL).ok.1, hlt⟩]
      exact h4
    · refine ⟨pre0, a :: rest, e, hpre, ?_, ?_⟩
      · intro x hx
        rcases List.mem_cons.1 hx with rfl | hx
        · omega
        · have hs := h.sorted i hi
          rw [e] at hs
          have := (List.pairwise_cons.1 (List.pairwise_append.1 hs).2.1).1 x hx
          omega
      · unfold Returns
        rw [insertWalk, bind_returns hr]
        simp only [List.map_cons, List.headD_cons]
        rw [if_neg (by rintro ⟨_, h⟩; exact hlt h)]
        rfl

theorem N_sub (c : Cfg) : c.N - 1 = c.max / 8 := by unfold Cfg.N; omega

/-- `insert_mem_block_to_list_d` links the block in. -/
theorem insert_ok {b : Block} (h : Inv c s L (b :: V)) (hc : Legal c) :
    ∃ pre post, L (idx c b.2) = pre ++ post ∧ (∀ a ∈ pre, a.1 < b.1) ∧ (∀ a ∈ post, b.1 < a.1) ∧
      Returns (insert c b.1 (b.2 : Int)) s () (linked c s b pre post) := by
  have hi := idx_le c b.2
  have hfb := h.fitsV (b := b) List.mem_cons_self
  have hb8 : b.2 % 8 = 0 := hfb.2.2.1
  have hb0 : 0 < b.2 := hfb.2.2.2
  have hM := hc.Mint
  have hbM : b.2 ≤ c.M := by have := hfb.1; unfold InPool at this; omega
  have hmax := hc.max8
  have hmaxi := hc.maxint
  obtain ⟨pre, post, h1, h2, h3, h4⟩ := insertWalk_ok h hc hi (pre0 := []) (rest := L (idx c b.2))
    rfl (by simp)
  refine ⟨pre, post, h1, h2, h3, ?_⟩
  have hk : b.2 = 8 * (b.2 / 8) := by omega
  have hon := loc_onChain (c := c) h1
  have hok := h.okChain hc hi hon
  unfold insert Returns
  rw [if_neg (by omega)]
  have hz := sizeToIndex_ok (k := b.2 / 8) (by omega) s
  rw [← hk] at hz
  rw [bind_returns hz]
  have hu : u64 (((b.2 / 8 : Nat) : Int) - 1) = b.2 / 8 - 1 := by
    rw [show (((b.2 / 8 : Nat) : Int) - 1) = ((b.2 / 8 - 1 : Nat) : Int) by omega]
    exact u64_nat (by omega)
  have hidx : (if u64 (((b.2 / 8 : Nat) : Int) - 1) ≥ c.N - 1 then ((c.N - 1 : Nat) : Int)
      else ((b.2 / 8 : Nat) : Int) - 1) = (idx c b.2 : Nat) := by
    rw [hu, N_sub]; unfold idx
    by_cases hlt : b.2 / 8 - 1 < c.max / 8
    · rw [if_neg (by omega), if_pos hlt]; omega
    · rw [if_pos (by omega), if_neg hlt]
  simp only [hidx]
  rw [bind_returns (entry_ok (by unfold Cfg.N; omega) s)]
  simp only [List.map_nil, loc] at h4
  rw [bind_returns h4, bind_returns (rdNext_ok hok (h.next hi h1))]
  rw [bind_returns (wrNext_ok hfb.ok.2), bind_returns (wrNext_ok hok)]
  by_cases hq : idx c b.2 = c.max / 8
  · rw [Prog.when, if_pos (by rw [hidx, N_sub, hq])]
    rw [bind_returns (rdNext_ok (q := b.1) hok (upd_self _ _ _))]
    have : 16 ≤ b.2 := by unfold idx at hq; split at hq <;> omega
    rw [wrData_ok hfb.ok.1 (hfb.ok8 this)]
    unfold linked
    simp only [if_pos hq]
  · rw [Prog.when, if_neg (by rw [hidx, N_sub]; omega)]
    unfold linked
    simp only [if_neg hq]
    rfl

theorem insert_inv {b : Block} (h : Inv c s L (b :: V)) (hc : Legal c) :
    ∃ s' L', Returns (insert c b.1 (b.2 : Int)) s () s' ∧ Inv c s' L' V ∧ Put c L b L' ∧
      Same V s s' ∧ s'.free = s.free := by
  obtain ⟨pre, post, h1, h2, h3, h4⟩ := insert_ok h hc
  obtain ⟨h5, h6⟩ := h.put hc h1 h2 h3
  exact ⟨_, _, h4, h5, ⟨_, by rw [h1]; exact List.perm_middle, rfl⟩, h6, rfl⟩

/-! ## The two searches -/

theorem quickSearch_ok (h : Inv c s L V) (hc : Legal c) {i : Nat} (hi : i ≤ c.max / 8) :
    ∃ j, i ≤ j ∧ j ≤ c.max / 8 ∧ (∀ k, i ≤ k → k < j → L k = []) ∧
      (j < c.max / 8 → L j ≠ []) ∧ Returns (quickSearch c (i : Int)) s (j : Int) s := by
  obtain ⟨d, hd⟩ : ∃ d, d = c.max / 8 - i := ⟨_, rfl⟩
  have hmaxi := hc.maxint
  induction d generalizing i with
  | zero =>
    have : i = c.max / 8 := by omega
    subst this
    refine ⟨_, Nat.le_refl _, Nat.le_refl _, by omega, by omega, ?_⟩
    unfold Returns
    rw [quickSearch, if_neg (by rw [u64_nat (by omega), N_sub]; omega)]
    rfl
  | succ d ih =>
    have hlt : i < c.max / 8 := by omega
    have hr := rdNext_ok (ok_head hc hi) (h.next hi (pre := []) (post := L i) rfl)
    by_cases hl : L i = []
    · obtain ⟨j, h1, h2, h3, h4, h5⟩ := ih (i := i + 1) (by omega) (by omega)
      refine ⟨j, by omega, h2, ?_, h4, ?_⟩
      · intro k hk1 hk2
        by_cases e : k = i
        · rw [e]; exact hl
        · exact h3 k (by omega) hk2
      · unfold Returns
        rw [quickSearch, if_pos (by rw [u64_nat (by omega), N_sub]; omega)]
        rw [bind_returns (entry_ok (by unfold Cfg.N; omega) s), bind_returns hr, hl]
        exact h5
    · refine ⟨i, Nat.le_refl _, hi, by omega, fun _ => hl, ?_⟩
      unfold Returns
      rw [quickSearch, if_pos (by rw [u64_nat (by omega), N_sub]; omega)]
      rw [bind_returns (entry_ok (by unfold Cfg.N; omega) s), bind_returns hr]
      cases hL : L i with
      | nil => exact absurd hL hl
      | cons a l =>
        have := (h.fits hi (b := a) (by rw [hL]; simp)).ok.1
        simp only [List.map_cons, List.headD_cons]
        rw [if_neg this]
        rfl

/-- `quick_mem_allocate_d` for a positive request. -/
theorem quickAlloc_ok (h : Inv c s L V) (hc : Legal c) {n : Int} (hn : 0 < n) (hm : n ≤ c.max) :
    ((∀ i, i < c.max / 8 → up8 n ≤ 8 * (i + 1) → L i = []) ∧
      Returns (quickAlloc c n) s ⟨0, some 0⟩ s) ∨
    ∃ i b post, i < c.max / 8 ∧ L i = b :: post ∧ up8 n ≤ b.2 ∧
      Returns (quickAlloc c n) s ⟨b.1, some (b.2 : Int)⟩ (unlink c s i [] post) ∧
      ∀ k, k < i → up8 n ≤ 8 * (k + 1) → L k = [] := by
  have hmaxi := hc.maxint
  have hup := up8_pos hn
  have hk : up8 n = 8 * (up8 n / 8) := by omega
  have hlast : up8 n / 8 - 1 ≤ c.max / 8 := by omega
  obtain ⟨j, h1, h2, h3, h4, h5⟩ := quickSearch_ok h hc hlast
  have hstart : ∀ (f : Int → Prog St Found), (alignUp n >>= fun b => sizeToIndex b >>= fun i =>
      quickSearch c i >>= f) s = f (j : Int) s := by
    intro f
    rw [bind_returns (alignUp_ok (by omega) (by omega) s), ← up8_cast hn]
    have hz := sizeToIndex_ok (k := up8 n / 8) (by omega) s
    rw [← hk] at hz
    rw [bind_returns hz]
    rw [show (((up8 n / 8 : Nat) : Int) - 1) = ((up8 n / 8 - 1 : Nat) : Int) by omega]
    rw [bind_returns h5]
  by_cases hj : j = c.max / 8
  · left
    refine ⟨fun i hi hu => h3 i (by omega) (by omega), ?_⟩
    unfold Returns quickAlloc
    rw [hstart, if_pos (by rw [u64_nat (by omega), N_sub]; exact hj)]
    rfl
  · right
    have hjlt : j < c.max / 8 := by omega
    cases hL : L j with
    | nil => exact absurd hL (h4 hjlt)
    | cons b post =>
      have hbm : b ∈ L j := by rw [hL]; simp
      have hb2 := h.small j hjlt b hbm
      refine ⟨j, b, post, hjlt, hL, by omega, ?_, fun k hk1 hk2 => h3 k (by omega) hk1⟩
      unfold Returns quickAlloc
      rw [hstart, if_neg (by rw [u64_nat (by omega), N_sub]; exact hj)]
      rw [bind_returns (entry_ok (by unfold Cfg.N; omega) s)]
      have hr := rdNext_ok (ok_head hc h2) (h.next h2 (pre := []) (post := L j) rfl)
      rw [bind_returns hr, hL]
      simp only [List.map_cons, List.headD_cons]
      unfold indexToSize
      rw [bind_returns (int_ok (by omega) s)]
      rw [bind_returns (rdNext_ok (h.fits h2 hbm).ok.2 (h.next_of h2 (pre := []) hL))]
      rw [bind_returns (wrNext_ok (ok_head hc h2))]
      rw [hb2]
      rw [show ((8 * (j + 1) : Nat) : Int) = ((j : Int) + 1) * 8 by omega]
      rfl

theorem poolSearch_ok (h : Inv c s L V) (hc : Legal c) (n : Nat) {pre0 rest : List Block}
    (e : L (c.max / 8) = pre0 ++ rest) (hpre : ∀ a ∈ pre0, a.2 < n) :
    ∃ pre post, L (c.max / 8) = pre ++ post ∧ (∀ a ∈ pre, a.2 < n) ∧
      (∀ b l, post = b :: l → n ≤ b.2) ∧
      Returns (poolSearch c (n : Int) (loc (c.lists + 8 * (c.max / 8)) (pre0.map (·.1)))) s
        (loc (c.lists + 8 * (c.max / 8)) (pre.map (·.1))) s := by
  have hi : c.max / 8 ≤ c.max / 8 := Nat.le_refl _
  induction rest generalizing pre0 with
  | nil =>
    refine ⟨pre0, [], e, hpre, by simp, ?_⟩
    unfold Returns
    rw [poolSearch, bind_returns (rdNext_ok (h.okChain hc hi (loc_onChain e)) (h.next hi e))]
    rfl
  | cons a rest ih =>
    have haL : a ∈ L (c.max / 8) := by rw [e]; simp
    have hfa := h.fits hi haL
    have hr := rdNext_ok (h.okChain hc hi (loc_onChain e)) (h.next hi e)
    have hdt := rdData_ok (s := s) hfa.ok.1 (hfa.ok8 (h.big16 hc haL)) (h.data a haL)
    by_cases hlt : n ≤ a.2
    · refine ⟨pre0, a :: rest, e, hpre, ?_, ?_⟩
      · intro b l hb; cases hb; exact hlt
      · unfold Returns
        rw [poolSearch, bind_returns hr]
        simp only [List.map_cons, List.headD_cons]
        rw [if_neg hfa.ok.1, bind_returns hdt, if_pos (by omega)]
        rfl
    · have hpre' : ∀ x ∈ pre0 ++ [a], x.2 < n := by
        intro x hx
        rcases List.mem_append.1 hx with hx | hx
        · exact hpre x hx
        · rw [List.mem_singleton.1 hx]; omega
      obtain ⟨pre, post, h1, h2, h3, h4⟩ := ih (pre0 := pre0 ++ [a]) (by rw [e]; simp) hpre'
      refine ⟨pre, post, h1, h2, h3, ?_⟩
      unfold Returns
      rw [poolSearch, bind_returns hr]
      simp only [List.map_cons, List.headD_cons]
      rw [if_neg hfa.ok.1, bind_returns hdt, if_neg (by omega)]
      rw [loc_snoc] at h4
      exact h4

/-- `mem_pool_allocate_d` for a positive request. -/
theorem poolAlloc_ok (h : Inv c s L V) (hc : Legal c) {n : Int} (hn : 0 < n)
    (hm : n + 8 < 2 ^ 31) :
    ((∀ b ∈ L (c.max / 8), b.2 < up8 n) ∧ Returns (poolAlloc c n) s ⟨0, none⟩ s) ∨
    ∃ pre b post, L (c.max / 8) = pre ++ b :: post ∧ up8 n ≤ b.2 ∧
      Returns (poolAlloc c n) s ⟨b.1, some (b.2 : Int)⟩ (unlink c s (c.max / 8) pre post) ∧
      ∀ a ∈ pre, a.2 < up8 n := by
  have hi : c.max / 8 ≤ c.max / 8 := Nat.le_refl _
  obtain ⟨pre, post, h1, h2, h3, h4⟩ := poolSearch_ok h hc (up8 n) (pre0 := [])
    (rest := L (c.max / 8)) rfl (by simp)
  simp only [List.map_nil, loc] at h4
  have hr := rdNext_ok (h.okChain hc hi (loc_onChain h1)) (h.next hi h1)
  have hstart : ∀ (f : Nat → Nat → Prog St Found), (alignUp n >>= fun b => entry c (-1) >>= fun h =>
      poolSearch c b h >>= fun p => rdNext c p >>= fun t => f p t) s =
      f (loc (c.lists + 8 * (c.max / 8)) (pre.map (·.1))) ((post.map (·.1)).headD 0) s := by
    intro f
    rw [bind_returns (alignUp_ok (by omega) hm s), ← up8_cast hn, bind_returns (entry_last c s),
      bind_returns h4, bind_returns hr]
  cases post with
  | nil =>
    left
    refine ⟨fun b hb => h2 b (by rw [h1] at hb; simpa using hb), ?_⟩
    unfold Returns poolAlloc
    rw [hstart]
    rfl
  | cons b post =>
    right
    refine ⟨pre, b, post, h1, h3 b post rfl, ?_, h2⟩
    have hbL : b ∈ L (c.max / 8) := by rw [h1]; simp
    have hfb := h.fits hi hbL
    unfold Returns poolAlloc
    rw [hstart]
    simp only [List.map_cons, List.headD_cons]
    rw [if_pos hfb.ok.1,
      bind_returns (rdData_ok (s := s) hfb.ok.1 (hfb.ok8 (h.big16 hc hbL)) (h.data b hbL)),
      bind_returns (rdNext_ok hfb.ok.2 (h.next_of hi h1)),
      bind_returns (wrNext_ok (h.okChain hc hi (loc_onChain h1)))]
    rfl

/-! ## allocate -/

/-- The blocks that `allocate` leaves when it takes `n` bytes out of block `b`. -/
def Rest (c : Cfg) (L : Nat → List Block) (b : Block) (n : Nat) (L' : Nat → List Block) : Prop :=
  (b.2 = n ∧ L' = L) ∨ (n < b.2 ∧ Put c L (b.1 + n, b.2 - n) L')

/-- The block that `allocate` takes, the one after `pre` on list `i`: the first one of the first list
of small blocks that are large enough, or else the first one that is large enough on the last list. -/
def Chosen (c : Cfg) (L : Nat → List Block) (n : Int) (i : Nat) (pre : List Block) : Prop :=
  (i < c.max / 8 ∧ n ≤ c.max ∧ pre = [] ∧ ∀ k, k < i → up8 n ≤ 8 * (k + 1) → L k = []) ∨
  (i = c.max / 8 ∧ (∀ a ∈ pre, a.2 < up8 n) ∧
    (n ≤ c.max → ∀ k, k < i → up8 n ≤ 8 * (k + 1) → L k = []))

/-- `allocate` for a positive request: it fails, changing nothing, only when no free block is
large enough; otherwise it takes the front of one that is. -/
theorem alloc_choice (h : Inv c s L V) (hc : Legal c) (hfree : s.free = total (flat (c.max / 8) L))
    {n : Int} (hn : 0 < n) (hm : n + 8 < 2 ^ 31) :
    ((∀ i, i ≤ c.max / 8 → ∀ b ∈ L i, b.2 < up8 n) ∧ Returns (alloc c n) s 0 s) ∨
    ∃ i pre b post s' L', i ≤ c.max / 8 ∧ L i = pre ++ b :: post ∧ up8 n ≤ b.2 ∧
      Returns (alloc c n) s b.1 s' ∧ Inv c s' L' ((b.1, up8 n) :: V) ∧ Same V s s' ∧
      s'.free = s.free - up8 n ∧ Rest c (setL L i (pre ++ post)) b (up8 n) L' ∧ Chosen c L n i pre := by
  have hup := up8_pos hn
  have hmaxi := hc.maxint
  -- what happens once a block was taken
  have tail : ∀ (p : Prog St Found) i pre b post, i ≤ c.max / 8 → L i = pre ++ b :: post →
      up8 n ≤ b.2 → Returns p s ⟨b.1, some (b.2 : Int)⟩ (unlink c s i pre post) →
      ∃ s' L', Returns (p >>= fun f => if f.next = 0 then pure 0
        else do
          let a ← alignUp n
          let d ← (match f.data with
            | some d => pure d
            | none => fail .uninit)
          let frag ← int (d - a)
          insert c ((f.next : Int) + a).toNat frag
          let s ← Prog.get
          let n ← int (s.free - a)
          Prog.modify fun s => { s with free := n }
          pure f.next) s b.1 s' ∧ Inv c s' L' ((b.1, up8 n) :: V) ∧ Same V s s' ∧
      s'.free = s.free - up8 n ∧ Rest c (setL L i (pre ++ post)) b (up8 n) L' := by
    intro p i pre b post hi hL hle hp
    obtain ⟨ht, hsame⟩ := h.take hc hi hL
    have hbL : b ∈ L i := by rw [hL]; simp
    have hfb := h.fits hi hbL
    have hbM : b.2 ≤ c.M := by have := hfb.1; unfold InPool at this; omega
    have hM := hc.Mint
    have hbt : b.2 ≤ total (flat (c.max / 8) L) := total_mem (mem_flat.2 ⟨i, hi, hbL⟩)
    have htM : total (flat (c.max / 8) L) ≤ c.M := by
      have := h.tile.total; rw [total_append] at this; omega
    have hins : ∃ s' L', Returns (insert c ((b.1 : Int) + (up8 n : Int)).toNat ((b.2 : Int) - up8 n))
        (unlink c s i pre post) () s' ∧ Inv c s' L' ((b.1, up8 n) :: V) ∧
        Same ((b.1, up8 n) :: V) (unlink c s i pre post) s' ∧ s'.free = s.free ∧
        Rest c (setL L i (pre ++ post)) b (up8 n) L' := by
      by_cases heq : b.2 = up8 n
      · refine ⟨unlink c s i pre post, _, ?_, ?_, Same.refl _ _, rfl, Or.inl ⟨heq, rfl⟩⟩
        · unfold Returns insert
          rw [if_pos (by omega)]; rfl
        · have : b = (b.1, up8 n) := by rw [← heq]
          rw [← this]; exact ht
      · have hsp : Inv c (unlink c s i pre post) (setL L i (pre ++ post))
            ((b.1 + up8 n, b.2 - up8 n) :: (b.1, up8 n) :: V) := by
          refine ht.mono fun t => ?_
          have t1 := t.perm List.perm_middle
          have e : b = (b.1, up8 n + (b.2 - up8 n)) := by
            rw [Nat.add_sub_cancel' hle]
          rw [e] at t1
          have t2 := t1.split hup.1 (by omega) hup.2.2.2
          have t3 := t2.perm (List.Perm.swap _ _ _)
          refine t3.perm ?_
          refine List.Perm.trans (List.Perm.cons _ List.perm_middle.symm) ?_
          exact List.perm_middle.symm
        obtain ⟨s', L', h1, h2, h3, h4, h5⟩ := insert_inv hsp hc
        refine ⟨s', L', ?_, h2, h4, h5, Or.inr ⟨by omega, h3⟩⟩
        rw [show ((b.1 : Int) + (up8 n : Int)).toNat = b.1 + up8 n by omega]
        rw [show (b.2 : Int) - (up8 n : Int) = ((b.2 - up8 n : Nat) : Int) by omega]
        exact h1
    obtain ⟨s', L', h1, h2, h3, h4, h5⟩ := hins
    refine ⟨{ s' with free := s'.free - up8 n }, L', ?_, h2.free _, ?_, ?_, h5⟩
    · unfold Returns
      rw [bind_returns hp]
      simp only
      rw [if_neg hfb.ok.1, bind_returns (alignUp_ok (by omega) hm _), ← up8_cast hn]
      rw [pure_bind]
      rw [bind_returns (int_ok (by omega) _), bind_returns h1]
      rw [bind_returns (show Returns Prog.get s' s' s' from rfl)]
      rw [bind_returns (int_ok (by rw [h4, hfree]; omega) _)]
      rfl
    · exact (hsame.sub fun v hv => List.mem_cons_of_mem _ hv).trans
        (fun v hv x hx1 hx2 => h3 v (List.mem_cons_of_mem _ hv) x hx1 hx2)
    · show s'.free - up8 n = _
      rw [h4]
  have fail0 : ∀ (p : Prog St Found) d, Returns p s ⟨0, d⟩ s →
      Returns (p >>= fun f => if f.next = 0 then pure 0
        else do
          let a ← alignUp n
          let d ← (match f.data with
            | some d => pure d
            | none => fail .uninit)
          let frag ← int (d - a)
          insert c ((f.next : Int) + a).toNat frag
          let s ← Prog.get
          let n ← int (s.free - a)
          Prog.modify fun s => { s with free := n }
          pure f.next) s 0 s := by
    intro p d hp
    unfold Returns
    rw [bind_returns hp]
    rfl
  unfold alloc
  by_cases hbig : n > c.max
  · rw [if_pos hbig]
    rcases poolAlloc_ok h hc hn hm with ⟨h1, h2⟩ | ⟨pre, b, post, h1, h2, h3, hch⟩
    · left
      refine ⟨?_, fail0 _ _ h2⟩
      intro i hi b hb
      by_cases hiq : i = c.max / 8
      · subst hiq; exact h1 b hb
      · have := h.small i (by omega) b hb
        omega
    · right
      obtain ⟨s', L', h4⟩ := tail _ _ _ _ _ (Nat.le_refl _) h1 h2 h3
      obtain ⟨k1, k2, k3, k4, k5⟩ := h4
      exact ⟨_, pre, b, post, s', L', Nat.le_refl _, h1, h2, k1, k2, k3, k4, k5,
        Or.inr ⟨rfl, hch, fun hle => by omega⟩⟩
  · rw [if_neg hbig]
    rcases quickAlloc_ok h hc hn (by omega) with ⟨h1, h2⟩ | ⟨i, b, post, h1, h2, h3, h4, hch⟩
    · rcases poolAlloc_ok h hc hn hm with ⟨h1', h2'⟩ | ⟨pre, b, post, h1', h2', h3', hch⟩
      · left
        refine ⟨?_, fail0 _ none ?_⟩
        · intro i hi b hb
          by_cases hiq : i = c.max / 8
          · subst hiq; exact h1' b hb
          · by_cases hlt : up8 n ≤ 8 * (i + 1)
            · rw [h1 i (by omega) hlt] at hb; cases hb
            · have := h.small i (by omega) b hb
              omega
        · unfold Returns
          rw [bind_returns h2, if_pos rfl]
          exact h2'
      · right
        obtain ⟨s', L', h4⟩ := tail (do
          let f ← quickAlloc c n
          if f.next = 0 then poolAlloc c n else pure f) _ _ _ _ (Nat.le_refl _) h1' h2' (by
            unfold Returns
            rw [bind_returns h2, if_pos rfl]
            exact h3')
        obtain ⟨k1, k2, k3, k4, k5⟩ := h4
        exact ⟨_, pre, b, post, s', L', Nat.le_refl _, h1', h2', k1, k2, k3, k4, k5,
          Or.inr ⟨rfl, hch, fun _ k hk => h1 k hk⟩⟩
    · right
      obtain ⟨s', L', h5⟩ := tail (do
        let f ← quickAlloc c n
        if f.next = 0 then poolAlloc c n else pure f) i [] b post (by omega) h2 h3 (by
          unfold Returns
          rw [bind_returns h4, if_neg (h.fits (i := i) (by omega) (b := b) (by rw [h2]; simp)).ok.1]
          rfl)
      obtain ⟨k1, k2, k3, k4, k5⟩ := h5
      exact ⟨i, [], b, post, s', L', by omega, h2, h3, k1, k2, k3, k4, k5,
        Or.inl ⟨h1, by omega, rfl, hch⟩⟩

/-- The same without telling which block. -/
theorem alloc_ok (h : Inv c s L V) (hc : Legal c) (hfree : s.free = total (flat (c.max / 8) L))
    {n : Int} (hn : 0 < n) (hm : n + 8 < 2 ^ 31) :
    ((∀ i, i ≤ c.max / 8 → ∀ b ∈ L i, b.2 < up8 n) ∧ Returns (alloc c n) s 0 s) ∨
    ∃ i pre b post s' L', i ≤ c.max / 8 ∧ L i = pre ++ b :: post ∧ up8 n ≤ b.2 ∧
      Returns (alloc c n) s b.1 s' ∧ Inv c s' L' ((b.1, up8 n) :: V) ∧ Same V s s' ∧
      s'.free = s.free - up8 n ∧ Rest c (setL L i (pre ++ post)) b (up8 n) L' := by
  rcases alloc_choice h hc hfree hn hm with h1 | ⟨i, pre, b, post, s', L', h1, h2, h3, h4, h5, h6, h7, h8, _⟩
  · exact Or.inl h1
  · exact Or.inr ⟨i, pre, b, post, s', L', h1, h2, h3, h4, h5, h6, h7, h8⟩

/-! ## deallocate -/

theorem dealloc_ok {a : Nat} {n : Int} (h : Inv c s L ((a, up8 n) :: V)) (hc : Legal c)
    (hfree : s.free = total (flat (c.max / 8) L)) (hn : 0 < n) (hm : n + 8 < 2 ^ 31) :
    ∃ s' L', Returns (dealloc c a n) s true s' ∧ Inv c s' L' V ∧ Put c L (a, up8 n) L' ∧
      Same V s s' ∧ s'.free = s.free + up8 n := by
  have hup := up8_pos hn
  have hM := hc.Mint
  have htM : total (flat (c.max / 8) L) + up8 n ≤ c.M := by
    have := h.tile.total; rw [total_append] at this; simp only [total] at this; omega
  obtain ⟨s', L', h1, h2, h3, h4, h5⟩ := insert_inv h hc
  refine ⟨{ s' with free := s'.free + up8 n }, L', ?_, h2.free _, h3, h4, ?_⟩
  · have h0 := (h.fitsV (b := (a, up8 n)) List.mem_cons_self).ok.1
    unfold Returns dealloc
    rw [if_neg (by rintro (h | h); omega; exact h0 h)]
    rw [bind_returns (alignUp_ok (by omega) hm s), ← up8_cast hn]
    simp only at h1
    rw [bind_returns h1, bind_returns (alignUp_ok (by omega) hm _), ← up8_cast hn]
    rw [bind_returns (show Returns Prog.get s' s' s' from rfl)]
    rw [bind_returns (int_ok (by rw [h5, hfree]; omega) _)]
    rfl
  · show s'.free + up8 n = _
    rw [h5]

end

end Verif.Sma
