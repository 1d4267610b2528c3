import Verif.SMALemmas

/-! # The invariant of the static allocator and the ways it changes -/

namespace Verif.Sma

open Prog

/-- The free lists are `L 0 … L q`; `V` are the blocks that are on no list.  Together they
tile the pool. -/
structure Inv (c : Cfg) (s : St) (L : Nat → List Block) (V : List Block) : Prop where
  chain : ∀ i, i ≤ c.max / 8 → Chain s.mem (c.lists + 8 * i) ((L i).map (·.1))
  small : ∀ i, i < c.max / 8 → ∀ b ∈ L i, b.2 = 8 * (i + 1)
  data : ∀ b ∈ L (c.max / 8), s.mem (b.1 + 8) = .size b.2
  big : ∀ b ∈ L (c.max / 8), 8 * (c.max / 8 + 1) ≤ b.2 ∨ b.2 = c.M
  sorted : ∀ i, i ≤ c.max / 8 → (L i).Pairwise (fun a b => a.1 < b.1)
  tile : Tile c (flat (c.max / 8) L ++ V)

/-- Nothing changed inside the blocks `V`. -/
def Same (V : List Block) (s s' : St) : Prop :=
  ∀ v ∈ V, ∀ x, v.1 ≤ x → x < v.1 + v.2 → s'.mem x = s.mem x

theorem Same.refl (V : List Block) (s : St) : Same V s s := fun _ _ _ _ _ => rfl

theorem Same.trans {V : List Block} {s s' s'' : St} (h : Same V s s') (h' : Same V s' s'') :
    Same V s s'' := fun v hv x h1 h2 => (h' v hv x h1 h2).trans (h v hv x h1 h2)

theorem Same.sub {V V' : List Block} {s s' : St} (h : Same V s s') (hs : ∀ v ∈ V', v ∈ V) :
    Same V' s s' := fun v hv => h v (hs v hv)

section
variable {c : Cfg} {s : St} {L : Nat → List Block} {V : List Block}

theorem Inv.mono {V' : List Block} (h : Inv c s L V)
    (ht : Tile c (flat (c.max / 8) L ++ V) → Tile c (flat (c.max / 8) L ++ V')) : Inv c s L V' :=
  ⟨h.chain, h.small, h.data, h.big, h.sorted, ht h.tile⟩

theorem Inv.permV {V' : List Block} (h : Inv c s L V) (p : V.Perm V') : Inv c s L V' :=
  h.mono fun t => t.perm (p.append_left _)

theorem Inv.free (h : Inv c s L V) (f : Int) : Inv c { s with free := f } L V :=
  ⟨h.chain, h.small, h.data, h.big, h.sorted, h.tile⟩

theorem Inv.mem (_ : Inv c s L V) {i : Nat} (hi : i ≤ c.max / 8) {b : Block} (hb : b ∈ L i) :
    b ∈ flat (c.max / 8) L ++ V := List.mem_append_left _ (mem_flat.2 ⟨i, hi, hb⟩)

theorem Inv.memV (_ : Inv c s L V) {b : Block} (hb : b ∈ V) :
    b ∈ flat (c.max / 8) L ++ V := List.mem_append_right _ hb

theorem Inv.fits (h : Inv c s L V) {i : Nat} (hi : i ≤ c.max / 8) {b : Block} (hb : b ∈ L i) :
    Fits c b := h.tile.fits b (h.mem hi hb)

theorem Inv.fitsV (h : Inv c s L V) {b : Block} (hb : b ∈ V) : Fits c b := h.tile.fits b (h.memV hb)

theorem Inv.big16 (h : Inv c s L V) (hc : Legal c) {b : Block} (hb : b ∈ L (c.max / 8)) :
    16 ≤ b.2 := by
  have := h.big b hb
  have := hc.M16
  have := hc.max8
  omega

theorem lists_ge (c : Cfg) : c.base + c.M ≤ c.lists := by
  unfold Cfg.base Cfg.lists; omega

/-- List heads are outside the pool. -/
theorem head_out {b : Block} (hf : Fits c b) {i x : Nat} (_h1 : b.1 ≤ x) (h2 : x < b.1 + b.2) :
    x ≠ c.lists + 8 * i := by
  have := lists_ge c
  have := hf.1.2
  omega

/-- A free block and a block that is on no list are disjoint. -/
theorem Inv.disj (h : Inv c s L V) {i : Nat} (hi : i ≤ c.max / 8) {b : Block} (hb : b ∈ L i)
    {v : Block} (hv : v ∈ V) : Disj b v := by
  have := (List.pairwise_append.1 h.tile.disj).2.2
  exact this b (mem_flat.2 ⟨i, hi, hb⟩) v hv

theorem flat_pair_aux {i k : Nat} (L : Nat → List Block) {ks : List Nat} (hi : i ∈ ks) (hk : k ∈ ks)
    (hne : i ≠ k) (hp : (ks.flatMap L).Pairwise Disj) : ∀ a ∈ L i, ∀ b ∈ L k, Disj a b := by
  intro a ha b hb
  induction ks with
  | nil => cases hi
  | cons x ks ih =>
    rw [List.flatMap_cons] at hp
    have hp' := List.pairwise_append.1 hp
    rcases List.mem_cons.1 hi with e | hi
    · rcases List.mem_cons.1 hk with e' | hk
      · exact absurd (e.trans e'.symm) hne
      · exact hp'.2.2 a (e ▸ ha) b (List.mem_flatMap.2 ⟨k, hk, hb⟩)
    · rcases List.mem_cons.1 hk with e' | hk
      · exact (hp'.2.2 b (e' ▸ hb) a (List.mem_flatMap.2 ⟨i, hi, ha⟩)).symm
      · exact ih hi hk hp'.2.1

/-- Blocks on different lists are disjoint. -/
theorem Inv.disj_lists (h : Inv c s L V) {i k : Nat} (hi : i ≤ c.max / 8) (hk : k ≤ c.max / 8)
    (hne : i ≠ k) {a b : Block} (ha : a ∈ L i) (hb : b ∈ L k) : Disj a b := by
  have := (List.pairwise_append.1 h.tile.disj).1
  exact flat_pair_aux L (List.mem_range.2 (by omega)) (List.mem_range.2 (by omega)) hne this a ha b hb

/-- Blocks on one list with different addresses are disjoint. -/
theorem Inv.disj_same (h : Inv c s L V) {i : Nat} (hi : i ≤ c.max / 8) {a b : Block}
    (ha : a ∈ L i) (hb : b ∈ L i) (hne : a ≠ b) : Disj a b :=
  h.tile.disj_mem (h.mem hi ha) (h.mem hi hb) hne

theorem Disj.start {a b : Block} (h : Disj a b) (h1 : 0 < a.2) (h2 : 0 < b.2) : a.1 ≠ b.1 := by
  unfold Disj at h; omega

theorem nodup_map_fst {l : List Block} (h : l.Pairwise (fun a b => a.1 < b.1)) :
    (l.map (·.1)).Nodup := by
  unfold List.Nodup
  rw [List.pairwise_map]
  exact h.imp fun h e => by omega

theorem Inv.nodup (h : Inv c s L V) {i : Nat} (hi : i ≤ c.max / 8) :
    ((c.lists + 8 * i) :: (L i).map (·.1)).Nodup := by
  refine List.nodup_cons.2 ⟨?_, nodup_map_fst (h.sorted i hi)⟩
  intro hm
  obtain ⟨b, hb, e⟩ := List.mem_map.1 hm
  have := h.fits hi hb
  have hp := this.2.2.2
  exact head_out this (i := i) (Nat.le_refl _) (by omega) e

/-- The cells that hold list `i`. -/
def OnChain (c : Cfg) (L : Nat → List Block) (i x : Nat) : Prop :=
  x = c.lists + 8 * i ∨ ∃ b ∈ L i, x = b.1

theorem loc_onChain {i : Nat} {pre post : List Block} (e : L i = pre ++ post) :
    OnChain c L i (loc (c.lists + 8 * i) (pre.map (·.1))) := by
  rcases loc_mem (c.lists + 8 * i) (pre.map (·.1)) with e' | e'
  · exact Or.inl e'
  · obtain ⟨b, hb, e2⟩ := List.mem_map.1 e'
    exact Or.inr ⟨b, by rw [e]; exact List.mem_append_left _ hb, e2.symm⟩

theorem Inv.okChain (h : Inv c s L V) (hc : Legal c) {i x : Nat} (hi : i ≤ c.max / 8)
    (hx : OnChain c L i x) : Ok c x := by
  rcases hx with rfl | ⟨b, hb, rfl⟩
  · exact ok_head hc hi
  · exact (h.fits hi hb).ok.2

/-- Cells of different lists differ. -/
theorem Inv.chain_ne (h : Inv c s L V) {i k x y : Nat} (hi : i ≤ c.max / 8) (hk : k ≤ c.max / 8)
    (hne : i ≠ k) (hx : OnChain c L i x) (hy : OnChain c L k y) : x ≠ y := by
  rcases hx with rfl | ⟨a, ha, rfl⟩ <;> rcases hy with rfl | ⟨b, hb, rfl⟩
  · omega
  · have hf := h.fits hk hb
    exact (head_out hf (Nat.le_refl _) (by have := hf.2.2.2; omega)).symm
  · have hf := h.fits hi ha
    exact head_out hf (Nat.le_refl _) (by have := hf.2.2.2; omega)
  · exact (h.disj_lists hi hk hne ha hb).start (h.fits hi ha).2.2.2 (h.fits hk hb).2.2.2

/-- Cells of lists differ from the places where sizes are stored. -/
theorem Inv.data_ne (h : Inv c s L V) (hc : Legal c) {i x : Nat} (hi : i ≤ c.max / 8)
    (hx : OnChain c L i x) {b : Block} (hb : b ∈ L (c.max / 8)) : b.1 + 8 ≠ x := by
  have h16 := h.big16 hc hb
  have hf := h.fits (Nat.le_refl _) hb
  rcases hx with rfl | ⟨a, ha, rfl⟩
  · exact head_out hf (by omega) (by omega)
  · intro e
    have hfa := (h.fits hi ha).2.2.2
    by_cases hne : a = b
    · subst hne; omega
    · have := h.tile.disj_mem (h.mem hi ha) (h.mem (Nat.le_refl _) hb) hne
      unfold Disj at this; omega

/-- Cells of lists are outside the blocks that are on no list. -/
theorem Inv.chain_out (h : Inv c s L V) {i x : Nat} (hi : i ≤ c.max / 8) (hx : OnChain c L i x)
    {v : Block} (hv : v ∈ V) {y : Nat} (h1 : v.1 ≤ y) (h2 : y < v.1 + v.2) : x ≠ y := by
  rcases hx with rfl | ⟨a, ha, rfl⟩
  · exact (head_out (h.fitsV hv) h1 h2).symm
  · have := h.disj hi ha hv
    have := (h.fits hi ha).2.2.2
    unfold Disj at *; omega

theorem Inv.data_out (h : Inv c s L V) (hc : Legal c) {b : Block} (hb : b ∈ L (c.max / 8))
    {v : Block} (hv : v ∈ V) {y : Nat} (h1 : v.1 ≤ y) (h2 : y < v.1 + v.2) : b.1 + 8 ≠ y := by
  have := h.disj (Nat.le_refl _) hb hv
  have := h.big16 hc hb
  unfold Disj at *; omega

/-- Writing inside a block that is on no list is harmless. -/
theorem Inv.write (h : Inv c s L V) (hc : Legal c) {v : Block} (hv : v ∈ V) {y : Nat}
    (h1 : v.1 ≤ y) (h2 : y < v.1 + v.2) (z : Cell) :
    Inv c { s with mem := upd s.mem y z } L V := by
  refine ⟨fun i hi => chain_frame (h.chain i hi) fun x hx => upd_ne ?_, h.small, fun b hb => ?_,
    h.big, h.sorted, h.tile⟩
  · refine h.chain_out hi ?_ hv h1 h2
    rcases hx with e | e
    · exact Or.inl e
    · obtain ⟨b, hb, e⟩ := List.mem_map.1 e
      exact Or.inr ⟨b, hb, e.symm⟩
  · show upd s.mem y z (b.1 + 8) = _
    rw [upd_ne (h.data_out hc hb hv h1 h2)]
    exact h.data b hb

/-- The link after `pre` points to the head of the rest. -/
theorem Inv.next (h : Inv c s L V) {i : Nat} (hi : i ≤ c.max / 8) {pre post : List Block}
    (e : L i = pre ++ post) :
    s.mem (loc (c.lists + 8 * i) (pre.map (·.1))) = .link ((post.map (·.1)).headD 0) := by
  have := h.chain i hi
  rw [e, List.map_append, chain_append] at this
  exact chain_head this.2

theorem loc_snoc (h : Nat) (pre : List Block) (b : Block) :
    loc h ((pre ++ [b]).map (·.1)) = b.1 := by
  rw [List.map_append, loc_append]; rfl

/-- The link of a block on a list points to the next block. -/
theorem Inv.next_of (h : Inv c s L V) {i : Nat} (hi : i ≤ c.max / 8) {pre post : List Block}
    {b : Block} (e : L i = pre ++ b :: post) :
    s.mem b.1 = .link ((post.map (·.1)).headD 0) := by
  have := h.next (pre := pre ++ [b]) (post := post) hi (by rw [e]; simp)
  rwa [loc_snoc] at this

/-- The state after unlinking the block after `pre` in list `i`. -/
def unlink (c : Cfg) (s : St) (i : Nat) (pre post : List Block) : St :=
  ⟨upd s.mem (loc (c.lists + 8 * i) (pre.map (·.1))) (.link ((post.map (·.1)).headD 0)), s.free⟩

/-- Unlinking a block takes it off its list. -/
theorem Inv.take (h : Inv c s L V) (hc : Legal c) {i : Nat} (hi : i ≤ c.max / 8)
    {pre post : List Block} {b : Block} (e : L i = pre ++ b :: post) :
    Inv c (unlink c s i pre post) (setL L i (pre ++ post)) (b :: V) ∧
      Same (b :: V) s (unlink c s i pre post) := by
  have hon : OnChain c L i (loc (c.lists + 8 * i) (pre.map (·.1))) := loc_onChain e
  have hnd := h.nodup hi
  have hch := h.chain i hi
  rw [e, List.map_append, List.map_cons] at hnd hch
  obtain ⟨h1, h2, r, h3, h4, h5⟩ := chain_del hch hnd
  subst h4
  refine ⟨⟨?_, ?_, ?_, ?_, ?_, ?_⟩, ?_⟩
  · intro k hk
    by_cases hki : k = i
    · subst hki
      rw [setL_self, List.map_append]
      exact h5
    · rw [setL_ne hki]
      refine chain_frame (h.chain k hk) fun x hx => upd_ne ?_
      refine h.chain_ne hk hi hki ?_ hon
      rcases hx with e | e
      · exact Or.inl e
      · obtain ⟨b, hb, e⟩ := List.mem_map.1 e
        exact Or.inr ⟨b, hb, e.symm⟩
  · intro k hk x hx
    by_cases hki : k = i
    · subst hki
      rw [setL_self] at hx
      refine h.small k hk x ?_
      rw [e]
      rcases List.mem_append.1 hx with hx | hx
      · exact List.mem_append_left _ hx
      · exact List.mem_append_right _ (List.mem_cons_of_mem _ hx)
    · rw [setL_ne hki] at hx
      exact h.small k hk x hx
  · intro x hx
    have hx' : x ∈ L (c.max / 8) := by
      by_cases hki : c.max / 8 = i
      · rw [hki, setL_self] at hx
        rw [hki, e]
        rcases List.mem_append.1 hx with hx | hx
        · exact List.mem_append_left _ hx
        · exact List.mem_append_right _ (List.mem_cons_of_mem _ hx)
      · rwa [setL_ne hki] at hx
    show upd s.mem _ _ (x.1 + 8) = _
    rw [upd_ne (h.data_ne hc hi hon hx')]
    exact h.data x hx'
  · intro x hx
    refine h.big x ?_
    by_cases hki : c.max / 8 = i
    · rw [hki, setL_self] at hx
      rw [hki, e]
      rcases List.mem_append.1 hx with hx | hx
      · exact List.mem_append_left _ hx
      · exact List.mem_append_right _ (List.mem_cons_of_mem _ hx)
    · rwa [setL_ne hki] at hx
  · intro k hk
    by_cases hki : k = i
    · subst hki
      rw [setL_self]
      have := h.sorted k hk
      rw [e] at this
      exact this.sublist (List.Sublist.append_left (List.sublist_cons_self _ _) _)
    · rw [setL_ne hki]; exact h.sorted k hk
  · refine h.tile.perm ?_
    refine ((flat_split L hi).append_right V).trans ?_
    refine List.Perm.trans ?_ ((flat_set L (pre ++ post) hi).symm.append_right _)
    rw [e]
    simp only [List.append_assoc, List.cons_append]
    refine List.Perm.append_left _ ?_
    refine List.Perm.trans ?_ (List.Perm.append_left _ List.perm_middle.symm)
    exact List.perm_middle.symm
  · intro v hv x hx1 hx2
    refine upd_ne ?_
    rcases List.mem_cons.1 hv with rfl | hv
    · intro ex
      have hb : v ∈ L i := by rw [e]; simp
      rcases loc_mem (c.lists + 8 * i) (pre.map (·.1)) with e' | e'
      · exact head_out (h.fits hi hb) hx1 hx2 (ex.trans e')
      · obtain ⟨a, ha, e2⟩ := List.mem_map.1 e'
        have haL : a ∈ L i := by rw [e]; exact List.mem_append_left _ ha
        have hs := h.sorted i hi
        rw [e] at hs
        have hlt := (List.pairwise_append.1 hs).2.2 a ha v List.mem_cons_self
        have hd := h.disj_same hi haL hb (by rintro rfl; omega)
        have := (h.fits hi haL).2.2.2
        unfold Disj at hd
        omega
    · exact (h.chain_out hi hon hv hx1 hx2).symm

/-- The list for blocks of `sz` bytes. -/
def idx (c : Cfg) (sz : Nat) : Nat := if sz / 8 - 1 < c.max / 8 then sz / 8 - 1 else c.max / 8

theorem idx_le (c : Cfg) (sz : Nat) : idx c sz ≤ c.max / 8 := by unfold idx; split <;> omega

/-- The state after linking `b` in after `pre` in its list. -/
def linked (c : Cfg) (s : St) (b : Block) (pre post : List Block) : St :=
  let m := upd (upd s.mem b.1 (.link ((post.map (·.1)).headD 0)))
    (loc (c.lists + 8 * idx c b.2) (pre.map (·.1))) (.link b.1)
  { s with mem := if idx c b.2 = c.max / 8 then upd m (b.1 + 8) (.size b.2) else m }

/-- Linking a block in puts it on its list. -/
theorem Inv.put {b : Block} (h : Inv c s L (b :: V)) (hc : Legal c)
    {pre post : List Block} (e : L (idx c b.2) = pre ++ post)
    (hpre : ∀ a ∈ pre, a.1 < b.1) (hpost : ∀ a ∈ post, b.1 < a.1) :
    Inv c (linked c s b pre post) (setL L (idx c b.2) (pre ++ b :: post)) V ∧
      Same V s (linked c s b pre post) := by
  have hi := idx_le c b.2
  have hfb := h.fitsV (b := b) List.mem_cons_self
  have hb8 : b.2 % 8 = 0 := hfb.2.2.1
  have hb0 : 0 < b.2 := hfb.2.2.2
  have hq : idx c b.2 = c.max / 8 → 8 * (c.max / 8 + 1) ≤ b.2 := by
    unfold idx; split <;> omega
  have hi8 : idx c b.2 < c.max / 8 → b.2 = 8 * (idx c b.2 + 1) := by
    unfold idx; split <;> omega
  have hmax := hc.max8
  generalize hidx : idx c b.2 = i at *
  have hon : OnChain c L i (loc (c.lists + 8 * i) (pre.map (·.1))) := loc_onChain e
  have hnd := h.nodup hi
  have hch := h.chain i hi
  rw [e, List.map_append] at hnd hch
  have hbn : b.1 ∉ (c.lists + 8 * i) :: (pre.map (·.1) ++ post.map (·.1)) := by
    intro hm
    rcases List.mem_cons.1 hm with e' | hm
    · exact head_out hfb (Nat.le_refl _) (by omega) e'
    · rw [← List.map_append, ← e] at hm
      obtain ⟨a, ha, e2⟩ := List.mem_map.1 hm
      exact h.chain_out hi (Or.inr ⟨a, ha, rfl⟩) List.mem_cons_self (Nat.le_refl _) (by omega) e2
  obtain ⟨h1, h2⟩ := chain_add hch hnd hbn hfb.ok.1
  -- the memory outside the block and the changed link
  have hmem : ∀ x, (x < b.1 ∨ b.1 + b.2 ≤ x) → x ≠ loc (c.lists + 8 * i) (pre.map (·.1)) →
      (linked c s b pre post).mem x = s.mem x := by
    intro x hx hx'
    have hxb : x ≠ b.1 := by omega
    unfold linked
    simp only [hidx]
    split
    · next hiq =>
      have := hq hiq
      rw [upd_ne (by omega), upd_ne hx', upd_ne hxb]
    · rw [upd_ne hx', upd_ne hxb]
  have hlocb : ∀ y, b.1 ≤ y → y < b.1 + b.2 → loc (c.lists + 8 * i) (pre.map (·.1)) ≠ y :=
    fun y h1 h2 => h.chain_out hi hon List.mem_cons_self h1 h2
  refine ⟨⟨?_, ?_, ?_, ?_, ?_, ?_⟩, ?_⟩
  · intro k hk
    by_cases hki : k = i
    · subst hki
      rw [setL_self, List.map_append, List.map_cons]
      refine chain_frame h2 fun x hx => ?_
      unfold linked
      simp only [hidx]
      split
      · next hiq =>
        have hq' := hq hiq
        refine upd_ne ?_
        intro ex
        have hx2 : OnChain c L k x ∨ x = b.1 := by
          rcases hx with e' | hm
          · exact Or.inl (Or.inl e')
          · rcases List.mem_append.1 hm with hm | hm
            · obtain ⟨a, ha, e2⟩ := List.mem_map.1 hm
              exact Or.inl (Or.inr ⟨a, by rw [e]; exact List.mem_append_left _ ha, e2.symm⟩)
            · rcases List.mem_cons.1 hm with e' | hm
              · exact Or.inr e'
              · obtain ⟨a, ha, e2⟩ := List.mem_map.1 hm
                exact Or.inl (Or.inr ⟨a, by rw [e]; exact List.mem_append_right _ ha, e2.symm⟩)
        rcases hx2 with hx2 | hx2
        · exact h.chain_out hi hx2 List.mem_cons_self (y := b.1 + 8) (by omega) (by omega) ex
        · omega
      · rfl
    · rw [setL_ne hki]
      refine chain_frame (h.chain k hk) fun x hx => ?_
      have hx2 : OnChain c L k x := by
        rcases hx with e | e
        · exact Or.inl e
        · obtain ⟨b, hb, e⟩ := List.mem_map.1 e
          exact Or.inr ⟨b, hb, e.symm⟩
      refine hmem x ?_ (h.chain_ne hk hi hki hx2 hon)
      have := fun y (h1 : b.1 ≤ y) (h2 : y < b.1 + b.2) =>
        h.chain_out hk hx2 (v := b) List.mem_cons_self h1 h2
      have := this x
      omega
  · intro k hk x hx
    by_cases hki : k = i
    · subst hki
      rw [setL_self] at hx
      rcases List.mem_append.1 hx with hx | hx
      · exact h.small k hk x (by rw [e]; exact List.mem_append_left _ hx)
      · rcases List.mem_cons.1 hx with rfl | hx
        · exact hi8 hk
        · exact h.small k hk x (by rw [e]; exact List.mem_append_right _ hx)
    · rw [setL_ne hki] at hx
      exact h.small k hk x hx
  · intro x hx
    have old : x ∈ L (c.max / 8) → (linked c s b pre post).mem (x.1 + 8) = .size x.2 := by
      intro hx
      rw [← h.data x hx]
      refine hmem _ ?_ (h.data_ne hc hi hon hx)
      have := fun h1 h2 => h.data_out hc hx (v := b) List.mem_cons_self (y := x.1 + 8) h1 h2
      omega
    by_cases hki : c.max / 8 = i
    · rw [hki, setL_self] at hx
      rcases List.mem_append.1 hx with hx | hx
      · exact old (by rw [hki, e]; exact List.mem_append_left _ hx)
      · rcases List.mem_cons.1 hx with rfl | hx
        · unfold linked
          simp only [hidx, if_pos hki.symm]
          exact upd_self _ _ _
        · exact old (by rw [hki, e]; exact List.mem_append_right _ hx)
    · rw [setL_ne hki] at hx
      exact old hx
  · intro x hx
    by_cases hki : c.max / 8 = i
    · rw [hki, setL_self] at hx
      rcases List.mem_append.1 hx with hx | hx
      · exact h.big x (by rw [hki, e]; exact List.mem_append_left _ hx)
      · rcases List.mem_cons.1 hx with rfl | hx
        · exact Or.inl (hq hki.symm)
        · exact h.big x (by rw [hki, e]; exact List.mem_append_right _ hx)
    · rw [setL_ne hki] at hx
      exact h.big x hx
  · intro k hk
    by_cases hki : k = i
    · subst hki
      rw [setL_self]
      have hs := h.sorted k hk
      rw [e] at hs
      have hs' := List.pairwise_append.1 hs
      refine List.pairwise_append.2 ⟨hs'.1, List.pairwise_cons.2 ⟨hpost, hs'.2.1⟩, ?_⟩
      intro x hx y hy
      rcases List.mem_cons.1 hy with rfl | hy
      · exact hpre x hx
      · exact hs'.2.2 x hx y hy
    · rw [setL_ne hki]; exact h.sorted k hk
  · refine h.tile.perm ?_
    refine ((flat_split L hi).append_right _).trans ?_
    refine List.Perm.trans ?_ ((flat_set L (pre ++ b :: post) hi).symm.append_right _)
    rw [e]
    simp only [List.append_assoc, List.cons_append]
    refine List.Perm.append_left _ ?_
    refine List.Perm.trans (List.Perm.append_left _ List.perm_middle) ?_
    exact List.perm_middle
  · intro v hv x hx1 hx2
    have hd : Disj b v := by
      have := (List.pairwise_append.1 h.tile.disj).2.1
      exact (List.pairwise_cons.1 this).1 v hv
    refine hmem x ?_ (h.chain_out hi hon (List.mem_cons_of_mem _ hv) hx1 hx2).symm
    unfold Disj at hd; omega

end

end Verif.Sma
