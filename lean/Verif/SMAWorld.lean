import Verif.SMAMerge

/-! # The invariant over whole histories, and the queries -/

namespace Verif.Sma

open Prog

section
variable {c : Cfg} {s : St} {L : Nat → List Block} {V : List Block}

/-! ## Reading the lists off the memory -/

theorem Inv.freeList (h : Inv c s L V) {i : Nat} (hi : i ≤ c.max / 8) : FreeList c s i (L i) := by
  refine ⟨h.chain i hi, fun b hb => ?_⟩
  by_cases hq : i < c.max / 8
  · rw [if_pos hq]; exact h.small i hq b hb
  · rw [if_neg hq]
    have : i = c.max / 8 := by omega
    subst this
    exact h.data b hb

theorem eq_of_map_fst {l l' : List Block} (hm : l.map (·.1) = l'.map (·.1))
    (h : ∀ b ∈ l, ∀ b' ∈ l', b.1 = b'.1 → b.2 = b'.2) : l = l' := by
  induction l generalizing l' with
  | nil =>
    cases l' with
    | nil => rfl
    | cons a l' => cases hm
  | cons a l ih =>
    cases l' with
    | nil => cases hm
    | cons b l' =>
      simp only [List.map_cons, List.cons.injEq] at hm
      have e : a = b := Prod.ext hm.1 (h a List.mem_cons_self b List.mem_cons_self hm.1)
      rw [e, ih hm.2 fun x hx y hy => h x (List.mem_cons_of_mem _ hx) y (List.mem_cons_of_mem _ hy)]

theorem freeList_det {i : Nat} {l l' : List Block} (h : FreeList c s i l) (h' : FreeList c s i l') :
    l = l' := by
  refine eq_of_map_fst (chain_det h.1 h'.1) fun b hb b' hb' e => ?_
  have h1 := h.2 b hb
  have h2 := h'.2 b' hb'
  by_cases hq : i < c.max / 8
  · rw [if_pos hq] at h1 h2; omega
  · rw [if_neg hq] at h1 h2
    rw [e, h2] at h1
    injection h1 with h1
    omega

theorem Inv.freeBlock (h : Inv c s L V) {b : Block} :
    FreeBlock c s b ↔ b ∈ flat (c.max / 8) L := by
  rw [mem_flat]
  constructor
  · rintro ⟨i, hi, l, hl, hb⟩
    rw [freeList_det hl (h.freeList hi)] at hb
    exact ⟨i, hi, hb⟩
  · rintro ⟨i, hi, hb⟩
    exact ⟨i, hi, L i, h.freeList hi, hb⟩

theorem Inv.largeBlock (h : Inv c s L V) {b : Block} :
    LargeBlock c s b ↔ b ∈ L (c.max / 8) := by
  constructor
  · rintro ⟨l, hl, hb⟩
    rwa [freeList_det hl (h.freeList (Nat.le_refl _))] at hb
  · intro hb
    exact ⟨_, h.freeList (Nat.le_refl _), hb⟩

/-! ## The constructor -/

/-- The free lists after construction. -/
def initL (c : Cfg) : Nat → List Block := setL (fun _ => []) (c.max / 8) [(c.base, c.M)]

theorem flatMap_nil' (l : List Nat) : l.flatMap (fun _ => ([] : List Block)) = [] := by
  induction l with
  | nil => rfl
  | cons a l ih => rw [List.flatMap_cons, ih]; rfl

theorem flat_init (c : Cfg) : (flat (c.max / 8) (initL c)).Perm [(c.base, c.M)] := by
  refine (flat_set _ _ (Nat.le_refl _)).trans ?_
  have : flat (c.max / 8) (setL (fun _ => []) (c.max / 8) []) = [] := by
    rw [setL_id (fun _ => ([] : List Block)) (c.max / 8)]
    exact flatMap_nil' _
  rw [this]
  exact List.Perm.refl _

theorem lists_eq (hc : Legal c) : c.lists = c.obj + 8 + c.M := by
  have := hc.M8
  unfold Cfg.lists; omega

theorem construct_ok (hc : Legal c) (s0 : St) :
    ∃ s, Returns (construct c) s0 () s ∧ Inv c s (initL c) [] ∧ s.free = c.M := by
  have hM16 := hc.M16
  have hM8 := hc.M8
  have hM := hc.Mint
  have hmax := hc.max8
  have hobj := hc.obj
  have hfit : Fits c (c.base, c.M) :=
    ⟨⟨Nat.le_refl _, Nat.le_refl _⟩, by simp, hM8, by simp only; omega⟩
  have hb0 : c.base ≠ 0 := by unfold Cfg.base; omega
  have hle := lists_eq hc
  have hbase : c.base = c.obj + 4 := rfl
  refine ⟨⟨upd (upd (upd (fun a => if c.inLists a then .link 0 else .raw 0) (c.base + 8)
    (.size c.M)) c.base (.link 0)) (c.lists + 8 * (c.max / 8)) (.link c.base), c.M⟩, ?_,
    ⟨?_, ?_, ?_, ?_, ?_, ?_⟩, rfl⟩
  · unfold Returns construct
    refine (bind_returns (show Returns (Prog.set _) s0 () _ from rfl)).trans ?_
    refine (bind_returns (wrData_ok hb0 (hfit.ok8 hM16))).trans ?_
    refine (bind_returns (wrNext_ok hfit.ok.2)).trans ?_
    refine (bind_returns (entry_last c _)).trans ?_
    exact wrNext_ok (ok_head hc (Nat.le_refl _))
  · intro i hi
    by_cases hq : i = c.max / 8
    · rw [hq, initL, setL_self]
      refine ⟨upd_self _ _ _, hb0, ?_⟩
      show upd _ _ _ c.base = _
      rw [upd_ne (by omega), upd_self]
    · rw [initL, setL_ne hq]
      show upd _ _ _ (c.lists + 8 * i) = _
      rw [upd_ne (by omega), upd_ne (by omega), upd_ne (by omega)]
      exact if_pos (by refine ⟨?_, ?_, ?_⟩ <;> (try unfold Cfg.N) <;> omega)
  · intro i hi b hb
    rw [initL, setL_ne (by omega)] at hb
    cases hb
  · intro b hb
    rw [initL, setL_self] at hb
    rw [List.mem_singleton.1 hb]
    show upd _ _ _ (c.base + 8) = _
    rw [upd_ne (by omega), upd_ne (by omega), upd_self]
  · intro b hb
    rw [initL, setL_self] at hb
    rw [List.mem_singleton.1 hb]
    exact Or.inr rfl
  · intro i hi
    by_cases hq : i = c.max / 8
    · rw [hq, initL, setL_self]; simp
    · rw [initL, setL_ne hq]; exact List.Pairwise.nil
  · rw [List.append_nil]
    refine Tile.perm ⟨by simp, ?_, ?_⟩ (flat_init c).symm
    · intro b hb
      rw [List.mem_singleton.1 hb]
      exact hfit
    · simp [total]

/-! ## Histories -/

/-- The invariant of a world. -/
def WInv (c : Cfg) (w : World) (L : Nat → List Block) : Prop :=
  Inv c w.st L (taken w.live) ∧ w.st.free = total (flat (c.max / 8) L) ∧
  ∀ p ∈ w.live, 0 < p.2 ∧ p.2 + 8 < 2 ^ 31

theorem onSt_returns {α : Type} {p : Prog St α} {w : World} {a : α} {s' : St}
    (h : Returns p w.st a s') : Returns (onSt p) w a { w with st := s' } := by
  unfold Returns onSt at *
  rw [h]

theorem taken_erase {live : List (Nat × Int)} {p : Nat × Int} (h : p ∈ live) :
    (taken live).Perm ((p.1, up8 p.2) :: taken (live.erase p)) :=
  (List.perm_cons_erase h).map _

theorem step_alloc_ok {w : World} {L : Nat → List Block} (h : WInv c w L) (hc : Legal c) {n : Int}
    (hn : 0 < n) (hm : n + 8 < 2 ^ 31) :
    ∃ a w' L', Returns (step c (.alloc n)) w a w' ∧ WInv c w' L' ∧ Same (taken w.live) w.st w'.st ∧
      (∀ p ∈ w.live, p ∈ w'.live) ∧ (w' = w ∨ w'.live = (a, n) :: w.live) ∧
      (∀ d, d ∣ up8 n → (∀ b ∈ flat (c.max / 8) L, d ∣ b.2) →
        ∀ b ∈ flat (c.max / 8) L', d ∣ b.2) := by
  rcases alloc_ok h.1 hc h.2.1 hn hm with ⟨_, h2⟩ | ⟨i, pre, b, post, s', L', h1, h2, h3, h4, h5, h6, h7, h8⟩
  · refine ⟨0, w, L, ?_, h, Same.refl _ _, fun p hp => hp, Or.inl rfl, fun d _ hd => hd⟩
    unfold Returns step
    refine (bind_returns (onSt_returns h2)).trans ?_
    rfl
  · have hb0 := (h.1.fits h1 (b := b) (by rw [h2]; simp)).ok.1
    refine ⟨b.1, ⟨s', (b.1, n) :: w.live⟩, L', ?_, ⟨h5, ?_, ?_⟩, h6,
      fun p hp => List.mem_cons_of_mem _ hp, Or.inr rfl, ?_⟩
    · unfold Returns step
      refine (bind_returns (onSt_returns h4)).trans ?_
      refine (bind_returns (a := ()) (s' := ⟨s', (b.1, n) :: w.live⟩) ?_).trans rfl
      unfold Returns Prog.modify
      simp only
      rw [if_neg hb0]
    · have t1 := h.1.tile.total
      have t2 := h5.tile.total
      rw [total_append] at t1 t2
      simp only [total] at t2
      have := h.2.1
      show s'.free = _
      rw [h7]; omega
    · intro p hp
      rcases List.mem_cons.1 hp with rfl | hp
      · exact ⟨hn, hm⟩
      · exact h.2.2 p hp
    · intro d hd hall
      have hrem : ∀ x ∈ flat (c.max / 8) (setL L i (pre ++ post)), d ∣ x.2 := by
        intro x hx
        refine hall x ?_
        have e1 := (flat_split L h1).mem_iff (a := x)
        have e2 := (flat_set L (pre ++ post) h1).mem_iff (a := x)
        rw [e1, h2]
        rcases List.mem_append.1 (e2.1 hx) with hx | hx
        · rcases List.mem_append.1 hx with hx | hx
          · exact List.mem_append_left _ (List.mem_append_left _ hx)
          · exact List.mem_append_left _ (List.mem_append_right _ (List.mem_cons_of_mem _ hx))
        · exact List.mem_append_right _ hx
      have hb : d ∣ b.2 := hall b (mem_flat.2 ⟨i, h1, by rw [h2]; simp⟩)
      rcases h8 with ⟨_, rfl⟩ | ⟨_, hput⟩
      · exact hrem
      · intro x hx
        rcases List.mem_cons.1 (hput.flat.mem_iff.1 hx) with rfl | hx
        · exact Nat.dvd_sub hb hd
        · exact hrem x hx

theorem step_free_ok {w : World} {L : Nat → List Block} (h : WInv c w L) (hc : Legal c) {a : Nat}
    {n : Int} (hmem : (a, n) ∈ w.live) :
    ∃ w' L', Returns (step c (.free a n)) w 0 w' ∧ WInv c w' L' ∧
      Same (taken (w.live.erase (a, n))) w.st w'.st ∧ w'.live = w.live.erase (a, n) ∧
      Put c L (a, up8 n) L' := by
  obtain ⟨hn, hm⟩ := h.2.2 (a, n) hmem
  have hinv := h.1.permV (taken_erase hmem)
  obtain ⟨s', L', h1, h2, h3, h4, h5⟩ := dealloc_ok hinv hc h.2.1 hn hm
  refine ⟨⟨s', w.live.erase (a, n)⟩, L', ?_, ⟨h2, ?_, ?_⟩, h4, rfl, h3⟩
  · unfold Returns step
    refine (bind_returns (onSt_returns h1)).trans ?_
    rfl
  · show s'.free = _
    rw [h5, total_perm h3.flat, h.2.1]
    simp only [total]; omega
  · exact fun p hp => h.2.2 p (List.mem_of_mem_erase hp)

theorem step_merge_ok {w : World} {L : Nat → List Block} (h : WInv c w L) (hc : Legal c) :
    ∃ w' L1 L', Returns (step c .merge) w 0 w' ∧ Returns (merge c) w.st () w'.st ∧ WInv c w' L' ∧
      w'.live = w.live ∧ Same (taken w.live) w.st w'.st ∧ QStar c L L1 ∧ PStar c L1 L' ∧
      w'.st.free = w.st.free ∧ (L' (c.max / 8)).Pairwise (fun a b => a.1 + a.2 ≠ b.1) := by
  obtain ⟨s', L1, L', h1, h2, h3, h4, h5, h6, h7⟩ := merge_ok h.1 hc
  refine ⟨⟨s', w.live⟩, L1, L', ?_, h1, ⟨h2, ?_, h.2.2⟩, rfl, h5, h3, h4, h6, h7⟩
  · unfold Returns step
    refine (bind_returns (onSt_returns h1)).trans ?_
    rfl
  · have t1 := h.1.tile.total
    have t2 := h2.tile.total
    rw [total_append] at t1 t2
    have := h.2.1
    show s'.free = _
    rw [h6]
    omega

theorem step_write_ok {w : World} {L : Nat → List Block} (h : WInv c w L) (hc : Legal c) {a : Nat}
    {n : Int} {k : Nat} (hmem : (a, n) ∈ w.live) (hk : 8 * (k : Int) < n) (x : Cell) :
    ∃ w', Returns (step c (.write a n k x)) w 0 w' ∧ WInv c w' L ∧ w'.live = w.live := by
  refine ⟨⟨⟨upd w.st.mem (a + 8 * k) x, w.st.free⟩, w.live⟩, rfl, ⟨?_, h.2.1, h.2.2⟩, rfl⟩
  obtain ⟨hn, _⟩ := h.2.2 (a, n) hmem
  have hup := up8_pos (n := n) hn
  simp only at hn
  have : (a, up8 n) ∈ taken w.live := List.mem_map.2 ⟨(a, n), hmem, rfl⟩
  exact h.1.write hc this (by simp only; omega) (by simp only; omega) x

/-- Every permitted step can be taken, and keeps the invariant. -/
theorem step_ok {w : World} {L : Nat → List Block} (h : WInv c w L) (hc : Legal c) {op : Op}
    (hs : Safe w op) : ∃ a w' L', Returns (step c op) w a w' ∧ WInv c w' L' := by
  cases op with
  | alloc n =>
    obtain ⟨a, w', L', h1, h2, _⟩ := step_alloc_ok h hc hs.1 hs.2
    exact ⟨a, w', L', h1, h2⟩
  | free a n =>
    obtain ⟨w', L', h1, h2, _⟩ := step_free_ok h hc hs
    exact ⟨0, w', L', h1, h2⟩
  | merge =>
    obtain ⟨w', _, L', h1, _, h2, _⟩ := step_merge_ok h hc
    exact ⟨0, w', L', h1, h2⟩
  | write a n k x =>
    obtain ⟨w', h1, h2, _⟩ := step_write_ok h hc hs.1 hs.2 x
    exact ⟨0, w', L, h1, h2⟩

theorem winv_init (hc : Legal c) {s0 s : St} (h : Returns (construct c) s0 () s) :
    WInv c ⟨s, []⟩ (initL c) := by
  obtain ⟨s', h1, h2, h3⟩ := construct_ok hc s0
  obtain ⟨_, rfl⟩ := h.det h1
  refine ⟨h2, ?_, by simp⟩
  show s.free = _
  rw [h3, total_perm (flat_init c)]
  simp [total]

theorem reach_inv (hc : Legal c) {w : World} (h : Reach c w) : ∃ L, WInv c w L := by
  induction h with
  | init h => exact ⟨_, winv_init hc h⟩
  | step _ hs hr ih =>
    obtain ⟨L, hL⟩ := ih
    obtain ⟨a, w', L', h1, h2⟩ := step_ok hL hc hs
    obtain ⟨_, rfl⟩ := hr.det h1
    exact ⟨L', h2⟩

/-! ## Queries -/

theorem maxPool_ok (h : Inv c s L V) (hc : Legal c) {pre post : List Block} (m : Int)
    (e : L (c.max / 8) = pre ++ post) :
    ∃ r, Returns (maxPool c ((post.map (·.1)).headD 0) m) s r s ∧ m ≤ r ∧
      (∀ b ∈ post, (b.2 : Int) ≤ r) ∧ (r = m ∨ ∃ b ∈ post, (b.2 : Int) = r) := by
  have hq : c.max / 8 ≤ c.max / 8 := Nat.le_refl _
  induction post generalizing pre m with
  | nil =>
    refine ⟨m, ?_, Int.le_refl _, by simp, Or.inl rfl⟩
    unfold Returns
    rw [maxPool, if_neg (by simp)]; rfl
  | cons b post ih =>
    have hbL : b ∈ L (c.max / 8) := by rw [e]; simp
    have hfb := h.fits hq hbL
    obtain ⟨r, h1, h2, h3, h4⟩ := ih (pre := pre ++ [b]) (if m < b.2 then b.2 else m)
      (by rw [e]; simp)
    refine ⟨r, ?_, ?_, ?_, ?_⟩
    · unfold Returns
      rw [maxPool]
      simp only [List.map_cons, List.headD_cons]
      rw [if_pos hfb.ok.1, bind_returns (rdData_ok hfb.ok.1 (hfb.ok8 (h.big16 hc hbL)) (h.data b hbL)),
        bind_returns (rdNext_ok hfb.ok.2 (h.next_of hq e))]
      exact h1
    · split at h2 <;> omega
    · intro x hx
      rcases List.mem_cons.1 hx with rfl | hx
      · split at h2 <;> omega
      · exact h3 x hx
    · rcases h4 with h4 | ⟨x, hx, h4⟩
      · split at h4
        · exact Or.inr ⟨b, List.mem_cons_self, h4.symm⟩
        · exact Or.inl h4
      · exact Or.inr ⟨x, List.mem_cons_of_mem _ hx, h4⟩

theorem maxQuick_ok (h : Inv c s L V) (hc : Legal c) (k : Nat) (hk : k ≤ c.max / 8) :
    ∃ r : Int, Returns (maxQuick c ((k : Int) - 1)) s r s ∧ -1 ≤ r ∧ r < k ∧
      (∀ i : Nat, r < i → i < k → L i = []) ∧ (∀ i : Nat, r = i → L i ≠ []) := by
  induction k with
  | zero =>
    refine ⟨-1, ?_, by omega, by omega, by omega, by omega⟩
    unfold Returns
    rw [maxQuick, if_neg (by omega)]; rfl
  | succ k ih =>
    have hr := rdNext_ok (s := s) (ok_head hc (i := k) (by omega))
      (h.next (i := k) (by omega) (pre := []) (post := L k) rfl)
    have hstart : maxQuick c (((k + 1 : Nat) : Int) - 1) s =
        (if ((L k).map (·.1)).headD 0 = 0 then maxQuick c ((k : Int) - 1)
          else pure (k : Int)) s := by
      rw [maxQuick, if_pos (by omega), show ((k + 1 : Nat) : Int) - 1 = (k : Nat) by omega,
        bind_returns (entry_ok (by unfold Cfg.N; omega) s), bind_returns hr]
    by_cases hl : L k = []
    · obtain ⟨r, h1, h2, h3, h4, h5⟩ := ih (by omega)
      refine ⟨r, ?_, h2, by omega, ?_, h5⟩
      · unfold Returns
        rw [hstart, hl]
        exact h1
      · intro i hi1 hi2
        by_cases e : i = k
        · rw [e]; exact hl
        · exact h4 i hi1 (by omega)
    · refine ⟨k, ?_, by omega, by omega, by omega, ?_⟩
      · unfold Returns
        rw [hstart]
        cases hL : L k with
        | nil => exact absurd hL hl
        | cons a l =>
          have := (h.fits (i := k) (by omega) (b := a) (by rw [hL]; simp)).ok.1
          simp only [List.map_cons, List.headD_cons]
          rw [if_neg this]; rfl
      · intro i hi
        rw [show i = k by omega]; exact hl

theorem maxFree_ok (h : Inv c s L V) (hc : Legal c) :
    ∃ m : Nat, Returns (maxFree c) s m s ∧ (∀ b ∈ flat (c.max / 8) L, b.2 ≤ m) ∧
      ((m = 0 ∧ flat (c.max / 8) L = []) ∨ ∃ b ∈ flat (c.max / 8) L, b.2 = m) := by
  have hq : c.max / 8 ≤ c.max / 8 := Nat.le_refl _
  have hmaxi := hc.maxint
  obtain ⟨r, h1, h2, h3, h4⟩ := maxPool_ok h hc (pre := []) (post := L (c.max / 8)) 0 rfl
  have hstart : maxFree c s = (if r > 0 then pure r
      else do
        let i ← maxQuick c ((c.N : Int) - 1 - 1)
        indexToSize i) s := by
    unfold maxFree
    rw [show (c.N : Int) - 1 = ((c.max / 8 : Nat) : Int) by unfold Cfg.N; omega]
    rw [bind_returns (entry_ok (by unfold Cfg.N; omega) s),
      bind_returns (rdNext_ok (ok_head hc hq)
        (h.next hq (pre := []) (post := L (c.max / 8)) rfl)), bind_returns h1]
  have htot := h.tile.total
  rw [total_append] at htot
  by_cases hr : r > 0
  · obtain ⟨b, hb, hbr⟩ : ∃ b ∈ L (c.max / 8), (b.2 : Int) = r := by
      rcases h4 with h4 | h4
      · omega
      · exact h4
    refine ⟨b.2, ?_, ?_, Or.inr ⟨b, mem_flat.2 ⟨_, hq, hb⟩, rfl⟩⟩
    · unfold Returns; rw [hstart, if_pos hr, hbr]; rfl
    · intro x hx
      have hxt := total_mem hx
      obtain ⟨i, hi, hxi⟩ := mem_flat.1 hx
      by_cases hiq : i = c.max / 8
      · subst hiq
        have := h3 x hxi
        omega
      · have h5 := h.small i (by omega) x hxi
        rcases h.big b hb with h6 | h6 <;> omega
  · have hnil : L (c.max / 8) = [] := by
      cases hL : L (c.max / 8) with
      | nil => rfl
      | cons b l =>
        have h5 := h3 b (by rw [hL]; simp)
        have h6 := (h.fits hq (b := b) (by rw [hL]; simp)).2.2.2
        omega
    obtain ⟨t, g1, g2, g3, g4, g5⟩ := maxQuick_ok h hc (c.max / 8) hq
    refine ⟨((t + 1) * 8).toNat, ?_, ?_, ?_⟩
    · unfold Returns
      rw [hstart, if_neg hr, show (c.N : Int) - 1 - 1 = ((c.max / 8 : Nat) : Int) - 1 by
        unfold Cfg.N; omega, bind_returns g1]
      rw [show ((((t + 1) * 8).toNat : Nat) : Int) = (t + 1) * 8 by omega]
      exact indexToSize_ok (by omega) s
    · intro x hx
      obtain ⟨i, hi, hxi⟩ := mem_flat.1 hx
      by_cases hiq : i = c.max / 8
      · rw [hiq, hnil] at hxi; cases hxi
      · have h5 := h.small i (by omega) x hxi
        by_cases hti : t < i
        · rw [g4 i hti (by omega)] at hxi; cases hxi
        · omega
    · by_cases ht : t = -1
      · left
        refine ⟨by omega, ?_⟩
        apply List.eq_nil_iff_forall_not_mem.2
        intro x hx
        obtain ⟨i, hi, hxi⟩ := mem_flat.1 hx
        by_cases hiq : i = c.max / 8
        · rw [hiq, hnil] at hxi; cases hxi
        · rw [g4 i (by omega) (by omega)] at hxi; cases hxi
      · right
        obtain ⟨k, hk⟩ : ∃ k : Nat, t = k := ⟨t.toNat, by omega⟩
        cases hL : L k with
        | nil => exact absurd hL (g5 k hk)
        | cons b l =>
          have hbk : b ∈ L k := by rw [hL]; simp
          have h5 := h.small k (by omega) b hbk
          exact ⟨b, mem_flat.2 ⟨k, by omega, hbk⟩, by omega⟩

theorem dumpList_ok (h : Inv c s L V) (hc : Legal c) {i : Nat} (hi : i ≤ c.max / 8)
    {pre post : List Block} (v : Nat) (e : L i = pre ++ post) (hv : v + total post ≤ c.M) :
    Returns (dumpList c i ((post.map (·.1)).headD 0) (v : Int)) s ((v + total post : Nat) : Int) s := by
  have hM := hc.Mint
  induction post generalizing pre v with
  | nil =>
    unfold Returns
    rw [dumpList, if_neg (by simp)]; rfl
  | cons b post ih =>
    have hbL : b ∈ L i := by rw [e]; simp
    have hfb := h.fits hi hbL
    simp only [total] at hv ⊢
    have hsz : Returns (if i = c.N - 1 then rdData c b.1 else indexToSize (i : Int)) s (b.2 : Int) s := by
      by_cases hq : i = c.max / 8
      · rw [if_pos (by rw [N_sub]; exact hq)]
        subst hq
        exact rdData_ok hfb.ok.1 (hfb.ok8 (h.big16 hc hbL)) (h.data b hbL)
      · rw [if_neg (by rw [N_sub]; exact hq)]
        have h5 := h.small i (by omega) b hbL
        rw [show (b.2 : Int) = ((i : Int) + 1) * 8 by omega]
        exact indexToSize_ok (by omega) s
    unfold Returns
    rw [dumpList]
    simp only [List.map_cons, List.headD_cons]
    rw [if_pos hfb.ok.1, bind_returns hsz, bind_returns (int_ok (by omega) s),
      bind_returns (rdNext_ok hfb.ok.2 (h.next_of hi e))]
    have := ih (pre := pre ++ [b]) (v + b.2) (by rw [e]; simp) (by omega)
    rw [show (v : Int) + (b.2 : Int) = ((v + b.2 : Nat) : Int) by omega,
      show v + (b.2 + total post) = v + b.2 + total post by omega]
    exact this

theorem total_flatMap_le (L : Nat → List Block) (k n : Nat) (h : k ≤ n) :
    total ((List.range k).flatMap L) ≤ total ((List.range n).flatMap L) := by
  induction n with
  | zero => rw [show k = 0 by omega]; exact Nat.le_refl _
  | succ n ih =>
    by_cases e : k = n + 1
    · rw [e]; exact Nat.le_refl _
    · rw [List.range_succ, List.flatMap_append, total_append]
      have := ih (by omega)
      omega

/-- `dump` compares the counter with the sum of the sizes on the lists. -/
theorem dump_eq (h : Inv c s L V) (hc : Legal c) :
    dump c s = check (¬ s.free ≠ total (flat (c.max / 8) L)) .crash s := by
  have htot := h.tile.total
  rw [total_append] at htot
  have key : wp (forRange c.N 0 (0 : Int) fun i v => do
      let h ← entry c i
      let p ← rdNext c h
      dumpList c i p v) (fun v t => t = s ∧ v = total (flat (c.max / 8) L)) s := by
    have hN : c.N = c.max / 8 + 1 := rfl
    have := wp_forRange (σ := St) (fun k (v : Int) t => t = s ∧ v = total ((List.range k).flatMap L))
      (fun i v => do
        let h ← entry c i
        let p ← rdNext c h
        dumpList c i p v) c.N 0 (0 : Int) s ⟨rfl, rfl⟩ (by
        rintro i v t _ hi ⟨rfl, rfl⟩
        have hiq : i ≤ c.max / 8 := by omega
        rw [wp_bind, wp_of_returns (entry_ok (by omega) t), wp_bind,
          wp_of_returns (rdNext_ok (ok_head hc hiq) (h.next hiq (pre := []) (post := L i) rfl))]
        have hle := total_flatMap_le L (i + 1) (c.max / 8 + 1) (by omega)
        have hsum : total ((List.range (i + 1)).flatMap L)
            = total ((List.range i).flatMap L) + total (L i) := by
          rw [List.range_succ, List.flatMap_append, total_append]
          simp
        refine Returns.wp (dumpList_ok h hc hiq (pre := []) (post := L i) _ rfl ?_) ⟨rfl, ?_⟩
        · unfold flat at htot; omega
        · rw [hsum])
    rw [Nat.zero_add] at this
    exact this
  obtain ⟨v, t, h1, rfl, rfl⟩ := key
  unfold dump
  rw [bind_returns h1]
  rw [bind_returns (show Returns Prog.get t t t from rfl)]

/-- `dump` finds the counter correct. -/
theorem dump_ok (h : Inv c s L V) (hc : Legal c) (hfree : s.free = total (flat (c.max / 8) L)) :
    Returns (dump c) s () s := by
  unfold Returns
  rw [dump_eq h hc]
  unfold check
  rw [if_pos (by simp [hfree])]

/-- `dump` crashes when the counter is wrong. -/
theorem dump_crash (h : Inv c s L V) (hc : Legal c) (hfree : s.free ≠ total (flat (c.max / 8) L)) :
    Faults (dump c) s .crash := by
  unfold Faults
  rw [dump_eq h hc]
  unfold check
  rw [if_neg (by simp [hfree])]

end

end Verif.Sma
