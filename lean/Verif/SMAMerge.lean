import Verif.SMAOps

/-! # memory_merge preserves the invariant and only joins neighbours -/

namespace Verif.Sma

open Prog

/-- Two neighbouring free blocks become one. -/
def JStep (B B' : List Block) : Prop :=
  ∃ x y R, B.Perm (x :: y :: R) ∧ x.1 + x.2 = y.1 ∧ B'.Perm ((x.1, x.2 + y.2) :: R)

/-- Neighbouring free blocks were joined any number of times. -/
inductive JStar : List Block → List Block → Prop
  | refl {B B' : List Block} : B.Perm B' → JStar B B'
  | tail {B B' B'' : List Block} : JStar B B' → JStep B' B'' → JStar B B''

theorem JStar.trans {B B' B'' : List Block} (h : JStar B B') (h' : JStar B' B'') : JStar B B'' := by
  induction h' with
  | refl hp =>
    cases h with
    | refl hp' => exact .refl (hp'.trans hp)
    | tail h1 h2 =>
      obtain ⟨x, y, R, e1, e2, e3⟩ := h2
      exact .tail h1 ⟨x, y, R, e1, e2, hp.symm.trans e3⟩
  | tail _ h2 ih => exact .tail ih h2

/-- Every old block lies in a new one. -/
theorem JStar.cover {B B' : List Block} (h : JStar B B') :
    ∀ b ∈ B, ∃ b' ∈ B', b'.1 ≤ b.1 ∧ b.1 + b.2 ≤ b'.1 + b'.2 := by
  induction h with
  | refl hp => exact fun b hb => ⟨b, hp.mem_iff.1 hb, Nat.le_refl _, Nat.le_refl _⟩
  | tail _ h2 ih =>
    intro b hb
    obtain ⟨b', hb', h3, h4⟩ := ih b hb
    obtain ⟨x, y, R, e1, e2, e3⟩ := h2
    rcases List.mem_cons.1 (e1.mem_iff.1 hb') with rfl | hb'
    · exact ⟨(b'.1, b'.2 + y.2), e3.mem_iff.2 List.mem_cons_self, h3, by simp only; omega⟩
    · rcases List.mem_cons.1 hb' with rfl | hb'
      · exact ⟨(x.1, x.2 + b'.2), e3.mem_iff.2 List.mem_cons_self, by simp only; omega,
          by simp only; omega⟩
      · exact ⟨b', e3.mem_iff.2 (List.mem_cons_of_mem _ hb'), h3, h4⟩

/-- Whatever is true of the sizes and stable under addition stays true. -/
theorem JStar.closed {B B' : List Block} (h : JStar B B') {P : Nat → Prop}
    (hP : ∀ {a b}, P a → P b → P (a + b)) (hB : ∀ b ∈ B, P b.2) : ∀ b ∈ B', P b.2 := by
  induction h with
  | refl hp => exact fun b hb => hB b (hp.mem_iff.2 hb)
  | tail _ h2 ih =>
    obtain ⟨x, y, R, e1, e2, e3⟩ := h2
    intro b hb
    have hx := ih x (e1.mem_iff.2 List.mem_cons_self)
    have hy := ih y (e1.mem_iff.2 (List.mem_cons_of_mem _ List.mem_cons_self))
    rcases List.mem_cons.1 (e3.mem_iff.1 hb) with rfl | hb
    · exact hP hx hy
    · exact ih b (e1.mem_iff.2 (List.mem_cons_of_mem _ (List.mem_cons_of_mem _ hb)))

/-- Two neighbours on lists of small blocks are joined. -/
def QStep (c : Cfg) (L L' : Nat → List Block) : Prop :=
  ∃ x y i j L1, i < c.max / 8 ∧ j < c.max / 8 ∧ x ∈ L i ∧ y ∈ L j ∧ x.1 + x.2 = y.1 ∧
    (flat (c.max / 8) L).Perm (x :: y :: flat (c.max / 8) L1) ∧ L1 (c.max / 8) = L (c.max / 8) ∧
    Put c L1 (x.1, x.2 + y.2) L'

inductive QStar (c : Cfg) : (Nat → List Block) → (Nat → List Block) → Prop
  | refl (L : Nat → List Block) : QStar c L L
  | head {L L' L'' : Nat → List Block} : QStep c L L' → QStar c L' L'' → QStar c L L''

theorem QStar.trans {c : Cfg} {L L' L'' : Nat → List Block} (h : QStar c L L')
    (h' : QStar c L' L'') : QStar c L L'' := by
  induction h with
  | refl => exact h'
  | head h1 _ ih => exact .head h1 (ih h')

theorem QStep.join {c : Cfg} {L L' : Nat → List Block} (h : QStep c L L') :
    JStep (flat (c.max / 8) L) (flat (c.max / 8) L') := by
  obtain ⟨x, y, i, j, L1, _, _, _, _, h5, h6, _, h8⟩ := h
  exact ⟨x, y, _, h6, h5, h8.flat⟩

theorem QStar.join {c : Cfg} {L L' : Nat → List Block} (h : QStar c L L') :
    JStar (flat (c.max / 8) L) (flat (c.max / 8) L') := by
  induction h with
  | refl => exact .refl (List.Perm.refl _)
  | head h1 _ ih => exact JStar.trans (.tail (.refl (List.Perm.refl _)) h1.join) ih

section
variable {c : Cfg} {s : St} {L : Nat → List Block} {V : List Block}

/-- What a merging step guarantees. -/
def Merged (c : Cfg) (s : St) (L : Nat → List Block) (V : List Block) (s' : St)
    (L' : Nat → List Block) : Prop :=
  Inv c s' L' V ∧ QStar c L L' ∧ Same V s s' ∧ s'.free = s.free

theorem Merged.refl (h : Inv c s L V) : Merged c s L V s L :=
  ⟨h, .refl _, Same.refl _ _, rfl⟩

theorem Merged.trans {s' s'' : St} {L' L'' : Nat → List Block} (h : Merged c s L V s' L')
    (h' : Merged c s' L' V s'' L'') : Merged c s L V s'' L'' :=
  ⟨h'.1, h.2.1.trans h'.2.1, h.2.2.1.trans h'.2.2.1, h'.2.2.2.trans h.2.2.2⟩

/-- Joining two neighbours that were just taken off lists `i ≤ j` of small blocks. -/
theorem join_insert {s2 : St} {L2 : Nat → List Block} {x y : Block} {i j k l : Nat}
    (hc : Legal c) (hi : i < c.max / 8) (hj : j < c.max / 8) (hx : x ∈ L i) (hy : y ∈ L j)
    (hadj : x.1 + x.2 = y.1) (h2 : Inv c s2 L2 (x :: y :: V)) (hs : Same V s s2)
    (hf : s2.free = s.free) (hq : L2 (c.max / 8) = L (c.max / 8))
    (hflat : (flat (c.max / 8) L).Perm (x :: y :: flat (c.max / 8) L2))
    (hk : k < idx c (x.2 + y.2)) (hsz : x.2 + y.2 = 8 * l) :
    8 * l + 8 < 2 ^ 31 ∧ ∃ s' L', Returns (insert c x.1 ((8 * l : Nat) : Int)) s2 () s' ∧
      Inv c s' L' V ∧ QStep c L L' ∧ Same V s s' ∧ s'.free = s.free ∧ L' k = L2 k := by
  have hj2 : Inv c s2 L2 ((x.1, x.2 + y.2) :: V) := by
    refine h2.mono fun t => ?_
    have t1 := t.perm ((List.perm_middle).trans (List.Perm.cons _ List.perm_middle))
    have e : y = (x.1 + x.2, y.2) := by rw [hadj]
    have ex : x = (x.1, x.2) := rfl
    rw [e, ex] at t1
    exact t1.join.perm List.perm_middle.symm
  obtain ⟨s', L', g1, g2, g3, g4, g5⟩ := insert_inv hj2 hc
  have hfit := h2.tile.fits _ (List.mem_append_right _ List.mem_cons_self)
  have hfits := hj2.fitsV (b := (x.1, x.2 + y.2)) List.mem_cons_self
  have hM := hc.Mint
  have hbM : x.2 + y.2 ≤ c.M := by have := hfits.1; unfold InPool at this; simp only at this; omega
  refine ⟨by omega, s', L', ?_, g2, ?_, hs.trans g4, g5.trans hf, ?_⟩
  · simp only [hsz] at g1; exact g1
  · exact ⟨x, y, i, j, L2, hi, hj, hx, hy, hadj, hflat, hq, g3⟩
  · obtain ⟨l', _, rfl⟩ := g3
    exact setL_ne (by simp only; omega)

theorem indexToSize_ok {i : Int} (h : -2 ^ 31 ≤ (i + 1) * 8 ∧ (i + 1) * 8 < 2 ^ 31) (s : St) :
    Returns (indexToSize i) s ((i + 1) * 8) s := int_ok h s

theorem idx_gt {k sz : Nat} (h1 : k < c.max / 8) (h2 : 8 * (k + 2) ≤ sz) : k < idx c sz := by
  unfold idx; split <;> omega

/-- Taking blocks off two different lists. -/
theorem flat_two {q i j : Nat} {L : Nat → List Block} {pre post pre2 post2 : List Block}
    {f y : Block} (hi : i ≤ q) (hj : j ≤ q) (hij : i ≠ j) (ei : L i = pre ++ f :: post)
    (ej : L j = pre2 ++ y :: post2) :
    (flat q L).Perm (f :: y :: flat q (setL (setL L i (pre ++ post)) j (pre2 ++ post2))) := by
  have e1 : (flat q L).Perm (f :: flat q (setL L i (pre ++ post))) := by
    refine (flat_split L hi).trans ?_
    rw [ei]
    refine List.Perm.trans ?_ (List.Perm.cons _ (flat_set L (pre ++ post) hi).symm)
    simp only [List.append_assoc, List.cons_append]
    exact List.perm_middle
  have ej' : setL L i (pre ++ post) j = pre2 ++ y :: post2 := by rw [setL_ne (Ne.symm hij), ej]
  have e2 : (flat q (setL L i (pre ++ post))).Perm
      (y :: flat q (setL (setL L i (pre ++ post)) j (pre2 ++ post2))) := by
    refine (flat_split (setL L i (pre ++ post)) hj).trans ?_
    rw [ej']
    refine List.Perm.trans ?_ (List.Perm.cons _ (flat_set _ (pre2 ++ post2) hj).symm)
    simp only [List.append_assoc, List.cons_append]
    exact List.perm_middle
  exact e1.trans (List.Perm.cons _ e2)

theorem mergeScan_ok (h : Inv c s L V) (hc : Legal c) {i j : Nat} (hij : i < j)
    (hj : j < c.max / 8) {pre post : List Block} {f : Block} (ei : L i = pre ++ f :: post)
    {pre2 rest : List Block} (ej : L j = pre2 ++ rest) :
    wp (mergeScan c i j (loc (c.lists + 8 * i) (pre.map (·.1))) f.1
        (loc (c.lists + 8 * j) (pre2.map (·.1))) ((rest.map (·.1)).headD 0))
      (fun found s' => if found = true then ∃ L', Merged c s L V s' L' ∧ L' i = pre ++ post
        else s' = s) s := by
  have hi : i < c.max / 8 := by omega
  have hfL : f ∈ L i := by rw [ei]; simp
  have hff := h.fits (by omega) hfL
  have hf2 := h.small i hi f hfL
  induction rest generalizing pre2 with
  | nil =>
    rw [mergeScan, if_neg (by simp)]
    exact (wp_pure _ _ _).2 (by rw [if_neg (by simp)])
  | cons y rest ih =>
    have hyL : y ∈ L j := by rw [ej]; simp
    have hfy := h.fits (by omega) hyL
    have hy2 := h.small j hj y hyL
    rw [mergeScan]
    simp only [List.map_cons, List.headD_cons]
    rw [if_pos hfy.ok.1]
    by_cases hadj : (f.1 : Int) - ((j : Int) + 1) * 8 = y.1 ∨ f.1 + (i + 1) * 8 = y.1
    · rw [if_pos hadj]
      -- take both blocks off their lists
      obtain ⟨t1, hs1⟩ := h.take hc (i := i) (by omega) ei
      have ej' : setL L i (pre ++ post) j = pre2 ++ y :: rest := by
        rw [setL_ne (by omega), ej]
      obtain ⟨t2, hs2⟩ := t1.take hc (i := j) (by omega) ej'
      have hflat := flat_two (q := c.max / 8) (by omega) (by omega) (by omega : i ≠ j) ei ej
      have hsame : Same V s (unlink c (unlink c s i pre post) j pre2 rest) :=
        (hs1.sub fun v hv => List.mem_cons_of_mem _ hv).trans
          (hs2.sub fun v hv => List.mem_cons_of_mem _ (List.mem_cons_of_mem _ hv))
      have hqq : setL (setL L i (pre ++ post)) j (pre2 ++ rest) (c.max / 8) = L (c.max / 8) := by
        rw [setL_ne (by omega), setL_ne (by omega)]
      have hLi : setL (setL L i (pre ++ post)) j (pre2 ++ rest) i = pre ++ post := by
        rw [setL_ne (by omega), setL_self]
      -- insert the joined block
      have hjoin : (8 * (i + j + 2) + 8 < 2 ^ 31) ∧ ∃ s' L',
          Returns (insert c (if f.1 < y.1 then f.1 else y.1) ((8 * (i + j + 2) : Nat) : Int))
            (unlink c (unlink c s i pre post) j pre2 rest) () s' ∧ Inv c s' L' V ∧
          QStep c L L' ∧ Same V s s' ∧ s'.free = s.free ∧ L' i = pre ++ post := by
        have hidx : i < idx c (8 * (i + j + 2)) := idx_gt hi (by omega)
        by_cases hdown : f.1 + (i + 1) * 8 = y.1
        · rw [if_pos (by omega)]
          rw [← hLi]
          exact join_insert hc hi hj hfL hyL (by omega) (t2.permV (List.Perm.swap _ _ _)) hsame
            rfl hqq hflat (by rw [show f.2 + y.2 = 8 * (i + j + 2) by omega]; exact hidx) (by omega)
        · have hup : y.1 + y.2 = f.1 := by omega
          rw [if_neg (by omega)]
          rw [← hLi]
          exact join_insert hc hj hi hyL hfL hup t2 hsame rfl hqq
            (hflat.trans (List.Perm.swap _ _ _))
            (by rw [show y.2 + f.2 = 8 * (i + j + 2) by omega]; exact hidx) (by omega)
      obtain ⟨hrange, s', L', g1, g2, g3, g4, g5, g6⟩ := hjoin
      refine Returns.wp (a := true) (s' := s') ?_ ?_
      · unfold Returns
        rw [bind_returns (rdNext_ok hff.ok.2 (h.next_of (by omega) ei))]
        rw [bind_returns (wrNext_ok (h.okChain hc (i := i) (by omega) (loc_onChain ei)))]
        have r2 : Returns (rdNext c y.1) (unlink c s i pre post) ((rest.map (·.1)).headD 0)
            (unlink c s i pre post) := rdNext_ok hfy.ok.2 (t1.next_of (i := j) (by omega) ej')
        refine (bind_returns r2).trans ?_
        rw [bind_returns (wrNext_ok (t1.okChain hc (i := j) (by omega) (loc_onChain ej')))]
        rw [bind_returns (indexToSize_ok (by omega) _)]
        rw [show ((i : Int) + j + 1 + 1) * 8 = ((8 * (i + j + 2) : Nat) : Int) by omega]
        exact (bind_returns g1).trans rfl
      · rw [if_pos rfl]
        exact ⟨L', ⟨g2, .head g3 (.refl _), g4, g5⟩, g6⟩
    · rw [if_neg hadj]
      rw [wp_ite]
      refine ⟨fun _ => (wp_pure _ _ _).2 (by rw [if_neg (by simp)]), fun _ => ?_⟩
      rw [wp_bind, wp_of_returns (rdNext_ok hfy.ok.2 (h.next_of (i := j) (by omega) ej))]
      have := ih (pre2 := pre2 ++ [y]) (by rw [ej]; simp)
      rwa [loc_snoc] at this

theorem mergeOthers_ok (h : Inv c s L V) (hc : Legal c) {i j : Nat} (hij : i < j)
    (hj : j ≤ c.max / 8) {pre post : List Block} {f : Block} (ei : L i = pre ++ f :: post) :
    wp (mergeOthers c i (loc (c.lists + 8 * i) (pre.map (·.1))) f.1 j)
      (fun found s' => if found = true then ∃ L', Merged c s L V s' L' ∧ L' i = pre ++ post
        else s' = s) s := by
  obtain ⟨d, hd⟩ : ∃ d, d = c.max / 8 - j := ⟨_, rfl⟩
  induction d generalizing j with
  | zero =>
    rw [mergeOthers, if_neg (by rw [N_sub]; omega)]
    exact (wp_pure _ _ _).2 (by rw [if_neg (by simp)])
  | succ d ih =>
    rw [mergeOthers, if_pos (by rw [N_sub]; omega), wp_bind,
      wp_of_returns (entry_ok (by unfold Cfg.N; omega) s), wp_bind,
      wp_of_returns (rdNext_ok (ok_head hc hj) (h.next hj (pre := []) (post := L j) rfl)), wp_bind]
    refine wp_mono (mergeScan_ok h hc hij (by omega) ei (pre2 := []) (rest := L j) rfl) ?_
    intro found s' hf
    cases found with
    | true => exact (wp_pure _ _ _).2 hf
    | false =>
      rw [if_neg (by simp)] at hf
      rw [hf, if_neg (by simp)]
      exact ih (by omega) (by omega) (by omega)

theorem unlink_unlink (c : Cfg) (s : St) (i : Nat) (pre p1 p2 : List Block) :
    unlink c (unlink c s i pre p1) i pre p2 = unlink c s i pre p2 := by
  unfold unlink
  simp only [St.mk.injEq, and_true]
  funext x
  unfold upd
  split <;> rfl

theorem mergeList_ok (hc : Legal c) {i : Nat} (hi : i < c.max / 8) (n : Nat) :
    ∀ {s : St} {L : Nat → List Block}, Inv c s L V → ∀ {pre post : List Block},
      L i = pre ++ post → post.length ≤ n →
      wp (mergeList c i (loc (c.lists + 8 * i) (pre.map (·.1))) ((post.map (·.1)).headD 0))
        (fun _ s' => ∃ L', Merged c s L V s' L') s := by
  induction n with
  | zero =>
    intro s L h pre post e hl
    have : post = [] := List.length_eq_zero_iff.1 (by omega)
    subst this
    rw [mergeList, if_neg (by simp)]
    exact (wp_pure _ _ _).2 ⟨L, Merged.refl h⟩
  | succ n ih =>
    intro s L h pre post e hl
    cases post with
    | nil =>
      rw [mergeList, if_neg (by simp)]
      exact (wp_pure _ _ _).2 ⟨L, Merged.refl h⟩
    | cons f post =>
      have hfL : f ∈ L i := by rw [e]; simp
      have hff := h.fits (by omega) hfL
      have hf2 := h.small i hi f hfL
      rw [mergeList]
      simp only [List.map_cons, List.headD_cons]
      rw [if_pos hff.ok.1, wp_bind, wp_of_returns (rdNext_ok hff.ok.2 (h.next_of (by omega) e))]
      by_cases hadj : f.1 + (i + 1) * 8 = (post.map (·.1)).headD 0
      · rw [if_pos hadj]
        cases post with
        | nil => simp at hadj
        | cons y post =>
          simp only [List.map_cons, List.headD_cons] at hadj ⊢
          have hyL : y ∈ L i := by rw [e]; simp
          have hfy := h.fits (by omega) hyL
          have hy2 := h.small i hi y hyL
          obtain ⟨t1, hs1⟩ := h.take hc (i := i) (by omega) e
          have e1 : setL L i (pre ++ y :: post) i = pre ++ y :: post := setL_self _ _ _
          obtain ⟨t2, hs2⟩ := t1.take hc (i := i) (by omega) e1
          rw [unlink_unlink, setL_setL] at t2
          rw [unlink_unlink] at hs2
          have hflat : (flat (c.max / 8) L).Perm
              (f :: y :: flat (c.max / 8) (setL L i (pre ++ post))) := by
            refine (flat_split L (i := i) (by omega)).trans ?_
            rw [e]
            refine List.Perm.trans ?_ (List.Perm.cons _ (List.Perm.cons _
              (flat_set L (pre ++ post) (i := i) (by omega)).symm))
            simp only [List.append_assoc, List.cons_append]
            exact List.perm_middle.trans (List.Perm.cons _ List.perm_middle)
          have hsame : Same V s (unlink c s i pre post) :=
            (hs1.sub fun v hv => List.mem_cons_of_mem _ hv).trans
              (hs2.sub fun v hv => List.mem_cons_of_mem _ (List.mem_cons_of_mem _ hv))
          obtain ⟨hr, s', L', g1, g2, g3, g4, g5, g6⟩ :=
            join_insert (k := i) (l := 2 * i + 2) hc hi hi hfL hyL (by omega)
              (t2.permV (List.Perm.swap _ _ _)) hsame rfl
              (setL_ne (by omega)) hflat (idx_gt hi (by omega)) (by omega)
          rw [setL_self] at g6
          rw [wp_bind, wp_of_returns (rdNext_ok hfy.ok.2
            (h.next_of (i := i) (pre := pre ++ [f]) (post := post) (by omega) (by rw [e]; simp)))]
          rw [wp_bind, wp_of_returns (wrNext_ok (h.okChain hc (i := i) (by omega) (loc_onChain e)))]
          rw [wp_bind, wp_of_returns (indexToSize_ok (by omega) _)]
          rw [show ((i : Int) * 2 + 1 + 1) * 8 = ((8 * (2 * i + 2) : Nat) : Int) by omega]
          rw [wp_bind]
          refine Returns.wp g1 ?_
          rw [wp_bind, wp_of_returns (rdNext_ok (g2.okChain hc (i := i) (by omega) (loc_onChain g6))
            (g2.next (by omega) g6))]
          have hm : Merged c s L V s' L' := ⟨g2, .head g3 (.refl _), g4, g5⟩
          refine wp_mono (ih g2 g6 (by simp at hl; omega)) ?_
          rintro _ s'' ⟨L'', h''⟩
          exact ⟨L'', hm.trans h''⟩
      · rw [if_neg hadj, wp_bind]
        refine wp_mono (mergeOthers_ok h hc (j := i + 1) (by omega) (by omega) e) ?_
        intro found s' hf
        cases found with
        | true =>
          rw [if_pos rfl] at hf ⊢
          obtain ⟨L', hm, hL⟩ := hf
          rw [wp_bind, wp_of_returns (rdNext_ok
            (hm.1.okChain hc (i := i) (by omega) (loc_onChain hL)) (hm.1.next (by omega) hL))]
          refine wp_mono (ih hm.1 hL (by simp at hl; omega)) ?_
          rintro _ s'' ⟨L'', h''⟩
          exact ⟨L'', hm.trans h''⟩
        | false =>
          rw [if_neg (by simp)] at hf ⊢
          rw [hf, wp_bind, wp_of_returns (rdNext_ok hff.ok.2 (h.next_of (by omega) e))]
          have := ih h (pre := pre ++ [f]) (post := post) (by rw [e]; simp) (by simp at hl; omega)
          rwa [loc_snoc] at this

theorem quickMerge_ok (h : Inv c s L V) (hc : Legal c) :
    wp (quickMerge c) (fun _ s' => ∃ L', Merged c s L V s' L') s := by
  unfold quickMerge
  refine wp_forRange (fun _ _ s' => ∃ L', Merged c s L V s' L') _ _ _ _ _ ⟨L, Merged.refl h⟩ ?_
  rintro i _ s1 _ hi ⟨L1, h1⟩
  rw [N_sub] at hi
  rw [wp_bind, wp_of_returns (entry_ok (by unfold Cfg.N; omega) s1), wp_bind,
    wp_of_returns (rdNext_ok (ok_head hc (by omega))
      (h1.1.next (i := i) (by omega) (pre := []) (post := L1 i) rfl))]
  refine wp_mono (mergeList_ok hc (by omega) _ h1.1 (pre := []) (post := L1 i) rfl
    (Nat.le_refl _)) ?_
  rintro _ s2 ⟨L2, h2⟩
  exact ⟨L2, h1.trans h2⟩

/-! ## The list of large blocks -/

/-- Two consecutive large blocks are joined. -/
def PStep (c : Cfg) (L L' : Nat → List Block) : Prop :=
  ∃ pre b y t, L (c.max / 8) = pre ++ b :: y :: t ∧ b.1 + b.2 = y.1 ∧
    L' = setL L (c.max / 8) (pre ++ (b.1, b.2 + y.2) :: t)

inductive PStar (c : Cfg) : (Nat → List Block) → (Nat → List Block) → Prop
  | refl (L : Nat → List Block) : PStar c L L
  | head {L L' L'' : Nat → List Block} : PStep c L L' → PStar c L' L'' → PStar c L L''

theorem PStep.join {c : Cfg} {L L' : Nat → List Block} (h : PStep c L L') :
    JStep (flat (c.max / 8) L) (flat (c.max / 8) L') := by
  obtain ⟨pre, b, y, t, e, ha, rfl⟩ := h
  refine ⟨b, y, pre ++ t ++ flat (c.max / 8) (setL L (c.max / 8) []), ?_, ha, ?_⟩
  · refine (flat_split L (Nat.le_refl _)).trans ?_
    rw [e]
    simp only [List.append_assoc, List.cons_append]
    exact List.perm_middle.trans (List.Perm.cons _ List.perm_middle)
  · refine (flat_set L _ (Nat.le_refl _)).trans ?_
    simp only [List.append_assoc, List.cons_append]
    exact List.perm_middle

theorem PStar.join {c : Cfg} {L L' : Nat → List Block} (h : PStar c L L') :
    JStar (flat (c.max / 8) L) (flat (c.max / 8) L') := by
  induction h with
  | refl => exact .refl (List.Perm.refl _)
  | head h1 _ ih => exact JStar.trans (.tail (.refl (List.Perm.refl _)) h1.join) ih

theorem PStar.small {c : Cfg} {L L' : Nat → List Block} (h : PStar c L L') {i : Nat}
    (hi : i < c.max / 8) : L' i = L i := by
  induction h with
  | refl => rfl
  | head h1 _ ih =>
    obtain ⟨pre, b, y, t, e, ha, rfl⟩ := h1
    rw [ih, setL_ne (by omega)]

/-- Enlarging a large block by the neighbour that was just unlinked. -/
theorem Inv.grow {b y : Block} (h : Inv c s L (y :: V)) (hc : Legal c) {pre t : List Block}
    (e : L (c.max / 8) = pre ++ b :: t) (ha : b.1 + b.2 = y.1) :
    Inv c { s with mem := upd s.mem (b.1 + 8) (.size ((b.2 + y.2 : Nat) : Int)) }
      (setL L (c.max / 8) (pre ++ (b.1, b.2 + y.2) :: t)) V := by
  have hbL : b ∈ L (c.max / 8) := by rw [e]; simp
  have hmap : (pre ++ (b.1, b.2 + y.2) :: t).map (·.1) = (L (c.max / 8)).map (·.1) := by
    rw [e]; simp
  refine ⟨?_, ?_, ?_, ?_, ?_, ?_⟩
  · intro k hk
    have hme : (setL L (c.max / 8) (pre ++ (b.1, b.2 + y.2) :: t) k).map (·.1)
        = (L k).map (·.1) := by
      by_cases hkq : k = c.max / 8
      · rw [hkq, setL_self, hmap]
      · rw [setL_ne hkq]
    rw [hme]
    refine chain_frame (h.chain k hk) fun x hx => upd_ne ?_
    have : OnChain c L k x := by
      rcases hx with e | e
      · exact Or.inl e
      · obtain ⟨b, hb, e⟩ := List.mem_map.1 e
        exact Or.inr ⟨b, hb, e.symm⟩
    exact (h.data_ne hc hk this hbL).symm
  · intro k hk x hx
    rw [setL_ne (by omega)] at hx
    exact h.small k hk x hx
  · intro x hx
    rw [setL_self] at hx
    have hs := h.sorted _ (Nat.le_refl _)
    rw [e] at hs
    have hs' := List.pairwise_append.1 hs
    rcases List.mem_append.1 hx with hx | hx
    · have := hs'.2.2 x hx b List.mem_cons_self
      show upd s.mem _ _ (x.1 + 8) = _
      rw [upd_ne (by omega)]
      exact h.data x (by rw [e]; exact List.mem_append_left _ hx)
    · rcases List.mem_cons.1 hx with rfl | hx
      · exact upd_self _ _ _
      · have := (List.pairwise_cons.1 hs'.2.1).1 x hx
        show upd s.mem _ _ (x.1 + 8) = _
        rw [upd_ne (by omega)]
        exact h.data x (by rw [e]; exact List.mem_append_right _ (List.mem_cons_of_mem _ hx))
  · intro x hx
    rw [setL_self] at hx
    rcases List.mem_append.1 hx with hx | hx
    · exact h.big x (by rw [e]; exact List.mem_append_left _ hx)
    · rcases List.mem_cons.1 hx with rfl | hx
      · have h1 := h.big b hbL
        have h2 := h.tile.total
        rw [total_append, total] at h2
        have h3 := total_mem (mem_flat.2 ⟨_, Nat.le_refl _, hbL⟩)
        have h4 := (h.fitsV (b := y) List.mem_cons_self).2.2.2
        left; simp only; omega
      · exact h.big x (by rw [e]; exact List.mem_append_right _ (List.mem_cons_of_mem _ hx))
  · intro k hk
    by_cases hkq : k = c.max / 8
    · rw [hkq, setL_self]
      have hs := h.sorted _ (Nat.le_refl _)
      rw [← List.pairwise_map (f := fun b : Block => b.1) (R := fun a b : Nat => a < b)] at hs ⊢
      rw [hmap]; exact hs
    · rw [setL_ne hkq]; exact h.sorted k hk
  · have t1 := h.tile.perm (List.Perm.append_right _ (flat_split L (Nat.le_refl (c.max / 8))))
    rw [e] at t1
    have t2 : Tile c (b :: y :: (pre ++ t ++ flat (c.max / 8) (setL L (c.max / 8) []) ++ V)) := by
      refine t1.perm ?_
      simp only [List.append_assoc, List.cons_append]
      refine List.perm_middle.trans (List.Perm.cons _ ?_)
      rw [← List.append_assoc, ← List.append_assoc, ← List.append_assoc, ← List.append_assoc]
      exact List.perm_middle
    have ey : y = (b.1 + b.2, y.2) := by rw [ha]
    have eb : b = (b.1, b.2) := rfl
    rw [ey, eb] at t2
    refine t2.join.perm ?_
    refine List.Perm.trans ?_ (List.Perm.append_right _
      (flat_set L (pre ++ (b.1, b.2 + y.2) :: t) (Nat.le_refl (c.max / 8))).symm)
    simp only [List.append_assoc, List.cons_append]
    exact List.perm_middle.symm

/-- What merging the list of large blocks guarantees. -/
def PMerged (c : Cfg) (s : St) (L : Nat → List Block) (V : List Block) (s' : St)
    (L' : Nat → List Block) : Prop :=
  Inv c s' L' V ∧ PStar c L L' ∧ Same V s s' ∧ s'.free = s.free

theorem poolMergeLoop_ok (hc : Legal c) (n : Nat) :
    ∀ {s : St} {L : Nat → List Block}, Inv c s L V → ∀ {pre post : List Block},
      L (c.max / 8) = pre ++ post → post.length ≤ n →
      pre.Pairwise (fun a b => a.1 + a.2 ≠ b.1) → (∀ a ∈ pre, ∀ x ∈ post, a.1 + a.2 ≠ x.1) →
      wp (poolMergeLoop c ((post.map (·.1)).headD 0))
        (fun _ s' => ∃ L', PMerged c s L V s' L' ∧
          (L' (c.max / 8)).Pairwise (fun a b => a.1 + a.2 ≠ b.1)) s := by
  have hq : c.max / 8 ≤ c.max / 8 := Nat.le_refl _
  have done : ∀ {s : St} {L : Nat → List Block}, Inv c s L V → ∀ {pre : List Block},
      L (c.max / 8) = pre ++ [] → pre.Pairwise (fun a b => a.1 + a.2 ≠ b.1) →
      wp (poolMergeLoop c 0) (fun _ s' => ∃ L', PMerged c s L V s' L' ∧
          (L' (c.max / 8)).Pairwise (fun a b => a.1 + a.2 ≠ b.1)) s := by
    intro s L h pre e hp
    rw [poolMergeLoop, if_neg (by simp)]
    refine (wp_pure _ _ _).2 ⟨L, ⟨h, .refl _, Same.refl _ _, rfl⟩, ?_⟩
    rw [e, List.append_nil]; exact hp
  induction n with
  | zero =>
    intro s L h pre post e hl hp _
    have : post = [] := List.length_eq_zero_iff.1 (by omega)
    subst this
    exact done h e hp
  | succ n ih =>
    intro s L h pre post e hl hp hpp
    cases post with
    | nil => exact done h e hp
    | cons b post =>
      have hbL : b ∈ L (c.max / 8) := by rw [e]; simp
      have hfb := h.fits hq hbL
      have hs := h.sorted _ hq
      rw [e] at hs
      have hs' := List.pairwise_cons.1 (List.pairwise_append.1 hs).2.1
      rw [poolMergeLoop]
      simp only [List.map_cons, List.headD_cons]
      rw [if_pos hfb.ok.1, wp_bind, wp_of_returns (rdNext_ok hfb.ok.2 (h.next_of hq e)), wp_bind,
        wp_of_returns (rdData_ok hfb.ok.1 (hfb.ok8 (h.big16 hc hbL)) (h.data b hbL))]
      by_cases hadj : (b.1 : Int) + (b.2 : Int) = (((post.map (·.1)).headD 0 : Nat) : Int)
      · rw [if_pos hadj]
        cases post with
        | nil => have := hfb.ok.1; simp at hadj; omega
        | cons y post =>
          simp only [List.map_cons, List.headD_cons] at hadj ⊢
          have hyL : y ∈ L (c.max / 8) := by rw [e]; simp
          have hfy := h.fits hq hyL
          have ha : b.1 + b.2 = y.1 := by omega
          have e2 : L (c.max / 8) = (pre ++ [b]) ++ y :: post := by rw [e]; simp
          obtain ⟨t1, hs1⟩ := h.take hc hq e2
          have t2 := t1.grow hc (pre := pre) (b := b) (t := post) (by rw [setL_self]; simp) ha
          rw [setL_setL] at t2
          have hyM : b.2 + y.2 ≤ c.M := by
            have := hfy.1; have := hfb.1; unfold InPool at *; omega
          have hM := hc.Mint
          rw [wp_bind, wp_of_returns (rdData_ok hfy.ok.1 (hfy.ok8 (h.big16 hc hyL)) (h.data y hyL))]
          rw [wp_bind, wp_of_returns (int_ok (by omega) s)]
          rw [wp_bind, wp_of_returns (wrData_ok hfb.ok.1 (hfb.ok8 (h.big16 hc hbL)))]
          rw [wp_bind]
          have hyne : b.1 + 8 ≠ y.1 := h.data_ne hc hq (Or.inr ⟨y, hyL, rfl⟩) hbL
          refine Returns.wp (rdNext_ok (q := (post.map (·.1)).headD 0) hfy.ok.2 ?_) ?_
          · show upd s.mem _ _ y.1 = _
            rw [upd_ne (Ne.symm hyne)]
            exact h.next_of hq e2
          rw [wp_bind]
          refine Returns.wp (wrNext_ok hfb.ok.2) ?_
          have hst : ({ (unlink c s (c.max / 8) (pre ++ [b]) post) with
              mem := upd (unlink c s (c.max / 8) (pre ++ [b]) post).mem (b.1 + 8)
                (.size ((b.2 + y.2 : Nat) : Int)) } : St) =
              ⟨upd (upd s.mem (b.1 + 8) (.size ((b.2 : Int) + y.2))) b.1
                (.link ((post.map (·.1)).headD 0)), s.free⟩ := by
            unfold unlink
            rw [loc_snoc]
            simp only [St.mk.injEq, and_true]
            funext x
            unfold upd
            by_cases hx : x = b.1
            · rw [if_neg (by omega), if_pos hx, if_pos hx]
            · rw [if_neg hx, if_neg hx]
              split
              · simp
              · rfl
          rw [hst] at t2
          have hsame : Same V s ⟨upd (upd s.mem (b.1 + 8) (.size ((b.2 : Int) + y.2))) b.1
                (.link ((post.map (·.1)).headD 0)), s.free⟩ := by
            intro v hv x hx1 hx2
            show upd (upd s.mem _ _) _ _ x = _
            rw [upd_ne (h.chain_out hq (Or.inr ⟨b, hbL, rfl⟩) hv hx1 hx2).symm,
              upd_ne (h.data_out hc hbL hv hx1 hx2).symm]
          have := ih t2 (pre := pre) (post := (b.1, b.2 + y.2) :: post) (setL_self _ _ _)
            (by simp at hl ⊢; omega) hp (by
              intro a ha x hx
              rcases List.mem_cons.1 hx with rfl | hx
              · exact hpp a ha b List.mem_cons_self
              · exact hpp a ha x (List.mem_cons_of_mem _ (List.mem_cons_of_mem _ hx)))
          refine wp_mono this ?_
          rintro _ s'' ⟨L'', h1, h2⟩
          refine ⟨L'', ⟨h1.1, .head ⟨pre, b, y, post, e, ha, rfl⟩ h1.2.1, hsame.trans h1.2.2.1,
            h1.2.2.2⟩, h2⟩
      · rw [if_neg hadj]
        refine ih h (pre := pre ++ [b]) (post := post) (by rw [e]; simp)
          (by simp at hl; omega) ?_ ?_
        · refine List.pairwise_append.2 ⟨hp, by simp, ?_⟩
          intro a ha x hx
          rw [List.mem_singleton.1 hx]
          exact hpp a ha b List.mem_cons_self
        · intro a ha x hx
          rcases List.mem_append.1 ha with ha | ha
          · exact hpp a ha x (List.mem_cons_of_mem _ hx)
          · rw [List.mem_singleton.1 ha]
            cases post with
            | nil => cases hx
            | cons y post =>
              simp only [List.map_cons, List.headD_cons] at hadj
              rcases List.mem_cons.1 hx with rfl | hx
              · omega
              · have hyL : y ∈ L (c.max / 8) := by rw [e]; simp
                have h1 := hs'.1 y List.mem_cons_self
                have h2 := (List.pairwise_cons.1 hs'.2).1 x hx
                have h3 := h.disj_same hq hbL hyL (by rintro rfl; omega)
                have h4 := (h.fits hq hyL).2.2.2
                unfold Disj at h3
                omega

theorem poolMerge_ok (h : Inv c s L V) (hc : Legal c) :
    wp (poolMerge c) (fun _ s' => ∃ L', PMerged c s L V s' L' ∧
      (L' (c.max / 8)).Pairwise (fun a b => a.1 + a.2 ≠ b.1)) s := by
  have hq : c.max / 8 ≤ c.max / 8 := Nat.le_refl _
  unfold poolMerge
  rw [show (c.N : Int) - 1 = ((c.max / 8 : Nat) : Int) by unfold Cfg.N; omega]
  rw [wp_bind, wp_of_returns (entry_ok (by unfold Cfg.N; omega) s), wp_bind,
    wp_of_returns (rdNext_ok (ok_head hc hq)
      (h.next hq (pre := []) (post := L (c.max / 8)) rfl))]
  exact poolMergeLoop_ok hc _ h (pre := []) (post := L (c.max / 8)) rfl (Nat.le_refl _)
    List.Pairwise.nil (by simp)

/-- `memory_merge`: it first joins small blocks, then large ones. -/
theorem merge_ok (h : Inv c s L V) (hc : Legal c) :
    ∃ s' L1 L', Returns (merge c) s () s' ∧ Inv c s' L' V ∧ QStar c L L1 ∧ PStar c L1 L' ∧
      Same V s s' ∧ s'.free = s.free ∧
      (L' (c.max / 8)).Pairwise (fun a b => a.1 + a.2 ≠ b.1) := by
  obtain ⟨_, s1, h1, L1, h2⟩ := quickMerge_ok h hc
  obtain ⟨_, s', h3, L', h4, h5⟩ := poolMerge_ok h2.1 hc
  refine ⟨s', L1, L', ?_, h4.1, h2.2.1, h4.2.1, h2.2.2.1.trans h4.2.2.1,
    h4.2.2.2.trans h2.2.2.2, h5⟩
  unfold Returns merge
  rw [bind_returns h1]
  exact h3

end

end Verif.Sma
