import Verif.Spec.EmbeddedList
import Verif.LinkedListLemmas

/-! # Lemmas about embedded lists -/

namespace Verif.EL

open Prog Verif.LL

variable {α : Type}

/-! ## Circles -/

theorem lastOf_append (h : Ptr) (ps : List Ptr) (q : Ptr) : lastOf h (ps ++ [q]) = q := by
  unfold lastOf
  rw [List.getLast_eq_iff_getLast?_eq_some, ← List.cons_append, List.getLast?_concat]

theorem insertMid {f f' : Ptr → Option Ptr} {h c : Ptr} {pre post : List Ptr}
    (hc : Circle f h (pre ++ post)) (hn : (h :: (pre ++ post)).Nodup)
    (h1 : f' (lastOf h pre) = some c) (h2 : f' c = some (firstOf h post))
    (e : ∀ p ∈ h :: (pre ++ post), p ≠ lastOf h pre → f' p = f p) :
    Circle f' h (pre ++ c :: post) := by
  obtain ⟨xs, ex⟩ := last_split h pre
  obtain ⟨ys, ey, ed⟩ := first_split h post
  unfold Circle at hc ⊢
  have l1 : h :: (pre ++ post) ++ [h] = xs ++ lastOf h pre :: firstOf h post :: ys := by
    rw [← ey, ← List.cons_append, ex]; simp
  have l2 : h :: (pre ++ c :: post) ++ [h] = xs ++ lastOf h pre :: c :: firstOf h post :: ys := by
    rw [← ey, ← List.cons_append, ex]; simp
  have l3 : h :: (pre ++ post) = xs ++ lastOf h pre :: post := by
    rw [← List.cons_append, ex]; simp
  rw [l1] at hc
  rw [l2]
  rw [l3] at hn e
  rw [List.nodup_append] at hn
  obtain ⟨_, n2, n3⟩ := hn
  rw [Chain.append] at hc ⊢
  refine ⟨hc.1.congr ?_, hc.2.insertHead h1 h2 ?_⟩
  · intro p hp
    rw [List.dropLast_concat] at hp
    exact e p (by simp [hp]) (n3 p hp _ (List.mem_cons_self ..))
  · intro p hp
    rw [ed] at hp
    exact e p (by simp [hp]) (fun h0 => (List.nodup_cons.1 n2).1 (h0 ▸ hp))

theorem deleteMid {f f' : Ptr → Option Ptr} {h c : Ptr} {pre post : List Ptr}
    (hc : Circle f h (pre ++ c :: post)) (hn : (h :: (pre ++ c :: post)).Nodup)
    (h1 : f' (lastOf h pre) = some (firstOf h post))
    (e : ∀ p ∈ h :: (pre ++ c :: post), p ≠ lastOf h pre → p ≠ c → f' p = f p) :
    f c = some (firstOf h post) ∧ Circle f' h (pre ++ post) := by
  obtain ⟨xs, ex⟩ := last_split h pre
  obtain ⟨ys, ey, ed⟩ := first_split h post
  unfold Circle at hc ⊢
  have l1 : h :: (pre ++ post) ++ [h] = xs ++ lastOf h pre :: firstOf h post :: ys := by
    rw [← ey, ← List.cons_append, ex]; simp
  have l2 : h :: (pre ++ c :: post) ++ [h] = xs ++ lastOf h pre :: c :: firstOf h post :: ys := by
    rw [← ey, ← List.cons_append, ex]; simp
  have l3 : h :: (pre ++ c :: post) = xs ++ lastOf h pre :: c :: post := by
    rw [← List.cons_append, ex]; simp
  rw [l2] at hc
  rw [l1]
  rw [l3] at hn e
  rw [List.nodup_append] at hn
  obtain ⟨_, n2, n3⟩ := hn
  rw [Chain.append] at hc ⊢
  have n4 := List.nodup_cons.1 n2
  refine ⟨hc.2.2.1, hc.1.congr ?_, hc.2.deleteHead h1 ?_⟩
  · intro p hp
    rw [List.dropLast_concat] at hp
    exact e p (by simp [hp]) (n3 p hp _ (List.mem_cons_self ..)) (n3 p hp _ (by simp))
  · intro p hp
    rw [ed] at hp
    exact e p (by simp [hp]) (fun h0 => n4.1 (h0 ▸ List.mem_cons_of_mem _ hp))
      (fun h0 => (List.nodup_cons.1 n4.2).1 (h0 ▸ hp))

/-- Successor of a position in a circle. -/
theorem succMid {f : Ptr → Option Ptr} {h : Ptr} {pre post : List Ptr}
    (hc : Circle f h (pre ++ post)) : f (lastOf h pre) = some (firstOf h post) := by
  obtain ⟨xs, ex⟩ := last_split h pre
  obtain ⟨ys, ey, _⟩ := first_split h post
  unfold Circle at hc
  have l1 : h :: (pre ++ post) ++ [h] = xs ++ lastOf h pre :: firstOf h post :: ys := by
    rw [← ey, ← List.cons_append, ex]; simp
  rw [l1, Chain.append] at hc
  exact hc.2.1

/-! ## The invariant -/

/-- The node names of a list as addresses. -/
abbrev ptrs (l : List Nat) : List Ptr := l.map Ptr.node

structure WInv (kd : Kind) (m : Mem α) (w : SWorld α) : Prop where
  gone : ∀ n, w.data n = none → m.cell (.node n) = none
  live : ∀ n x, w.data n = some x → Live m (.node n) ∧ dt m (.node n) = some x
  nodup : ∀ h l, w.list h = some l → (h :: l).Nodup
  own : ∀ h l, w.list h = some l → ∀ n ∈ h :: l, (w.data n).isSome
  fwd : ∀ h l, w.list h = some l → Circle (nx m) (.node h) (ptrs l)
  bwd : kd = .doubly → ∀ h l, w.list h = some l → Circle (pv m) (.node h) (ptrs l).reverse
  disj : ∀ h h' l l', w.list h = some l → w.list h' = some l' → h ≠ h' → ∀ n ∈ h :: l, n ∉ h' :: l'

theorem WInv.init {kd : Kind} : WInv kd (Mem.init : Mem α) SWorld.none :=
  ⟨fun _ _ => rfl, fun _ _ h => by simp [SWorld.none] at h, fun _ _ h => by simp [SWorld.none] at h,
    fun _ _ h => by simp [SWorld.none] at h, fun _ _ h => by simp [SWorld.none] at h,
    fun _ _ _ h => by simp [SWorld.none] at h, fun _ _ _ _ h => by simp [SWorld.none] at h⟩

theorem WInv.lives {kd : Kind} {m : Mem α} {w : SWorld α} (hw : WInv kd m w) {n : Nat}
    (h : (w.data n).isSome) : Live m (.node n) := by
  obtain ⟨x, hx⟩ := Option.isSome_iff_exists.1 h
  exact (hw.live n x hx).1

theorem nodup_ptrs {l : List Nat} (h : l.Nodup) : (ptrs l).Nodup := by
  unfold ptrs
  rw [List.Nodup, List.pairwise_map]
  exact h.imp fun h e => h (by cases e; rfl)

theorem mem_ptrs {l : List Nat} {p : Ptr} (h : p ∈ ptrs l) : ∃ n ∈ l, p = .node n := by
  obtain ⟨n, h1, h2⟩ := List.mem_map.1 h
  exact ⟨n, h1, h2.symm⟩

theorem node_mem_ptrs {l : List Nat} {n : Nat} : Ptr.node n ∈ ptrs l ↔ n ∈ l := by
  simp [ptrs]

theorem lastOf_ptrs {h p : Nat} {pre : List Nat} (e : (h :: pre).getLast? = some p) :
    lastOf (.node h) (ptrs pre) = .node p := by
  unfold lastOf
  rw [List.getLast_eq_iff_getLast?_eq_some]
  have : Ptr.node h :: ptrs pre = (h :: pre).map Ptr.node := rfl
  rw [this, List.getLast?_map, e]; rfl

theorem firstOf_ptrs (h : Nat) (post : List Nat) :
    ∃ b, firstOf (.node h) (ptrs post) = .node b ∧ (b = h ∨ b ∈ post) := by
  cases post with
  | nil => exact ⟨h, rfl, .inl rfl⟩
  | cons q t => exact ⟨q, rfl, .inr (by simp)⟩

/-- Memory changes confined to the links of nodes in `S` keep every list without members in
`S`. -/
theorem WInv.keep {kd : Kind} {m m' : Mem α} {w : SWorld α} (hw : WInv kd m w) {h : Nat} {l : List Nat}
    (hl : w.list h = some l) (hn : ∀ n ∈ h :: l, nx m' (.node n) = nx m (.node n))
    (hp : kd = .doubly → ∀ n ∈ h :: l, pv m' (.node n) = pv m (.node n)) :
    Circle (nx m') (.node h) (ptrs l) ∧
      (kd = .doubly → Circle (pv m') (.node h) (ptrs l).reverse) := by
  constructor
  · refine (hw.fwd h l hl).congr ?_
    intro p hp
    obtain ⟨n, h1, rfl⟩ := mem_ptrs (l := h :: l) hp
    exact hn n h1
  · intro hk
    refine (hw.bwd hk h l hl).congr ?_
    intro p hp'
    obtain ⟨n, h1, rfl⟩ := mem_ptrs (l := h :: l) (p := p) (by simpa [ptrs] using hp')
    exact hp hk n h1

theorem Same.gone {m m' : Mem α} (h : Same m m') {p : Ptr} (hc : m.cell p = none) : m'.cell p = none := by
  have := h.st p
  unfold st at this
  rw [hc] at this
  simpa using this

/-! ## Steps -/

theorem make_ok {kd : Kind} {m : Mem α} {w : SWorld α} (hw : WInv kd m w) {n : Nat} (x : α)
    (a b : Ptr) (hn : w.data n = none) :
    wp (step kd (.make n x a b)) (fun _ m' => WInv kd m' (w.setData n (some x))) m := by
  unfold step
  rw [wp_modify]
  have hother : ∀ h l, w.list h = some l → ∀ k ∈ h :: l, k ≠ n := by
    intro h l hl k hk e
    have := hw.own h l hl k hk
    rw [e, hn] at this
    simp at this
  refine ⟨?_, ?_, hw.nodup, ?_, ?_, ?_, hw.disj⟩
  · intro k hk
    simp only [SWorld.setData] at hk
    split at hk
    · cases hk
    · rename_i hne
      simp [hne, hw.gone k hk]
  · intro k y hk
    simp only [SWorld.setData] at hk
    split at hk
    · rename_i e
      cases hk; subst e
      exact ⟨⟨by simp, _, by simp; rfl⟩, by simp [dt]⟩
    · rename_i hne
      obtain ⟨⟨h1, c, h2⟩, h3⟩ := hw.live k y hk
      exact ⟨⟨h1, c, by simp [hne, h2]⟩, by simpa [dt, hne] using h3⟩
  · intro h l hl k hk
    simp only [SWorld.setData]
    rw [if_neg (hother h l hl k hk)]
    exact hw.own h l hl k hk
  · intro h l hl
    refine (hw.keep hl (fun k hk => ?_) fun _ k hk => ?_).1 <;> simp [nx, pv, hother h l hl k hk]
  · intro hd h l hl
    refine (hw.keep hl (fun k hk => ?_) fun _ k hk => ?_).2 hd <;> simp [nx, pv, hother h l hl k hk]

theorem Free.notMem {w : SWorld α} {n : Nat} (hf : w.Free n) {h : Nat} {l : List Nat}
    (hl : w.list h = some l) : n ∉ h :: l := by
  intro hm
  rcases List.mem_cons.1 hm with rfl | hm
  · rw [hf.2.1] at hl; cases hl
  · exact hf.2.2 h l hl hm

/-- A free node or an empty head occurs in no other list. -/
theorem loose {kd : Kind} {m : Mem α} {w : SWorld α} (hw : WInv kd m w) {n : Nat}
    (hn : w.Free n ∨ w.list n = some []) {h : Nat} {l : List Nat} (hl : w.list h = some l)
    (hne : h ≠ n) : n ∉ h :: l := by
  rcases hn with hf | he
  · exact Free.notMem hf hl
  · exact hw.disj n h [] l he hl (Ne.symm hne) n (by simp)

theorem loose_some {kd : Kind} {m : Mem α} {w : SWorld α} (hw : WInv kd m w) {n : Nat}
    (hn : w.Free n ∨ w.list n = some []) : (w.data n).isSome := by
  rcases hn with hf | he
  · exact hf.1
  · exact hw.own n [] he n (by simp)

theorem linkInit_ok {kd : Kind} {m : Mem α} {p : Ptr} (h : Live m p) :
    wp (linkInit kd p) (fun _ m' => Same m m' ∧ (∀ x, nx m' x = if x = p then some p else nx m x) ∧
      (kd = .doubly → ∀ x, pv m' x = if x = p then some p else pv m x) ∧
      (∀ x, dt m' x = dt m x)) m := by
  unfold linkInit
  rw [wp_bind]
  refine wp_mono (setNext_ok h) ?_
  rintro _ m1 ⟨s1, n1, p1, d1, _⟩
  cases kd with
  | singly => exact (wp_pure _ _ _).2 ⟨s1, n1, fun h => (by cases h), d1⟩
  | doubly =>
    refine wp_mono (setPrev_ok (s1.live h)) ?_
    rintro _ m2 ⟨s2, p2, n2, d2, _⟩
    exact ⟨s1.trans s2, fun x => by rw [n2, n1], fun _ x => by rw [p2, p1], fun x => by rw [d2, d1]⟩

/-- Nothing but links of existing nodes changed: the data part of the invariant. -/
theorem data_keep {kd : Kind} {m m' : Mem α} {w : SWorld α} (hw : WInv kd m w) (hs : Same m m')
    (hd : ∀ x, dt m' x = dt m x) : (∀ n, w.data n = none → m'.cell (.node n) = none) ∧
    ∀ n x, w.data n = some x → Live m' (.node n) ∧ dt m' (.node n) = some x :=
  ⟨fun n h => Same.gone hs (hw.gone n h), fun n x h =>
    ⟨hs.live (hw.live n x h).1, by rw [hd]; exact (hw.live n x h).2⟩⟩

theorem init_ok {kd : Kind} {m : Mem α} {w : SWorld α} (hw : WInv kd m w) {n : Nat}
    (hn : w.Free n ∨ w.list n = some []) :
    wp (step kd (.init n)) (fun _ m' => WInv kd m' (w.setList n (some []))) m := by
  refine wp_mono (linkInit_ok (hw.lives (loose_some hw hn))) ?_
  rintro _ m' ⟨hs, hnx, hpv, hdt⟩
  obtain ⟨d1, d2⟩ := data_keep hw hs hdt
  have hne : ∀ h l, w.list h = some l → h ≠ n → ∀ k ∈ h :: l, Ptr.node k ≠ Ptr.node n := by
    intro h l hl hh k hk e
    cases e
    exact loose hw hn hl hh hk
  refine ⟨d1, d2, ?_, ?_, ?_, ?_, ?_⟩
  · intro h l hl
    simp only [SWorld.setList] at hl
    split at hl
    · cases hl; simp
    · exact hw.nodup h l hl
  · intro h l hl
    simp only [SWorld.setList] at hl
    split at hl
    · rename_i e; cases hl; subst e
      intro k hk; simp at hk; subst hk
      exact loose_some hw hn
    · exact hw.own h l hl
  · intro h l hl
    simp only [SWorld.setList] at hl
    split at hl
    · rename_i e; cases hl; subst e
      exact ⟨by rw [hnx, if_pos rfl], trivial⟩
    · rename_i hh
      exact (hw.keep hl (fun k hk => by rw [hnx, if_neg (hne h l hl hh k hk)])
        fun hd k hk => by rw [hpv hd, if_neg (hne h l hl hh k hk)]).1
  · intro hd h l hl
    simp only [SWorld.setList] at hl
    split at hl
    · rename_i e; cases hl; subst e
      exact ⟨by rw [hpv hd, if_pos rfl], trivial⟩
    · rename_i hh
      exact (hw.keep hl (fun k hk => by rw [hnx, if_neg (hne h l hl hh k hk)])
        fun hd k hk => by rw [hpv hd, if_neg (hne h l hl hh k hk)]).2 hd
  · intro h h' l l' hl hl' hhh k hk hk'
    simp only [SWorld.setList] at hl hl'
    split at hl
    · rename_i e; cases hl; subst e
      simp at hk; subst hk
      rw [if_neg (Ne.symm hhh)] at hl'
      exact loose hw hn hl' (Ne.symm hhh) hk'
    · split at hl'
      · rename_i e; cases hl'; subst e
        simp at hk'; subst hk'
        exact loose hw hn hl hhh hk
      · exact hw.disj h h' l l' hl hl' hhh k hk hk'

theorem add_ok {kd : Kind} {m : Mem α} {w : SWorld α} (hw : WInv kd m w) {h p c : Nat}
    {pre post : List Nat} (hl : w.list h = some (pre ++ post)) (hp : (h :: pre).getLast? = some p)
    (hf : w.Free c) :
    wp (step kd (.add p c)) (fun _ m' => WInv kd m' (w.setList h (some (pre ++ c :: post)))) m := by
  have hpm : p ∈ h :: (pre ++ post) := by
    have := List.mem_of_getLast? hp
    rcases List.mem_cons.1 this with h1 | h1 <;> simp [h1]
  obtain ⟨b, hb, hbm⟩ := firstOf_ptrs h post
  have hbm' : b ∈ h :: (pre ++ post) := by rcases hbm with h1 | h1 <;> simp [h1]
  have hlast := lastOf_ptrs hp
  have hcn : c ∉ h :: (pre ++ post) := Free.notMem hf hl
  have hfw := hw.fwd h _ hl
  have e1 : ptrs (pre ++ post) = ptrs pre ++ ptrs post := List.map_append
  have e2 : ptrs (pre ++ c :: post) = ptrs pre ++ .node c :: ptrs post := by simp [ptrs]
  rw [e1] at hfw
  have hab := succMid hfw
  rw [hlast, hb] at hab
  have hcp : Ptr.node c ≠ Ptr.node p := by intro e; cases e; exact hcn hpm
  have hcb : Ptr.node c ≠ Ptr.node b := by intro e; cases e; exact hcn hbm'
  refine wp_mono (linkAdd_ok (hw.lives (hw.own h _ hl p hpm)) (hw.lives hf.1)
    (hw.lives (hw.own h _ hl b hbm')) hab hcp) ?_
  rintro _ m' ⟨hs, hnx, hpv, hdt, _⟩
  obtain ⟨d1, d2⟩ := data_keep hw hs hdt
  have hnd := hw.nodup h _ hl
  have hndp : (Ptr.node h :: (ptrs pre ++ ptrs post)).Nodup := by
    have := nodup_ptrs hnd
    rwa [show ptrs (h :: (pre ++ post)) = Ptr.node h :: (ptrs pre ++ ptrs post) by simp [ptrs]] at this
  have hcm : Ptr.node c ∉ Ptr.node h :: (ptrs pre ++ ptrs post) := by
    intro hm
    rw [← e1] at hm
    exact hcn ((node_mem_ptrs (l := h :: (pre ++ post))).1 hm)
  refine ⟨d1, d2, ?_, ?_, ?_, ?_, ?_⟩
  · intro h' l' hl'
    simp only [SWorld.setList] at hl'
    split at hl'
    · rename_i e; cases hl'; subst e
      have hperm : (h' :: (pre ++ c :: post)).Perm (c :: h' :: (pre ++ post)) :=
        (List.perm_middle.cons h').trans (.swap ..)
      rw [hperm.nodup_iff]
      exact List.nodup_cons.2 ⟨hcn, hnd⟩
    · exact hw.nodup h' l' hl'
  · intro h' l' hl'
    simp only [SWorld.setList] at hl'
    split at hl'
    · rename_i e; cases hl'; subst e
      intro k hk
      by_cases hkc : k = c
      · subst hkc; exact hf.1
      · exact hw.own h' _ hl k (by simp [hkc] at hk ⊢; exact hk)
    · exact hw.own h' l' hl'
  · intro h' l' hl'
    simp only [SWorld.setList] at hl'
    split at hl'
    · rename_i e; cases hl'; subst e
      rw [e2]
      refine insertMid hfw hndp ?_ ?_ ?_
      · rw [hlast, hnx, if_pos rfl]
      · rw [hb, hnx, if_neg hcp, if_pos rfl]
      · intro q hq hqa
        rw [hlast] at hqa
        rw [hnx, if_neg hqa, if_neg (by rintro rfl; exact hcm hq)]
    · rename_i hh
      refine (hw.keep hl' (fun k hk => ?_) fun hd k hk => ?_).1
      · rw [hnx, if_neg, if_neg]
        · intro e; cases e; exact Free.notMem hf hl' hk
        · intro e; injection e with e; exact hw.disj _ _ _ _ hl' hl hh k hk (e ▸ hpm)
      · rw [hpv hd, if_neg, if_neg]
        · intro e; cases e; exact Free.notMem hf hl' hk
        · intro e; injection e with e; exact hw.disj _ _ _ _ hl' hl hh k hk (e ▸ hbm')
  · intro hd h' l' hl'
    simp only [SWorld.setList] at hl'
    split at hl'
    · rename_i e; cases hl'; subst e
      have hbw := hw.bwd hd h' _ hl
      rw [e1, List.reverse_append] at hbw
      rw [e2, List.reverse_append, List.reverse_cons, List.append_assoc, List.singleton_append]
      have f1 : lastOf (.node h') (ptrs post).reverse = .node b := by
        rw [← firstOf_reverse, List.reverse_reverse, hb]
      have f2 : firstOf (.node h') (ptrs pre).reverse = .node p := by
        rw [firstOf_reverse, hlast]
      refine insertMid hbw ?_ ?_ ?_ ?_
      · have hperm : (Ptr.node h' :: ((ptrs post).reverse ++ (ptrs pre).reverse)).Perm
            (Ptr.node h' :: (ptrs pre ++ ptrs post)) := by
          rw [← List.reverse_append]
          exact (List.reverse_perm _).cons _
        rw [hperm.nodup_iff]; exact hndp
      · rw [f1, hpv hd, if_pos rfl]
      · rw [f2, hpv hd, if_neg hcb, if_pos rfl]
      · intro q hq hqa
        rw [f1] at hqa
        rw [hpv hd, if_neg hqa, if_neg]
        rintro rfl
        refine hcm ?_
        rcases List.mem_cons.1 hq with h1 | h1
        · exact List.mem_cons.2 (.inl h1)
        · refine List.mem_cons_of_mem _ ?_
          rw [← List.reverse_append, List.mem_reverse] at h1
          exact h1
    · rename_i hh
      refine (hw.keep hl' (fun k hk => ?_) fun hd k hk => ?_).2 hd
      · rw [hnx, if_neg, if_neg]
        · intro e; cases e; exact Free.notMem hf hl' hk
        · intro e; injection e with e; exact hw.disj _ _ _ _ hl' hl hh k hk (e ▸ hpm)
      · rw [hpv hd, if_neg, if_neg]
        · intro e; cases e; exact Free.notMem hf hl' hk
        · intro e; injection e with e; exact hw.disj _ _ _ _ hl' hl hh k hk (e ▸ hbm')
  · have hsplit : ∀ k, k ∈ h :: (pre ++ c :: post) → k = c ∨ k ∈ h :: (pre ++ post) := by
      intro k hk
      by_cases hkc : k = c
      · exact .inl hkc
      · exact .inr (by simp [hkc] at hk ⊢; exact hk)
    intro h1 h2 l1 l2 hl1 hl2 hhh k hk hk'
    simp only [SWorld.setList] at hl1 hl2
    split at hl1
    · rename_i e; cases hl1; subst e
      rw [if_neg (Ne.symm hhh)] at hl2
      rcases hsplit k hk with rfl | hk
      · exact Free.notMem hf hl2 hk'
      · exact hw.disj _ _ _ _ hl hl2 hhh k hk hk'
    · split at hl2
      · rename_i e; cases hl2; subst e
        rcases hsplit k hk' with rfl | hk'
        · exact Free.notMem hf hl1 hk
        · exact hw.disj _ _ _ _ hl1 hl hhh k hk hk'
      · exact hw.disj _ _ _ _ hl1 hl2 hhh k hk hk'

theorem del_ok {kd : Kind} {m : Mem α} {w : SWorld α} (hw : WInv kd m w) {h p c : Nat}
    {pre post : List Nat} (hl : w.list h = some (pre ++ c :: post))
    (hp : (h :: pre).getLast? = some p) :
    wp (step kd (.del p c)) (fun _ m' => WInv kd m' (w.setList h (some (pre ++ post)))) m := by
  have hpm0 : p ∈ h :: pre := List.mem_of_getLast? hp
  have hpm : p ∈ h :: (pre ++ c :: post) := by
    rcases List.mem_cons.1 hpm0 with h1 | h1 <;> simp [h1]
  have hcm : c ∈ h :: (pre ++ c :: post) := by simp
  obtain ⟨b, hb, hbm⟩ := firstOf_ptrs h post
  have hbm' : b ∈ h :: (pre ++ c :: post) := by rcases hbm with h1 | h1 <;> simp [h1]
  have hlast := lastOf_ptrs hp
  have hnd := hw.nodup h _ hl
  have hcn : c ∉ h :: (pre ++ post) := by
    have hperm : (h :: (pre ++ c :: post)).Perm (c :: h :: (pre ++ post)) :=
      (List.perm_middle.cons h).trans (.swap ..)
    rw [hperm.nodup_iff] at hnd
    exact (List.nodup_cons.1 hnd).1
  have hcp : Ptr.node c ≠ Ptr.node p := by
    intro e; cases e
    refine hcn ?_
    rcases List.mem_cons.1 hpm0 with h1 | h1 <;> simp [h1]
  have hfw := hw.fwd h _ hl
  have e1 : ptrs (pre ++ post) = ptrs pre ++ ptrs post := List.map_append
  have e2 : ptrs (pre ++ c :: post) = ptrs pre ++ .node c :: ptrs post := by simp [ptrs]
  rw [e2] at hfw
  have hndp : (Ptr.node h :: (ptrs pre ++ .node c :: ptrs post)).Nodup := by
    have := nodup_ptrs hnd
    rwa [show ptrs (h :: (pre ++ c :: post)) = Ptr.node h :: (ptrs pre ++ .node c :: ptrs post) by
      simp [ptrs]] at this
  have hcb : nx m (.node c) = some (.node b) := by
    have : Circle (nx m) (.node h) ((ptrs pre ++ [.node c]) ++ ptrs post) := by
      rw [List.append_assoc, List.singleton_append]; exact hfw
    have := succMid this
    rwa [lastOf_append, hb] at this
  refine wp_mono (linkDel_ok (hw.lives (hw.own h _ hl p hpm)) (hw.lives (hw.own h _ hl c hcm))
    (hw.lives (hw.own h _ hl b hbm')) hcb hcp) ?_
  rintro _ m' ⟨hs, hnx, hpv, hdt, _⟩
  obtain ⟨d1, d2⟩ := data_keep hw hs hdt
  have hother : ∀ h' l', w.list h' = some l' → h' ≠ h → ∀ k ∈ h' :: l',
      Ptr.node k ≠ Ptr.node c ∧ Ptr.node k ≠ Ptr.node p ∧ Ptr.node k ≠ Ptr.node b := by
    intro h' l' hl' hh k hk
    refine ⟨?_, ?_, ?_⟩ <;> (intro e; injection e with e)
    · exact hw.disj _ _ _ _ hl' hl hh k hk (e ▸ hcm)
    · exact hw.disj _ _ _ _ hl' hl hh k hk (e ▸ hpm)
    · exact hw.disj _ _ _ _ hl' hl hh k hk (e ▸ hbm')
  have hkeep : ∀ h' l', w.list h' = some l' → h' ≠ h →
      Circle (nx m') (.node h') (ptrs l') ∧
      (kd = .doubly → Circle (pv m') (.node h') (ptrs l').reverse) := by
    intro h' l' hl' hh
    refine hw.keep hl' (fun k hk => ?_) fun hd k hk => ?_ <;>
      obtain ⟨g1, g2, g3⟩ := hother h' l' hl' hh k hk
    · rw [hnx _ g1, if_neg g2]
    · rw [hpv hd _ g1, if_neg g3]
  refine ⟨d1, d2, ?_, ?_, ?_, ?_, ?_⟩
  · intro h' l' hl'
    simp only [SWorld.setList] at hl'
    split at hl'
    · rename_i e; cases hl'; subst e
      refine hnd.sublist ?_
      refine List.Sublist.cons_cons _ ?_
      exact List.Sublist.append (List.Sublist.refl _) (List.sublist_cons_self ..)
    · exact hw.nodup h' l' hl'
  · intro h' l' hl'
    simp only [SWorld.setList] at hl'
    split at hl'
    · rename_i e; cases hl'; subst e
      intro k hk
      refine hw.own h' _ hl k ?_
      simp at hk ⊢
      rcases hk with h1 | h1 | h1 <;> simp [h1]
    · exact hw.own h' l' hl'
  · intro h' l' hl'
    simp only [SWorld.setList] at hl'
    split at hl'
    · rename_i e; cases hl'; subst e
      rw [e1]
      refine (deleteMid hfw hndp ?_ ?_).2
      · rw [hlast, hb, hnx _ (Ne.symm hcp), if_pos rfl]
      · intro q _ hqa hqc
        rw [hlast] at hqa
        rw [hnx _ hqc, if_neg hqa]
    · rename_i hh
      exact (hkeep h' l' hl' hh).1
  · intro hd h' l' hl'
    simp only [SWorld.setList] at hl'
    split at hl'
    · rename_i e; cases hl'; subst e
      have hbw := hw.bwd hd h' _ hl
      rw [e2, List.reverse_append, List.reverse_cons, List.append_assoc, List.singleton_append] at hbw
      rw [e1, List.reverse_append]
      have f1 : lastOf (.node h') (ptrs post).reverse = .node b := by
        rw [← firstOf_reverse, List.reverse_reverse, hb]
      have f2 : firstOf (.node h') (ptrs pre).reverse = .node p := by
        rw [firstOf_reverse, hlast]
      have hbc : Ptr.node b ≠ Ptr.node c := by
        intro e; cases e
        refine hcn ?_
        rcases hbm with h1 | h1 <;> simp [h1]
      refine (deleteMid hbw ?_ ?_ ?_).2
      · have hperm : (Ptr.node h' :: ((ptrs post).reverse ++ .node c :: (ptrs pre).reverse)).Perm
            (Ptr.node h' :: (ptrs pre ++ .node c :: ptrs post)) := by
          have : (ptrs post).reverse ++ .node c :: (ptrs pre).reverse =
              (ptrs pre ++ .node c :: ptrs post).reverse := by simp
          rw [this]
          exact (List.reverse_perm _).cons _
        rw [hperm.nodup_iff]; exact hndp
      · rw [f1, f2, hpv hd _ hbc, if_pos rfl]
      · intro q _ hqa hqc
        rw [f1] at hqa
        rw [hpv hd _ hqc, if_neg hqa]
    · rename_i hh
      exact (hkeep h' l' hl' hh).2 hd
  · have hsub : ∀ k, k ∈ h :: (pre ++ post) → k ∈ h :: (pre ++ c :: post) := by
      intro k hk
      simp at hk ⊢
      rcases hk with h1 | h1 | h1 <;> simp [h1]
    intro h1 h2 l1 l2 hl1 hl2 hhh k hk hk'
    simp only [SWorld.setList] at hl1 hl2
    split at hl1
    · rename_i e; cases hl1; subst e
      rw [if_neg (Ne.symm hhh)] at hl2
      exact hw.disj _ _ _ _ hl hl2 hhh k (hsub k hk) hk'
    · split at hl2
      · rename_i e; cases hl2; subst e
        exact hw.disj _ _ _ _ hl1 hl hhh k hk (hsub k hk')
      · exact hw.disj _ _ _ _ hl1 hl2 hhh k hk hk'

theorem set_ok {kd : Kind} {m : Mem α} {w : SWorld α} (hw : WInv kd m w) {n : Nat} (x : α)
    (hn : (w.data n).isSome) :
    wp (step kd (.set n x)) (fun _ m' => WInv kd m' (w.setData n (some x))) m := by
  refine wp_mono (setData_ok (hw.lives hn)) ?_
  rintro _ m' ⟨hs, hdt, hnx, hpv, _⟩
  refine ⟨?_, ?_, hw.nodup, ?_, ?_, ?_, hw.disj⟩
  · intro k hk
    simp only [SWorld.setData] at hk
    split at hk
    · cases hk
    · exact Same.gone hs (hw.gone k hk)
  · intro k y hk
    simp only [SWorld.setData] at hk
    split at hk
    · rename_i e; cases hk; subst e
      exact ⟨hs.live (hw.lives hn), by rw [hdt, if_pos rfl]⟩
    · rename_i hne
      obtain ⟨h1, h2⟩ := hw.live k y hk
      exact ⟨hs.live h1, by rw [hdt, if_neg (by intro e; cases e; exact hne rfl)]; exact h2⟩
  · intro h l hl k hk
    simp only [SWorld.setData]
    split
    · rfl
    · exact hw.own h l hl k hk
  · intro h l hl
    exact (hw.keep hl (fun k _ => hnx _) fun _ k _ => hpv _).1
  · intro hd h l hl
    exact (hw.keep hl (fun k _ => hnx _) fun _ k _ => hpv _).2 hd

theorem kill_ok {kd : Kind} {m : Mem α} {w : SWorld α} (hw : WInv kd m w) {n : Nat}
    (hn : w.Free n ∨ w.list n = some []) :
    wp (step kd (.kill n)) (fun _ m' => WInv kd m' ((w.setData n none).setList n none)) m := by
  obtain ⟨c, hc, _⟩ := get_ok (hw.lives (loose_some hw hn))
  unfold step
  simp only
  rw [wp_bind, wp_of_returns hc, wp_modify]
  have hlist : ∀ h l, ((w.setData n none).setList n none).list h = some l → h ≠ n ∧ w.list h = some l := by
    intro h l hl
    simp only [SWorld.setList, SWorld.setData] at hl
    split at hl
    · cases hl
    · rename_i hh; exact ⟨hh, hl⟩
  have hne : ∀ h l, ((w.setData n none).setList n none).list h = some l → ∀ k ∈ h :: l, k ≠ n := by
    intro h l hl k hk e
    obtain ⟨h1, h2⟩ := hlist h l hl
    exact loose hw hn h2 h1 (e ▸ hk)
  refine ⟨?_, ?_, ?_, ?_, ?_, ?_, ?_⟩
  · intro k hk
    simp only [SWorld.setList, SWorld.setData] at hk
    by_cases hkn : k = n
    · simp [hkn]
    · rw [if_neg hkn] at hk
      simp [hkn, hw.gone k hk]
  · intro k y hk
    simp only [SWorld.setList, SWorld.setData] at hk
    split at hk
    · cases hk
    · rename_i hkn
      obtain ⟨⟨h1, c, h2⟩, h3⟩ := hw.live k y hk
      exact ⟨⟨h1, c, by simp [hkn, h2]⟩, by simpa [dt, hkn] using h3⟩
  · intro h l hl; exact hw.nodup h l (hlist h l hl).2
  · intro h l hl k hk
    simp only [SWorld.setList, SWorld.setData]
    rw [if_neg (hne h l hl k hk)]
    exact hw.own h l (hlist h l hl).2 k hk
  · intro h l hl
    refine (hw.keep (hlist h l hl).2 (fun k hk => ?_) fun _ k hk => ?_).1 <;>
      simp [nx, pv, hne h l hl k hk]
  · intro hd h l hl
    refine (hw.keep (hlist h l hl).2 (fun k hk => ?_) fun _ k hk => ?_).2 hd <;>
      simp [nx, pv, hne h l hl k hk]
  · intro h h' l l' hl hl'
    exact hw.disj h h' l l' (hlist h l hl).2 (hlist h' l' hl').2

/-- `del` leaves null links in the node that is taken out. -/
theorem linkDel_null {kd : Kind} {m : Mem α} {a b c : Ptr} (ha : Live m a) (hc : Live m c)
    (hb : Live m b) (hcb : nx m c = some b) (hca : c ≠ a) :
    wp (linkDel kd a c) (fun _ m' => nx m' c = some .null ∧ (kd = .doubly → pv m' c = some .null)) m := by
  cases kd with
  | singly =>
    unfold linkDel
    simp only
    rw [wp_bind, wp_of_returns (getNext_ok hc hcb), wp_bind]
    refine wp_mono (setNext_ok ha) ?_
    rintro _ m1 ⟨s1, n1, p1, d1, c1⟩
    refine wp_mono (setNext_ok (s1.live hc)) ?_
    rintro _ m2 ⟨s2, n2, p2, d2, c2⟩
    exact ⟨by rw [n2, if_pos rfl], fun h => by cases h⟩
  | doubly =>
    unfold linkDel
    simp only
    rw [wp_bind, wp_of_returns (getNext_ok hc hcb), wp_bind]
    refine wp_mono (setNext_ok ha) ?_
    rintro _ m1 ⟨s1, n1, p1, d1, c1⟩
    have hcb1 : nx m1 c = some b := by rw [n1, if_neg hca]; exact hcb
    rw [wp_bind, wp_of_returns (getNext_ok (s1.live hc) hcb1), wp_bind, wp_when]
    refine ⟨fun _ => ?_, fun h => absurd hb.1 (by simpa using h)⟩
    refine wp_mono (setPrev_ok (s1.live hb)) ?_
    rintro _ m2 ⟨s2, p2, n2, d2, c2⟩
    rw [wp_bind]
    refine wp_mono (setNext_ok (s2.live (s1.live hc))) ?_
    rintro _ m3 ⟨s3, n3, p3, d3, c3⟩
    refine wp_mono (setPrev_ok (s3.live (s2.live (s1.live hc)))) ?_
    rintro _ m4 ⟨s4, p4, n4, d4, c4⟩
    exact ⟨by rw [n4, n3, if_pos rfl], fun _ => by rw [p4, if_pos rfl]⟩

theorem del_null {kd : Kind} {m : Mem α} {w : SWorld α} (hw : WInv kd m w) {h p c : Nat}
    {pre post : List Nat} (hl : w.list h = some (pre ++ c :: post))
    (hp : (h :: pre).getLast? = some p) :
    wp (step kd (.del p c)) (fun _ m' => nx m' (.node c) = some .null ∧
      (kd = .doubly → pv m' (.node c) = some .null)) m := by
  have hpm0 : p ∈ h :: pre := List.mem_of_getLast? hp
  have hpm : p ∈ h :: (pre ++ c :: post) := by
    rcases List.mem_cons.1 hpm0 with h1 | h1 <;> simp [h1]
  obtain ⟨b, hb, hbm⟩ := firstOf_ptrs h post
  have hbm' : b ∈ h :: (pre ++ c :: post) := by rcases hbm with h1 | h1 <;> simp [h1]
  have hnd := hw.nodup h _ hl
  have hcp : Ptr.node c ≠ Ptr.node p := by
    intro e; injection e with e; subst e
    have hperm : (h :: (pre ++ c :: post)).Perm (c :: h :: (pre ++ post)) :=
      (List.perm_middle.cons h).trans (.swap ..)
    rw [hperm.nodup_iff] at hnd
    refine (List.nodup_cons.1 hnd).1 ?_
    rcases List.mem_cons.1 hpm0 with h1 | h1 <;> simp [h1]
  have hcb : nx m (.node c) = some (.node b) := by
    have hfw := hw.fwd h _ hl
    have : Circle (nx m) (.node h) ((ptrs pre ++ [.node c]) ++ ptrs post) := by
      rw [List.append_assoc, List.singleton_append]
      rwa [show ptrs (pre ++ c :: post) = ptrs pre ++ .node c :: ptrs post by simp [ptrs]] at hfw
    have := succMid this
    rwa [lastOf_append, hb] at this
  exact linkDel_null (hw.lives (hw.own h _ hl p hpm)) (hw.lives (hw.own h _ hl c (by simp)))
    (hw.lives (hw.own h _ hl b hbm')) hcb hcp

theorem step_ok {kd : Kind} {m : Mem α} {w w' : SWorld α} {op : Op α} (hw : WInv kd m w)
    (hs : SpecStep op w w') : wp (step kd op) (fun _ m' => WInv kd m' w') m := by
  cases hs with
  | make x a b h => exact make_ok hw x a b h
  | init h => exact init_ok hw h
  | add h1 h2 h3 => exact add_ok hw h1 h2 h3
  | del h1 h2 => exact del_ok hw h1 h2
  | set x h => exact set_ok hw x h
  | kill h => exact kill_ok hw h

theorem run_ok {kd : Kind} {m : Mem α} {w w' : SWorld α} {ops : List (Op α)} (hw : WInv kd m w)
    (hs : SpecRun ops w w') : wp (run kd ops) (fun _ m' => WInv kd m' w') m := by
  induction hs generalizing m with
  | nil => exact (wp_pure _ _ _).2 hw
  | cons h1 _ ih =>
    show wp (step kd _ >>= fun _ => run kd _) _ _
    rw [wp_bind]
    refine wp_mono (step_ok hw h1) ?_
    intro _ m' hw'
    exact ih hw'

/-! ## What is shown -/

theorem items_cons {w : SWorld α} {n : Nat} {x : α} {l : List Nat} (h : w.data n = some x) :
    w.items (n :: l) = (.node n, x) :: w.items l := by
  simp [SWorld.items, h]

theorem walkFrom_ok {kd : Kind} {m : Mem α} {w : SWorld α} (hw : WInv kd m w) {h : Nat} :
    ∀ l : List Nat, (∀ n ∈ l, (w.data n).isSome) → h ∉ l → ∀ b, b = firstOf (.node h) (ptrs l) →
      Chain (nx m) (ptrs l ++ [.node h]) → Returns (walkFrom (.node h) b) m (w.items l) m := by
  intro l
  induction l with
  | nil =>
    rintro _ _ b rfl _
    rw [walkFrom]
    rw [if_pos (by rfl)]
    rfl
  | cons n l ih =>
    rintro h1 h2 b rfl h3
    simp only [List.mem_cons, not_or] at h2
    obtain ⟨x, hx⟩ := Option.isSome_iff_exists.1 (h1 n (by simp))
    obtain ⟨hl, hd⟩ := hw.live n x hx
    have hnext : nx m (.node n) = some (firstOf (.node h) (ptrs l)) ∧
        Chain (nx m) (ptrs l ++ [.node h]) := by
      obtain ⟨t, e1, _⟩ := first_split (.node h) (ptrs l)
      have : ptrs (n :: l) ++ [.node h] = .node n :: firstOf (.node h) (ptrs l) :: t := by
        rw [← e1]; rfl
      rw [this] at h3
      exact ⟨h3.1, by rw [e1]; exact h3.2⟩
    show Returns (walkFrom (.node h) (.node n)) _ _ _
    rw [walkFrom]
    rw [if_neg (by intro e; cases e; exact h2.1 rfl)]
    unfold Returns
    rw [bind_returns (getData_ok hl hd), bind_returns (getNext_ok hl hnext.1),
      bind_returns (ih (fun k hk => h1 k (List.mem_cons_of_mem _ hk)) h2.2 _ rfl hnext.2),
      items_cons hx]
    rfl

theorem walkBackFrom_ok {kd : Kind} {m : Mem α} {w : SWorld α} (hw : WInv kd m w) {h : Nat} :
    ∀ l : List Nat, (∀ n ∈ l, (w.data n).isSome) → h ∉ l → ∀ b, b = firstOf (.node h) (ptrs l) →
      Chain (pv m) (ptrs l ++ [.node h]) → Returns (walkBackFrom (.node h) b) m (w.items l) m := by
  intro l
  induction l with
  | nil =>
    rintro _ _ b rfl _
    rw [walkBackFrom]
    rw [if_pos (by rfl)]
    rfl
  | cons n l ih =>
    rintro h1 h2 b rfl h3
    simp only [List.mem_cons, not_or] at h2
    obtain ⟨x, hx⟩ := Option.isSome_iff_exists.1 (h1 n (by simp))
    obtain ⟨hl, hd⟩ := hw.live n x hx
    have hnext : pv m (.node n) = some (firstOf (.node h) (ptrs l)) ∧
        Chain (pv m) (ptrs l ++ [.node h]) := by
      obtain ⟨t, e1, _⟩ := first_split (.node h) (ptrs l)
      have : ptrs (n :: l) ++ [.node h] = .node n :: firstOf (.node h) (ptrs l) :: t := by
        rw [← e1]; rfl
      rw [this] at h3
      exact ⟨h3.1, by rw [e1]; exact h3.2⟩
    show Returns (walkBackFrom (.node h) (.node n)) _ _ _
    rw [walkBackFrom]
    rw [if_neg (by intro e; cases e; exact h2.1 rfl)]
    unfold Returns
    rw [bind_returns (getData_ok hl hd), bind_returns (getPrev_ok hl hnext.1),
      bind_returns (ih (fun k hk => h1 k (List.mem_cons_of_mem _ hk)) h2.2 _ rfl hnext.2),
      items_cons hx]
    rfl

theorem chain_tail {f : Ptr → Option Ptr} {h : Ptr} {ps : List Ptr} (hc : Circle f h ps) :
    Chain f (ps ++ [h]) := by
  cases ps with
  | nil => exact hc.2
  | cons p ps => exact hc.2

theorem WInv.shows {kd : Kind} {m : Mem α} {w : SWorld α} (hw : WInv kd m w) : Shows kd m w := by
  refine ⟨fun n x hx => getData_ok (hw.live n x hx).1 (hw.live n x hx).2, hw.gone, ?_⟩
  intro h l hl
  have hown := hw.own h l hl
  have hnd := List.nodup_cons.1 (hw.nodup h l hl)
  have hlive : Live m (.node h) := hw.lives (hown h (by simp))
  have hfst := (hw.fwd h l hl).first
  refine ⟨?_, ?_, ?_, ?_⟩
  · clear hl hnd hfst
    induction l with
    | nil => rfl
    | cons n l ih =>
      obtain ⟨x, hx⟩ := Option.isSome_iff_exists.1 (hown n (by simp))
      rw [items_cons hx, List.map_cons, List.map_cons,
        ih (fun k hk => hown k (by rcases List.mem_cons.1 hk with h1 | h1 <;> simp [h1]))]
  · unfold walk Returns
    rw [bind_returns (getNext_ok hlive hfst)]
    exact walkFrom_ok hw l (fun n hn => hown n (by simp [hn])) hnd.1 _ rfl (chain_tail (hw.fwd h l hl))
  · intro hd
    have hb := hw.bwd hd h l hl
    have hrev : (ptrs l).reverse = ptrs l.reverse := by simp [ptrs]
    rw [hrev] at hb
    have hitems : (w.items l).reverse = w.items l.reverse := by
      simp [SWorld.items, List.filterMap_reverse]
    rw [hitems]
    unfold walkBack Returns
    rw [bind_returns (getPrev_ok hlive hb.first)]
    exact walkBackFrom_ok hw l.reverse (fun n hn => hown n (by simp at hn; simp [hn]))
      (by simpa using hnd.1) _ rfl (chain_tail hb)
  · unfold empty Returns
    rw [bind_returns (getNext_ok hlive hfst)]
    cases l with
    | nil => simp [firstOf]; rfl
    | cons n l =>
      have hne : firstOf (.node h) (ptrs (n :: l)) ≠ .node h := by
        show Ptr.node n ≠ Ptr.node h
        intro e; cases e; exact hnd.1 (by simp)
      show (pure (decide (firstOf (.node h) (ptrs (n :: l)) = .node h)) : Prog (Mem α) Bool) m = _
      rw [decide_eq_false hne]; rfl

end Verif.EL
