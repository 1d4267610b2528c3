import Verif.AVLFootErase

/-! # Updates of AVL trees and maps work on logarithmically many nodes (C91)

C76 says the same of `find`.  Here the nodes that are read, written, allocated and released by
`push`, `pop`, `erase` and `operator[]` are counted, including those that rebalancing reaches.
-/

namespace Verif.Tree

open Prog

variable {δ β : Type}

/-- The two worlds agree on the members of object `k`, on the next address, on the number of
lost elements, and on all fields of the nodes `P`; all other nodes may differ, or be released. -/
structure AgreeAt (k : Nat) (P : List Nat) (w w' : World δ) : Prop where
  obj : w'.obj k = w.obj k
  next : w'.mem.next = w.mem.next
  lost : w'.mem.lost = w.mem.lost
  node : ∀ n ∈ P, w'.mem.dat n = w.mem.dat n ∧ w'.mem.par n = w.mem.par n ∧ w'.mem.lft n = w.mem.lft n ∧
    w'.mem.rgt n = w.mem.rgt n

/-- The fields of all nodes but `P` are the same. -/
def OnlyIn (P : List Nat) (w w' : World δ) : Prop :=
  ∀ n, n ∉ P → w'.mem.dat n = w.mem.dat n ∧ w'.mem.par n = w.mem.par n ∧ w'.mem.lft n = w.mem.lft n ∧
    w'.mem.rgt n = w.mem.rgt n

/-- Running `p` on object `k` in `w` works on no nodes but `P`: it returns the same result and
makes the same changes in every world that agrees with `w` on them, and changes no other node. -/
def WorksOn (p : Prog (St δ) β) (k : Nat) (w : World δ) (P : List Nat) : Prop :=
  ∃ b w1, Returns (on k p) w b w1 ∧ OnlyIn P w w1 ∧
    ∀ w', AgreeAt k P w w' → ∃ w1', Returns (on k p) w' b w1' ∧ AgreeAt k P w1 w1' ∧ OnlyIn P w' w1'

theorem worksOn_of {p : Prog (St δ) β} {k m : Nat} {w : World δ} {o : Ptr × Nat} {Q : β → St δ → Prop} (hk : w.obj k = some o)
    (h : FootN m p Q (w.load o)) : ∃ P : List Nat, P.length ≤ m ∧ WorksOn p k w P := by
  obtain ⟨P, hP, b, s1, _, h1, h2, h3⟩ := h
  have out : ∀ (w : World δ) (s s1 : St δ), s.dat = w.mem.dat → s.par = w.mem.par → s.lft = w.mem.lft → s.rgt = w.mem.rgt →
      (∀ n, n ∉ P → SameAt s s1 n) → OnlyIn P w (w.store k s1) := by
    intro w s s1 e1 e2 e3 e4 h n hn
    have := h n hn
    exact ⟨e1 ▸ this.dat, e2 ▸ this.par, e3 ▸ this.lft, e4 ▸ this.rgt⟩
  refine ⟨P, hP, b, _, on_returns hk h1, out w (w.load o) _ rfl rfl rfl rfl h2, fun w' hw' => ?_⟩
  obtain ⟨s1', g1, g2, g3⟩ := h3 (w'.load o) ⟨⟨hw'.next, hw'.lost, rfl, rfl⟩,
    fun n hn => have := hw'.node n hn; ⟨this.1, this.2.1, this.2.2.1, this.2.2.2⟩⟩
  refine ⟨_, on_returns (hw'.obj.trans hk) g1, ⟨?_, g2.hdr.next, g2.hdr.lost, fun n hn => ?_⟩, out w' (w'.load o) _ rfl rfl rfl rfl g3⟩
  · simp only [World.store, upd_self, g2.hdr.root, g2.hdr.size]
  · have := g2.same n hn
    exact ⟨this.dat, this.par, this.lft, this.rgt⟩

theorem agreeAt_only (k : Nat) (P : List Nat) (w : World δ) : AgreeAt k P w (only w P) :=
  ⟨rfl, rfl, rfl, fun p hp => ⟨by simp [only, hp], rfl, rfl, rfl⟩⟩

end Verif.Tree

namespace Verif.AVL

open Prog Verif.Tree

variable {α : Type} {lt : α → α → Bool}

theorem count_vals (t : Tr α) : t.count = (vals t).length := by
  rw [vals_eq, List.length_map, ← count_items]

theorem push_footN {s : St α} {t : Tr α} {x : α} (h : IsTree s t) (hu : Unused s) (hv : Avl t) (ha : Apart lt x t) :
    FootN (36 * ((vals t).length + 1).log2 + 20) (push lt x) (fun _ _ => True) s := by
  obtain ⟨P, h1, h2⟩ := push_foot h hu hv ha
  have := height_log hv
  rw [count_vals] at this
  exact ⟨P, by omega, h2⟩

theorem pop_footN (w : StrictWeak lt) {s : St α} {t : Tr α} {x : α} (h : IsTree s t) (hs : s.size = t.count) (hg : Good lt t)
    (hx : vals t = [] ∨ (vals t).any (same lt x) = true) :
    FootN (32 * ((vals t).length + 1).log2 + 26) (pop lt (.val x)) (fun _ _ => True) s := by
  by_cases hn : vals t = []
  · have hc : t.count = 0 := by rw [count_vals, hn]; rfl
    exact .of (P := []) (foot_read trivial fun s' e => pop_empty (by rw [e.hdr.size, hs, hc])) (by simp)
  · have hx := hx.resolve_left hn
    rw [any_find w hg.2] at hx
    obtain ⟨z, hf⟩ := Option.isSome_iff_exists.1 hx
    have hc : t.count ≠ 0 := by
      rw [count_vals]; exact fun e => hn (List.length_eq_zero_iff.1 e)
    obtain ⟨P, h1, h2⟩ := pop_foot (obj := .val x) w h hg.1 hg.2 hf rfl (by rw [hs]; exact hc)
    have := height_log hg.1
    rw [count_vals] at this
    exact ⟨P, by omega, h2⟩

theorem find_footN {s : St α} {t : Tr α} (h : IsTree s t) (hv : Avl t) (x : α) :
    FootN (2 * ((vals t).length + 1).log2 + 1) (find lt x) (fun _ _ => True) s := by
  have := height_log hv
  rw [count_vals] at this
  exact (find_foot h x).le this

theorem erase_footN {s : St α} {t : Tr α} {x : α} (h : IsTree s t) (hg : Good lt t)
    (hroot : ∀ r d, s.root = some r → s.dat r = some (some d) → same lt x d.val = true → s.lft r ≠ none ∧ s.rgt r ≠ none) :
    FootN (48 * ((vals t).length + 1).log2 + 38) (do let it ← find lt x; erase lt it) (fun _ _ => True) s := by
  refine FootN.le (k := (2 * ((vals t).length + 1).log2 + 1) + (46 * ((vals t).length + 1).log2 + 37)) ?_ (by omega)
  refine footN_bind (find_footN h hg.1 x) ((find_ok h x).wp (Q := fun y s' => y = fFind lt x t ∧ s' = s) ⟨rfl, rfl⟩) ?_
  rintro _ s0 ⟨rfl, rfl⟩
  cases hf : fFind lt x t with
  | none => exact .of (P := []) (foot_read trivial fun s' _ => erase_end s') (by simp)
  | some z =>
    obtain ⟨v, m1, m2⟩ := find_some hf
    rw [items, List.mem_map] at m1
    obtain ⟨⟨z', d⟩, m1, m3⟩ := m1
    simp only [Prod.mk.injEq] at m3
    obtain ⟨rfl, rfl⟩ := m3
    obtain ⟨xs, ys, e⟩ := List.append_of_mem m1
    obtain ⟨c, l, r, e1, e2, e3⟩ := split_in .top e
    simp only [Ctx.plug] at e1
    have hc : c ≠ .top ∨ (l ≠ .nil ∧ r ≠ .nil) := by
      by_cases hc : c = .top
      · right
        subst hc
        simp only [Ctx.plug] at e1
        subst e1
        obtain ⟨r1, r2, r3, r4, _⟩ := h.rep
        have := hroot z' d h.root r1 (same_iff.2 m2)
        rw [r3, r4, Ne, Ne, T.root_none, T.root_none] at this
        exact this
      · exact Or.inl hc
    rw [← count_vals]
    subst e1
    exact erase_foot h hg.1 hc

/-- **C91**, `push`: in every reachable state `push(x)` of an element that is not in the tree of
`n` elements works on at most `36 log₂ (n + 1) + 20` nodes, the new one included. -/
theorem avl_push_path (hw : StrictWeak lt) {w : World α} {sw : SWorld α} (h : Reach lt w sw) {k : Nat} {l : List α}
    (hk : sw k = some l) (x : α) (hx : ∀ v ∈ l, ¬ Equiv lt x v) :
    ∃ P : List Nat, P.length ≤ 36 * (l.length + 1).log2 + 20 ∧ WorksOn (push lt x) k w P := by
  obtain ⟨g, h, hg⟩ := h.holds hw
  obtain ⟨t, ht, rfl⟩ := HoldsSet.get hg hk
  exact worksOn_of (h.obj k t ht) (push_footN (h.load ht) h.fresh (h.good k t ht).1 (apart_of_any hw (not_any.1 hx)))

/-- **C91**, `pop`: `pop(x)` on an empty tree or of an element of the tree. -/
theorem avl_pop_path (hw : StrictWeak lt) {w : World α} {sw : SWorld α} (h : Reach lt w sw) {k : Nat} {l : List α}
    (hk : sw k = some l) (x : α) (hx : l = [] ∨ ∃ v ∈ l, Equiv lt x v) :
    ∃ P : List Nat, P.length ≤ 32 * (l.length + 1).log2 + 26 ∧ WorksOn (pop lt (.val x)) k w P := by
  obtain ⟨g, h, hg⟩ := h.holds hw
  obtain ⟨t, ht, rfl⟩ := HoldsSet.get hg hk
  exact worksOn_of (h.obj k t ht) (pop_footN hw (h.load ht) rfl (h.good k t ht) (hx.imp_right any_iff.1))

/-- **C91**, `erase`: `erase(find(x))`, unless the element is in a root with fewer than two
children (see `avl_erase_root_faults` and `avl_erase_root_dangles`). -/
theorem avl_erase_path (hw : StrictWeak lt) {w : World α} {sw : SWorld α} (h : Reach lt w sw) {k : Nat} {l : List α}
    (hk : sw k = some l) (x : α) (hsafe : 3 ≤ l.length ∨ RootSafe lt w k x) :
    ∃ P : List Nat, P.length ≤ 48 * (l.length + 1).log2 + 38 ∧
      WorksOn (do let it ← find lt x; erase lt it) k w P := by
  have hr : RootSafe lt w k x := hsafe.elim (fun hl => rootSafe_of_three hw h hk hl x) id
  obtain ⟨g, h, hg⟩ := h.holds hw
  obtain ⟨t, ht, rfl⟩ := HoldsSet.get hg hk
  exact worksOn_of (h.obj k t ht) (erase_footN (h.load ht) (h.good k t ht)
    fun r d e => hr r t.count d (by rw [h.obj k t ht]; rw [← e]; rfl))

/-- All three in the reachable tree {1, 5, 7, 9}. -/
example : ∃ (w : World Nat) (sw : SWorld Nat) (l : List Nat), Reach natLt w sw ∧ sw 0 = some l ∧ 3 ≤ l.length ∧
    (∀ v ∈ l, ¬ Equiv natLt 6 v) ∧ ∃ v ∈ l, Equiv natLt 7 v := by
  obtain ⟨w, sw, h, h0, _⟩ := exReach
  exact ⟨w, sw, _, h, h0, by decide, by simp [Equiv, natLt], 7, by simp, by simp [Equiv, natLt]⟩

/-- `push(6)` does the same with all nodes that it does not work on released. -/
example : ∃ (w : World Nat) (sw : SWorld Nat) (P : List Nat) (w1 : World Nat), Reach natLt w sw ∧ sw 0 = some [1, 5, 7, 9] ∧
    P.length ≤ 92 ∧ Returns (on 0 (push natLt 6)) (only w P) () w1 := by
  obtain ⟨w, sw, h, h0, _⟩ := exReach
  obtain ⟨P, h1, b, _, _, _, h2⟩ := avl_push_path natLt_strictWeak h h0 6 (by simp [Equiv, natLt])
  obtain ⟨w1, h3, _⟩ := h2 _ (agreeAt_only 0 P w)
  refine ⟨w, sw, P, w1, h, h0, ?_, h3⟩
  simpa [Nat.log2_def] using h1

end Verif.AVL

namespace Verif.Map

open Prog Verif.Tree
open Verif.AVL (StrictWeak HoldsSet natLt natLt_strictWeak Equiv)

variable {K V : Type} {lt : K → K → Bool} {dflt : V}

theorem index_foot (hw : StrictWeak lt) {s : St K V} {t : AVL.Tr (K × V)} {key : K} (h : IsTree s t) (hs : s.size = t.count)
    (hu : ∀ n, s.next ≤ n → s.dat n = none) (hg : AVL.Good (byKey lt) t) :
    FootN (40 * ((AVL.vals t).length + 1).log2 + 25) (index lt dflt key) (fun _ _ => True) s := by
  unfold index
  refine FootN.le (k := (2 * ((AVL.vals t).length + 1).log2 + 1) + ((36 * ((AVL.vals t).length + 1).log2 + 20) +
    ((2 * ((AVL.vals t).length + 1).log2 + 3) + 1))) ?_ (by omega)
  refine footN_bind (AVL.find_footN h hg.1 _)
    ((AVL.find_ok h _).wp (Q := fun y s' => y = AVL.fFind (byKey lt) (key, dflt) t ∧ s' = s) ⟨rfl, rfl⟩) ?_
  rintro _ s0 ⟨rfl, rfl⟩
  -- the search that follows
  have again : ∀ (s1 : St K V) (t1 : AVL.Tr (K × V)) (m : Nat), IsTree s1 t1 → AVL.Avl t1 →
      AVL.fFind (byKey lt) (key, dflt) t1 ≠ none → 2 * ((AVL.vals t1).length + 1).log2 + 1 ≤ m →
      FootN (m + 1) (do let it ← find lt dflt key; let _ ← AVL.deref it; pure it) (fun _ _ => True) s1 := by
    intro s1 t1 m h1 h2 h3 h4
    refine footN_bind ((AVL.find_footN h1 h2 _).le h4)
      ((AVL.find_ok h1 _).wp (Q := fun y s' => y = AVL.fFind (byKey lt) (key, dflt) t1 ∧ s' = s1) ⟨rfl, rfl⟩) ?_
    rintro _ s2 ⟨rfl, rfl⟩
    cases hf : AVL.fFind (byKey lt) (key, dflt) t1 with
    | none => exact absurd hf h3
    | some z =>
      obtain ⟨v, m1, m2⟩ := AVL.find_some hf
      have hz : z ∈ t1.ptrs := by rw [AVL.ptrs_items]; exact List.mem_map.2 ⟨_, m1, rfl⟩
      obtain ⟨d, hd⟩ := h1.rep.live hz
      unfold AVL.deref
      rw [bind_assoc]
      refine footN_getData (k := 0) hd ?_
      exact .of (P := []) (foot_pure trivial) (by simp)
  by_cases hf : AVL.fFind (byKey lt) (key, dflt) t = none
  · rw [if_pos hf]
    have hx : (AVL.vals t).any (AVL.same (byKey lt) (key, dflt)) = false := by
      rw [AVL.any_find (byKey_weak hw) hg.2, hf]; rfl
    have hap := AVL.apart_of_any (byKey_weak hw) hx
    refine footN_bind (AVL.push_footN h hu hg.1 hap) (AVL.push_change (byKey_weak hw) h hs hu hg hx) ?_
    rintro _ s1 ⟨t1, q1, q2, q3, q4⟩
    have hlen := AVL.length_with (byKey_weak hw) (AVL.not_any.2 hx)
    rw [← q3] at hlen
    refine again s1 t1 _ q1.tree q2.1 (fun e => ?_) ?_
    · have hy : (AVL.vals t1).any (AVL.same (byKey lt) (key, dflt)) = true := by
        rw [List.any_eq_true]
        refine ⟨(key, dflt), ?_, AVL.same_iff.2 ⟨(byKey_weak hw).irrefl _, (byKey_weak hw).irrefl _⟩⟩
        rw [q3]
        exact (AVL.mem_with (byKey_weak hw) (AVL.not_any.2 hx) _).2 (Or.inl rfl)
      rw [AVL.any_find (byKey_weak hw) q2.2, e] at hy
      cases hy
    · have h1 := Nat.lt_log2_self (n := (AVL.vals t).length + 1)
      have h2 : ((AVL.vals t1).length + 1).log2 < ((AVL.vals t).length + 1).log2 + 2 := by
        rw [Nat.log2_lt (by omega), Nat.pow_succ]
        omega
      omega
  · rw [if_neg hf]
    refine (again s0 t (2 * ((AVL.vals t).length + 1).log2 + 1) h hg.1 hf (Nat.le_refl _)).le (by omega)

/-- **C91**, maps: `push` of a new key. -/
theorem map_push_path (hw : StrictWeak lt) {w : World K V} {sw : SWorld K V} (h : Reach lt dflt w sw) {k : Nat}
    {l : List (K × V)} (hk : sw k = some l) (key : K) (v : V) (hx : ∀ e ∈ l, ¬ Equiv lt key e.1) :
    ∃ P : List Nat, P.length ≤ 36 * (l.length + 1).log2 + 20 ∧ WorksOn (push lt (key, v)) k w P := by
  obtain ⟨g, hm⟩ := h.maps hw
  obtain ⟨t, ht, rfl⟩ := HoldsSet.get hm.val hk
  have := hm.holds
  exact worksOn_of (this.obj k t ht) (AVL.push_footN (this.load ht) this.fresh (this.good k t ht).1
    (AVL.apart_of_any (byKey_weak hw) (AVL.not_any.1 hx)))

/-- **C91**, maps: `pop` on an empty map or of a key of the map. -/
theorem map_pop_path (hw : StrictWeak lt) {w : World K V} {sw : SWorld K V} (h : Reach lt dflt w sw) {k : Nat}
    {l : List (K × V)} (hk : sw k = some l) (key : K) (hx : l = [] ∨ ∃ e ∈ l, Equiv lt key e.1) :
    ∃ P : List Nat, P.length ≤ 32 * (l.length + 1).log2 + 26 ∧ WorksOn (pop lt dflt key) k w P := by
  obtain ⟨g, hm⟩ := h.maps hw
  obtain ⟨t, ht, rfl⟩ := HoldsSet.get hm.val hk
  have := hm.holds
  exact worksOn_of (this.obj k t ht) (AVL.pop_footN (byKey_weak hw) (this.load ht) rfl (this.good k t ht) (hx.imp_right AVL.any_iff.1))

/-- **C91**, maps: `m[key]`, whether the key is there or not. -/
theorem map_index_path (hw : StrictWeak lt) {w : World K V} {sw : SWorld K V} (h : Reach lt dflt w sw) {k : Nat}
    {l : List (K × V)} (hk : sw k = some l) (key : K) :
    ∃ P : List Nat, P.length ≤ 40 * (l.length + 1).log2 + 25 ∧ WorksOn (index lt dflt key) k w P := by
  obtain ⟨g, hm⟩ := h.maps hw
  obtain ⟨t, ht, rfl⟩ := HoldsSet.get hm.val hk
  have := hm.holds
  exact worksOn_of (this.obj k t ht) (index_foot hw (this.load ht) rfl this.fresh (this.good k t ht))

example : ∃ (w : World Nat Nat) (sw : SWorld Nat Nat) (P Q : List Nat), Reach natLt 0 w sw ∧
    sw 0 = some [(3, 0), (5, 51), (8, 80), (9, 80)] ∧ WorksOn (index natLt 0 8) 0 w P ∧ WorksOn (push natLt (4, 7)) 0 w Q := by
  obtain ⟨w, sw, h, h0, _⟩ := exReach
  obtain ⟨P, _, h1⟩ := map_index_path natLt_strictWeak h h0 8
  obtain ⟨Q, _, h2⟩ := map_push_path natLt_strictWeak h h0 4 7 (by simp [Equiv, natLt])
  exact ⟨w, sw, P, Q, h, h0, h1, h2⟩

end Verif.Map
