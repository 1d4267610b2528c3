import Verif.Spec.AVLTree
import Verif.TreeWorldLemmas
import Verif.AVLErase

/-! # AVL tree objects hold ordered sets -/

namespace Verif.AVL

open Prog Verif.Tree

variable {α : Type} {lt : α → α → Bool}

theorem same_iff {x v : α} : same lt x v = true ↔ Equiv lt x v := by
  simp [same, Equiv]

/-! ## Ascending lists -/

theorem asc_append {xs ys : List α} {v : α} (h : Ascending lt (xs ++ v :: ys)) :
    Ascending lt xs ∧ Ascending lt ys ∧ (∀ a ∈ xs, lt a v = true) ∧ (∀ b ∈ ys, lt v b = true) ∧
      Ascending lt (xs ++ ys) := by
  unfold Ascending at *
  rw [List.pairwise_append] at h
  obtain ⟨h1, h2, h3⟩ := h
  rw [List.pairwise_cons] at h2
  refine ⟨h1, h2.2, fun a ha => h3 a ha v (List.mem_cons_self ..), h2.1, ?_⟩
  rw [List.pairwise_append]
  exact ⟨h1, h2.2, fun a ha b hb => h3 a ha b (List.mem_cons_of_mem _ hb)⟩

/-- Where the equivalent element is. -/
theorem split_spec (w : StrictWeak lt) {xs ys : List α} {v x : α} (h : Ascending lt (xs ++ v :: ys))
    (he : Equiv lt x v) : without lt (xs ++ v :: ys) x = xs ++ ys ∧
      (xs ++ v :: ys).filter (lt x ·) = ys ∧ (xs ++ v :: ys).find? (same lt x) = some v ∧
      (xs ++ v :: ys).any (same lt x) = true := by
  obtain ⟨_, _, h3, h4, _⟩ := asc_append h
  have ha : ∀ a ∈ xs, lt a x = true ∧ lt x a = false := fun a m =>
    ⟨w.gt_of_equiv he (h3 a m), w.asymm (w.gt_of_equiv he (h3 a m))⟩
  have hb : ∀ b ∈ ys, lt x b = true := fun b m => w.lt_of_equiv he (h4 b m)
  have hv : same lt x v = true := same_iff.2 he
  have hna : ∀ a ∈ xs, same lt x a = false := fun a m => by simp [same, (ha a m).1]
  have hnb : ∀ b ∈ ys, same lt x b = false := fun b m => by simp [same, hb b m]
  refine ⟨?_, ?_, ?_, ?_⟩
  · unfold without
    rw [List.filter_append, List.filter_cons]
    rw [List.filter_eq_self.2 (fun a m => by simp [hna a m]), List.filter_eq_self.2 (fun a m => by simp [hnb a m])]
    simp [hv]
  · rw [List.filter_append, List.filter_cons]
    rw [List.filter_eq_nil_iff.2 (fun a m => by simp [(ha a m).2]), List.filter_eq_self.2 hb]
    simp [he.1]
  · rw [List.find?_append, List.find?_eq_none.2 (fun a m => by simp [hna a m])]
    simp [hv]
  · simp [hv]

theorem without_absent {l : List α} {x : α} (h : l.any (same lt x) = false) : without lt l x = l := by
  unfold without
  rw [List.filter_eq_self]
  intro a m
  rw [List.any_eq_false] at h
  simp [h a m]

theorem with_split (w : StrictWeak lt) {xs ys : List α} {x : α} (h1 : ∀ a ∈ xs, lt a x = true)
    (h2 : ∀ b ∈ ys, lt x b = true) : with_ lt (xs ++ ys) x = xs ++ x :: ys := by
  unfold with_
  rw [List.filter_append, List.filter_append, List.filter_eq_self.2 h1, List.filter_eq_self.2 h2,
    List.filter_eq_nil_iff.2 (fun a m => by simp [w.asymm (h2 a m)]),
    List.filter_eq_nil_iff.2 (fun a m => by simp [w.asymm (h1 a m)])]
  simp

theorem with_asc (w : StrictWeak lt) {l : List α} {x : α} (h : Ascending lt l) : Ascending lt (with_ lt l x) := by
  unfold Ascending with_ at *
  rw [List.pairwise_append, List.pairwise_cons]
  refine ⟨h.filter _, ⟨fun a m => (List.mem_filter.1 m).2, h.filter _⟩, fun a m b m' => ?_⟩
  have ha := (List.mem_filter.1 m).2
  rcases List.mem_cons.1 m' with rfl | m'
  · exact ha
  · exact w.trans _ _ _ ha (List.mem_filter.1 m').2

theorem without_asc {l : List α} {x : α} (h : Ascending lt l) : Ascending lt (without lt l x) := h.filter _

/-! ## Trees as ordered sets -/

theorem apart_of_any (w : StrictWeak lt) {x : α} {t : Tr α} (h : (vals t).any (same lt x) = false) :
    Apart lt x t := by
  rw [List.any_eq_false] at h
  intro v hv
  have h1 : ¬ Equiv lt x v := fun e => h v hv (same_iff.2 e)
  cases c : lt x v with
  | true => exact Or.inl ⟨rfl, w.asymm c⟩
  | false =>
    refine Or.inr ⟨rfl, ?_⟩
    cases c' : lt v x with
    | true => rfl
    | false => exact absurd ⟨c, c'⟩ h1

theorem vals_ins (w : StrictWeak lt) {x : α} {q : Nat} {t : Tr α} (ha : Ascending lt (vals t)) (hp : Apart lt x t) :
    vals (fIns lt x q t) = with_ lt (vals t) x := by
  suffices h : ∃ xs ys, vals t = xs ++ ys ∧ vals (fIns lt x q t) = xs ++ x :: ys ∧ (∀ a ∈ xs, lt a x = true) ∧
      (∀ b ∈ ys, lt x b = true) by
    obtain ⟨xs, ys, h1, h2, h3, h4⟩ := h
    rw [h1, h2, with_split w h3 h4]
  induction t with
  | nil => exact ⟨[], [], rfl, rfl, by simp, by simp⟩
  | node l p d r ihl ihr =>
    obtain ⟨a1, a2, a3, a4⟩ := asc_node ha
    obtain ⟨p1, p2, p3⟩ := hp.node
    simp only [fIns]
    rcases p3 with ⟨c1, c2⟩ | ⟨c1, c2⟩
    · rw [if_pos c1]
      obtain ⟨xs, ys, h1, h2, h3, h4⟩ := ihl a1 p1
      refine ⟨xs, ys ++ d.val :: vals r, by rw [vals_node, h1]; simp, ?_, h3, fun b hb => ?_⟩
      · rw [vals_eq, items_updH, items_balL, List.map_append, ← vals_eq, h2]
        simp [vals_eq]
      · rcases List.mem_append.1 hb with hb | hb
        · exact h4 b hb
        · rcases List.mem_cons.1 hb with rfl | hb
          · exact c1
          · exact w.trans _ _ _ c1 (a4 b hb)
    · rw [if_neg (by simp [c1])]
      obtain ⟨xs, ys, h1, h2, h3, h4⟩ := ihr a2 p2
      refine ⟨vals l ++ d.val :: xs, ys, by rw [vals_node, h1]; simp, ?_, fun b hb => ?_, h4⟩
      · rw [vals_eq, items_updH, items_balR, List.map_append, List.map_cons, ← vals_eq, ← vals_eq, h2]
        simp
      · rcases List.mem_append.1 hb with hb | hb
        · exact w.trans _ _ _ (a3 b hb) c2
        · rcases List.mem_cons.1 hb with rfl | hb
          · exact c2
          · exact h3 b hb

/-- The trees objects hold. -/
def Good (lt : α → α → Bool) (t : Tr α) : Prop := Avl t ∧ Ascending lt (vals t)

theorem good_nil : Good lt (.nil : Tr α) := ⟨trivial, List.Pairwise.nil⟩

theorem items_vals {t : Tr α} {xs ys : List (Nat × α)} {z : Nat} {v : α} (h : items t = xs ++ (z, v) :: ys) :
    vals t = xs.map (·.2) ++ v :: ys.map (·.2) := by simp [vals_eq, h]

theorem count_items (t : Tr α) : t.count = (items t).length := by
  rw [count_ptrs, ptrs_items, List.length_map]

/-- Whether an equivalent element is present. -/
theorem any_find (w : StrictWeak lt) {x : α} {t : Tr α} (ha : Ascending lt (vals t)) :
    (vals t).any (same lt x) = (fFind lt x t).isSome := by
  cases hf : fFind lt x t with
  | none =>
    rw [find_none w ha] at hf
    simp only [Option.isSome_none, List.any_eq_false]
    exact fun v hv e => hf v hv (same_iff.1 e)
  | some z =>
    obtain ⟨v, h1, h2⟩ := find_some hf
    simp only [Option.isSome_some, List.any_eq_true]
    exact ⟨v, by rw [vals_eq]; exact List.mem_map_of_mem h1, same_iff.2 h2⟩

theorem dat_item {s : St α} {pa : Ptr} {t : Tr α} (h : Rep s pa t) {z : Nat} {v : α} (hm : (z, v) ∈ items t) :
    ∃ d : D α, s.dat z = some (some d) ∧ d.val = v := by
  induction t generalizing pa with
  | nil => simp at hm
  | node l p d r ihl ihr =>
    obtain ⟨h1, h2, h3, h4, h5, h6⟩ := h
    simp only [items_node, List.mem_append, List.mem_cons, Prod.mk.injEq] at hm
    rcases hm with hm | ⟨rfl, rfl⟩ | hm
    · exact ihl h5 hm
    · exact ⟨d, h1, rfl⟩
    · exact ihr h6 hm

theorem readIt_none (s : St α) : Returns (readIt none) s none s := rfl

theorem readIt_some {s : St α} {n : Nat} {d : D α} (h : s.dat n = some (some d)) :
    Returns (readIt (some n)) s (some d.val) s := by
  unfold readIt deref Returns
  rw [if_neg (by simp), Prog.bind_apply]
  rw [bind_returns (getData_ok h)]
  rfl

/-- What `find` refers to. -/
theorem findRead_ok (w : StrictWeak lt) {s : St α} {t : Tr α} (h : IsTree s t) (ha : Ascending lt (vals t)) (x : α) :
    Returns (do let it ← find lt x; readIt it) s ((vals t).find? (same lt x)) s := by
  unfold Returns
  rw [bind_returns (find_ok h x)]
  cases hf : fFind lt x t with
  | none =>
    rw [find_none w ha] at hf
    rw [List.find?_eq_none.2 fun v hv e => hf v hv (same_iff.1 e)]
    exact readIt_none s
  | some z =>
    obtain ⟨v, h1, h2⟩ := find_some hf
    obtain ⟨d, h3, h4⟩ := dat_item h.rep h1
    obtain ⟨xs, ys, e⟩ := List.append_of_mem h1
    rw [items_vals e] at ha ⊢
    rw [(split_spec w ha h2).2.2.1, ← h4]
    exact readIt_some h3

theorem elements_ok {s : St α} {t : Tr α} (h : IsTree s t) (hn : t ≠ .nil) : Returns elements s (vals t) s := by
  have : Returns (iterate .ino) s t.inorder s := by
    unfold iterate Returns
    rw [bind_returns (begin_in h hn (by simp))]
    exact iterIn_ok h
  unfold elements Returns
  rw [bind_returns this]
  rfl

theorem height_ok {s : St α} {t : Tr α} (h : IsTree s t) (hv : Avl t) : Returns height s (t.height : Int) s := by
  unfold height Returns
  rw [bind_returns (show Returns getRoot s s.root s from rfl), h.root]
  cases t with
  | nil => rfl
  | node a q e b =>
    rw [if_pos (by simp [T.root])]
    simp only [T.root]
    rw [bind_returns (getData_ok h.rep.1), ← ht_height hv]
    rfl

theorem begin_empty {s : St α} (h : s.root = none) : Faults elements s .nullDeref :=
  bind_faults (bind_faults (begin_null h (by simp)))

/-! ## Methods as changes of one tree -/

theorem push_change (w : StrictWeak lt) {s : St α} {t : Tr α} {x : α} (h : IsTree s t) (hs : s.size = t.count)
    (hu : ∀ n, s.next ≤ n → s.dat n = none) (hg : Good lt t) (hx : (vals t).any (same lt x) = false) :
    wp (push lt x) (fun _ s' => ∃ t', Change s s' t t' ∧ Good lt t' ∧ vals t' = with_ lt (vals t) x ∧
      ∀ a ∈ items t, a ∈ items t') s := by
  have ha := apart_of_any w hx
  have hv := vals_ins (q := s.next) w hg.2 ha
  refine wp_mono (push_ok h hu hg.1 ha) ?_
  rintro _ s' ⟨h1, h2, h3, h4, h5⟩
  have hp := ptrs_ins (lt := lt) x s.next t
  refine ⟨_, ⟨h1, ?_, h3, fun n hn => ?_, fun n hn => ?_, fun n hn hlt => h5 n hn (Nat.ne_of_lt hlt), fun n hn => ?_⟩,
    ⟨(ins_ok hg.1 ha).1, hv ▸ with_asc w hg.2⟩, hv, fun a m => (perm_ins lt x s.next t).mem_iff.2 (List.mem_cons_of_mem _ m)⟩
  · rw [h4, hs, count_ptrs, count_ptrs, hp.length_eq]; rfl
  · rcases List.mem_cons.1 (hp.mem_iff.1 hn) with rfl | hn
    · exact Or.inr (Nat.le_refl _)
    · exact Or.inl hn
  · by_cases e : n = s.next ∨ n ∈ t.ptrs
    · refine Or.inl (hp.mem_iff.2 (List.mem_cons.2 e))
    · have e1 : n ≠ s.next := fun x => e (Or.inl x)
      have e2 : n ∉ t.ptrs := fun x => e (Or.inr x)
      exact Or.inr ⟨e2, by rw [← (h5 n e2 e1).dat]; exact hn⟩
  · rw [h2] at hn
    have e2 : n ∉ t.ptrs := fun x => by
      obtain ⟨d, hd⟩ := h.rep.live x
      rw [hu n (by omega)] at hd; cases hd
    rw [(h5 n e2 (by omega)).dat]; exact hu n (by omega)

/-- Releasing one node of the tree. -/
theorem removed {s s' : St α} {t t' : Tr α} {z : Nat} {xs ys : List Nat} (h : IsTree s t) (h' : IsTree s' t')
    (hs : s.size = t.count) (hu : ∀ n, s.next ≤ n → s.dat n = none)
    (e : t.ptrs = xs ++ z :: ys) (e' : t'.ptrs = xs ++ ys) (gone : s'.dat z = none)
    (next : s'.next = s.next) (lost : s'.lost = s.lost) (size : s'.size = s.size - 1)
    (out : ∀ n, n ∉ t.ptrs → SameAt s s' n) : Change s s' t t' := by
  refine ⟨h', ?_, lost, fun n hn => Or.inl ?_, fun n hn => ?_, fun n hn _ => out n hn, fun n hn => ?_⟩
  · rw [size, hs, count_ptrs, count_ptrs, e, e']; simp
  · rw [e'] at hn; rw [e]
    rcases List.mem_append.1 hn with hn | hn <;> simp [hn]
  · by_cases c : n ∈ t.ptrs
    · left
      rw [e] at c; rw [e']
      rcases List.mem_append.1 c with c | c
      · simp [c]
      · rcases List.mem_cons.1 c with rfl | c
        · exact absurd gone hn
        · simp [c]
    · exact Or.inr ⟨c, by rw [← (out n c).dat]; exact hn⟩
  · rw [next] at hn
    have e2 : n ∉ t.ptrs := fun x => by
      obtain ⟨d, hd⟩ := h.rep.live x
      rw [hu n hn] at hd; cases hd
    rw [(out n e2).dat]; exact hu n hn

theorem pop_change (w : StrictWeak lt) {s : St α} {t : Tr α} {x : α} {obj : Arg α} (h : IsTree s t)
    (hs : s.size = t.count) (hu : ∀ n, s.next ≤ n → s.dat n = none) (hg : Good lt t) (hr : Reads s obj x)
    (hx : vals t = [] ∨ (vals t).any (same lt x) = true) :
    wp (pop lt obj) (fun _ s' => ∃ t', Change s s' t t' ∧ Good lt t' ∧ vals t' = without lt (vals t) x ∧
      ∀ a ∈ items t, same lt x a.2 = false → a ∈ items t') s := by
  by_cases hn : vals t = []
  · have hc : t.count = 0 := by
      have : (vals t).length = 0 := by rw [hn]; rfl
      rw [vals_eq, List.length_map, ← count_items] at this; exact this
    refine Returns.wp (pop_empty (hs.trans hc)) ?_
    exact ⟨t, .refl h hs hu, hg, by rw [hn]; rfl, fun a m _ => m⟩
  · have hx := hx.resolve_left hn
    rw [any_find w hg.2] at hx
    obtain ⟨z, hf⟩ := Option.isSome_iff_exists.1 hx
    obtain ⟨xs, v, ys, e1, e2, e3, e4⟩ := del_items hf
    have hsz : s.size ≠ 0 := by rw [hs, count_items, e1]; simp
    refine wp_mono (pop_ok w h hg.1 hg.2 hf hr hsz) ?_
    rintro _ s' ⟨p1, p2, p3, p4, p5, p6⟩
    have ev := items_vals e1
    have hv : vals (fDel lt x t) = without lt (vals t) x := by
      rw [ev, (split_spec w (ev ▸ hg.2) ⟨e3, e4⟩).1, vals_eq, e2, List.map_append]
    refine ⟨_, removed (xs := xs.map (·.1)) (ys := ys.map (·.1)) h p1 hs hu ?_ ?_ p2 p3 p4 p5 p6,
      ⟨(del_ok hg.1 hf).1, hv ▸ without_asc hg.2⟩, hv, fun a m ne => ?_⟩
    · rw [ptrs_items, e1]; simp
    · rw [ptrs_items, e2]; simp
    · rw [e1] at m
      rw [e2]
      rcases List.mem_append.1 m with m | m
      · exact List.mem_append_left _ m
      · rcases List.mem_cons.1 m with rfl | m
        · rw [same_iff.2 ⟨e3, e4⟩] at ne; cases ne
        · exact List.mem_append_right _ m

theorem erase_change (w : StrictWeak lt) {s : St α} {t : Tr α} {x : α} (h : IsTree s t)
    (hs : s.size = t.count) (hu : ∀ n, s.next ≤ n → s.dat n = none) (hg : Good lt t)
    (hroot : ∀ r d, s.root = some r → s.dat r = some (some d) → same lt x d.val = true →
      s.lft r ≠ none ∧ s.rgt r ≠ none) :
    wp (do let it ← find lt x; let next ← erase lt it; readIt next : Prog (St α) (Option α)) (fun y s' =>
      ∃ t', Change s s' t t' ∧ Good lt t' ∧ vals t' = without lt (vals t) x ∧
        (y = if (vals t).any (same lt x) then ((vals t).filter (lt x ·)).head? else none) ∧
        ∀ a ∈ items t, same lt x a.2 = false → a ∈ items t') s := by
  rw [wp_bind]
  refine Returns.wp (find_ok h x) ?_
  rw [any_find w hg.2]
  cases hf : fFind lt x t with
  | none =>
    rw [wp_bind]
    refine (erase_end s).wp ((readIt_none s).wp ?_)
    refine ⟨t, .refl h hs hu, hg, ?_, rfl, fun a m _ => m⟩
    rw [without_absent]
    rw [any_find w hg.2, hf]; rfl
  | some z =>
    obtain ⟨v, m1, m2⟩ := find_some hf
    rw [items, List.mem_map] at m1
    obtain ⟨⟨z', d⟩, m1, m3⟩ := m1
    simp only [Prod.mk.injEq] at m3
    obtain ⟨rfl, rfl⟩ := m3
    obtain ⟨xs, ys, e⟩ := List.append_of_mem m1
    obtain ⟨c, l, r, e1, e2, e3⟩ := split_in .top e
    simp only [Ctx.plug, Ctx.after, Ctx.before, List.append_nil, List.nil_append] at e1 e2 e3
    have hc : c ≠ .top ∨ (l ≠ .nil ∧ r ≠ .nil) := by
      by_cases hc : c = .top
      · right
        subst hc
        simp only [Ctx.plug] at e1
        subst e1
        obtain ⟨r1, r2, r3, r4, _⟩ := h.rep
        have := hroot z' d h.root r1 (same_iff.2 m2)
        rw [r3, r4, Ne, Ne, T.root_none, T.root_none] at this
        exact this
      · exact Or.inl hc
    have hi : items t = (xs.map fun a => (a.1, a.2.val)) ++ (z', d.val) :: (ys.map fun a => (a.1, a.2.val)) := by
      unfold items; rw [e]; simp
    have ev := items_vals hi
    obtain ⟨f1, f2, f3, f4⟩ := split_spec w (ev ▸ hg.2) m2
    rw [wp_bind]
    refine wp_mono (erase_ok w (e1 ▸ h) (e1 ▸ hg.1) (e1 ▸ hg.2) hc) ?_
    rintro y s' ⟨rfl, t', p0, p1, p2, p3, p4, p5, p6, p7⟩
    rw [← e1] at p2 p7
    obtain ⟨xs', v', ys', q1, q2⟩ := p2
    have hnd : ((items t).map (·.1)).Nodup := by rw [← ptrs_items]; exact h.nodup
    rw [hi] at q1
    rw [hi] at hnd
    have hv' : v' = d.val := by
      have : (z', v') ∈ (xs.map fun a => (a.1, a.2.val)) ++ (z', d.val) :: (ys.map fun a => (a.1, a.2.val)) := by
        rw [q1]; simp
      rw [List.map_append, List.map_cons, List.nodup_append, List.nodup_cons] at hnd
      rcases List.mem_append.1 this with m | m
      · exact absurd rfl (hnd.2.2 z' (List.mem_map.2 ⟨_, m, rfl⟩) z' (List.mem_cons_self ..))
      · rcases List.mem_cons.1 m with m | m
        · simpa using m
        · exact absurd (List.mem_map.2 ⟨_, m, rfl⟩) hnd.2.1.1
    subst hv'
    obtain ⟨g1, g2⟩ := split_unique hnd q1
    rw [← g1, ← g2] at q2
    have hv : vals t' = without lt (vals t) x := by rw [ev, f1, vals_eq, q2, List.map_append]
    have hch : Change s s' t t' := by
      refine removed (xs := xs.map (·.1)) (ys := ys.map (·.1)) (z := z') h p0 hs hu ?_ ?_ p3 p4 p5 p6 p7
      · rw [ptrs_items, hi]; simp [Function.comp_def]
      · rw [ptrs_items, q2]; simp [Function.comp_def]
    have hkeep : ∀ a ∈ items t, same lt x a.2 = false → a ∈ items t' := by
      intro a m ne
      rw [hi] at m
      rw [q2]
      rcases List.mem_append.1 m with m | m
      · exact List.mem_append_left _ m
      · rcases List.mem_cons.1 m with rfl | m
        · rw [same_iff.2 m2] at ne; cases ne
        · exact List.mem_append_right _ m
    simp only [Option.isSome_some, if_true]
    rw [ev, f2, ← e3]
    cases ys with
    | nil =>
      refine Returns.wp (readIt_none s') ?_
      exact ⟨t', hch, ⟨p1, hv ▸ without_asc hg.2⟩, by rw [hv, ev], by simp, hkeep⟩
    | cons b ys =>
      obtain ⟨n, f⟩ := b
      obtain ⟨d', k1, k2⟩ := dat_item (z := n) (v := f.val) p0.rep (by rw [q2]; simp)
      refine Returns.wp (readIt_some k1) ?_
      exact ⟨t', hch, ⟨p1, hv ▸ without_asc hg.2⟩, by rw [hv, ev], by simp [k2], hkeep⟩

/-! ## Objects -/

/-- Every object holds the set it is meant to hold. -/
def HoldsSet (lt : α → α → Bool) (w : World α) (sw : SWorld α) : Prop :=
  ∃ g, Tree.Holds (Good lt) w g ∧ ∀ k, sw k = (g k).map vals

theorem HoldsSet.init : HoldsSet lt (World.init : World α) (fun _ => none) :=
  ⟨fun _ => none, Tree.Holds.init, fun _ => rfl⟩

theorem HoldsSet.get {sw : SWorld α} {g : Nat → Option (Tr α)} (h : ∀ k, sw k = (g k).map vals)
    {k : Nat} {l : List α} (hk : sw k = some l) : ∃ t, g k = some t ∧ vals t = l := by
  rw [h k, Option.map_eq_some_iff] at hk
  exact hk

theorem map_put {sw : SWorld α} {g : Nat → Option (Tr α)} (h : ∀ k, sw k = (g k).map vals) {k : Nat} {v : Option (List α)}
    {t : Option (Tr α)} (hv : v = t.map vals) : ∀ j, (sw.put k v) j = (upd g k t j).map vals := by
  intro j
  by_cases e : j = k
  · simp [SWorld.put, upd, e, hv]
  · simp [SWorld.put, upd, e, h j]

theorem vals_eq_nil {t : Tr α} : vals t = [] ↔ t = .nil := by
  cases t with
  | nil => simp [vals, T.inorder]
  | node l p d r => simp [vals_node]

theorem step_none {p : Prog (World α) Unit} {w w' : World α} (h : Returns p w () w') :
    Returns (do p; pure (none : Option α)) w none w' := by
  unfold Returns; rw [bind_returns h]; rfl

theorem upd_same {γ : Type} {f : Nat → γ} {k : Nat} {v : γ} (h : f k = v) : upd f k v = f := by
  funext n; by_cases e : n = k <;> simp [upd, e, h]

theorem copyObj_ok {w : World α} {d s : Nat} {h : Ptr × Nat} (hs : w.obj s = some h) :
    Returns (copyObj d s) w () { w with obj := upd w.obj d (some h) } := by
  unfold copyObj Returns; simp only [hs]

/-- Object `k` has the element `v` in node `n`. -/
def AtNode (g : Nat → Option (Tr α)) (k n : Nat) (v : α) : Prop := ∃ t, g k = some t ∧ (n, v) ∈ items t

theorem AtNode.upd {g : Nat → Option (Tr α)} {k n j : Nat} {v : α} {t : Tr α} {o : Option (Tr α)} (h : AtNode g k n v)
    (hj : g j = some t) (hk : j = k → (n, v) ∈ items t → ∃ t', o = some t' ∧ (n, v) ∈ items t') :
    AtNode (Tree.upd g j o) k n v := by
  obtain ⟨u, h1, h2⟩ := h
  by_cases c : k = j
  · subst c
    rw [hj] at h1; cases h1
    obtain ⟨t', e1, e2⟩ := hk rfl h2
    exact ⟨t', by rw [upd_self]; exact e1, e2⟩
  · exact ⟨u, by rw [upd_ne _ _ c]; exact h1, h2⟩

theorem AtNode.new {g : Nat → Option (Tr α)} {k n j : Nat} {v : α} {o : Option (Tr α)} (h : AtNode g k n v)
    (hj : g j = none) : AtNode (Tree.upd g j o) k n v := by
  obtain ⟨u, h1, h2⟩ := h
  have c : k ≠ j := by rintro rfl; rw [hj] at h1; cases h1
  exact ⟨u, by rw [upd_ne _ _ c]; exact h1, h2⟩

/-- One statement, with the trees the objects hold: no element that is not removed leaves its
node. -/
theorem step_ghost (hw : StrictWeak lt) {op : Op α} {w : World α} {sw sw' : SWorld α} {g : Nat → Option (Tr α)}
    (h : Tree.Holds (Good lt) w g) (hg : ∀ k, sw k = (g k).map vals)
    (hs : specStep lt op sw = some sw') (hsafe : Safe lt op w sw) :
    ∃ w' g', Returns (step lt op) w (specOut lt op sw) w' ∧ Tree.Holds (Good lt) w' g' ∧
      (∀ k, sw' k = (g' k).map vals) ∧ ∀ k n v, AtNode g k n v → Keeps lt k v op → AtNode g' k n v := by
  cases op with
  | new k =>
    simp only [specStep, Option.isNone_iff_eq_none] at hs
    split at hs
    · rename_i hk
      cases hs
      have hk' : g k = none := by rw [hg k] at hk; simpa using hk
      exact ⟨_, _, step_none (p := newObj k) rfl, h.newObj hk' good_nil, map_put hg rfl, fun _ _ _ a _ => a.new hk'⟩
    · cases hs
  | push k x =>
    simp only [specStep, Option.bind_eq_some_iff] at hs
    obtain ⟨l, hk, hs⟩ := hs
    split at hs
    · cases hs
    · rename_i hx
      cases hs
      obtain ⟨t, ht, rfl⟩ := HoldsSet.get hg hk
      obtain ⟨_, w', t', h1, h2, h3, h4⟩ := h.run (p := push lt x) (Q := fun _ t' => vals t' = with_ lt (vals t) x ∧
        ∀ a ∈ items t, a ∈ items t') ht
        (push_change hw (h.load ht) rfl h.fresh (h.good k t ht) (by simpa using hx))
      exact ⟨w', _, step_none h1, h2, map_put hg (by simp [h3]),
        fun _ _ _ a _ => a.upd ht fun _ m => ⟨t', rfl, h4 _ m⟩⟩
  | pop k x =>
    simp only [specStep, Option.bind_eq_some_iff] at hs
    obtain ⟨l, hk, hs⟩ := hs
    cases hs
    obtain ⟨t, ht, rfl⟩ := HoldsSet.get hg hk
    obtain ⟨_, w', t', h1, h2, h3, h4⟩ := h.run (p := pop lt (.val x)) (Q := fun _ t' => vals t' = without lt (vals t) x ∧
      ∀ a ∈ items t, same lt x a.2 = false → a ∈ items t') ht
      (pop_change hw (h.load ht) rfl h.fresh (h.good k t ht) rfl (hsafe _ hk))
    exact ⟨w', _, step_none h1, h2, map_put hg (by simp [h3]),
      fun _ _ _ a hk => a.upd ht fun e m => ⟨t', rfl, h4 _ m (hk.resolve_left (not_not_intro e))⟩⟩
  | popAt k j x =>
    simp only [specStep, Option.bind_eq_some_iff] at hs
    obtain ⟨l, hk, l', hj, hs⟩ := hs
    split at hs
    · rename_i hx
      cases hs
      obtain ⟨t, ht, rfl⟩ := HoldsSet.get hg hk
      obtain ⟨u, hu, rfl⟩ := HoldsSet.get hg hj
      rw [any_find hw (h.good j u hu).2] at hx
      obtain ⟨z, hz⟩ := Option.isSome_iff_exists.1 hx
      obtain ⟨v, m1, m2⟩ := find_some hz
      obtain ⟨d, d1, d2⟩ := dat_item (h.rep j u hu) m1
      have hf : Returns (on j (find lt x)) w (some z) w :=
        on_observes (h.obj j u hu) (hz ▸ find_ok (h.load hu) x)
      have hsafe := hsafe _ hk
      have hvx : ∀ y, same lt v y = same lt x y := by
        intro y
        have e1 : lt v y = lt x y := by
          cases c : lt x y with
          | true => exact hw.lt_of_equiv ⟨m2.2, m2.1⟩ c
          | false =>
            cases c' : lt v y with
            | false => rfl
            | true => rw [hw.lt_of_equiv m2 c'] at c; cases c
        have e2 : lt y v = lt y x := by
          cases c : lt y x with
          | true => exact hw.gt_of_equiv ⟨m2.2, m2.1⟩ c
          | false =>
            cases c' : lt y v with
            | false => rfl
            | true => rw [hw.gt_of_equiv m2 c'] at c; cases c
        simp [same, e1, e2]
      have hvx' : same lt v = same lt x := funext hvx
      obtain ⟨_, w', t', h1, h2, h3, h4⟩ := h.run (p := pop lt (.ref (some z)))
        (Q := fun _ t' => vals t' = without lt (vals t) v ∧ ∀ a ∈ items t, same lt v a.2 = false → a ∈ items t') ht
        (pop_change hw (h.load ht) rfl h.fresh (h.good k t ht) ⟨z, d, rfl, d1, d2⟩ (by rw [hvx']; exact hsafe))
      refine ⟨w', _, ?_, h2, map_put hg ?_, fun _ _ _ a hk => a.upd ht fun e m =>
        ⟨t', rfl, h4 _ m (by rw [hvx]; exact hk.resolve_left (not_not_intro e))⟩⟩
      · show (do let it ← on j (find lt x); on k (pop lt (.ref it)); pure none : Prog (World α) (Option α)) w = _
        rw [bind_returns hf]; exact step_none h1
      · simp only [h3, Option.map_some]; unfold without; rw [hvx']
    · cases hs
  | erase k x =>
    simp only [specStep, Option.bind_eq_some_iff] at hs
    obtain ⟨l, hk, hs⟩ := hs
    cases hs
    obtain ⟨t, ht, rfl⟩ := HoldsSet.get hg hk
    obtain ⟨y, w', t', h1, h2, h3, h4, h5⟩ := h.run
      (p := do let it ← find lt x; let next ← erase lt it; readIt next)
      (Q := fun y t' => vals t' = without lt (vals t) x ∧
        (y = if (vals t).any (same lt x) then ((vals t).filter (lt x ·)).head? else none) ∧
        ∀ a ∈ items t, same lt x a.2 = false → a ∈ items t') ht
      (erase_change hw (h.load ht) rfl h.fresh (h.good k t ht)
        (fun r d hr => hsafe r t.count d (by rw [h.obj k t ht]; rw [← hr]; rfl)))
    refine ⟨w', _, ?_, h2, map_put hg (by simp [h3]),
      fun _ _ _ a hk => a.upd ht fun e m => ⟨t', rfl, h5 _ m (hk.resolve_left (not_not_intro e))⟩⟩
    simp only [specOut, hk, Option.bind_some]
    rw [← h4]; exact h1
  | clear k =>
    simp only [specStep, Option.bind_eq_some_iff] at hs
    obtain ⟨l, hk, hs⟩ := hs
    cases hs
    obtain ⟨t, ht, rfl⟩ := HoldsSet.get hg hk
    obtain ⟨w', h1, h2⟩ := h.clear ht good_nil
    exact ⟨w', _, step_none h1, h2, map_put hg rfl, fun _ _ _ a hk => a.upd ht fun e _ => absurd e hk⟩
  | copy d s =>
    simp only [specStep, Option.bind_eq_some_iff] at hs
    obtain ⟨l', hd, l, hk, hs⟩ := hs
    cases hs
    obtain ⟨t, ht, rfl⟩ := HoldsSet.get hg hk
    refine ⟨_, g, step_none (copyObj_ok (h.obj s t ht)), ?_⟩
    have e1 : w.obj d = some (t.root, t.count) ∧ sw.put d (some (vals t)) = sw := by
      rcases hsafe with rfl | ⟨hd', hs'⟩
      · refine ⟨h.obj _ t ht, ?_⟩
        funext j; by_cases e : j = d <;> simp [SWorld.put, e, hk]
      · obtain ⟨u, hu, e⟩ := HoldsSet.get hg hd'
        rw [vals_eq_nil] at e
        rw [hk] at hs'
        have e' : t = .nil := vals_eq_nil.1 (by simpa using hs')
        subst e e'
        refine ⟨h.obj d _ hu, ?_⟩
        funext j; by_cases e : j = d
        · simp [SWorld.put, e, hd', vals, T.inorder]
        · simp [SWorld.put, e]
    rw [upd_same e1.1, e1.2]
    exact ⟨h, hg, fun _ _ _ a _ => a⟩
  | copyNew d s =>
    simp only [specStep, Option.isNone_iff_eq_none] at hs
    split at hs
    · rename_i hd
      simp only [Option.bind_eq_some_iff] at hs
      obtain ⟨l, hk, hs⟩ := hs
      cases hs
      obtain ⟨t, ht, rfl⟩ := HoldsSet.get hg hk
      have e : t = .nil := by
        have : sw s = some [] := hsafe
        rw [hk] at this
        exact vals_eq_nil.1 (by simpa using this)
      subst e
      have hd' : g d = none := by rw [hg d] at hd; simpa using hd
      exact ⟨_, _, step_none (copyObj_ok (h.obj s _ ht)), h.newObj hd' good_nil, map_put hg rfl, fun _ _ _ a _ => a.new hd'⟩
    · cases hs
  | drop k =>
    simp only [specStep, Option.bind_eq_some_iff] at hs
    obtain ⟨l, hk, hs⟩ := hs
    cases hs
    obtain ⟨t, ht, rfl⟩ := HoldsSet.get hg hk
    obtain ⟨w', h1, h2⟩ := h.drop ht good_nil
    exact ⟨w', _, step_none h1, h2, map_put hg rfl, fun _ _ _ a hk => a.upd ht fun e _ => absurd e hk⟩

theorem step_ok (hw : StrictWeak lt) {op : Op α} {w : World α} {sw sw' : SWorld α} (h : HoldsSet lt w sw)
    (hs : specStep lt op sw = some sw') (hsafe : Safe lt op w sw) :
    ∃ w', Returns (step lt op) w (specOut lt op sw) w' ∧ HoldsSet lt w' sw' := by
  obtain ⟨g, h, hg⟩ := h
  obtain ⟨w', g', h1, h2, h3, _⟩ := step_ghost hw h hg hs hsafe
  exact ⟨w', h1, g', h2, h3⟩

/-- Several statements. -/
theorem steps_ghost (hw : StrictWeak lt) {ops : List (Op α)} {w w' : World α} {sw sw' : SWorld α} (hr : Steps lt w sw ops w' sw')
    {g : Nat → Option (Tr α)} (h : Tree.Holds (Good lt) w g) (hg : ∀ k, sw k = (g k).map vals) :
    ∃ g', Tree.Holds (Good lt) w' g' ∧ (∀ k, sw' k = (g' k).map vals) ∧
      ∀ k n v, AtNode g k n v → (∀ op ∈ ops, Keeps lt k v op) → AtNode g' k n v := by
  induction hr generalizing g with
  | nil => exact ⟨g, h, hg, fun _ _ _ a _ => a⟩
  | cons hs hsafe hret _ ih =>
    obtain ⟨w1, g1, h1, h2, h3, h4⟩ := step_ghost hw h hg hs hsafe
    obtain ⟨_, rfl⟩ := h1.det hret
    obtain ⟨g2, h5, h6, h7⟩ := ih h2 h3
    exact ⟨g2, h5, h6, fun k n v a hk => h7 k n v (h4 k n v a (hk _ (List.mem_cons_self ..)))
      fun op m => hk op (List.mem_cons_of_mem _ m)⟩

theorem Reach.holds (hw : StrictWeak lt) {w : World α} {sw : SWorld α} (h : Reach lt w sw) : HoldsSet lt w sw := by
  induction h with
  | init => exact .init
  | step _ hs hsafe hr ih =>
    obtain ⟨w', h1, h2⟩ := step_ok hw ih hs hsafe
    obtain ⟨_, rfl⟩ := h1.det hr
    exact h2

theorem HoldsSet.shows (hw : StrictWeak lt) {w : World α} {sw : SWorld α} (h : HoldsSet lt w sw) : Shows lt w sw := by
  obtain ⟨g, h, hg⟩ := h
  intro k
  refine ⟨fun hk => h.dead k (by rw [hg k] at hk; simpa using hk), fun l hl => ?_⟩
  obtain ⟨t, ht, rfl⟩ := HoldsSet.get hg hl
  have hlen : (vals t).length = t.count := by rw [vals_eq, List.length_map, ← count_items]
  refine ⟨(h.good k t ht).2, ?_, ?_, fun hn => ?_, fun x => ?_⟩
  · rw [hlen]; exact on_observes (h.obj k t ht) rfl
  · rw [hlen]; exact on_observes (h.obj k t ht) rfl
  · exact on_observes (h.obj k t ht) (elements_ok (h.load ht) fun e => hn (vals_eq_nil.2 e))
  · exact on_observes (h.obj k t ht) (findRead_ok hw (h.load ht) (h.good k t ht).2 x)

end Verif.AVL
