import Verif.Spec.BST
import Verif.BSTLemmas
import Verif.TreeWorldSized

/-! # Binary search tree objects hold ordered sets -/

namespace Verif.BST

open Prog Verif.Tree
open Verif.AVL (StrictWeak Ascending Equiv same with_ without same_iff asc_append split_spec with_asc without_asc
  without_absent)

variable {α : Type} {lt : α → α → Bool}

/-- The trees objects hold. -/
def Good (lt : α → α → Bool) (t : T α) : Prop := Ascending lt (vals t)

theorem good_nil : Good lt (.nil : T α) := List.Pairwise.nil

/-! ## Observers -/

theorem dat_item {s : St α} {pa : Ptr} {t : T α} (h : Rep s pa t) {z : Nat} {v : α} (hm : (z, v) ∈ t.inorder) :
    s.dat z = some (some v) := by
  induction t generalizing pa with
  | nil => simp [T.inorder] at hm
  | node l p d r ihl ihr =>
    obtain ⟨h1, h2, h3, h4, h5, h6⟩ := h
    simp only [T.inorder, List.mem_append, List.mem_cons, Prod.mk.injEq] at hm
    rcases hm with hm | ⟨rfl, rfl⟩ | hm
    · exact ihl h5 hm
    · exact h1
    · exact ihr h6 hm

theorem item_dat {s : St α} {pa : Ptr} {t : T α} (h : Rep s pa t) {n : Nat} {d : α} (hn : n ∈ t.ptrs)
    (hd : s.dat n = some (some d)) : (n, d) ∈ t.inorder := by
  rw [T.ptrs_eq, List.mem_map] at hn
  obtain ⟨⟨n', d'⟩, hm, rfl⟩ := hn
  have := dat_item h hm
  rw [hd] at this
  cases this
  exact hm

theorem readIt_some {s : St α} {n : Nat} {d : α} (h : s.dat n = some (some d)) :
    Returns (readIt (some n)) s (some d) s := by
  unfold readIt Returns
  rw [if_neg (by simp), bind_returns (getData_ok h)]
  rfl

theorem item_split {t : T α} {z : Nat} {v : α} (h : (z, v) ∈ t.inorder) :
    ∃ xs ys, vals t = xs ++ v :: ys := by
  obtain ⟨xs, ys, e⟩ := List.append_of_mem h
  exact ⟨xs.map (·.2), ys.map (·.2), by simp [vals, e]⟩

/-- What `find` refers to. -/
theorem findRead_ok (w : StrictWeak lt) {s : St α} {t : T α} (h : IsTree s t) (ha : Ascending lt (vals t)) (x : α) :
    Returns (do let it ← find lt x; readIt it) s ((vals t).find? (same lt x)) s := by
  unfold Returns
  rw [bind_returns (find_ok h x)]
  cases hf : fFind lt x t with
  | none =>
    rw [find_none w ha] at hf
    rw [List.find?_eq_none.2 fun v hv e => hf v hv (same_iff.1 e)]
    rfl
  | some z =>
    obtain ⟨v, h1, h2⟩ := find_some hf
    obtain ⟨xs, ys, e⟩ := item_split h1
    rw [e] at ha ⊢
    rw [(split_spec w ha h2).2.2.1]
    exact readIt_some (dat_item h.rep h1)

theorem elements_ok {s : St α} {t : T α} (h : IsTree s t) (hn : t ≠ .nil) :
    Returns (elements .ino) s (vals t) s := by
  have : Returns (iterate .ino) s t.inorder s := by
    unfold iterate Returns
    rw [bind_returns (begin_in h hn (by simp))]
    exact iterIn_ok h
  unfold elements Returns
  rw [bind_returns this]
  rfl

theorem _root_.Verif.Tree.IsTree.resize {s : St α} {t : T α} (h : IsTree s t) (n : Nat) :
    IsTree { s with size := n } t :=
  ⟨h.root, h.rep.congr fun _ _ => ⟨rfl, rfl, rfl, rfl⟩, h.nodup⟩

/-! ## Methods as changes of one tree -/

theorem push_change (w : StrictWeak lt) {s : St α} {t : T α} {x : α} {obj : Arg α} (h : IsTree s t)
    (hu : ∀ n, s.next ≤ n → s.dat n = none) (hg : Good lt t) (hx : Reads s obj x) :
    wp (push lt obj) (fun _ s' => ∃ t', Change s { s' with size := t'.count } t t' ∧ Good lt t' ∧ s'.root = t'.root ∧
      (∀ m, s.size = t.count + m → vals t' = (add lt (vals t, m) x).1 ∧ s'.size = t'.count + (add lt (vals t, m) x).2) ∧
      (fFind lt x t = none → t' = fIns lt x s.next t)) s := by
  cases hf : fFind lt x t with
  | some z =>
    refine Returns.wp (push_dup h hx hf) ⟨t, ?_, hg, h.root, fun m hm => ?_, fun e => by cases e⟩
    · exact (Change.refl (h.resize t.count) rfl hu).resize s.size
    · have : (vals t).any (same lt x) = true := by rw [any_find w hg, hf]; rfl
      simp only [add, this, if_true]
      exact ⟨trivial, by omega⟩
  | none =>
    have hv := vals_ins (q := s.next) w hg hf
    have ha : (vals t).any (same lt x) = false := by rw [any_find w hg, hf]; rfl
    refine wp_mono (push_new h hu hx hf) ?_
    rintro _ s' ⟨h1, h2, h3, h4, h5⟩
    have hp := ptrs_ins (lt := lt) x s.next t
    refine ⟨_, ⟨h1.resize _, rfl, h3, fun n hn => ?_, fun n hn => ?_, fun n hn hlt => ?_, fun n hn => ?_⟩,
      ?_, h1.root, fun m hm => ?_, fun _ => rfl⟩
    · rcases List.mem_cons.1 (hp.mem_iff.1 hn) with rfl | hn
      · exact Or.inr (Nat.le_refl _)
      · exact Or.inl hn
    · by_cases e : n = s.next ∨ n ∈ t.ptrs
      · refine Or.inl (hp.mem_iff.2 (List.mem_cons.2 e))
      · have e1 : n ≠ s.next := fun x => e (Or.inl x)
        have e2 : n ∉ t.ptrs := fun x => e (Or.inr x)
        exact Or.inr ⟨e2, by rw [← (h5 n e2 e1).dat]; exact hn⟩
    · have := h5 n hn (Nat.ne_of_lt hlt)
      exact ⟨this.dat, this.par, this.lft, this.rgt⟩
    · have hn : s'.next ≤ n := hn
      rw [h2] at hn
      have e2 : n ∉ t.ptrs := fun x => by
        obtain ⟨d, hd⟩ := h.rep.live x
        rw [hu n (by omega)] at hd; cases hd
      show s'.dat n = none
      rw [(h5 n e2 (by omega)).dat]; exact hu n (by omega)
    · show Ascending lt _
      rw [hv]; exact with_asc w hg
    · simp only [add, ha]
      refine ⟨by simpa using hv, ?_⟩
      rw [h4, hm, count_ptrs, count_ptrs, hp.length_eq]
      simp; omega

theorem Removed.change {s s' : St α} {t t' : T α} {z : Nat} (h : IsTree s t)
    (hu : ∀ n, s.next ≤ n → s.dat n = none) (k : Removed s s' t t' z) : Change s { s' with size := t'.count } t t' := by
  refine ⟨k.tree.resize _, rfl, k.lost, fun n hn => Or.inl ?_, fun n hn => ?_, fun n hn _ => ?_,
    fun n hn => ?_⟩
  · exact k.perm.mem_iff.2 (List.mem_cons_of_mem _ hn)
  · by_cases c : n ∈ t.ptrs
    · left
      rcases List.mem_cons.1 (k.perm.mem_iff.1 c) with rfl | c
      · exact absurd k.gone hn
      · exact c
    · exact Or.inr ⟨c, by rw [← (k.out n c).dat]; exact hn⟩
  · have := k.out n hn
    exact ⟨this.dat, this.par, this.lft, this.rgt⟩
  · have hn : s'.next ≤ n := hn
    rw [k.next] at hn
    have e2 : n ∉ t.ptrs := fun x => by
      obtain ⟨d, hd⟩ := h.rep.live x
      rw [hu n hn] at hd; cases hd
    show s'.dat n = none
    rw [(k.out n e2).dat]; exact hu n hn

/-- What deleting a node with at most one child does to the elements. -/
theorem one_child (w : StrictWeak lt) {c : Ctx α} {l r : T α} {p : Nat} {d x : α} (ha : Good lt (c.plug (.node l p d r)))
    (he : Equiv lt x d) (h1 : l = .nil ∨ r = .nil) :
    ∃ u, fTry (.node l p d r) = some (u, p) ∧ (u.root ≠ some p ∨ p ∈ l.ptrs ∨ p ∈ r.ptrs) ∧
      vals (c.plug u) = without lt (vals (c.plug (.node l p d r))) x ∧
      (vals (c.plug (.node l p d r))).filter (lt x ·) = (r.inorder ++ c.after).map (·.2) := by
  have e : vals (c.plug (.node l p d r)) =
      (c.before.map (·.2) ++ vals l) ++ d :: ((r.inorder ++ c.after).map (·.2)) := by
    rw [vals_plug, vals_node]; simp [vals]
  unfold Good at ha
  rw [e] at ha
  obtain ⟨f1, f2, _⟩ := split_spec w ha he
  rw [e, f1, f2]
  rcases h1 with rfl | rfl
  · refine ⟨r, try_one (Or.inl ⟨rfl, rfl⟩), ?_, by rw [vals_plug]; simp [vals, T.inorder], rfl⟩
    by_cases c : r.root = some p
    · exact Or.inr (Or.inr (T.root_mem c))
    · exact Or.inl c
  · refine ⟨l, try_one (Or.inr ⟨rfl, rfl⟩), ?_, by rw [vals_plug]; simp [vals, T.inorder], rfl⟩
    by_cases c : l.root = some p
    · exact Or.inr (Or.inl (T.root_mem c))
    · exact Or.inl c

/-- The node found has at most one child. -/
theorem at_one {s : St α} {c : Ctx α} {l r : T α} {p : Nat} {d : α} (h : IsTree s (c.plug (.node l p d r)))
    (h1 : s.lft p = none ∨ s.rgt p = none) : l = .nil ∨ r = .nil := by
  have hat := h.at
  rw [hat.lft, hat.rgt, T.root_none, T.root_none] at h1
  exact h1

theorem pop_change (w : StrictWeak lt) {s : St α} {t : T α} {x : α} {obj : Arg α} (h : IsTree s t)
    (hu : ∀ n, s.next ≤ n → s.dat n = none) (hg : Good lt t) (hr : Reads s obj x) (hsz : t.count ≤ s.size)
    (hx : (t = .nil ∧ s.size = 0) ∨ ∃ z, fFind lt x t = some z ∧ (s.lft z = none ∨ s.rgt z = none)) :
    wp (pop lt obj) (fun _ s' => ∃ t', Change s { s' with size := t'.count } t t' ∧ Good lt t' ∧ s'.root = t'.root ∧
      vals t' = without lt (vals t) x ∧ s'.size + t.count = s.size + t'.count) s := by
  rcases hx with ⟨rfl, hs⟩ | ⟨z, hf, h1⟩
  · refine Returns.wp (pop_empty hs) ⟨.nil, ?_, hg, h.root, rfl, rfl⟩
    exact (Change.refl (h.resize (T.nil : T α).count) rfl hu).resize s.size
  · obtain ⟨c, l, d, r, rfl, e2, e3⟩ := find_split' hf
    obtain ⟨u, k1, _, k2, _⟩ := one_child w hg e2 (at_one h h1)
    rw [k1] at e3
    have hlen : (c.plug (.node l z d r)).count ≠ 0 := by
      rw [count_ptrs]
      intro e
      have : z ∈ (c.plug (.node l z d r)).ptrs := Ctx.mem_plug.2 (Or.inl (by simp [T.ptrs]))
      rw [List.eq_nil_of_length_eq_zero e] at this; cases this
    refine wp_mono (pop_ok w.irrefl h hr (by omega) e3) ?_
    rintro _ s' k
    refine ⟨_, k.change h hu, ?_, k.tree.root, k2, ?_⟩
    · show Ascending lt _
      rw [k2]; exact without_asc hg
    · have := k.perm.length_eq
      rw [List.length_cons] at this
      rw [k.size, count_ptrs, count_ptrs, this]
      rw [count_ptrs, this] at hsz
      simp only; omega

theorem erase_change (w : StrictWeak lt) {s : St α} {t : T α} {x : α} {z : Nat} (h : IsTree s t)
    (hu : ∀ n, s.next ≤ n → s.dat n = none) (hg : Good lt t) (hsz : t.count ≤ s.size)
    (hf : fFind lt x t = some z) (h1 : s.lft z = none ∨ s.rgt z = none) :
    wp (do let it ← find lt x; let next ← erase lt it; readIt next : Prog (St α) (Option α)) (fun y s' =>
      ∃ t', Change s { s' with size := t'.count } t t' ∧ Good lt t' ∧ s'.root = t'.root ∧
      vals t' = without lt (vals t) x ∧ s'.size + t.count = s.size + t'.count ∧
      y = ((vals t).filter (lt x ·)).head?) s := by
  rw [wp_bind]
  refine Returns.wp (find_ok h x) ?_
  rw [hf]
  obtain ⟨c, l, d, r, rfl, e2, e3⟩ := find_split' hf
  obtain ⟨u, k1, k0, k2, k3⟩ := one_child w hg e2 (at_one h h1)
  rw [wp_bind]
  refine wp_mono (erase_ok w.irrefl h k1) ?_
  rintro y s' ⟨k, hy⟩
  have hur : u.root ≠ some z := by
    obtain ⟨_, _, n3, n4, _⟩ := nodup_node (Ctx.nodup_plug.1 h.nodup).1
    exact k0.resolve_right fun e => e.elim n3 n4
  rw [if_neg hur] at hy
  subst hy
  have hgu : Good lt (c.plug u) := by show Ascending lt _; rw [k2]; exact without_asc hg
  have hcnt : s'.size + (c.plug (.node l z d r)).count = s.size + (c.plug u).count := by
    have := k.perm.length_eq
    rw [List.length_cons] at this
    rw [k.size, count_ptrs, count_ptrs, this]
    rw [count_ptrs, this] at hsz
    omega
  have main : ∀ y, y = ((vals (c.plug (.node l z d r))).filter (lt x ·)).head? → ∃ t', Change s { s' with size := t'.count } (c.plug (.node l z d r)) t' ∧
      Good lt t' ∧ s'.root = t'.root ∧ vals t' = without lt (vals (c.plug (.node l z d r))) x ∧
      s'.size + (c.plug (.node l z d r)).count = s.size + t'.count ∧
      y = ((vals (c.plug (.node l z d r))).filter (lt x ·)).head? := fun y hy =>
    ⟨_, k.change h hu, hgu, k.tree.root, k2, hcnt, hy⟩
  cases hh : r.inorder ++ c.after with
  | nil =>
    refine Returns.wp (show Returns (readIt none) s' none s' from rfl) (main _ ?_)
    rw [k3, hh]; rfl
  | cons b bs =>
    obtain ⟨n, f⟩ := b
    have hm : (n, f) ∈ (c.plug u).inorder := by
      have hb : (n, f) ∈ r.inorder ++ c.after := by rw [hh]; simp
      rw [Ctx.inorder_plug]
      rcases List.mem_append.1 hb with hb | hb
      · rcases at_one h h1 with rfl | rfl
        · have : fTry (.node .nil z d r) = some (r, z) := try_one (Or.inl ⟨rfl, rfl⟩)
          rw [this] at k1; cases k1
          simp [hb]
        · simp [T.inorder] at hb
      · simp [hb]
    refine Returns.wp (readIt_some (dat_item k.tree.rep hm)) (main _ ?_)
    rw [k3, hh]; rfl

/-! ## Objects -/

/-- Object by object: what is held and what is meant. -/
def Link (sw : SWorld α) (g : Nat → Option (T α)) (c : Nat → Nat) : Prop :=
  ∀ k, (g k = none ∧ sw k = none) ∨ ∃ t m, g k = some t ∧ sw k = some (vals t, m) ∧ c k = t.count + m

/-- Every object holds the set it is meant to hold. -/
def HoldsSet (lt : α → α → Bool) (w : World α) (sw : SWorld α) : Prop :=
  ∃ g c, HoldsSized (Good lt) w g c ∧ Link sw g c

theorem HoldsSet.init : HoldsSet lt (World.init : World α) (fun _ => none) :=
  ⟨fun _ => none, fun _ => 0, HoldsSized.init, fun _ => Or.inl ⟨rfl, rfl⟩⟩

theorem Link.get {sw : SWorld α} {g : Nat → Option (T α)} {c : Nat → Nat} (h : Link sw g c) {k : Nat}
    {o : List α × Nat} (hk : sw k = some o) : ∃ t, g k = some t ∧ vals t = o.1 ∧ c k = t.count + o.2 := by
  rcases h k with ⟨_, h2⟩ | ⟨t, m, h1, h2, h3⟩
  · rw [h2] at hk; cases hk
  · rw [h2] at hk; cases hk
    exact ⟨t, h1, rfl, h3⟩

theorem Link.none {sw : SWorld α} {g : Nat → Option (T α)} {c : Nat → Nat} (h : Link sw g c) {k : Nat}
    (hk : sw k = none) : g k = none := by
  rcases h k with ⟨h1, _⟩ | ⟨t, m, h1, h2, h3⟩
  · exact h1
  · rw [h2] at hk; cases hk

theorem Link.put {sw : SWorld α} {g : Nat → Option (T α)} {c : Nat → Nat} (h : Link sw g c) {k : Nat} {t : T α}
    {o : List α × Nat} {n : Nat} (h1 : vals t = o.1) (h2 : n = t.count + o.2) :
    Link (sw.put k (some o)) (upd g k (some t)) (upd c k n) := by
  intro j
  by_cases e : j = k
  · right
    exact ⟨t, o.2, by simp [upd, e], by simp [SWorld.put, e, h1], by simp [upd, e, h2]⟩
  · simpa [SWorld.put, upd, e] using h j

theorem Link.drop {sw : SWorld α} {g : Nat → Option (T α)} {c : Nat → Nat} (h : Link sw g c) {k n : Nat} :
    Link (sw.put k Option.none) (upd g k Option.none) (upd c k n) := by
  intro j
  by_cases e : j = k
  · left; simp [SWorld.put, upd, e]
  · simpa [SWorld.put, upd, e] using h j

theorem step_none {p : Prog (World α) Unit} {w w' : World α} (h : Returns p w () w') :
    Returns (do p; pure (none : Option α)) w none w' := by
  unfold Returns; rw [bind_returns h]; rfl

theorem same_equiv (hw : StrictWeak lt) {x v : α} (h : Equiv lt x v) : same lt v = same lt x := by
  funext y
  have e1 : lt v y = lt x y := by
    cases c : lt x y with
    | true => exact hw.lt_of_equiv ⟨h.2, h.1⟩ c
    | false =>
      cases c' : lt v y with
      | false => rfl
      | true => rw [hw.lt_of_equiv h c'] at c; cases c
  have e2 : lt y v = lt y x := by
    cases c : lt y x with
    | true => exact hw.gt_of_equiv ⟨h.2, h.1⟩ c
    | false =>
      cases c' : lt y v with
      | false => rfl
      | true => rw [hw.gt_of_equiv h c'] at c; cases c
  simp [same, e1, e2]

/-- `push` on an object. -/
theorem push_obj (hw : StrictWeak lt) {w : World α} {g : Nat → Option (T α)} {c : Nat → Nat} {sw : SWorld α}
    (h : HoldsSized (Good lt) w g c) (hl : Link sw g c) {k : Nat} {o : List α × Nat} (hk : sw k = some o) {obj : Arg α} {x : α}
    (hx : Reads w.mem obj x) :
    ∃ w' t', Returns (on k (push lt obj)) w () w' ∧
      HoldsSized (Good lt) w' (upd g k (some t')) (upd c k (t'.count + (add lt o x).2)) ∧
      Link (sw.put k (some (add lt o x))) (upd g k (some t')) (upd c k (t'.count + (add lt o x).2)) ∧
      ∀ t, g k = some t → fFind lt x t = none → t' = fIns lt x w.mem.next t := by
  obtain ⟨t, ht, hv, hc⟩ := hl.get hk
  obtain ⟨_, w', t', n, h1, h2, h3, h4⟩ := h.run (p := push lt obj)
    (Q := fun _ t' n => (∀ m, c k = t.count + m → vals t' = (add lt (vals t, m) x).1 ∧
      n = t'.count + (add lt (vals t, m) x).2) ∧ (fFind lt x t = none → t' = fIns lt x w.mem.next t)) ht
    (push_change hw (h.load ht) h.base.fresh (h.base.good k t ht) (by
      cases obj with
      | val y => exact hx
      | ref p => exact hx))
  obtain ⟨e1, e2⟩ := h3 _ hc
  have eo : (vals t, o.2) = o := by rw [hv]
  rw [eo] at e1 e2
  subst e2
  refine ⟨w', t', h1, h2, hl.put e1 rfl, fun u hu => ?_⟩
  rw [ht] at hu; cases hu
  exact h4

theorem pushAll_obj (hw : StrictWeak lt) {k : Nat} (xs : List α) {w : World α} {sw : SWorld α} {o : List α × Nat}
    (h : HoldsSet lt w sw) (hk : sw k = some o) :
    ∃ w', Returns (pushAll lt k xs) w () w' ∧ HoldsSet lt w' (sw.put k (some (xs.foldl (add lt) o))) := by
  induction xs generalizing w sw o with
  | nil =>
    refine ⟨w, rfl, ?_⟩
    have : sw.put k (some o) = sw := by funext j; by_cases e : j = k <;> simp [SWorld.put, e, hk]
    rw [List.foldl_nil, this]; exact h
  | cons x xs ih =>
    obtain ⟨g, c, h, hl⟩ := h
    obtain ⟨w1, t', h1, h2, h3, _⟩ := push_obj hw h hl hk (obj := .val x) rfl
    obtain ⟨w2, h4, h5⟩ := ih (sw := sw.put k (some (add lt o x))) (o := add lt o x) ⟨_, _, h2, h3⟩ (by simp [SWorld.put])
    refine ⟨w2, ?_, ?_⟩
    · unfold pushAll Returns
      rw [bind_returns h1]; exact h4
    · have : (sw.put k (some (add lt o x))).put k (some (xs.foldl (add lt) (add lt o x))) =
          sw.put k (some (xs.foldl (add lt) (add lt o x))) := by
        funext j; by_cases e : j = k <;> simp [SWorld.put, e]
      rw [this] at h5
      exact h5

/-- The node found in a safe tree has at most one child. -/
theorem OneChild.find {w : World α} {g : Nat → Option (T α)} {c : Nat → Nat} {k : Nat} {x : α}
    (ho : OneChild lt w k x) (h : HoldsSized (Good lt) w g c) {t : T α} (ht : g k = some t) {z : Nat}
    (hf : fFind lt x t = some z) : w.mem.lft z = Option.none ∨ w.mem.rgt z = Option.none := by
  obtain ⟨v, m1, m2⟩ := find_some hf
  have hz : z ∈ t.ptrs := by rw [T.ptrs_eq]; exact List.mem_map_of_mem m1
  have hrep : Rep w.mem Option.none t := h.base.rep k t ht
  exact ho t.root (c k) z v (h.live ht) ((below_root hrep).2 hz) (dat_item hrep m1) m2

/-- `pop` on an object. -/
theorem pop_obj (hw : StrictWeak lt) {w : World α} {g : Nat → Option (T α)} {c : Nat → Nat} {sw : SWorld α}
    (h : HoldsSized (Good lt) w g c) (hl : Link sw g c) {k : Nat} {o : List α × Nat} (hk : sw k = some o) {obj : Arg α}
    {x v : α} (hx : Reads w.mem obj v) (he : same lt v = same lt x)
    (hsafe : o = ([], 0) ∨ (o.1.any (same lt x) = true ∧ OneChild lt w k x)) :
    ∃ w', Returns (on k (pop lt obj)) w () w' ∧ HoldsSet lt w' (sw.put k (some (without lt o.1 x, o.2))) := by
  obtain ⟨t, ht, hv, hc⟩ := hl.get hk
  have hg := h.base.good k t ht
  have hpre : (t = .nil ∧ c k = 0) ∨ ∃ z, fFind lt v t = some z ∧ (w.mem.lft z = Option.none ∨ w.mem.rgt z = Option.none) := by
    rcases hsafe with rfl | ⟨ha, ho⟩
    · left
      have := vals_eq_nil.1 hv
      subst this
      exact ⟨rfl, hc⟩
    · right
      rw [← he, ← hv, any_find hw hg] at ha
      obtain ⟨z, hz⟩ := Option.isSome_iff_exists.1 ha
      refine ⟨z, hz, ?_⟩
      refine OneChild.find (x := v) (fun r c n d h1 h2 h3 h4 => ho r c n d h1 h2 h3 ?_) h ht hz
      have := same_iff.2 h4
      rw [he] at this
      exact same_iff.1 this
  obtain ⟨_, w', t', n, h1, h2, h3, h4⟩ := h.run (p := pop lt obj)
    (Q := fun _ t' n => vals t' = without lt (vals t) v ∧ n + t.count = c k + t'.count) ht
    (pop_change hw (h.load ht) h.base.fresh hg (by
      cases obj with
      | val y => exact hx
      | ref p => exact hx) (by show t.count ≤ c k; omega) hpre)
  refine ⟨w', h1, _, _, h2, hl.put ?_ ?_⟩
  · rw [h3, hv]; unfold without; rw [he]
  · simp only; omega

theorem find_obj (hw : StrictWeak lt) {w : World α} {g : Nat → Option (T α)} {c : Nat → Nat} {sw : SWorld α}
    (h : HoldsSized (Good lt) w g c) (hl : Link sw g c) {j : Nat} {o : List α × Nat} (hj : sw j = some o) {x : α}
    (hx : o.1.any (same lt x) = true) :
    ∃ z v, Returns (on j (find lt x)) w (some z) w ∧ Reads w.mem (.ref (some z)) v ∧ Equiv lt x v ∧
      o.1.find? (same lt x) = some v := by
  obtain ⟨t, ht, hv, hc⟩ := hl.get hj
  have hg := h.base.good j t ht
  have hx' := hx
  rw [← hv, any_find hw hg] at hx'
  obtain ⟨z, hz⟩ := Option.isSome_iff_exists.1 hx'
  obtain ⟨v, m1, m2⟩ := find_some hz
  refine ⟨z, v, on_observes (h.live ht) (hz ▸ find_ok (h.load ht) x), ⟨z, rfl, dat_item (h.base.rep j t ht) m1⟩, m2, ?_⟩
  obtain ⟨xs, ys, e⟩ := item_split m1
  unfold Good at hg
  rw [e] at hg
  rw [← hv, e, (split_spec hw hg m2).2.2.1]

theorem takeObj_ok {w : World α} {d s : Nat} {h : Ptr × Nat} (hs : w.obj s = some h) :
    Returns (takeObj d s) w () { w with obj := upd (upd w.obj d (some h)) s (some (none, 0)) } := by
  unfold takeObj Returns; simp only [hs]

/-- Moving from `s` to `d`. -/
theorem move_obj {w : World α} {sw : SWorld α} (h : HoldsSet lt w sw) {d s : Nat} {od os : List α × Nat}
    (hd : sw d = some od) (hs : sw s = some os) :
    ∃ w', Returns (moveObj d s) w () w' ∧
      HoldsSet lt w' (if d = s then sw else (sw.put d (some os)).put s (some ([], 0))) := by
  unfold moveObj
  by_cases e : d = s
  · rw [if_pos e, if_pos e]; exact ⟨w, rfl, h⟩
  · rw [if_neg e, if_neg e]
    obtain ⟨g, c, h, hl⟩ := h
    obtain ⟨td, h1, _, _⟩ := hl.get hd
    obtain ⟨ts, h2, h3, h4⟩ := hl.get hs
    obtain ⟨w1, k1, k2⟩ := h.clear h1 good_nil
    have es : s ≠ d := fun x => e x.symm
    have h2' : upd g d (some .nil) s = some ts := by rw [upd_ne _ _ es]; exact h2
    have k3 := k2.take e (upd_self _ _ _) (upd_self _ _ _) h2'
    refine ⟨_, ?_, _, _, k3, ?_⟩
    · unfold Returns
      rw [bind_returns k1]
      exact takeObj_ok (k2.live h2')
    · have ec : upd c d 0 s = c s := upd_ne _ _ es
      rw [ec]
      intro j
      by_cases e2 : j = s
      · exact Or.inr ⟨.nil, 0, by simp [upd, e2], by simp [SWorld.put, e2], by simp [upd, e2, T.count]⟩
      · by_cases e1 : j = d
        · exact Or.inr ⟨ts, os.2, by simp [upd, e1, e], by simp [SWorld.put, e1, e, h3], by simp [upd, e1, e, h4]⟩
        · simpa [upd, SWorld.put, e1, e2] using hl j

theorem step_ok (hw : StrictWeak lt) {op : Op α} {w : World α} {sw sw' : SWorld α} (h : HoldsSet lt w sw)
    (hs : specStep lt op sw = some sw') (hsafe : Safe lt op w sw) :
    ∃ w', Returns (step lt op) w (specOut lt op sw) w' ∧ HoldsSet lt w' sw' := by
  have newOk : ∀ {k}, sw k = none → ∃ w1, Returns (newObj k) w () w1 ∧ HoldsSet lt w1 (sw.put k (some ([], 0))) := by
    intro k hk
    obtain ⟨g, c, h, hl⟩ := h
    exact ⟨_, rfl, _, _, h.newObj (hl.none hk) good_nil, hl.put rfl rfl⟩
  cases op with
  | new k =>
    simp only [specStep, Option.isNone_iff_eq_none] at hs
    split at hs
    · rename_i hk
      cases hs
      obtain ⟨w1, h1, h2⟩ := newOk hk
      exact ⟨w1, step_none h1, h2⟩
    · cases hs
  | newFrom k xs =>
    simp only [specStep, Option.isNone_iff_eq_none] at hs
    split at hs
    · rename_i hk
      cases hs
      obtain ⟨w1, h1, h2⟩ := newOk hk
      obtain ⟨w2, h3, h4⟩ := pushAll_obj hw xs h2 (k := k) (o := ([], 0)) (by simp [SWorld.put])
      refine ⟨w2, ?_, ?_⟩
      · show (do newObj k; pushAll lt k xs; pure none : Prog (World α) (Option α)) w = _
        rw [bind_returns h1]; exact step_none h3
      · have : (sw.put k (some ([], 0))).put k (some (xs.foldl (add lt) ([], 0))) =
            sw.put k (some (xs.foldl (add lt) ([], 0))) := by
          funext j; by_cases e : j = k <;> simp [SWorld.put, e]
        rw [this] at h4; exact h4
    · cases hs
  | push k x =>
    simp only [specStep, Option.bind_eq_some_iff] at hs
    obtain ⟨o, hk, hs⟩ := hs
    cases hs
    obtain ⟨g, c, h, hl⟩ := h
    obtain ⟨w1, t', h1, h2, h3, _⟩ := push_obj hw h hl hk (obj := .val x) rfl
    exact ⟨w1, step_none h1, _, _, h2, h3⟩
  | pushAt k j x =>
    simp only [specStep, Option.bind_eq_some_iff] at hs
    obtain ⟨o, hk, o', hj, v, hv, hs⟩ := hs
    cases hs
    obtain ⟨g, c, h, hl⟩ := h
    have hx : o'.1.any (same lt x) = true := by
      rw [List.any_eq_true]; exact ⟨v, List.mem_of_find?_eq_some hv, List.find?_some hv⟩
    obtain ⟨z, v', f1, f2, f3, f4⟩ := find_obj hw h hl hj hx
    rw [hv] at f4; cases f4
    obtain ⟨w1, t', h1, h2, h3, _⟩ := push_obj hw h hl hk f2
    refine ⟨w1, ?_, _, _, h2, h3⟩
    show (do let it ← on j (find lt x); on k (push lt (.ref it)); pure none : Prog (World α) (Option α)) w = _
    rw [bind_returns f1]; exact step_none h1
  | pop k x =>
    simp only [specStep, Option.bind_eq_some_iff] at hs
    obtain ⟨o, hk, hs⟩ := hs
    cases hs
    obtain ⟨g, c, h, hl⟩ := h
    obtain ⟨w1, h1, h2⟩ := pop_obj hw h hl hk (obj := .val x) rfl rfl (hsafe o hk)
    exact ⟨w1, step_none h1, h2⟩
  | popAt k j x =>
    simp only [specStep, Option.bind_eq_some_iff] at hs
    obtain ⟨o, hk, o', hj, hs⟩ := hs
    split at hs
    · rename_i hx
      cases hs
      obtain ⟨g, c, h, hl⟩ := h
      obtain ⟨z, v, f1, f2, f3, _⟩ := find_obj hw h hl hj hx
      obtain ⟨w1, h1, h2⟩ := pop_obj hw h hl hk f2 (same_equiv hw f3) (hsafe o hk)
      refine ⟨w1, ?_, h2⟩
      show (do let it ← on j (find lt x); on k (pop lt (.ref it)); pure none : Prog (World α) (Option α)) w = _
      rw [bind_returns f1]; exact step_none h1
    · cases hs
  | erase k x =>
    simp only [specStep, Option.bind_eq_some_iff] at hs
    obtain ⟨o, hk, hs⟩ := hs
    cases hs
    obtain ⟨ha, ho⟩ := hsafe o hk
    obtain ⟨g, c, h, hl⟩ := h
    obtain ⟨t, ht, hv, hc⟩ := hl.get hk
    have hg := h.base.good k t ht
    rw [← hv, any_find hw hg] at ha
    obtain ⟨z, hz⟩ := Option.isSome_iff_exists.1 ha
    obtain ⟨y, w', t', n, h1, h2, h3, h4, h5⟩ := h.run
      (p := do let it ← find lt x; let next ← erase lt it; readIt next)
      (Q := fun y t' n => vals t' = without lt (vals t) x ∧ n + t.count = c k + t'.count ∧
        y = ((vals t).filter (lt x ·)).head?) ht
      (erase_change hw (h.load ht) h.base.fresh hg (by show t.count ≤ c k; omega) hz (OneChild.find ho h ht hz))
    refine ⟨w', ?_, _, _, h2, hl.put (by rw [h3, hv]) (by simp only; omega)⟩
    simp only [specOut, hk, Option.bind_some, ← hv]
    rw [← h5]; exact h1
  | clear k =>
    simp only [specStep, Option.bind_eq_some_iff] at hs
    obtain ⟨o, hk, hs⟩ := hs
    cases hs
    obtain ⟨g, c, h, hl⟩ := h
    obtain ⟨t, ht, _⟩ := hl.get hk
    obtain ⟨w', h1, h2⟩ := h.clear ht good_nil
    exact ⟨w', step_none h1, _, _, h2, hl.put rfl rfl⟩
  | move d s =>
    simp only [specStep, Option.bind_eq_some_iff] at hs
    obtain ⟨od, hd, os, hk, hs⟩ := hs
    cases hs
    obtain ⟨w', h1, h2⟩ := move_obj h hd hk
    exact ⟨w', step_none h1, h2⟩
  | moveNew d s =>
    simp only [specStep, Option.isNone_iff_eq_none] at hs
    split at hs
    · rename_i hd
      simp only [Option.bind_eq_some_iff] at hs
      obtain ⟨os, hk, hs⟩ := hs
      cases hs
      have e : d ≠ s := fun e => by rw [e, hk] at hd; cases hd
      obtain ⟨w1, h1, h2⟩ := newOk hd
      obtain ⟨w2, h3, h4⟩ := move_obj h2 (d := d) (s := s) (od := ([], 0)) (os := os) (by simp [SWorld.put])
        (by simp [SWorld.put, Ne.symm e, hk])
      rw [if_neg e] at h4
      refine ⟨w2, ?_, ?_⟩
      · show (do newObj d; moveObj d s; pure none : Prog (World α) (Option α)) w = _
        rw [bind_returns h1]; exact step_none h3
      · have : ((sw.put d (some ([], 0))).put d (some os)) = sw.put d (some os) := by
          funext j; by_cases e : j = d <;> simp [SWorld.put, e]
        rw [this] at h4; exact h4
    · cases hs
  | drop k =>
    simp only [specStep, Option.bind_eq_some_iff] at hs
    obtain ⟨o, hk, hs⟩ := hs
    cases hs
    obtain ⟨g, c, h, hl⟩ := h
    obtain ⟨t, ht, _⟩ := hl.get hk
    obtain ⟨w', h1, h2⟩ := h.drop ht good_nil
    exact ⟨w', step_none h1, _, _, h2, hl.drop⟩

theorem Reach.holds (hw : StrictWeak lt) {w : World α} {sw : SWorld α} (h : Reach lt w sw) : HoldsSet lt w sw := by
  induction h with
  | init => exact .init
  | step _ hs hsafe hr ih =>
    obtain ⟨w', h1, h2⟩ := step_ok hw ih hs hsafe
    obtain ⟨_, rfl⟩ := h1.det hr
    exact h2

theorem HoldsSet.shows (hw : StrictWeak lt) {w : World α} {sw : SWorld α} (h : HoldsSet lt w sw) : Shows lt w sw := by
  obtain ⟨g, c, h, hl⟩ := h
  intro k
  refine ⟨fun hk => ?_, fun l n hk => ?_⟩
  · rw [h.obj k, hl.none hk]; rfl
  · obtain ⟨t, ht, hv, hc⟩ := hl.get hk
    simp only at hv hc
    have hg := h.base.good k t ht
    have hlen : l.length + n = c k := by rw [hc, ← hv, vals_length]
    refine ⟨hv ▸ hg, ?_, ?_, fun hn => ?_, fun x => ?_⟩
    · rw [hlen]; exact on_observes (h.live ht) rfl
    · rw [hlen]; exact on_observes (h.live ht) rfl
    · rw [← hv]
      exact on_observes (h.live ht) (elements_ok (h.load ht) fun e => hn (by rw [← hv, e]; rfl))
    · rw [← hv]
      exact on_observes (h.live ht) (findRead_ok hw (h.load ht) hg x)

end Verif.BST
