import Verif.BSTWorldLemmas

/-!
# Binary search trees in any order

What holds of every program over binary search trees, also after a defective removal has left a
tree unordered.
-/

namespace Verif.BST

open Prog Verif.Tree

variable {α : Type} {lt : α → α → Bool}

/-- No condition on the trees. -/
def AnyTree (_ : T α) : Prop := True

/-- Every object holds some tree, and its size is at least the number of nodes. -/
def HoldsTrees (w : World α) : Prop :=
  ∃ g c, HoldsSized (AnyTree (α := α)) w g c ∧ ∀ k t, g k = some t → t.count ≤ c k

theorem HoldsTrees.upd {w : World α} {g : Nat → Option (T α)} {c : Nat → Nat} {k n : Nat} {t : T α}
    (h : HoldsSized AnyTree w (upd g k (some t)) (upd c k n)) (hc : ∀ k t, g k = some t → t.count ≤ c k) (hn : t.count ≤ n) :
    HoldsTrees w := by
  refine ⟨_, _, h, fun j u hj => ?_⟩
  by_cases e : j = k
  · subst e
    simp only [upd_self, Option.some.injEq] at hj ⊢
    subst hj; exact hn
  · rw [upd_ne _ _ e] at hj ⊢
    exact hc j u hj

/-- Whether the argument can be read. -/
theorem reads_or {w : World α} {g : Nat → Option (T α)} {c : Nat → Nat} (h : HoldsSized AnyTree w g c) {j : Nat} {t : T α}
    (hj : g j = some t) (x : α) : ∃ it, Returns (on j (find lt x)) w it w ∧ (it = none ∨ ∃ v, Reads w.mem (.ref it) v) := by
  refine ⟨fFind lt x t, on_observes (h.live hj) (find_ok (h.load hj) x), ?_⟩
  cases hf : fFind lt x t with
  | none => exact Or.inl rfl
  | some z =>
    obtain ⟨v, m1, _⟩ := find_some hf
    exact Or.inr ⟨v, z, rfl, dat_item (h.base.rep j t hj) m1⟩

theorem push_refnull (s : St α) {t : T α} (h : IsTree s t) : Faults (push lt (.ref none)) s .nullDeref := by
  refine bind_faults ?_
  unfold insert Faults
  rw [bind_returns (show Returns getRoot s s.root s from rfl), h.root]
  cases t with
  | nil =>
    rw [bind_returns (show Returns (insertLoop lt (.ref none) (T.nil : T α).root none) s (none, none) s by
      unfold insertLoop; rfl)]
    simp only [ne_eq, not_true_eq_false, if_false]
    rw [bind_returns (show Returns allocNode s s.next _ from rfl)]
    exact bind_faults rfl
  | node l p d r =>
    refine bind_faults ?_
    unfold insertLoop Faults
    rw [if_neg (by simp [T.root])]
    exact bind_faults rfl

/-- `push` on an object. -/
theorem push_any {w : World α} {g : Nat → Option (T α)} {c : Nat → Nat} (h : HoldsSized AnyTree w g c)
    (hc : ∀ k t, g k = some t → t.count ≤ c k) {k : Nat} {t : T α} (hk : g k = some t) {obj : Arg α} {x : α}
    (hx : Reads w.mem obj x) : ∃ w', Returns (on k (push lt obj)) w () w' ∧ HoldsTrees w' := by
  have hr : Reads (w.load (t.root, c k)) obj x := by
    cases obj with
    | val y => exact hx
    | ref p => exact hx
  have hl := h.load hk
  have hu : ∀ n, (w.load (t.root, c k)).next ≤ n → (w.load (t.root, c k)).dat n = none := h.base.fresh
  obtain ⟨_, w', t', n, h1, h2, h3⟩ := h.run (p := push lt obj) (Q := fun _ t' n => t'.count ≤ n) hk (by
    cases hf : fFind lt x t with
    | some z =>
      refine Returns.wp (push_dup hl hr hf) ⟨t, ?_, trivial, hl.root, ?_⟩
      · exact (Change.refl (hl.resize t.count) rfl hu).resize _
      · have := hc k t hk
        show t.count ≤ c k + 1
        omega
    | none =>
      refine wp_mono (push_new hl hu hr hf) ?_
      rintro _ s' ⟨h1, h2, h3, h4, h5⟩
      have hp := ptrs_ins (lt := lt) x (w.load (t.root, c k)).next t
      refine ⟨_, ⟨h1.resize _, rfl, h3, fun n hn => ?_, fun n hn => ?_, fun n hn hlt => ?_, fun n hn => ?_⟩,
        trivial, h1.root, ?_⟩
      · rcases List.mem_cons.1 (hp.mem_iff.1 hn) with rfl | hn
        · exact Or.inr (Nat.le_refl _)
        · exact Or.inl hn
      · by_cases e : n = (w.load (t.root, c k)).next ∨ n ∈ t.ptrs
        · refine Or.inl (hp.mem_iff.2 (List.mem_cons.2 e))
        · have e1 : n ≠ (w.load (t.root, c k)).next := fun x => e (Or.inl x)
          have e2 : n ∉ t.ptrs := fun x => e (Or.inr x)
          exact Or.inr ⟨e2, by rw [← (h5 n e2 e1).dat]; exact hn⟩
      · have := h5 n hn (Nat.ne_of_lt hlt)
        exact ⟨this.dat, this.par, this.lft, this.rgt⟩
      · have hn : s'.next ≤ n := hn
        rw [h2] at hn
        have e2 : n ∉ t.ptrs := fun x => by
          obtain ⟨d, hd⟩ := hl.rep.live x
          rw [hu n (by omega)] at hd; cases hd
        show s'.dat n = none
        rw [(h5 n e2 (by omega)).dat]; exact hu n (by omega)
      · have := hc k t hk
        rw [h4, count_ptrs, hp.length_eq, List.length_cons, ← count_ptrs]
        show t.count + 1 ≤ c k + 1
        omega)
  exact ⟨w', h1, .upd h2 hc h3⟩

theorem removed_count {s s' : St α} {t t' : T α} {z : Nat} (k : Removed s s' t t' z) (h : t.count ≤ s.size) :
    t'.count ≤ s'.size := by
  have := k.perm.length_eq
  rw [List.length_cons, ← count_ptrs, ← count_ptrs] at this
  rw [k.size]; omega

/-- `pop` on an object. -/
theorem pop_any (hirr : ∀ a, lt a a = false) {w : World α} {g : Nat → Option (T α)} {c : Nat → Nat}
    (h : HoldsSized AnyTree w g c) (hc : ∀ k t, g k = some t → t.count ≤ c k) {k : Nat} {t : T α} (hk : g k = some t)
    {obj : Arg α} {x : α} (hx : Reads w.mem obj x) :
    (∃ w', Returns (on k (pop lt obj)) w () w' ∧ HoldsTrees w') ∨ Faults (on k (pop lt obj)) w .nullDeref := by
  have hr : Reads (w.load (t.root, c k)) obj x := by
    cases obj with
    | val y => exact hx
    | ref p => exact hx
  have hl := h.load hk
  by_cases hs : c k = 0
  · exact Or.inl ⟨w, on_observes (h.live hk) (pop_empty hs), g, c, h, hc⟩
  · cases hd : fDel lt x t with
    | none => exact Or.inr (on_faults (h.live hk) (pop_null hirr hl hr hs hd))
    | some u =>
      obtain ⟨t', z⟩ := u
      obtain ⟨_, w', t'', n, h1, h2, h3⟩ := h.run (p := pop lt obj) (Q := fun _ t' n => t'.count ≤ n) hk
        (wp_mono (pop_ok hirr hl hr hs hd) fun _ s' k' =>
          ⟨t', k'.change hl h.base.fresh, trivial, k'.tree.root, removed_count k' (hc k t hk)⟩)
      exact Or.inl ⟨w', h1, .upd h2 hc h3⟩

theorem pop_refnull {s : St α} : (Returns (pop lt (.ref none)) s () s ∧ s.size = 0) ∨ Faults (pop lt (.ref none)) s .nullDeref := by
  by_cases hs : s.size = 0
  · exact Or.inl ⟨pop_empty hs, hs⟩
  · right
    unfold pop Faults
    rw [bind_returns (show Returns getSize s s.size s from rfl), if_neg hs,
      bind_returns (show Returns getRoot s s.root s from rfl)]
    refine bind_faults ?_
    rw [delete]
    exact bind_faults rfl

/-- The iterator `erase` returns refers to an element or is `end()`. -/
theorem erase_next {s' : St α} {c : Ctx α} {l r u : T α} {p z : Nat} {d : α} {pa : Ptr} (hn : (c.plug (.node l p d r)).ptrs.Nodup)
    (ht : fTry (.node l p d r) = some (u, z)) (hr : Rep s' pa (c.plug u)) {y : Ptr}
    (hy : y = if u.root = some p then some p else hd (r.inorder ++ c.after)) : y = none ∨ ∃ n v, y = some n ∧ s'.dat n = some (some v) := by
  have mem : ∀ n, n ∈ (c.plug u).ptrs → ∃ v, s'.dat n = some (some v) := fun n hn => hr.live hn
  by_cases hu : u.root = some p
  · rw [if_pos hu] at hy
    obtain ⟨v, hv⟩ := mem p (Ctx.mem_plug.2 (Or.inl (T.root_mem hu)))
    exact Or.inr ⟨p, v, hy, hv⟩
  · rw [if_neg hu] at hy
    cases hh : r.inorder ++ c.after with
    | nil => rw [hh] at hy; exact Or.inl hy
    | cons b bs =>
      obtain ⟨n, f⟩ := b
      rw [hh] at hy
      have hb : (n, f) ∈ r.inorder ++ c.after := by rw [hh]; simp
      have hm : (n, f) ∈ (c.plug u).inorder := by
        rw [Ctx.inorder_plug]
        rcases List.mem_append.1 hb with hb | hb
        · cases l with
          | nil =>
            rw [try_one (Or.inl ⟨rfl, rfl⟩)] at ht
            cases ht; simp [hb]
          | node a1 q1 e1 b1 =>
            cases r with
            | nil => simp [T.inorder] at hb
            | node rl rp rd rr =>
              obtain ⟨_, _, _, _, _, _, _, e, _⟩ := try_two (by simp) (by simp) ht
              subst e
              exact absurd rfl hu
        · simp [hb]
      exact Or.inr ⟨n, f, hy, dat_item hr hm⟩

theorem erase_any (hirr : ∀ a, lt a a = false) {w : World α} {g : Nat → Option (T α)} {c : Nat → Nat}
    (h : HoldsSized AnyTree w g c) (hc : ∀ k t, g k = some t → t.count ≤ c k) {k : Nat} {t : T α} (hk : g k = some t) (x : α) :
    (∃ y w', Returns (step lt (.erase k x)) w y w' ∧ HoldsTrees w') ∨ Faults (step lt (.erase k x)) w .nullDeref := by
  have hl := h.load hk
  have e0 : step lt (.erase k x) = on k (do let it ← find lt x; let next ← erase lt it; readIt next) := rfl
  rw [e0]
  cases hf : fFind lt x t with
  | none =>
    right
    refine on_faults (h.live hk) ?_
    unfold Faults
    rw [bind_returns (find_ok hl x), hf]
    exact bind_faults (erase_end _)
  | some z =>
    obtain ⟨ctx, l, d, r, e, _, _⟩ := find_split' hf
    cases ht : fTry (.node l z d r) with
    | none =>
      right
      refine on_faults (h.live hk) ?_
      unfold Faults
      rw [bind_returns (find_ok hl x), hf]
      exact bind_faults (erase_null hirr (show IsTree _ (ctx.plug (.node l z d r)) by rw [← e]; exact hl) ht)
    | some u =>
      obtain ⟨u, q⟩ := u
      left
      obtain ⟨y, w', t', n, h1, h2, h3⟩ := h.run (p := do let it ← find lt x; let next ← erase lt it; readIt next)
        (Q := fun _ t' n => t'.count ≤ n) hk (by
          rw [wp_bind]
          refine Returns.wp (find_ok hl x) ?_
          rw [hf, wp_bind]
          refine wp_mono (erase_ok hirr (show IsTree _ (ctx.plug (.node l z d r)) by rw [← e]; exact hl) ht) ?_
          rintro y s' ⟨k', hy⟩
          have hch : Removed (w.load (t.root, c k)) s' t (ctx.plug u) q := by rw [← e] at k'; exact k'
          have post : ∃ t', Change (w.load (t.root, c k)) { s' with size := t'.count } t t' ∧ AnyTree t' ∧
              s'.root = t'.root ∧ t'.count ≤ s'.size :=
            ⟨_, hch.change hl h.base.fresh, trivial, hch.tree.root, removed_count hch (hc k t hk)⟩
          rcases erase_next (e ▸ hl.nodup) ht k'.tree.rep hy with rfl | ⟨n, v, rfl, hv⟩
          · exact Returns.wp (show Returns (readIt none) s' none s' from rfl) post
          · exact Returns.wp (readIt_some hv) post)
      exact ⟨y, w', h1, .upd h2 hc h3⟩

theorem pushAll_any {k : Nat} (xs : List α) {w : World α} {h0 : Ptr × Nat} (h : HoldsTrees w) (hk : w.obj k = some h0) :
    ∃ w', Returns (pushAll lt k xs) w () w' ∧ HoldsTrees w' := by
  induction xs generalizing w h0 with
  | nil => exact ⟨w, rfl, h⟩
  | cons x xs ih =>
    obtain ⟨g, c, h, hc⟩ := h
    obtain ⟨t, ht, _⟩ : ∃ t, g k = some t ∧ True := by
      rw [h.obj k] at hk
      cases hg : g k with
      | none => rw [hg] at hk; cases hk
      | some t => exact ⟨t, rfl, trivial⟩
    obtain ⟨w1, h1, h2⟩ := push_any (lt := lt) h hc ht (obj := .val x) rfl
    have hk1 : ∃ h1, w1.obj k = some h1 := by
      unfold Returns on at h1
      rw [hk] at h1
      simp only at h1
      split at h1
      · cases h1
      · cases h1
      · simp only [Option.some.injEq, Except.ok.injEq, Prod.mk.injEq] at h1
        rw [← h1.2]
        exact ⟨_, upd_self _ _ _⟩
    obtain ⟨_, hk1⟩ := hk1
    obtain ⟨w2, h3, h4⟩ := ih h2 hk1
    refine ⟨w2, ?_, h4⟩
    unfold pushAll Returns
    rw [bind_returns h1]; exact h3

theorem get_tree {w : World α} {g : Nat → Option (T α)} {c : Nat → Nat} (h : HoldsSized AnyTree w g c) {k : Nat}
    (hk : w.obj k ≠ none) : ∃ t, g k = some t := by
  rw [h.obj k] at hk
  cases hg : g k with
  | none => rw [hg] at hk; exact absurd rfl hk
  | some t => exact ⟨t, rfl⟩

theorem get_none {w : World α} {g : Nat → Option (T α)} {c : Nat → Nat} (h : HoldsSized AnyTree w g c) {k : Nat}
    (hk : w.obj k = none) : g k = none := by
  rw [h.obj k] at hk
  cases hg : g k with
  | none => rfl
  | some t => rw [hg] at hk; cases hk

/-- What moving does. -/
theorem move_any {w : World α} {g : Nat → Option (T α)} {c : Nat → Nat} (h : HoldsSized AnyTree w g c)
    (hc : ∀ k t, g k = some t → t.count ≤ c k) {d s : Nat} {td ts : T α} (hd : g d = some td) (hs : g s = some ts) (e : d ≠ s) :
    ∃ w' g' c', Returns (moveObj d s) w () w' ∧ HoldsSized AnyTree w' g' c' ∧ (∀ k t, g' k = some t → t.count ≤ c' k) ∧
      g' d = some ts ∧ c' d = c s ∧ g' s = some .nil ∧ c' s = 0 := by
  unfold moveObj
  rw [if_neg e]
  obtain ⟨w1, k1, k2⟩ := h.clear hd trivial
  have es : s ≠ d := fun x => e x.symm
  have h2' : upd g d (some .nil) s = some ts := by rw [upd_ne _ _ es]; exact hs
  have k3 := k2.take e (upd_self _ _ _) (upd_self _ _ _) h2'
  have ec : upd c d 0 s = c s := upd_ne _ _ es
  rw [ec] at k3
  refine ⟨_, _, _, ?_, k3, ?_, ?_, ?_, ?_, ?_⟩
  · unfold Returns
    rw [bind_returns k1]
    have := takeObj_ok (d := d) (k2.live h2')
    rw [ec] at this
    exact this
  · intro j t hj
    by_cases e2 : j = s
    · subst e2
      simp only [upd_self, Option.some.injEq] at hj ⊢
      subst hj; exact Nat.le_refl _
    · rw [upd_ne _ _ e2] at hj ⊢
      by_cases e1 : j = d
      · subst e1
        simp only [upd_self, Option.some.injEq] at hj ⊢
        subst hj; exact hc s ts hs
      · rw [upd_ne _ _ e1, upd_ne _ _ e1] at hj
        rw [upd_ne _ _ e1, upd_ne _ _ e1]
        exact hc j t hj
  · rw [upd_ne _ _ e, upd_self]
  · rw [upd_ne _ _ e, upd_self]
  · exact upd_self _ _ _
  · exact upd_self _ _ _

theorem step_any (hirr : ∀ a, lt a a = false) {op : Op α} {w : World α} (h : HoldsTrees w) (ha : Alive op w) :
    (∃ y w', Returns (step lt op) w y w' ∧ HoldsTrees w') ∨ Faults (step lt op) w .nullDeref := by
  have newOk : ∀ {k}, w.obj k = none → ∃ w1, Returns (newObj k) w () w1 ∧ HoldsTrees w1 ∧ w1.obj k = some (none, 0) ∧
      ∀ j, j ≠ k → w1.obj j = w.obj j := by
    intro k hk
    obtain ⟨g, c, h, hc⟩ := h
    exact ⟨_, rfl, .upd (h.newObj (get_none h hk) trivial) hc (Nat.le_refl _), upd_self _ _ _, fun j hj => upd_ne _ _ hj⟩
  cases op with
  | new k =>
    obtain ⟨w1, h1, h2, _⟩ := newOk ha
    exact Or.inl ⟨_, w1, step_none h1, h2⟩
  | newFrom k xs =>
    obtain ⟨w1, h1, h2, h3, _⟩ := newOk ha
    obtain ⟨w2, h4, h5⟩ := pushAll_any (lt := lt) xs h2 h3
    refine Or.inl ⟨none, w2, ?_, h5⟩
    show (do newObj k; pushAll lt k xs; pure none : Prog (World α) (Option α)) w = _
    rw [bind_returns h1]; exact step_none h4
  | push k x =>
    obtain ⟨g, c, h, hc⟩ := h
    obtain ⟨t, ht⟩ := get_tree h ha
    obtain ⟨w1, h1, h2⟩ := push_any (lt := lt) h hc ht (obj := .val x) rfl
    exact Or.inl ⟨_, w1, step_none h1, h2⟩
  | pushAt k j x =>
    obtain ⟨g, c, h, hc⟩ := h
    obtain ⟨t, ht⟩ := get_tree h ha.1
    obtain ⟨u, hu⟩ := get_tree h ha.2
    obtain ⟨it, h1, h2⟩ := reads_or (lt := lt) h hu x
    rcases h2 with rfl | ⟨v, h2⟩
    · right
      show Faults (do let it ← on j (find lt x); on k (push lt (.ref it)); pure none : Prog (World α) (Option α)) w _
      unfold Faults
      rw [bind_returns h1]
      exact bind_faults (on_faults (h.live ht) (push_refnull _ (h.load ht)))
    · obtain ⟨w1, h3, h4⟩ := push_any (lt := lt) h hc ht h2
      refine Or.inl ⟨none, w1, ?_, h4⟩
      show (do let it ← on j (find lt x); on k (push lt (.ref it)); pure none : Prog (World α) (Option α)) w = _
      rw [bind_returns h1]; exact step_none h3
  | pop k x =>
    obtain ⟨g, c, h, hc⟩ := h
    obtain ⟨t, ht⟩ := get_tree h ha
    rcases pop_any hirr h hc ht (obj := .val x) rfl with ⟨w1, h1, h2⟩ | h1
    · exact Or.inl ⟨_, w1, step_none h1, h2⟩
    · exact Or.inr (bind_faults h1)
  | popAt k j x =>
    obtain ⟨g, c, h, hc⟩ := h
    obtain ⟨t, ht⟩ := get_tree h ha.1
    obtain ⟨u, hu⟩ := get_tree h ha.2
    obtain ⟨it, h1, h2⟩ := reads_or (lt := lt) h hu x
    have e0 : step lt (.popAt k j x) = (do let it ← on j (find lt x); on k (pop lt (.ref it)); pure none) := rfl
    rw [e0]
    rcases h2 with rfl | ⟨v, h2⟩
    · rcases pop_refnull (lt := lt) (s := w.load (t.root, c k)) with ⟨h3, _⟩ | h3
      · refine Or.inl ⟨none, w, ?_, g, c, h, hc⟩
        unfold Returns
        rw [bind_returns h1]; exact step_none (on_observes (h.live ht) h3)
      · right
        unfold Faults
        rw [bind_returns h1]
        exact bind_faults (on_faults (h.live ht) h3)
    · rcases pop_any hirr h hc ht h2 with ⟨w1, h3, h4⟩ | h3
      · refine Or.inl ⟨none, w1, ?_, h4⟩
        unfold Returns
        rw [bind_returns h1]; exact step_none h3
      · right
        unfold Faults
        rw [bind_returns h1]
        exact bind_faults h3
  | erase k x =>
    obtain ⟨g, c, h, hc⟩ := h
    obtain ⟨t, ht⟩ := get_tree h ha
    exact erase_any hirr h hc ht x
  | clear k =>
    obtain ⟨g, c, h, hc⟩ := h
    obtain ⟨t, ht⟩ := get_tree h ha
    obtain ⟨w1, h1, h2⟩ := h.clear ht trivial
    exact Or.inl ⟨_, w1, step_none h1, .upd h2 hc (Nat.le_refl _)⟩
  | move d s =>
    left
    by_cases e : d = s
    · refine ⟨none, w, step_none ?_, h⟩
      unfold moveObj
      rw [if_pos e]; rfl
    · obtain ⟨g, c, h, hc⟩ := h
      obtain ⟨td, hd⟩ := get_tree h ha.1
      obtain ⟨ts, hs⟩ := get_tree h ha.2
      obtain ⟨w', g', c', h1, h2, h3, _⟩ := move_any h hc hd hs e
      exact ⟨_, w', step_none h1, g', c', h2, h3⟩
  | moveNew d s =>
    left
    have e : d ≠ s := fun e => ha.2 (e ▸ ha.1)
    obtain ⟨w1, h1, h2, h3, h4⟩ := newOk ha.1
    obtain ⟨g, c, h, hc⟩ := h2
    obtain ⟨td, hd⟩ := get_tree h (k := d) (by rw [h3]; simp)
    obtain ⟨ts, hs⟩ := get_tree h (k := s) (by rw [h4 s (Ne.symm e)]; exact ha.2)
    obtain ⟨w', g', c', k1, k2, k3, _⟩ := move_any h hc hd hs e
    refine ⟨none, w', ?_, g', c', k2, k3⟩
    show (do newObj d; moveObj d s; pure none : Prog (World α) (Option α)) w = _
    rw [bind_returns h1]; exact step_none k1
  | drop k =>
    obtain ⟨g, c, h, hc⟩ := h
    obtain ⟨t, ht⟩ := get_tree h ha
    obtain ⟨w1, h1, h2⟩ := h.drop ht trivial
    refine Or.inl ⟨_, w1, step_none h1, _, _, h2, fun j u hj => ?_⟩
    by_cases e : j = k
    · subst e; simp only [upd_self] at hj; cases hj
    · rw [upd_ne _ _ e] at hj ⊢
      exact hc j u hj

theorem Ran.holds (hirr : ∀ a, lt a a = false) {w : World α} (h : Ran lt w) : HoldsTrees w := by
  induction h with
  | init => exact ⟨_, _, HoldsSized.init, fun k t hk => by cases hk⟩
  | step _ ha hr ih =>
    rcases step_any hirr ih ha with ⟨y, w', h1, h2⟩ | h1
    · obtain ⟨_, rfl⟩ := h1.det hr
      exact h2
    · exact absurd (h1.symm.trans hr) (by simp)

end Verif.BST
