import Verif.Spec.Map
import Verif.AVLCopies

/-! # Map objects hold finite maps -/

namespace Verif.Map

open Prog Verif.Tree
open Verif.AVL (StrictWeak Equiv Tr items items_node items_nil ptrs_items vals vals_eq Good Avl HoldsSet)

variable {K V : Type} {lt : K → K → Bool} {dflt : V}

theorem byKey_weak (h : StrictWeak lt) : StrictWeak (byKey (V := V) lt) :=
  ⟨fun a => h.irrefl a.1, fun a b c => h.trans a.1 b.1 c.1, fun a b c => h.cotrans a.1 b.1 c.1⟩

/-! ## Changing one element in place -/

section
variable {α : Type}

def fSet (z : Nat) (f : α → α) : Tr α → Tr α
  | .nil => .nil
  | .node l p d r => .node (fSet z f l) p (if p = z then { d with val := f d.val } else d) (fSet z f r)

theorem root_set (z : Nat) (f : α → α) (t : Tr α) : (fSet z f t).root = t.root := by cases t <;> rfl

theorem items_set (z : Nat) (f : α → α) (t : Tr α) :
    items (fSet z f t) = (items t).map fun a => (a.1, if a.1 = z then f a.2 else a.2) := by
  induction t with
  | nil => rfl
  | node l p d r ihl ihr =>
    simp only [fSet, items_node, ihl, ihr, List.map_append, List.map_cons]
    by_cases e : p = z <;> simp [e]

theorem ptrs_set (z : Nat) (f : α → α) (t : Tr α) : (fSet z f t).ptrs = t.ptrs := by
  rw [ptrs_items, ptrs_items, items_set, List.map_map]; rfl

theorem ht_set (z : Nat) (f : α → α) (t : Tr α) : AVL.ht (fSet z f t) = AVL.ht t := by
  cases t with
  | nil => rfl
  | node l p d r => simp only [fSet, AVL.ht_node]; split <;> rfl

theorem avl_set (z : Nat) (f : α → α) {t : Tr α} (h : Avl t) : Avl (fSet z f t) := by
  induction t with
  | nil => trivial
  | node l p d r ihl ihr =>
    obtain ⟨h1, h2, h3, h4, h5⟩ := h
    refine ⟨ihl h1, ihr h2, ?_, ?_, ?_⟩ <;> simp only [ht_set]
    · split <;> exact h3
    · exact h4
    · exact h5

theorem rep_set {s : AVL.St α} {z : Nat} {f : α → α} {d : AVL.D α} {t : Tr α} {pa : Ptr} (h : Rep s pa t)
    (hd : s.dat z = some (some d)) :
    Rep { s with dat := upd s.dat z (some (some { d with val := f d.val })) } pa (fSet z f t) := by
  induction t generalizing pa with
  | nil => trivial
  | node l p e r ihl ihr =>
    obtain ⟨h1, h2, h3, h4, h5, h6⟩ := h
    refine ⟨?_, h2, ?_, ?_, ihl h5, ihr h6⟩
    · by_cases c : p = z
      · subst c
        rw [hd] at h1
        cases h1
        simp only [upd_self, if_true]
      · rw [if_neg c]; simp only [upd_ne _ _ c]; exact h1
    · rw [root_set]; exact h3
    · rw [root_set]; exact h4

theorem write_change {s : AVL.St α} {z : Nat} {f : α → α} {d : AVL.D α} {t : Tr α} (h : IsTree s t)
    (hs : s.size = t.count) (hu : ∀ n, s.next ≤ n → s.dat n = none) (hz : z ∈ t.ptrs) (hd : s.dat z = some (some d)) :
    Change s { s with dat := upd s.dat z (some (some { d with val := f d.val })) } t (fSet z f t) := by
  refine ⟨⟨?_, rep_set h.rep hd, ?_⟩, ?_, rfl, fun n hn => Or.inl ?_, fun n hn => ?_, fun n hn _ => ?_, fun n hn => ?_⟩
  · rw [root_set]; exact h.root
  · rw [ptrs_set]; exact h.nodup
  · show s.size = _
    rw [hs, AVL.count_items, AVL.count_items, items_set, List.length_map]
  · rw [ptrs_set] at hn; exact hn
  · by_cases e : n ∈ t.ptrs
    · left; rw [ptrs_set]; exact e
    · refine Or.inr ⟨e, ?_⟩
      have : n ≠ z := fun x => e (x ▸ hz)
      simp only [upd_ne _ _ this] at hn; exact hn
  · have : n ≠ z := fun x => hn (x ▸ hz)
    exact ⟨upd_ne _ _ this, rfl, rfl, rfl⟩
  · have hn : s.next ≤ n := hn
    have : n ≠ z := fun x => by rw [x] at hn; rw [hu z hn] at hd; cases hd
    simp only [upd_ne _ _ this]; exact hu n hn

theorem set_split {t : Tr α} {z : Nat} {f : α → α} {xs ys : List (Nat × α)} {v : α} (hn : t.ptrs.Nodup)
    (e : items t = xs ++ (z, v) :: ys) : items (fSet z f t) = xs ++ (z, f v) :: ys := by
  rw [ptrs_items, e, List.map_append, List.map_cons, List.nodup_append, List.nodup_cons] at hn
  rw [items_set, e, List.map_append, List.map_cons, if_pos rfl]
  have h1 : xs.map (fun a => (a.1, if a.1 = z then f a.2 else a.2)) = xs := by
    conv => rhs; rw [← List.map_id xs]
    refine List.map_congr_left fun a ha => ?_
    have : a.1 ≠ z := fun x => hn.2.2 z (List.mem_map.2 ⟨a, ha, x⟩) z (List.mem_cons_self ..) rfl
    simp [this]
  have h2 : ys.map (fun a => (a.1, if a.1 = z then f a.2 else a.2)) = ys := by
    conv => rhs; rw [← List.map_id ys]
    refine List.map_congr_left fun a ha => ?_
    have : a.1 ≠ z := fun x => hn.2.1.1 (List.mem_map.2 ⟨a, ha, x⟩)
    simp [this]
  rw [h1, h2]

end

/-! ## The meaning of keys -/

theorem same_byKey (key : K) (v : V) (e : K × V) : AVL.same (byKey lt) (key, v) e = same lt key e.1 := rfl

theorem has_eq (l : List (K × V)) (key : K) (v : V) : l.any (AVL.same (byKey lt) (key, v)) = has lt l key := rfl
theorem with_eq (l : List (K × V)) (key : K) (v : V) : AVL.with_ (byKey lt) l (key, v) = with_ lt l key v := rfl
theorem without_eq (l : List (K × V)) (key : K) (v : V) : AVL.without (byKey lt) l (key, v) = without lt l key := rfl

/-- Replacing the value of the key at a known position. -/
theorem write_split (hw : StrictWeak lt) {xs ys : List (K × V)} {e : K × V} {key : K}
    (ha : AVL.Ascending (byKey lt) (xs ++ e :: ys)) (he : Equiv lt key e.1) (v : V) :
    write lt (xs ++ e :: ys) key v = xs ++ (e.1, v) :: ys := by
  obtain ⟨_, _, h3, h4, _⟩ := AVL.asc_append ha
  have hk : same lt key e.1 = true := by simp [same, he.1, he.2]
  have n1 : ∀ a ∈ xs, same lt key a.1 = false := fun a m => by
    have : lt a.1 key = true := hw.gt_of_equiv he (h3 a m)
    simp [same, this]
  have n2 : ∀ a ∈ ys, same lt key a.1 = false := fun a m => by
    have : lt key a.1 = true := hw.lt_of_equiv he (h4 a m)
    simp [same, this]
  unfold write
  rw [List.map_append, List.map_cons, hk, if_pos rfl]
  congr 1
  · conv => rhs; rw [← List.map_id xs]
    exact List.map_congr_left fun a m => by simp [n1 a m]
  · congr 1
    conv => rhs; rw [← List.map_id ys]
    exact List.map_congr_left fun a m => by simp [n2 a m]

theorem asc_write {l : List (K × V)} {key : K} {v : V} (h : AVL.Ascending (byKey lt) l) :
    AVL.Ascending (byKey lt) (write lt l key v) := by
  unfold AVL.Ascending write at *
  rw [List.pairwise_map]
  refine h.imp fun {a b} hab => ?_
  have h1 : ∀ e : K × V, (if same lt key e.1 = true then (e.1, v) else e).1 = e.1 := fun e => by split <;> rfl
  show lt _ _ = true
  rw [h1, h1]; exact hab

/-! ## Objects -/

/-- Every object holds the map it is meant to hold; `g` are its trees. -/
structure Maps (lt : K → K → Bool) (w : World K V) (sw : SWorld K V) (g : Nat → Option (Tr (K × V))) : Prop where
  holds : Tree.Holds (Good (byKey lt)) w g
  val : ∀ k, sw k = (g k).map vals

theorem Maps.set {w : World K V} {sw : SWorld K V} {g} (h : Maps lt w sw g) : HoldsSet (byKey lt) w sw := ⟨g, h.holds, h.val⟩

theorem map_put {sw : SWorld K V} {g : Nat → Option (Tr (K × V))} (h : ∀ k, sw k = (g k).map vals) {k : Nat}
    {v : Option (List (K × V))} {t : Option (Tr (K × V))} (hv : v = t.map vals) :
    ∀ j, (sw.put k v) j = (upd g k t j).map vals := by
  intro j
  by_cases e : j = k
  · simp [SWorld.put, upd, e, hv]
  · simp [SWorld.put, upd, e, h j]

/-- The node of a key: object `k` has it at node `p`. -/
def AtKey (lt : K → K → Bool) (g : Nat → Option (Tr (K × V))) (k : Nat) (key : K) (p : Nat) : Prop :=
  ∃ t e, g k = some t ∧ (p, e) ∈ items t ∧ Equiv lt key e.1

theorem find_present (hw : StrictWeak lt) {w : World K V} {sw : SWorld K V} {g} (h : Maps lt w sw g) {k : Nat}
    {l : List (K × V)} (hk : sw k = some l) (key : K) (hp : has lt l key = true) :
    ∃ p, Returns (on k (find lt dflt key)) w (some p) w ∧ AtKey lt g k key p := by
  obtain ⟨t, ht, rfl⟩ := HoldsSet.get h.val hk
  have ha := (h.holds.good k t ht).2
  rw [← has_eq (v := dflt), AVL.any_find (byKey_weak hw) ha] at hp
  obtain ⟨p, hf⟩ := Option.isSome_iff_exists.1 hp
  obtain ⟨e, h1, h2⟩ := AVL.find_some hf
  exact ⟨p, on_observes (h.holds.obj k t ht) (hf ▸ AVL.find_ok (h.holds.load ht) _), t, e, ht, h1, h2⟩

theorem find_absent (hw : StrictWeak lt) {w : World K V} {sw : SWorld K V} {g} (h : Maps lt w sw g) {k : Nat}
    {l : List (K × V)} (hk : sw k = some l) (key : K) (hp : has lt l key = false) :
    Returns (on k (find lt dflt key)) w none w := by
  obtain ⟨t, ht, rfl⟩ := HoldsSet.get h.val hk
  have ha := (h.holds.good k t ht).2
  rw [← has_eq (v := dflt), AVL.any_find (byKey_weak hw) ha] at hp
  have hf := Option.isSome_eq_false_iff.1 hp
  rw [Option.isNone_iff_eq_none] at hf
  exact on_observes (h.holds.obj k t ht) (hf ▸ AVL.find_ok (h.holds.load ht) _)

theorem deref_at {w : World K V} {sw : SWorld K V} {g} (h : Maps lt w sw g) {k p : Nat} {t : Tr (K × V)} {e : K × V}
    (ht : g k = some t) (hm : (p, e) ∈ items t) : Returns (on k (AVL.deref (some p))) w e w := by
  obtain ⟨d, h1, rfl⟩ := AVL.dat_item (h.holds.rep k t ht) hm
  refine on_observes (h.holds.obj k t ht) ?_
  unfold AVL.deref Returns
  rw [bind_returns (getData_ok (s := w.load (t.root, t.count)) h1)]; rfl

theorem push_new (hw : StrictWeak lt) {w : World K V} {sw : SWorld K V} {g} (h : Maps lt w sw g) {k : Nat}
    {l : List (K × V)} (hk : sw k = some l) (key : K) (v : V) (hp : has lt l key = false) :
    ∃ w' g', Returns (on k (AVL.push (byKey lt) (key, v))) w () w' ∧
      Maps lt w' (sw.put k (some (with_ lt l key v))) g' ∧ ∀ j key' p, AtKey lt g j key' p → AtKey lt g' j key' p := by
  obtain ⟨t, ht, rfl⟩ := HoldsSet.get h.val hk
  obtain ⟨_, w', t', h1, h2, h3, h4⟩ := h.holds.run (p := AVL.push (byKey lt) (key, v))
    (Q := fun _ t' => vals t' = AVL.with_ (byKey lt) (vals t) (key, v) ∧ ∀ a ∈ items t, a ∈ items t') ht
    (AVL.push_change (byKey_weak hw) (h.holds.load ht) rfl h.holds.fresh (h.holds.good k t ht) hp)
  refine ⟨w', _, h1, ⟨h2, map_put h.val (by simp [h3, with_eq])⟩, ?_⟩
  rintro j key' p ⟨u, e, e1, e2, e3⟩
  by_cases c : j = k
  · subst c
    rw [ht] at e1
    cases e1
    exact ⟨t', e, upd_self _ _ _, h4 _ e2, e3⟩
  · exact ⟨u, e, by rw [upd_ne _ _ c]; exact e1, e2, e3⟩

/-- A method made of several. -/
theorem on_bind {δ β γ : Type} {k : Nat} {p : Prog (Tree.St δ) β} {f : β → Prog (Tree.St δ) γ} {w w1 w2 : Tree.World δ} {a : β} {b : γ}
    (h1 : Returns (on k p) w a w1) (h2 : Returns (on k (f a)) w1 b w2) : Returns (on k (p >>= f)) w b w2 := by
  unfold Returns on at *
  cases ho : w.obj k with
  | none => rw [ho] at h1; cases h1
  | some hd =>
    rw [ho] at h1
    simp only at h1 ⊢
    cases hp : p (w.load hd) with
    | none => rw [hp] at h1; cases h1
    | some r =>
      rw [hp] at h1
      cases r with
      | error e => cases h1
      | ok q =>
        obtain ⟨a', s'⟩ := q
        simp only [Option.some.injEq, Except.ok.injEq, Prod.mk.injEq] at h1
        obtain ⟨rfl, rfl⟩ := h1
        rw [bind_returns hp]
        simp only [World.store, upd_self] at h2
        have e : World.load (World.store w k s') (s'.root, s'.size) = s' := rfl
        simp only [World.store] at e
        rw [e] at h2
        cases hq : f a' s' with
        | none => rw [hq] at h2; cases h2
        | some r =>
          rw [hq] at h2
          cases r with
          | error e => cases h2
          | ok q =>
            obtain ⟨b', s2⟩ := q
            simp only [Option.some.injEq, Except.ok.injEq, Prod.mk.injEq] at h2 ⊢
            obtain ⟨rfl, rfl⟩ := h2
            refine ⟨rfl, ?_⟩
            have : upd (upd w.obj k (some (s'.root, s'.size))) k (some (s2.root, s2.size)) =
                upd w.obj k (some (s2.root, s2.size)) := by
              funext x; by_cases e : x = k <;> simp [upd, e]
            simp only [World.store, this]

theorem on_ite {δ β : Type} {k : Nat} {c : Prop} [Decidable c] {p q : Prog (Tree.St δ) β} {w w' : Tree.World δ} {a : β}
    (h1 : c → Returns (on k p) w a w') (h2 : ¬ c → Returns (on k q) w a w') : Returns (on k (if c then p else q)) w a w' := by
  split
  · exact h1 ‹_›
  · exact h2 ‹_›

theorem on_pure {δ β : Type} {k : Nat} {w : Tree.World δ} {a : β} (h : w.obj k ≠ none) :
    Returns (on k (pure a)) w a w := by
  obtain ⟨o, ho⟩ := Option.ne_none_iff_exists'.1 h
  exact on_observes ho rfl

theorem has_touch (hw : StrictWeak lt) (l : List (K × V)) (key : K) : has lt (touch lt dflt l key) key = true := by
  unfold touch
  split
  · assumption
  · simp [has, with_, same, hw.irrefl]

theorem alive {w : World K V} {sw : SWorld K V} {g} (h : Maps lt w sw g) {k : Nat} {l : List (K × V)} (hk : sw k = some l) :
    w.obj k ≠ none := by
  obtain ⟨t, ht, _⟩ := HoldsSet.get h.val hk
  rw [h.holds.obj k t ht]; simp

theorem put_same {sw : SWorld K V} {k : Nat} {l : List (K × V)} (hk : sw k = some l) : sw.put k (some l) = sw := by
  funext j; by_cases e : j = k <;> simp [SWorld.put, e, hk]

/-- `operator[]`. -/
theorem index_ok (hw : StrictWeak lt) {w : World K V} {sw : SWorld K V} {g} (h : Maps lt w sw g) {k : Nat}
    {l : List (K × V)} (hk : sw k = some l) (key : K) :
    ∃ w' g' p, Returns (on k (index lt dflt key)) w (some p) w' ∧
      Maps lt w' (sw.put k (some (touch lt dflt l key))) g' ∧ AtKey lt g' k key p ∧
      ∀ j key' p, AtKey lt g j key' p → AtKey lt g' j key' p := by
  unfold index
  cases hp : has lt l key with
  | true =>
    obtain ⟨p, h1, h2⟩ := find_present (dflt := dflt) hw h hk key hp
    have ⟨t, e, e1, e2, _⟩ := h2
    refine ⟨w, g, p, on_bind h1 (on_ite (fun c => by cases c) fun _ => on_bind h1 (on_bind (deref_at h e1 e2) (on_pure (alive h hk)))),
      ?_, h2, fun _ _ _ x => x⟩
    unfold touch
    rw [if_pos hp, put_same hk]
    exact h
  | false =>
    have h1 := find_absent (dflt := dflt) hw h hk key hp
    obtain ⟨w1, g1, h2, h3, h4⟩ := push_new hw h hk key dflt hp
    have hk1 : (sw.put k (some (with_ lt l key dflt))) k = some (with_ lt l key dflt) := by simp [SWorld.put]
    have ht : touch lt dflt l key = with_ lt l key dflt := by simp [touch, hp]
    obtain ⟨p, h5, h6⟩ := find_present (dflt := dflt) hw h3 hk1 key (ht ▸ has_touch hw l key)
    have ⟨t, e, e1, e2, _⟩ := h6
    refine ⟨w1, g1, p, on_bind h1 (on_ite (fun _ => on_bind h2 (on_bind h5 (on_bind (deref_at h3 e1 e2) (on_pure (alive h3 hk1)))))
      fun c => absurd rfl c), ?_, h6, h4⟩
    rw [ht]; exact h3

theorem readVal_ok (hw : StrictWeak lt) {w : World K V} {sw : SWorld K V} {g} (h : Maps lt w sw g) {k p : Nat}
    {l : List (K × V)} (hk : sw k = some l) {key : K} (hp : AtKey lt g k key p) (d : V) :
    Returns (on k (readVal (some p))) w ((value lt l key).getD d) w := by
  obtain ⟨t, e, e1, e2, e3⟩ := hp
  obtain ⟨t', ht, rfl⟩ := HoldsSet.get h.val hk
  rw [e1] at ht
  cases ht
  have hv : value lt (vals t) key = some e.2 := by
    obtain ⟨xs, ys, ex⟩ := List.append_of_mem e2
    have ev := AVL.items_vals ex
    have ha := (h.holds.good k t e1).2
    rw [ev] at ha
    have := (AVL.split_spec (x := (key, e.2)) (byKey_weak hw) ha e3).2.2.1
    unfold value
    rw [ev]
    show Option.map _ (List.find? (AVL.same (byKey lt) (key, e.2)) _) = _
    rw [this]; rfl
  rw [hv]
  exact on_bind (deref_at h e1 e2) (on_pure (alive h hk))

theorem writeVal_ok (hw : StrictWeak lt) {w : World K V} {sw : SWorld K V} {g} (h : Maps lt w sw g) {k p : Nat}
    {l : List (K × V)} (hk : sw k = some l) {key : K} (hp : AtKey lt g k key p) (v : V) :
    ∃ w' g', Returns (on k (writeVal (some p) v)) w () w' ∧ Maps lt w' (sw.put k (some (write lt l key v))) g' ∧
      ∀ j key' p', AtKey lt g j key' p' → AtKey lt g' j key' p' := by
  obtain ⟨t, e, e1, e2, e3⟩ := hp
  obtain ⟨t', ht, rfl⟩ := HoldsSet.get h.val hk
  rw [e1] at ht
  cases ht
  obtain ⟨d, hd, rfl⟩ := AVL.dat_item (h.holds.rep k t e1) e2
  have hmem : p ∈ t.ptrs := by rw [ptrs_items]; exact List.mem_map.2 ⟨_, e2, rfl⟩
  obtain ⟨xs, ys, ex⟩ := List.append_of_mem e2
  have hg := h.holds.good k t e1
  have ev := AVL.items_vals ex
  have hv : vals (fSet p (fun a => (a.1, v)) t) = write lt (vals t) key v := by
    rw [vals_eq, set_split (h.holds.nodup k t e1) ex, ev]
    rw [write_split hw (ev ▸ hg.2) e3]
    simp
  have hr : ∃ s', Returns (writeVal (some p) v) (w.load (t.root, t.count)) () s' ∧
      Change (w.load (t.root, t.count)) s' t (fSet p (fun a => (a.1, v)) t) := by
    refine ⟨_, ?_, write_change (f := fun a => (a.1, v)) (h.holds.load e1) rfl h.holds.fresh hmem hd⟩
    unfold writeVal Returns
    rw [bind_returns (getData_ok (s := w.load (t.root, t.count)) hd)]
    exact setData_ok ⟨d, hd⟩
  obtain ⟨s', r1, r2⟩ := hr
  obtain ⟨_, w', t', h1, h2, h3⟩ := h.holds.run (p := writeVal (some p) v)
    (Q := fun _ t' => vals t' = write lt (vals t) key v ∧ t' = fSet p (fun a => (a.1, v)) t) e1
    (r1.wp ⟨_, r2, ⟨avl_set _ _ hg.1, hv ▸ asc_write hg.2⟩, hv, rfl⟩)
  refine ⟨w', _, h1, ⟨h2, map_put h.val (by simp [h3.1])⟩, ?_⟩
  rintro j key' p' ⟨u, e, f1, f2, f3⟩
  by_cases c : j = k
  · subst c
    rw [e1] at f1
    cases f1
    refine ⟨t', if p' = p then (e.1, v) else e, upd_self _ _ _, ?_, ?_⟩
    · rw [h3.2, items_set]
      exact List.mem_map.2 ⟨_, f2, rfl⟩
    · split <;> exact f3
  · exact ⟨u, e, by rw [upd_ne _ _ c]; exact f1, f2, f3⟩

theorem step_none {p : Prog (World K V) Unit} {w w' : World K V} (h : Returns p w () w') :
    Returns (do p; pure (none : Option V)) w none w' := by
  unfold Returns; rw [bind_returns h]; rfl

theorem value_touch (hw : StrictWeak lt) {l : List (K × V)} (key : K) :
    (value lt (touch lt dflt l key) key).getD dflt = (value lt l key).getD dflt := by
  unfold touch
  split
  · rfl
  · rename_i hp
    have hn : ∀ a ∈ l, same lt key a.1 = false := by
      intro a m
      have hp : has lt l key = false := by simpa using hp
      unfold has at hp
      rw [List.any_eq_false] at hp
      simpa using hp a m
    have e1 : l.find? (fun e => same lt key e.1) = none := List.find?_eq_none.2 fun a m => by simp [hn a m]
    unfold value with_
    rw [e1, List.find?_append, List.find?_eq_none.2 (fun a m => by simp [hn a (List.mem_filter.1 m).1])]
    simp [same, hw.irrefl]

theorem AtKey.upd {g : Nat → Option (Tr (K × V))} {k p j : Nat} {key : K} {t : Tr (K × V)} {o : Option (Tr (K × V))}
    (h : AtKey lt g k key p) (hj : g j = some t)
    (hk : j = k → ∀ e, (p, e) ∈ items t → Equiv lt key e.1 → ∃ t', o = some t' ∧ (p, e) ∈ items t') :
    AtKey lt (Tree.upd g j o) k key p := by
  obtain ⟨u, e, h1, h2, h3⟩ := h
  by_cases c : k = j
  · subst c
    rw [hj] at h1; cases h1
    obtain ⟨t', e1, e2⟩ := hk rfl e h2 h3
    exact ⟨t', e, by rw [upd_self]; exact e1, e2, h3⟩
  · exact ⟨u, e, by rw [upd_ne _ _ c]; exact h1, h2, h3⟩

theorem AtKey.new {g : Nat → Option (Tr (K × V))} {k p j : Nat} {key : K} {o : Option (Tr (K × V))} (h : AtKey lt g k key p)
    (hj : g j = none) : AtKey lt (Tree.upd g j o) k key p := by
  obtain ⟨u, e, h1, h2⟩ := h
  have c : k ≠ j := by rintro rfl; rw [hj] at h1; cases h1
  exact ⟨u, e, by rw [upd_ne _ _ c]; exact h1, h2⟩

theorem AtKey.imp {g g' : Nat → Option (Tr (K × V))} {k p : Nat} {key : K} (h : AtKey lt g k key p)
    (hi : ∀ {e}, AVL.AtNode g k p e → AVL.AtNode g' k p e) : AtKey lt g' k key p := by
  obtain ⟨u, e, h1, h2, h3⟩ := h
  obtain ⟨u', h4, h5⟩ := hi ⟨u, h1, h2⟩
  exact ⟨u', e, h4, h5, h3⟩

theorem same_false_trans (hw : StrictWeak lt) {a b c : K} (h1 : same lt a b = false) (h2 : Equiv lt b c) :
    same lt a c = false := by
  cases h : same lt a c with
  | false => rfl
  | true =>
    obtain ⟨i1, i2⟩ := h2
    simp only [same, Bool.and_eq_true, Bool.not_eq_true'] at h
    have := hw.cotrans a c b
    have := hw.cotrans b c a
    simp_all [same]

theorem step_ok (hw : StrictWeak lt) {op : Op K V} {w : World K V} {sw sw' : SWorld K V} {g} (h : Maps lt w sw g)
    (hs : specStep lt dflt op sw = some sw') (hsafe : Safe lt op sw) :
    ∃ w' g', Returns (step lt dflt op) w (specOut lt dflt op sw) w' ∧ Maps lt w' sw' g' ∧
      ∀ j key p, AtKey lt g j key p → Keeps lt j key op → AtKey lt g' j key p := by
  cases op with
  | new k =>
    simp only [specStep, Option.isNone_iff_eq_none] at hs
    split at hs
    · rename_i hk
      cases hs
      have hk' : g k = none := by rw [h.val k] at hk; simpa using hk
      exact ⟨_, _, step_none (p := newObj k) rfl, ⟨h.holds.newObj hk' AVL.good_nil, map_put h.val rfl⟩,
        fun _ _ _ a _ => a.new hk'⟩
    · cases hs
  | push k key v =>
    simp only [specStep, Option.bind_eq_some_iff] at hs
    obtain ⟨l, hk, hs⟩ := hs
    split at hs
    · cases hs
    · rename_i hx
      cases hs
      obtain ⟨w', g', h1, h2, h3⟩ := push_new hw h hk key v (by simpa using hx)
      exact ⟨w', g', step_none h1, h2, fun _ _ _ a _ => h3 _ _ _ a⟩
  | pop k key =>
    simp only [specStep, Option.bind_eq_some_iff] at hs
    obtain ⟨l, hk, hs⟩ := hs
    cases hs
    obtain ⟨t, ht, rfl⟩ := HoldsSet.get h.val hk
    obtain ⟨_, w', t', h1, h2, h3, h4⟩ := h.holds.run (p := pop lt dflt key)
      (Q := fun _ t' => vals t' = AVL.without (byKey lt) (vals t) (key, dflt) ∧
        ∀ a ∈ items t, AVL.same (byKey lt) (key, dflt) a.2 = false → a ∈ items t') ht
      (AVL.pop_change (byKey_weak hw) (h.holds.load ht) rfl h.holds.fresh (h.holds.good k t ht) rfl (hsafe _ hk))
    refine ⟨w', _, step_none h1, ⟨h2, map_put h.val (by simp [h3, without_eq])⟩,
      fun _ key' _ a hkeep => a.upd ht fun c e m q => ⟨t', rfl, h4 _ m ?_⟩⟩
    exact same_false_trans hw (hkeep.resolve_left (not_not_intro c)) q
  | get k key =>
    simp only [specStep, Option.bind_eq_some_iff] at hs
    obtain ⟨l, hk, hs⟩ := hs
    cases hs
    obtain ⟨w', g', p, h1, h2, h3, h4⟩ := index_ok (dflt := dflt) hw h hk key
    have hr := readVal_ok hw h2 (l := touch lt dflt l key) (by simp [SWorld.put]) h3 dflt
    rw [value_touch hw] at hr
    refine ⟨w', g', ?_, h2, fun _ _ _ a _ => h4 _ _ _ a⟩
    unfold Returns
    simp only [step, specOut, hk, Option.bind_some]
    rw [bind_returns h1, bind_returns hr]; rfl
  | set k key v =>
    simp only [specStep, Option.bind_eq_some_iff] at hs
    obtain ⟨l, hk, hs⟩ := hs
    cases hs
    obtain ⟨w1, g1, p, h1, h2, h3, k1⟩ := index_ok (dflt := dflt) hw h hk key
    obtain ⟨w2, g2, h4, h5, k2⟩ := writeVal_ok hw h2 (l := touch lt dflt l key) (by simp [SWorld.put]) h3 v
    refine ⟨w2, g2, ?_, ?_, fun _ _ _ a _ => k2 _ _ _ (k1 _ _ _ a)⟩
    · unfold Returns
      simp only [step, specOut]
      rw [bind_returns h1, bind_returns h4]; rfl
    · have : (sw.put k (some (touch lt dflt l key))).put k (some (write lt (touch lt dflt l key) key v)) =
          sw.put k (some (write lt (touch lt dflt l key) key v)) := by
        funext j; by_cases e : j = k <;> simp [SWorld.put, e]
      rw [← this]; exact h5
  | assign k key j key' =>
    simp only [specStep, Option.bind_eq_some_iff] at hs
    obtain ⟨l, hk, l1, hj, l2, hk2, hs⟩ := hs
    cases hs
    obtain ⟨w1, g1, p, h1, h2, h3, k1⟩ := index_ok (dflt := dflt) hw h hk key
    obtain ⟨w2, g2, q, h4, h5, h6, h7⟩ := index_ok (dflt := dflt) hw h2 hj key'
    have hr := readVal_ok hw h5 (l := touch lt dflt l1 key') (by simp [SWorld.put]) h6 dflt
    obtain ⟨w3, g3, h8, h9, k3⟩ := writeVal_ok hw h5 hk2 (h7 _ _ _ h3) ((value lt (touch lt dflt l1 key') key').getD dflt)
    refine ⟨w3, g3, ?_, h9, fun _ _ _ a _ => k3 _ _ _ (h7 _ _ _ (k1 _ _ _ a))⟩
    unfold Returns
    simp only [step, specOut]
    rw [bind_returns h1, bind_returns h4, bind_returns hr, bind_returns h8]; rfl
  | clear k =>
    simp only [specStep, Option.bind_eq_some_iff] at hs
    obtain ⟨l, hk, hs⟩ := hs
    cases hs
    obtain ⟨t, ht, rfl⟩ := HoldsSet.get h.val hk
    obtain ⟨w', h1, h2⟩ := h.holds.clear ht AVL.good_nil
    exact ⟨w', _, step_none h1, ⟨h2, map_put h.val rfl⟩, fun _ _ _ a hkeep => a.upd ht fun c => absurd c hkeep⟩
  | copy d s =>
    obtain ⟨w', g', h1, h2, h3, h4⟩ := AVL.step_ghost (byKey_weak hw) (op := .copy d s) h.holds h.val (sw' := sw') hs hsafe
    obtain ⟨l', hd, l, hk, hs⟩ := by simpa only [specStep, Option.bind_eq_some_iff] using hs
    obtain ⟨t, ht, rfl⟩ := HoldsSet.get h.val hk
    have e := AVL.step_none (AVL.copyObj_ok (d := d) (h.holds.obj s t ht))
    obtain ⟨_, rfl⟩ := e.det h1
    exact ⟨_, g', step_none (AVL.copyObj_ok (h.holds.obj s t ht)), ⟨h2, h3⟩, fun _ _ _ a hkeep => a.imp fun m => h4 _ _ _ m hkeep⟩
  | copyNew d s =>
    obtain ⟨w', g', h1, h2, h3, h4⟩ := AVL.step_ghost (byKey_weak hw) (op := .copyNew d s) h.holds h.val (sw' := sw') hs hsafe
    have hk : sw s = some [] := hsafe
    obtain ⟨t, ht, _⟩ := HoldsSet.get h.val hk
    have e := AVL.step_none (AVL.copyObj_ok (d := d) (h.holds.obj s t ht))
    obtain ⟨_, rfl⟩ := e.det h1
    exact ⟨_, g', step_none (AVL.copyObj_ok (h.holds.obj s t ht)), ⟨h2, h3⟩, fun _ _ _ a hkeep => a.imp fun m => h4 _ _ _ m hkeep⟩
  | drop k =>
    simp only [specStep, Option.bind_eq_some_iff] at hs
    obtain ⟨l, hk, hs⟩ := hs
    cases hs
    obtain ⟨t, ht, rfl⟩ := HoldsSet.get h.val hk
    obtain ⟨w', h1, h2⟩ := h.holds.drop ht AVL.good_nil
    exact ⟨w', _, step_none h1, ⟨h2, map_put h.val rfl⟩, fun _ _ _ a hkeep => a.upd ht fun c => absurd c hkeep⟩

theorem Reach.maps (hw : StrictWeak lt) {w : World K V} {sw : SWorld K V} (h : Reach lt dflt w sw) : ∃ g, Maps lt w sw g := by
  induction h with
  | init => exact ⟨fun _ => none, Tree.Holds.init, fun _ => rfl⟩
  | step _ hs hsafe hr ih =>
    obtain ⟨g, ih⟩ := ih
    obtain ⟨w', g', h1, h2, _⟩ := step_ok hw ih hs hsafe
    obtain ⟨_, rfl⟩ := h1.det hr
    exact ⟨g', h2⟩

theorem Maps.shows (hw : StrictWeak lt) {w : World K V} {sw : SWorld K V} {g} (h : Maps lt w sw g) : Shows lt dflt w sw := by
  intro k
  have := h.set.shows (byKey_weak hw) k
  refine ⟨this.1, fun l hl => ?_⟩
  obtain ⟨h1, h2, h3, h4, h5⟩ := this.2 l hl
  exact ⟨h1, h2, h3, h4, fun key => h5 (key, dflt)⟩

end Verif.Map
