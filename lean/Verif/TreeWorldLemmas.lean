import Verif.TreeWorld
import Verif.TreeWalk

/-! # Disjoint trees in one memory -/

namespace Verif.Tree

open Prog

variable {δ β : Type}

theorem on_returns {w : World δ} {k : Nat} {h : Ptr × Nat} {p : Prog (St δ) β} {a : β} {s' : St δ}
    (hk : w.obj k = some h) (hp : Returns p (w.load h) a s') : Returns (on k p) w a (w.store k s') := by
  unfold Returns at hp
  unfold Returns on
  rw [hk]; simp [hp]

theorem on_faults {w : World δ} {k : Nat} {h : Ptr × Nat} {p : Prog (St δ) β} {e : Fault}
    (hk : w.obj k = some h) (hp : Faults p (w.load h) e) : Faults (on k p) w e := by
  unfold Faults at hp
  unfold Faults on
  rw [hk]; simp [hp]

theorem on_diverges {w : World δ} {k : Nat} {h : Ptr × Nat} {p : Prog (St δ) β}
    (hk : w.obj k = some h) (hp : Diverges p (w.load h)) : Diverges (on k p) w := by
  unfold Diverges at hp
  unfold Diverges on
  rw [hk]; simp [hp]

theorem store_load {w : World δ} {k : Nat} {h : Ptr × Nat} (hk : w.obj k = some h) :
    w.store k (w.load h) = w := by
  unfold World.store World.load
  have : upd w.obj k (some (h.1, h.2)) = w.obj := by
    funext x
    by_cases e : x = k
    · rw [e, upd_self, hk]
    · exact upd_ne _ _ e
  simp [this]

/-- A method that changes nothing. -/
theorem on_observes {w : World δ} {k : Nat} {h : Ptr × Nat} {p : Prog (St δ) β} {a : β}
    (hk : w.obj k = some h) (hp : Returns p (w.load h) a (w.load h)) : Returns (on k p) w a w := by
  have := on_returns hk hp
  rwa [store_load hk] at this

/-- `p` turned the tree `t` of the object it ran on into `t'`, releasing the nodes that are no
longer in it, and left the nodes of other trees alone. -/
structure Change (s s' : St δ) (t t' : T δ) : Prop where
  tree : IsTree s' t'
  size : s'.size = t'.count
  lost : s'.lost = s.lost
  keep : ∀ n ∈ t'.ptrs, n ∈ t.ptrs ∨ s.next ≤ n
  own : ∀ n, s'.dat n ≠ none → n ∈ t'.ptrs ∨ (n ∉ t.ptrs ∧ s.dat n ≠ none)
  out : ∀ n, n ∉ t.ptrs → n < s.next → SameAt s s' n
  fresh : ∀ n, s'.next ≤ n → s'.dat n = none

theorem Change.refl {s : St δ} {t : T δ} (h : IsTree s t) (hs : s.size = t.count)
    (hf : ∀ n, s.next ≤ n → s.dat n = none) : Change s s t t :=
  ⟨h, hs, rfl, fun n hn => Or.inl hn, fun n hn => by by_cases h : n ∈ t.ptrs <;> simp [h, hn],
    fun n _ _ => .refl s n, hf⟩

/-- Object `k` holds the tree `g k` (if it is alive), the trees satisfy `P` and are disjoint, and
there is no other node. -/
structure Holds (P : T δ → Prop) (w : World δ) (g : Nat → Option (T δ)) : Prop where
  dead : ∀ k, g k = none → w.obj k = none
  obj : ∀ k t, g k = some t → w.obj k = some (t.root, t.count)
  rep : ∀ k t, g k = some t → Rep w.mem none t
  nodup : ∀ k t, g k = some t → t.ptrs.Nodup
  good : ∀ k t, g k = some t → P t
  disj : ∀ k j t u, g k = some t → g j = some u → k ≠ j → ∀ n ∈ t.ptrs, n ∉ u.ptrs
  own : ∀ n, w.mem.dat n ≠ none → ∃ k t, g k = some t ∧ n ∈ t.ptrs
  fresh : ∀ n, w.mem.next ≤ n → w.mem.dat n = none
  lost : w.mem.lost = 0

namespace Holds
variable {P : T δ → Prop} {w : World δ} {g : Nat → Option (T δ)}

theorem init : Holds P (World.init : World δ) (fun _ => none) :=
  ⟨fun _ _ => rfl, nofun, nofun, nofun, nofun, nofun, fun n h => absurd rfl h, fun _ _ => rfl, rfl⟩

theorem load (h : Holds P w g) {k : Nat} {t : T δ} (hk : g k = some t) :
    IsTree (w.load (t.root, t.count)) t :=
  ⟨rfl, (h.rep k t hk).congr fun _ _ => ⟨rfl, rfl, rfl, rfl⟩, h.nodup k t hk⟩

theorem lt_next (h : Holds P w g) {k : Nat} {t : T δ} (hk : g k = some t) {n : Nat} (hn : n ∈ t.ptrs) :
    n < w.mem.next := by
  obtain ⟨d, hd⟩ := (h.rep k t hk).live hn
  refine Nat.lt_of_not_le fun hle => ?_
  rw [h.fresh n hle] at hd; cases hd

theorem change (h : Holds P w g) {k : Nat} {t t' : T δ} (hk : g k = some t) {s' : St δ}
    (hc : Change (w.load (t.root, t.count)) s' t t') (hp : P t') :
    Holds P (w.store k s') (upd g k (some t')) := by
  have same : ∀ j u, g j = some u → j ≠ k → ∀ n ∈ u.ptrs, SameAt w.mem s' n := by
    intro j u hj hjk n hn
    have := hc.out n (fun x => h.disj j k u t hj hk hjk n hn x) (h.lt_next hj hn)
    exact ⟨this.dat, this.par, this.lft, this.rgt⟩
  have hdisj : ∀ j u, g j = some u → j ≠ k → ∀ n ∈ t'.ptrs, n ∉ u.ptrs := by
    intro j u hj hjk n hn hu
    rcases hc.keep n hn with x | x
    · exact h.disj j k u t hj hk hjk n hu x
    · exact absurd (h.lt_next hj hu) (Nat.not_lt.2 x)
  refine ⟨fun j hj => ?_, fun j u hj => ?_, fun j u hj => ?_, fun j u hj => ?_, fun j u hj => ?_, ?_, ?_, hc.fresh,
    hc.lost.trans h.lost⟩
  · by_cases e : j = k
    · rw [e, upd_self] at hj; cases hj
    · rw [upd_ne _ _ e] at hj
      simp only [World.store]; rw [upd_ne _ _ e]; exact h.dead j hj
  · by_cases e : j = k
    · rw [e, upd_self] at hj; cases hj
      rw [e]; simp only [World.store, upd_self, hc.tree.root, hc.size]
    · rw [upd_ne _ _ e] at hj
      simp only [World.store]; rw [upd_ne _ _ e]; exact h.obj j u hj
  · by_cases e : j = k
    · rw [e, upd_self] at hj; cases hj
      exact hc.tree.rep.congr fun _ _ => ⟨rfl, rfl, rfl, rfl⟩
    · rw [upd_ne _ _ e] at hj
      refine (h.rep j u hj).congr fun n hn => ?_
      have := same j u hj e n hn
      exact ⟨this.dat, this.par, this.lft, this.rgt⟩
  · by_cases e : j = k
    · rw [e, upd_self] at hj; cases hj; exact hc.tree.nodup
    · rw [upd_ne _ _ e] at hj; exact h.nodup j u hj
  · by_cases e : j = k
    · rw [e, upd_self] at hj; cases hj; exact hp
    · rw [upd_ne _ _ e] at hj; exact h.good j u hj
  · intro i j u v hi hj hij n hn
    by_cases ei : i = k
    · rw [ei, upd_self] at hi; cases hi
      have ej : j ≠ k := fun x => hij (ei.trans x.symm)
      rw [upd_ne _ _ ej] at hj
      exact hdisj j v hj ej n hn
    · rw [upd_ne _ _ ei] at hi
      by_cases ej : j = k
      · rw [ej, upd_self] at hj; cases hj
        exact fun x => hdisj i u hi ei n x hn
      · rw [upd_ne _ _ ej] at hj
        exact h.disj i j u v hi hj hij n hn
  · intro n hn
    rcases hc.own n hn with x | ⟨x, y⟩
    · exact ⟨k, t', upd_self _ _ _, x⟩
    · obtain ⟨j, u, hj, hu⟩ := h.own n y
      have : j ≠ k := fun e => by rw [e, hk] at hj; cases hj; exact x hu
      exact ⟨j, u, by rw [upd_ne _ _ this]; exact hj, hu⟩

theorem newObj (h : Holds P w g) {k : Nat} (hk : g k = none) (hp : P .nil) :
    Holds P { w with obj := upd w.obj k (some (none, 0)) } (upd g k (some .nil)) := by
  refine ⟨fun j hj => ?_, fun j u hj => ?_, fun j u hj => ?_, fun j u hj => ?_, fun j u hj => ?_, ?_, ?_, h.fresh, h.lost⟩
  · by_cases e : j = k
    · rw [e, upd_self] at hj; cases hj
    · rw [upd_ne _ _ e] at hj; simp only [upd_ne _ _ e]; exact h.dead j hj
  · by_cases e : j = k
    · rw [e, upd_self] at hj; cases hj; rw [e]; simp [T.root, T.count]
    · rw [upd_ne _ _ e] at hj; simp only [upd_ne _ _ e]; exact h.obj j u hj
  · by_cases e : j = k
    · rw [e, upd_self] at hj; cases hj; trivial
    · rw [upd_ne _ _ e] at hj; exact h.rep j u hj
  · by_cases e : j = k
    · rw [e, upd_self] at hj; cases hj; simp [T.ptrs]
    · rw [upd_ne _ _ e] at hj; exact h.nodup j u hj
  · by_cases e : j = k
    · rw [e, upd_self] at hj; cases hj; exact hp
    · rw [upd_ne _ _ e] at hj; exact h.good j u hj
  · intro i j u v hi hj hij n hn
    by_cases ei : i = k
    · rw [ei, upd_self] at hi; cases hi; simp [T.ptrs] at hn
    · rw [upd_ne _ _ ei] at hi
      by_cases ej : j = k
      · rw [ej, upd_self] at hj; cases hj; simp [T.ptrs]
      · rw [upd_ne _ _ ej] at hj; exact h.disj i j u v hi hj hij n hn
  · intro n hn
    obtain ⟨j, u, hj, hu⟩ := h.own n hn
    have : j ≠ k := fun e => by rw [e, hk] at hj; cases hj
    exact ⟨j, u, by rw [upd_ne _ _ this]; exact hj, hu⟩

/-- An object whose tree is empty goes away, or comes back. -/
theorem dropEmpty (h : Holds P w g) {k : Nat} (hk : g k = some .nil) :
    Holds P { w with obj := upd w.obj k none } (upd g k none) := by
  have old : ∀ {j u}, upd g k none j = some u → g j = some u ∧ j ≠ k := by
    intro j u hj
    by_cases e : j = k
    · rw [e, upd_self] at hj; cases hj
    · rw [upd_ne _ _ e] at hj; exact ⟨hj, e⟩
  refine ⟨fun j hj => ?_, fun j u hj => ?_, fun j u hj => h.rep j u (old hj).1, fun j u hj => h.nodup j u (old hj).1,
    fun j u hj => h.good j u (old hj).1, fun i j u v hi hj => h.disj i j u v (old hi).1 (old hj).1, ?_, h.fresh, h.lost⟩
  · by_cases e : j = k
    · rw [e]; exact upd_self _ _ _
    · rw [upd_ne _ _ e] at hj; simp only [upd_ne _ _ e]; exact h.dead j hj
  · simp only [upd_ne _ _ (old hj).2]; exact h.obj j u (old hj).1
  · intro n hn
    obtain ⟨j, u, hj, hu⟩ := h.own n hn
    have : j ≠ k := fun e => by rw [e, hk] at hj; cases hj; simp [T.ptrs] at hu
    exact ⟨j, u, by rw [upd_ne _ _ this]; exact hj, hu⟩

end Holds

theorem clear_change {s : St δ} {t : T δ} (h : IsTree s t) (hf : ∀ n, s.next ≤ n → s.dat n = none) :
    wp clear (fun _ s' => Change s s' t .nil) s := by
  refine wp_mono (clear_ok h) ?_
  rintro _ s' ⟨h1, h2, h3, h4, h5, h6⟩
  refine ⟨⟨h1, trivial, by simp [T.ptrs]⟩, by simp [h2, T.count], h4, by simp [T.ptrs], fun n hn => ?_,
    fun n hn _ => h6 n hn, fun n hn => ?_⟩
  · by_cases x : n ∈ t.ptrs
    · exact absurd (h5 n x) hn
    · exact Or.inr ⟨x, by rw [← (h6 n x).dat]; exact hn⟩
  · by_cases x : n ∈ t.ptrs
    · exact h5 n x
    · rw [(h6 n x).dat]; exact hf n (h3 ▸ hn)

namespace Holds
variable {P : T δ → Prop} {w : World δ} {g : Nat → Option (T δ)}

/-- A method that changes the tree of object `k`. -/
theorem run (h : Holds P w g) {k : Nat} {t : T δ} (hk : g k = some t) {p : Prog (St δ) β} {Q : β → T δ → Prop}
    (hp : wp p (fun a s' => ∃ t', Change (w.load (t.root, t.count)) s' t t' ∧ P t' ∧ Q a t')
      (w.load (t.root, t.count))) :
    ∃ a w' t', Returns (on k p) w a w' ∧ Holds P w' (upd g k (some t')) ∧ Q a t' := by
  obtain ⟨a, s', h1, t', h2, h3, h4⟩ := hp
  exact ⟨a, _, t', on_returns (h.obj k t hk) h1, h.change hk h2 h3, h4⟩

theorem clear (h : Holds P w g) {k : Nat} {t : T δ} (hk : g k = some t) (hp : P .nil) :
    ∃ w', Returns (on k Tree.clear) w () w' ∧ Holds P w' (upd g k (some .nil)) := by
  obtain ⟨_, w', t', h1, h2, h3⟩ := h.run (p := Tree.clear) (Q := fun _ t' => t' = .nil) hk
    (wp_mono (clear_change (h.load hk) h.fresh) fun _ s' hc => ⟨.nil, hc, hp, rfl⟩)
  exact ⟨w', h1, h3 ▸ h2⟩

theorem drop (h : Holds P w g) {k : Nat} {t : T δ} (hk : g k = some t) (hp : P .nil) :
    ∃ w', Returns (dropObj k) w () w' ∧ Holds P w' (upd g k none) := by
  obtain ⟨w', h1, h2⟩ := h.clear hk hp
  refine ⟨{ w' with obj := upd w'.obj k none }, ?_, ?_⟩
  · unfold dropObj Returns
    rw [bind_returns h1]; rfl
  · have := h2.dropEmpty (k := k) (upd_self _ _ _)
    have e : upd (upd g k (some .nil)) k none = upd g k none := by
      funext n; by_cases x : n = k <;> simp [upd, x]
    rwa [e] at this

end Holds

/-! ## Memory -/

theorem below_root {s : St δ} {pa : Ptr} {t : T δ} (h : Rep s pa t) {n : Nat} :
    Below s t.root n ↔ n ∈ t.ptrs := by
  induction t generalizing pa with
  | nil =>
    simp only [T.root, T.ptrs, List.not_mem_nil, iff_false]
    intro h; cases h
  | node l p d r ihl ihr =>
    obtain ⟨h1, h2, h3, h4, h5, h6⟩ := h
    simp only [T.root, T.ptrs, List.mem_append, List.mem_cons]
    rw [← ihl h5, ← ihr h6, ← h3, ← h4]
    constructor
    · intro hb
      cases hb with
      | here => exact Or.inr (Or.inl rfl)
      | left h => exact Or.inl h
      | right h => exact Or.inr (Or.inr h)
    · rintro (h | rfl | h)
      · exact .left h
      · exact .here _
      · exact .right h

theorem rep_child {s : St δ} {pa : Ptr} {t : T δ} (h : Rep s pa t) {n m : Nat} (hn : n ∈ t.ptrs)
    (hm : s.lft n = some m ∨ s.rgt n = some m) : s.par m = some n ∧ m ∈ t.ptrs := by
  have root : ∀ {pa u}, Rep s pa u → u.root = some m → s.par m = pa ∧ m ∈ u.ptrs := by
    intro pa u hu e
    cases u with
    | nil => cases e
    | node a q e' b =>
      simp only [T.root, Option.some.injEq] at e
      subst e
      exact ⟨hu.2.1, by simp [T.ptrs]⟩
  induction t generalizing pa with
  | nil => simp [T.ptrs] at hn
  | node l p d r ihl ihr =>
    obtain ⟨h1, h2, h3, h4, h5, h6⟩ := h
    simp only [T.ptrs, List.mem_append, List.mem_cons] at hn ⊢
    rcases hn with hn | rfl | hn
    · obtain ⟨a, b⟩ := ihl h5 hn; exact ⟨a, Or.inl b⟩
    · rw [h3, h4] at hm
      rcases hm with hm | hm
      · obtain ⟨a, b⟩ := root h5 hm; exact ⟨a, Or.inl b⟩
      · obtain ⟨a, b⟩ := root h6 hm; exact ⟨a, Or.inr (Or.inr b)⟩
    · obtain ⟨a, b⟩ := ihr h6 hn; exact ⟨a, Or.inr (Or.inr b)⟩

theorem rep_parent {s : St δ} {pa : Ptr} {t : T δ} (h : Rep s pa t) {n : Nat} (hn : n ∈ t.ptrs) :
    (t.root = some n ∧ s.par n = pa) ∨
      ∃ m ∈ t.ptrs, s.par n = some m ∧ (s.lft m = some n ∨ s.rgt m = some n) := by
  induction t generalizing pa with
  | nil => simp [T.ptrs] at hn
  | node l p d r ihl ihr =>
    obtain ⟨h1, h2, h3, h4, h5, h6⟩ := h
    simp only [T.ptrs, List.mem_append, List.mem_cons] at hn
    rcases hn with hn | rfl | hn
    · rcases ihl h5 hn with ⟨a, b⟩ | ⟨m, a, b⟩
      · exact Or.inr ⟨p, by simp [T.ptrs], b, Or.inl (h3.trans a)⟩
      · exact Or.inr ⟨m, by simp [T.ptrs, a], b⟩
    · exact Or.inl ⟨rfl, h2⟩
    · rcases ihr h6 hn with ⟨a, b⟩ | ⟨m, a, b⟩
      · exact Or.inr ⟨p, by simp [T.ptrs], b, Or.inr (h4.trans a)⟩
      · exact Or.inr ⟨m, by simp [T.ptrs, a], b⟩

namespace Holds
variable {P : T δ → Prop} {w : World δ} {g : Nat → Option (T δ)}

theorem get (h : Holds P w g) {k : Nat} {r : Ptr} {c : Nat} (hk : w.obj k = some (r, c)) :
    ∃ t, g k = some t ∧ r = t.root ∧ c = t.count := by
  cases hg : g k with
  | none => rw [h.dead k hg] at hk; cases hk
  | some t =>
    rw [h.obj k t hg] at hk
    simp only [Option.some.injEq, Prod.mk.injEq] at hk
    exact ⟨t, rfl, hk.1.symm, hk.2.symm⟩

theorem allocated (h : Holds P w g) {n : Nat} : Allocated w.mem n ↔ ∃ k t, g k = some t ∧ n ∈ t.ptrs := by
  refine ⟨h.own n, ?_⟩
  rintro ⟨k, t, hk, hn⟩
  obtain ⟨d, hd⟩ := (h.rep k t hk).live hn
  rw [Allocated, hd]; simp

theorem memory (h : Holds P w g) : MemoryOk w := by
  refine ⟨fun n => ?_, ?_, fun n hn => ?_, h.lost, ?_, ?_, ?_⟩
  · rw [h.allocated]
    constructor
    · rintro ⟨k, t, hk, hn⟩
      exact ⟨k, _, _, h.obj k t hk, (below_root (h.rep k t hk)).2 hn⟩
    · rintro ⟨k, r, c, hk, hn⟩
      obtain ⟨t, ht, rfl, rfl⟩ := h.get hk
      exact ⟨k, t, ht, (below_root (h.rep k t ht)).1 hn⟩
  · intro k j r c r' c' n hk hj hn hn'
    obtain ⟨t, ht, rfl, rfl⟩ := h.get hk
    obtain ⟨u, hu, rfl, rfl⟩ := h.get hj
    by_cases e : k = j
    · exact e
    · exact absurd ((below_root (h.rep j u hu)).1 hn')
        (h.disj k j t u ht hu e n ((below_root (h.rep k t ht)).1 hn))
  · obtain ⟨k, t, hk, hn⟩ := h.allocated.1 hn
    exact (h.rep k t hk).live hn
  · intro n m hn hm
    obtain ⟨k, t, hk, hn⟩ := h.allocated.1 hn
    obtain ⟨a, b⟩ := rep_child (h.rep k t hk) hn hm
    exact ⟨a, h.allocated.2 ⟨k, t, hk, b⟩⟩
  · intro n m hn hm
    obtain ⟨k, t, hk, hn⟩ := h.allocated.1 hn
    rcases rep_parent (h.rep k t hk) hn with ⟨_, a⟩ | ⟨m', a, b, c⟩
    · rw [a] at hm; cases hm
    · rw [b] at hm; cases hm
      exact ⟨h.allocated.2 ⟨k, t, hk, a⟩, c⟩
  · intro n hn hm
    obtain ⟨k, t, hk, hn⟩ := h.allocated.1 hn
    rcases rep_parent (h.rep k t hk) hn with ⟨a, _⟩ | ⟨m', a, b, c⟩
    · exact ⟨k, t.count, by rw [h.obj k t hk, a]⟩
    · rw [b] at hm; cases hm

theorem counts (h : Holds P w g) {k : Nat} {r : Ptr} {c : Nat} (hk : w.obj k = some (r, c)) :
    Counts w.mem r c := by
  obtain ⟨t, ht, rfl, rfl⟩ := h.get hk
  refine ⟨t.ptrs, h.nodup k t ht, ?_, fun n => (below_root (h.rep k t ht)).symm⟩
  rw [T.ptrs_eq, List.length_map, T.count_eq]

end Holds

theorem upd_owned {P : T δ → Prop} {w : World δ} {g : Nat → Option (T δ)} (h : Holds P w g) {k : Nat} {t : T δ}
    (hk : g k = some t) {o : Option (T δ)} (ho : ∀ u, o = some u → u.ptrs = []) {n : Nat} :
    (∃ j u, upd g k o j = some u ∧ n ∈ u.ptrs) ↔ (∃ j u, g j = some u ∧ n ∈ u.ptrs) ∧ n ∉ t.ptrs := by
  constructor
  · rintro ⟨j, u, hj, hn⟩
    by_cases e : j = k
    · rw [e, upd_self] at hj
      rw [ho u hj] at hn; cases hn
    · rw [upd_ne _ _ e] at hj
      exact ⟨⟨j, u, hj, hn⟩, h.disj j k u t hj hk e n hn⟩
  · rintro ⟨⟨j, u, hj, hn⟩, hnt⟩
    have e : j ≠ k := by
      rintro rfl
      rw [hk] at hj; cases hj
      exact hnt hn
    exact ⟨j, u, by rw [upd_ne _ _ e]; exact hj, hn⟩

/-- A dangling root. -/
theorem clear_dangling {s : St δ} {p : Nat} (hr : s.root = some p) (hd : s.dat p = none) :
    Faults clear s .useAfterFree := by
  unfold clear clearRoot
  refine bind_faults ?_
  unfold Faults
  rw [bind_returns (show Returns getRoot s s.root s from rfl), hr]
  refine bind_faults ?_
  unfold Prog.when
  rw [if_pos (by simp)]
  refine bind_faults ?_
  unfold postTraversal
  rw [if_neg (by simp)]
  refine bind_faults (bind_faults ?_)
  unfold touch Faults; simp [hd]

end Verif.Tree
