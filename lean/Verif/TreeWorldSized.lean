import Verif.TreeWorldLemmas

/-! # Tree objects whose `mSize_d` need not be the number of nodes -/

namespace Verif.Tree

open Prog

variable {δ β : Type} {P : T δ → Prop}

/-- As `Holds`, but the size that object `k` reports is `c k`. -/
structure HoldsSized (P : T δ → Prop) (w : World δ) (g : Nat → Option (T δ)) (c : Nat → Nat) : Prop where
  base : Holds P ⟨w.mem, fun k => (g k).map fun t => (t.root, t.count)⟩ g
  obj : ∀ k, w.obj k = (g k).map fun t => (t.root, c k)

/-- The size member does not matter for a change. -/
theorem Change.resize {s s' : St δ} {t t' : T δ} (h : Change s s' t t') (n : Nat) :
    Change { s with size := n } s' t t' :=
  ⟨h.tree, h.size, h.lost, h.keep, h.own, fun n hn hl => ⟨(h.out n hn hl).dat, (h.out n hn hl).par,
    (h.out n hn hl).lft, (h.out n hn hl).rgt⟩, h.fresh⟩

theorem Change.trans {s s1 s2 : St δ} {t t1 t2 : T δ} (h : Change s s1 t t1) (h' : Change s1 s2 t1 t2)
    (hn : s.next ≤ s1.next) : Change s s2 t t2 := by
  refine ⟨h'.tree, h'.size, h'.lost.trans h.lost, fun n hm => ?_, fun n hm => ?_, fun n hm hl => ?_, h'.fresh⟩
  · rcases h'.keep n hm with x | x
    · exact h.keep n x
    · exact Or.inr (Nat.le_trans hn x)
  · rcases h'.own n hm with x | ⟨x, y⟩
    · exact Or.inl x
    · rcases h.own n y with z | z
      · exact absurd z x
      · exact Or.inr z
  · have hm1 : n ∉ t1.ptrs := fun x => by
      rcases h.keep n x with y | y
      · exact hm y
      · exact absurd hl (Nat.not_lt.2 y)
    exact (h.out n hm hl).trans (h'.out n hm1 (Nat.lt_of_lt_of_le hl hn))

/-- The objects get other names. -/
theorem Holds.rename {w : World δ} {g : Nat → Option (T δ)} (h : Holds P w g) {f : Nat → Nat}
    (hf : ∀ k, f (f k) = k) : Holds P ⟨w.mem, fun k => w.obj (f k)⟩ (fun k => g (f k)) where
  dead k hk := h.dead _ hk
  obj k t hk := h.obj _ t hk
  rep k t hk := h.rep _ t hk
  nodup k t hk := h.nodup _ t hk
  good k t hk := h.good _ t hk
  disj k j t u hk hj hkj := h.disj _ _ t u hk hj fun e => hkj (by rw [← hf k, e, hf j])
  own n hn := by
    obtain ⟨k, t, hk, ht⟩ := h.own n hn
    exact ⟨f k, t, by simpa only [hf k] using hk, ht⟩
  fresh := h.fresh
  lost := h.lost

namespace HoldsSized
variable {w : World δ} {g : Nat → Option (T δ)} {c : Nat → Nat}

theorem init : HoldsSized P (World.init : World δ) (fun _ => none) (fun _ => 0) :=
  ⟨Holds.init, fun _ => rfl⟩

theorem live (h : HoldsSized P w g c) {k : Nat} {t : T δ} (hk : g k = some t) : w.obj k = some (t.root, c k) := by
  rw [h.obj k, hk]; rfl

theorem load (h : HoldsSized P w g c) {k : Nat} {t : T δ} (hk : g k = some t) :
    IsTree (w.load (t.root, c k)) t :=
  ⟨rfl, (h.base.rep k t hk).congr fun _ _ => ⟨rfl, rfl, rfl, rfl⟩, h.base.nodup k t hk⟩

theorem norm_upd {mem : St δ} {k : Nat} {o : Option (T δ)} :
    (⟨mem, fun j => (upd g k o j).map fun t => (t.root, t.count)⟩ : World δ) =
      ⟨mem, upd (fun j => (g j).map fun t => (t.root, t.count)) k (o.map fun t => (t.root, t.count))⟩ := by
  congr 1
  funext j
  by_cases e : j = k <;> simp [upd, e]

theorem obj_upd (h : HoldsSized P w g c) {k : Nat} {o : Option (T δ)} {n : Nat} :
    ∀ j, upd w.obj k (o.map fun t => (t.root, n)) j = (upd g k o j).map fun t => (t.root, upd c k n j) := by
  intro j
  by_cases e : j = k
  · simp [upd, e]
  · simp [upd, e, h.obj j]

/-- A method that changes the tree of object `k`. -/
theorem run (h : HoldsSized P w g c) {k : Nat} {t : T δ} (hk : g k = some t) {p : Prog (St δ) β}
    {Q : β → T δ → Nat → Prop}
    (hp : wp p (fun a s' => ∃ t', Change (w.load (t.root, c k)) { s' with size := t'.count } t t' ∧ P t' ∧
      s'.root = t'.root ∧ Q a t' s'.size) (w.load (t.root, c k))) :
    ∃ a w' t' n, Returns (on k p) w a w' ∧ HoldsSized P w' (upd g k (some t')) (upd c k n) ∧ Q a t' n := by
  obtain ⟨a, s', h1, t', h2, h3, h4, h5⟩ := hp
  refine ⟨a, _, t', s'.size, on_returns (h.live hk) h1, ⟨?_, ?_⟩, h5⟩
  · have := h.base.change hk (h2.resize t.count) h3
    rw [norm_upd]
    simp only [World.store] at this ⊢
    simpa [h4] using this
  · have := h.obj_upd (k := k) (o := some t') (n := s'.size)
    intro j
    rw [← this j]
    simp [World.store, h4]

theorem newObj (h : HoldsSized P w g c) {k : Nat} (hk : g k = none) (hp : P .nil) :
    HoldsSized P { w with obj := upd w.obj k (some (none, 0)) } (upd g k (some .nil)) (upd c k 0) := by
  refine ⟨?_, h.obj_upd (o := some .nil)⟩
  rw [norm_upd]; exact h.base.newObj hk hp

theorem clear (h : HoldsSized P w g c) {k : Nat} {t : T δ} (hk : g k = some t) (hp : P .nil) :
    ∃ w', Returns (on k Tree.clear) w () w' ∧ HoldsSized P w' (upd g k (some .nil)) (upd c k 0) := by
  have hcl := wp_and (clear_change (h.load hk) h.base.fresh) (clear_ok (h.load hk))
  obtain ⟨_, w', t', n, h1, h2, rfl, rfl⟩ := h.run (p := Tree.clear) (Q := fun _ t' n => t' = .nil ∧ n = 0) hk
    (wp_mono hcl fun _ s' hc => ⟨.nil, by
      have := hc.1
      have e : s'.size = (T.nil : T δ).count := this.size
      rw [← e]; exact this, hp, hc.1.tree.root, rfl, hc.2.2.1⟩)
  exact ⟨w', h1, h2⟩

theorem drop (h : HoldsSized P w g c) {k : Nat} {t : T δ} (hk : g k = some t) (hp : P .nil) :
    ∃ w', Returns (dropObj k) w () w' ∧ HoldsSized P w' (upd g k none) (upd c k 0) := by
  obtain ⟨w', h1, h2⟩ := h.clear hk hp
  refine ⟨{ w' with obj := upd w'.obj k none }, ?_, ?_, ?_⟩
  · unfold dropObj Returns
    rw [bind_returns h1]; rfl
  · have := h2.base.dropEmpty (k := k) (upd_self _ _ _)
    have e : upd (upd g k (some .nil)) k none = upd g k none := by
      funext n; by_cases x : n = k <;> simp [upd, x]
    rw [e, ] at this
    rw [norm_upd]
    have e' : upd (fun j => (upd g k (some .nil) j).map fun t => (t.root, t.count)) k none =
        upd (fun j => (g j).map fun t => (t.root, t.count)) k none := by
      funext n; by_cases x : n = k <;> simp [upd, x]
    simpa only [Option.map_none, e'] using this
  · intro j
    by_cases e : j = k
    · simp [upd, e]
    · have := h2.obj j
      simpa [upd, e] using this

/-- The members of `s` move to `d`. -/
theorem take (h : HoldsSized P w g c) {d s : Nat} {t : T δ} (hne : d ≠ s) (hd : g d = some .nil) (hc : c d = 0)
    (hs : g s = some t) : HoldsSized P { w with obj := upd (upd w.obj d (some (t.root, c s))) s (some (none, 0)) }
      (upd (upd g d (some t)) s (some .nil)) (upd (upd c d (c s)) s 0) := by
  have hg : (upd (upd g d (some t)) s (some .nil)) =
      fun k => g (if k = d then s else if k = s then d else k) := by
    funext k
    by_cases e1 : k = d
    · simp [upd, e1, hne, hs]
    · have : s ≠ d := fun e => hne e.symm
      by_cases e2 : k = s
      · simp [upd, e2, this, hd]
      · simp [upd, e1, e2]
  refine ⟨?_, fun k => ?_⟩
  · have := h.base.rename (f := fun k => if k = d then s else if k = s then d else k) fun k => by
      by_cases e1 : k = d
      · have : s ≠ d := fun e => hne e.symm
        simp [e1, this]
      · by_cases e2 : k = s <;> simp [e1, e2]
    rw [hg]; exact this
  · by_cases e2 : k = s
    · simp [upd, e2, T.root]
    · by_cases e1 : k = d
      · subst e1; simp [upd, hne]
      · simp [upd, e1, e2, h.obj k]

theorem memory (h : HoldsSized P w g c) : MemoryOk w := by
  have hm := h.base.memory
  have tr : ∀ {k r n}, w.obj k = some (r, n) → ∃ n',
      (⟨w.mem, fun k => (g k).map fun t => (t.root, t.count)⟩ : World δ).obj k = some (r, n') := by
    intro k r n hk
    rw [h.obj k] at hk
    cases hg : g k with
    | none => rw [hg] at hk; cases hk
    | some t =>
      rw [hg] at hk
      simp only [Option.map_some, Option.some.injEq, Prod.mk.injEq] at hk
      exact ⟨t.count, by simp [hg, hk.1]⟩
  have rt : ∀ {k r n}, (⟨w.mem, fun k => (g k).map fun t => (t.root, t.count)⟩ : World δ).obj k = some (r, n) →
      ∃ n', w.obj k = some (r, n') := by
    intro k r n hk
    cases hg : g k with
    | none => simp [hg] at hk
    | some t =>
      simp only [hg, Option.map_some, Option.some.injEq, Prod.mk.injEq] at hk
      exact ⟨c k, by rw [h.obj k, hg, ← hk.1]; rfl⟩
  refine ⟨fun n => ?_, ?_, hm.built, hm.lost, hm.child, hm.parent, fun n hn hp => ?_⟩
  · rw [hm.owned n]
    constructor
    · rintro ⟨k, r, n', hk, hb⟩
      obtain ⟨n'', hk'⟩ := rt hk
      exact ⟨k, r, n'', hk', hb⟩
    · rintro ⟨k, r, n', hk, hb⟩
      obtain ⟨n'', hk'⟩ := tr hk
      exact ⟨k, r, n'', hk', hb⟩
  · intro k j r n1 r' n2 n hk hj hb hb'
    obtain ⟨m1, hk'⟩ := tr hk
    obtain ⟨m2, hj'⟩ := tr hj
    exact hm.alone k j r m1 r' m2 n hk' hj' hb hb'
  · obtain ⟨k, n', hk⟩ := hm.top n hn hp
    obtain ⟨n'', hk'⟩ := rt hk
    exact ⟨k, n'', hk'⟩

end HoldsSized

end Verif.Tree
