import Verif.TreePoolAvl
import Verif.BSTSafety

/-! Helper lemmas: programs over trees whose nodes live in the static pool. -/

namespace Verif.TPool

open Prog
open Verif.Tree (Ptr Order St MemoryOk Below Allocated)
open Verif.Pool (returns_bind)

variable {δ β γ β' γ' : Type} {md : Sma.Mode} {c : Sma.Cfg} {G : Slots.Env} {K : Pool.Layout δ} {E : PtrRep} {f : Nat → Nat}
  {S : Nat → Prop} {ro : Prop} {p p' q q' : Ptr}

/-- The same objects and nodes, with node `n` at address `f n` of the pool. -/
structure WR (c : Sma.Cfg) (G : Slots.Env) (K : Pool.Layout δ) (E : PtrRep) (f : Nat → Nat) (S : Nat → Prop) (w : Tree.World δ)
    (pw : World) : Prop where
  mem : R c G K E f S (w.load (none, 0)) ⟨pw.pool, none, 0⟩
  obj : ∀ k, pw.obj k = (w.obj k).map fun h => (h.1.map f, h.2)
  root : ∀ k h, w.obj k = some h → In S h.1

/-- The nodes in use. -/
def live (w : Tree.World δ) (n : Nat) : Prop := w.mem.dat n ≠ none

theorem R.reload {s s' : St δ} {w w' : PSt} (h : R c G K E f S s w) (h1 : s'.next = s.next) (h2 : s'.dat = s.dat)
    (h3 : s'.par = s.par) (h4 : s'.lft = s.lft) (h5 : s'.rgt = s.rgt) (h6 : w'.pool = w.pool)
    (h7 : PR f S s'.root w'.root) (h8 : w'.size = s'.size) : R c G K E f S s' w' := by
  refine ⟨?_, ?_, ?_, h7, h8, ?_, ?_⟩
  · rw [h1, h2]; exact h.fresh
  · rw [h2]; exact h.live
  · rw [h2, h3, h4, h5]; exact h.links
  · rw [h2, h6]; exact h.held
  · rw [h2, h3, h4, h5, h6]; exact h.cells

section
variable {w w' : Tree.World δ} {pw pw' : World}

theorem WR.load (h : WR c G K E f S w pw) {k : Nat} {o : Ptr × Nat} (ho : w.obj k = some o) :
    R c G K E f S (w.load o) ⟨pw.pool, o.1.map f, o.2⟩ :=
  h.mem.reload rfl rfl rfl rfl rfl rfl ⟨rfl, h.root k o ho⟩ rfl

theorem WR.store (h : WR c G K E f S w pw) {f' : Nat → Nat} {S' : Nat → Prop} (he : Ext f S f' S') (k : Nat) {s : St δ}
    {z : PSt} (hR : R c G K E f' S' s z) :
    WR c G K E f' S' (w.store k s) ⟨z.pool, Tree.upd pw.obj k (some (z.root, z.size))⟩ := by
  refine ⟨hR.reload rfl rfl rfl rfl rfl rfl PR.null rfl, fun j => ?_, fun j o hj => ?_⟩
  · by_cases e : j = k
    · subst e
      simp only [Tree.upd_self, Tree.World.store, Option.map_some]
      rw [hR.root.1, hR.size]
    · simp only [Tree.World.store]
      rw [Tree.upd_ne _ _ e, Tree.upd_ne _ _ e, h.obj j]
      cases ho : w.obj j with
      | none => rfl
      | some o =>
        have := (PR.ext ⟨rfl, h.root j o ho⟩ he).1
        simp only [Option.map_some]
        rw [this]
  · by_cases e : j = k
    · subst e
      simp only [Tree.upd_self, Tree.World.store, Option.some.injEq] at hj
      subst hj
      exact hR.root.2
    · simp only [Tree.World.store] at hj
      rw [Tree.upd_ne _ _ e] at hj
      exact fun n hn => (he.1 n (h.root j o hj n hn)).1

theorem WR.setObj (h : WR c G K E f S w pw) (k : Nat) (o : Option (Ptr × Nat)) (ho : ∀ x, o = some x → In S x.1) :
    WR c G K E f S { w with obj := Tree.upd w.obj k o }
      { pw with obj := Tree.upd pw.obj k (o.map fun h => (h.1.map f, h.2)) } := by
  refine ⟨h.mem, fun j => ?_, fun j x hj => ?_⟩
  · by_cases e : j = k
    · subst e; simp only [Tree.upd_self]
    · simp only [Tree.upd_ne _ _ e]; exact h.obj j
  · by_cases e : j = k
    · subst e
      simp only [Tree.upd_self] at hj
      exact ho x hj
    · simp only [Tree.upd_ne _ _ e] at hj
      exact h.root j x hj

theorem WR.inj (hc : Sma.Legal c) (h : WR c G K E f (TPool.live w) w pw) : Inj f (TPool.live w) := by
  obtain ⟨bs, h1, h2⟩ := h.mem.held
  intro n n' hn hn' e
  exact h1.inj hc ((h2 n).2 hn) ((h2 n').2 hn') e

/-- Between two statements all pointers are to nodes in use. -/
theorem WR.restart (h : WR c G K E f S w pw) (hm : MemoryOk w) : WR c G K E f (TPool.live w) w pw := by
  refine ⟨⟨h.mem.fresh, fun n hn => hn, fun n d hd => ?_, PR.null, rfl, h.mem.held, h.mem.cells⟩, h.obj, ?_⟩
  · have hn : Allocated w.mem n := by
      have hd : w.mem.dat n = some (some d) := hd
      rw [Allocated, hd]; simp
    refine ⟨fun m e => (hm.parent n m hn e).1, fun m e => (hm.child n m hn (Or.inl e)).2,
      fun m e => (hm.child n m hn (Or.inr e)).2⟩
  · rintro k ⟨r, z⟩ hk n hn
    subst hn
    exact (hm.owned n).2 ⟨k, _, z, hk, .here n⟩

/-! ## Methods of objects -/

theorem on_inv {k : Nat} {g : Prog (St δ) β} {a : β} (h : Returns (Tree.on k g) w a w') :
    ∃ o s, w.obj k = some o ∧ Returns g (w.load o) a s ∧ w' = w.store k s := by
  unfold Returns Tree.on at h
  cases ho : w.obj k with
  | none => rw [ho] at h; cases h
  | some o =>
    rw [ho] at h
    simp only at h
    split at h
    · cases h
    · cases h
    · rename_i a' s hs
      cases h
      exact ⟨o, s, rfl, hs, rfl⟩

theorem on_returns {k : Nat} {g : Prog PSt β} {o : Ptr × Nat} {a : β} {z : PSt} (ho : pw.obj k = some o)
    (h : Returns g ⟨pw.pool, o.1, o.2⟩ a z) :
    Returns (on k g) pw a ⟨z.pool, Tree.upd pw.obj k (some (z.root, z.size))⟩ := by
  unfold Returns on
  rw [ho]
  simp only
  rw [show g ⟨pw.pool, o.1, o.2⟩ = _ from h]

theorem on_faults {k : Nat} {g : Prog PSt β} {o : Ptr × Nat} {e : Fault} (ho : pw.obj k = some o)
    (h : Faults g ⟨pw.pool, o.1, o.2⟩ e) : Faults (on k g) pw e := by
  unfold Faults on
  rw [ho]
  simp only
  rw [show g ⟨pw.pool, o.1, o.2⟩ = _ from h]

end

/-- Whenever `p` returns on nodes with identifiers, `q` returns on the pool. -/
def WSim (c : Sma.Cfg) (G : Slots.Env) (K : Pool.Layout δ) (E : PtrRep) (f : Nat → Nat) (S : Nat → Prop)
    (p : Prog (Tree.World δ) β) (q : Prog World γ) (A : β → γ → Prop) : Prop :=
  ∀ w pw, WR c G K E f S w pw → ∀ a w', Returns p w a w' →
    ∃ a' pw', Returns q pw a' pw' ∧ WR c G K E f S w' pw' ∧ A a a'

theorem WSim.bind {p : Prog (Tree.World δ) β} {q : Prog World γ} {A : β → γ → Prop}
    {g : β → Prog (Tree.World δ) β'} {h : γ → Prog World γ'} {B : β' → γ' → Prop}
    (h1 : WSim c G K E f S p q A) (h2 : ∀ a a', A a a' → WSim c G K E f S (g a) (h a') B) :
    WSim c G K E f S (p >>= g) (q >>= h) B := by
  intro w pw hR b w2 hr
  obtain ⟨a, w1, r1, r2⟩ := returns_bind hr
  obtain ⟨a', pw1, g1, g2, g3⟩ := h1 w pw hR a w1 r1
  obtain ⟨b', pw2, e1, e2, e3⟩ := h2 a a' g3 w1 pw1 g2 b w2 r2
  refine ⟨b', pw2, ?_, e2, e3⟩
  unfold Returns
  rw [bind_returns g1]
  exact e1

theorem WSim.pure {a : β} {a' : γ} {A : β → γ → Prop} (h : A a a') :
    WSim c G K E f S (Pure.pure a) (Pure.pure a') A := by
  intro w pw hR b w' hr
  obtain ⟨rfl, rfl⟩ := Pool.returns_pure hr
  exact ⟨a', pw, rfl, hR, h⟩

theorem on_sim (hi : Inj f S) (k : Nat) {g : Prog (St δ) β} {h : Prog PSt γ} {A : β → γ → Prop}
    (hs : Sim c G K E f S False g h A) : WSim c G K E f S (Tree.on k g) (on k h) A := by
  intro w pw hR a w' hr
  obtain ⟨o, s, h1, h2, rfl⟩ := on_inv hr
  obtain ⟨a', z, g1, g2, g3, _⟩ := hs _ _ (hR.load h1) a s h2
  exact ⟨a', _, on_returns (by rw [hR.obj k, h1]; rfl) g1, hR.store ⟨fun n hn => ⟨hn, rfl⟩, hi⟩ k g2, g3⟩

/-- Observers leave everything as it is. -/
theorem on_observe {w w' : Tree.World δ} {pw : World} (hR : WR c G K E f S w pw) (k : Nat) {g : Prog (St δ) β}
    {h : Prog PSt β} (hs : Sim c G K E f S True g h Eq) {a : β} (hr : Returns (Tree.on k g) w a w') :
    Returns (on k h) pw a pw := by
  obtain ⟨o, s, h1, h2, rfl⟩ := on_inv hr
  obtain ⟨a', z, g1, g2, rfl, g4⟩ := hs _ _ (hR.load h1) a s h2
  obtain ⟨_, rfl⟩ := g4 trivial
  have ho : pw.obj k = some (o.1.map f, o.2) := by rw [hR.obj k, h1]; rfl
  have := on_returns ho g1
  have e : Tree.upd pw.obj k (some (o.1.map f, o.2)) = pw.obj := by
    funext j
    by_cases e : j = k
    · subst e; rw [Tree.upd_self, ho]
    · rw [Tree.upd_ne _ _ e]
  simp only [e] at this
  exact this

/-- A method that asks for one node at most. -/
theorem on_simX {w w' : Tree.World δ} {pw : World} (hR : WR c G K E f (live w) w pw) (k : Nat) {g : Prog (St δ) β}
    {h : Prog PSt γ} {A : (Nat → Nat) → (Nat → Prop) → β → γ → Prop} (hs : SimX md c G K E f (live w) g h A) {a : β}
    (hr : Returns (Tree.on k g) w a w') :
    (Full md c G (nodeWords K) (w.load (none, 0)) pw.pool ∧ Faults (on k h) pw .crash) ∨
    ∃ f' S' a' pw', Returns (on k h) pw a' pw' ∧ WR c G K E f' S' w' pw' ∧ A f' S' a a' := by
  obtain ⟨o, s, h1, h2, rfl⟩ := on_inv hr
  have ho : pw.obj k = some (o.1.map f, o.2) := by rw [hR.obj k, h1]; rfl
  rcases hs _ _ (hR.load h1) (fun n hn => hn) a s h2 with ⟨g1, g2⟩ | ⟨f', S', a', z, g0, g1, g2, g3⟩
  · exact Or.inl ⟨g1, on_faults ho g2⟩
  · exact Or.inr ⟨f', S', a', _, on_returns ho g1, hR.store g0 k g2, g3⟩

/-! ## Objects as a whole -/

theorem newObj_sim (k : Nat) : WSim c G K E f S (Tree.newObj k : Prog (Tree.World δ) Unit) (newObj k) Eq := by
  intro w pw hR a w' hr
  cases hr
  exact ⟨(), _, rfl, hR.setObj k (some (none, 0)) (fun x e => by cases e; exact (PR.null (f := f)).2), rfl⟩

theorem dropObj_sim (hc : Sma.Legal c) (hi : Inj f S) (hfit : 8 * nodeWords K + 8 < 2 ^ 31) (k : Nat) :
    WSim c G K E f S (Tree.dropObj k : Prog (Tree.World δ) Unit) (dropObj (poolTree md c K E) k) Eq := by
  unfold Tree.dropObj dropObj
  refine WSim.bind (on_sim hi k (clear_sim hc hi hfit)) fun _ _ _ => ?_
  intro w pw hR a w' hr
  cases hr
  exact ⟨(), _, rfl, hR.setObj k none (fun x e => by cases e), rfl⟩

theorem copyObj_sim (d s : Nat) : WSim c G K E f S (Tree.copyObj d s : Prog (Tree.World δ) Unit) (copyObj d s) Eq := by
  intro w pw hR a w' hr
  unfold Returns Tree.copyObj at hr
  cases ho : w.obj s with
  | none => rw [ho] at hr; cases hr
  | some o =>
    rw [ho] at hr
    cases hr
    refine ⟨(), _, ?_, hR.setObj d (some o) (fun x e => by cases e; exact hR.root s o ho), rfl⟩
    unfold Returns copyObj
    rw [hR.obj s, ho]
    rfl

theorem takeObj_sim (d s : Nat) : WSim c G K E f S (BST.takeObj d s : Prog (Tree.World δ) Unit) (takeObj d s) Eq := by
  intro w pw hR a w' hr
  unfold Returns BST.takeObj at hr
  cases ho : w.obj s with
  | none => rw [ho] at hr; cases hr
  | some o =>
    rw [ho] at hr
    cases hr
    refine ⟨(), _, ?_, (hR.setObj d (some o) (fun x e => by cases e; exact hR.root s o ho)).setObj s (some (none, 0))
      (fun x e => by cases e; exact (PR.null (f := f)).2), rfl⟩
    unfold Returns takeObj
    rw [hR.obj s, ho]
    rfl

theorem moveObj_sim (hc : Sma.Legal c) (hi : Inj f S) (hfit : 8 * nodeWords K + 8 < 2 ^ 31) (d s : Nat) :
    WSim c G K E f S (BST.moveObj d s : Prog (Tree.World δ) Unit) (moveObj (poolTree md c K E) d s) Eq := by
  unfold BST.moveObj moveObj
  by_cases e : d = s
  · rw [if_pos e, if_pos e]; exact WSim.pure rfl
  · rw [if_neg e, if_neg e]
    exact WSim.bind (on_sim hi d (clear_sim hc hi hfit)) fun _ _ _ => takeObj_sim d s

/-! ## Counting -/

/-- More nodes are in use than fit in the pool. -/
def Over (c : Sma.Cfg) (G : Slots.Env) (N : Nat) (w : Tree.World δ) : Prop :=
  G.solo → ∃ bs : List Nat, bs.Nodup ∧ (∀ n ∈ bs, live w n) ∧ c.M / (8 * N) < bs.length

theorem Full.over {N : Nat} {w w' : Tree.World δ} {t : Sma.St} (h : Full md c G N (w.load (none, 0)) t)
    (hk : ∀ n, live w n → live w' n) {m : Nat} (hm : ¬ live w m) (hm' : live w' m) : Over c G N w' := by
  intro hG
  obtain ⟨bs, h1, h2, h3⟩ := h.1 hG
  refine ⟨m :: bs, List.nodup_cons.2 ⟨fun h => hm ((h2 m).1 h), h1⟩, fun n hn => ?_, ?_⟩
  · rcases List.mem_cons.1 hn with rfl | hn
    · exact hm'
    · exact hk n ((h2 n).1 hn)
  · rw [List.length_cons]; omega

theorem Over.mono {N : Nat} {w w' : Tree.World δ} (h : Over c G N w) (hk : ∀ n, live w n → live w' n) : Over c G N w' := by
  intro hG
  obtain ⟨bs, h1, h2, h3⟩ := h hG
  exact ⟨bs, h1, fun n hn => hk n (h2 n hn), h3⟩

/-- As many nodes as the pool has room for. -/
theorem WR.count (hc : Sma.Legal c) (hG : G.solo) {w : Tree.World δ} {pw : World} (h : WR c G K E f S w pw) :
    ∃ bs : List Nat, bs.Nodup ∧ (∀ n, n ∈ bs ↔ live w n) ∧ bs.length ≤ c.M / (8 * nodeWords K) ∧
      Returns Sma.freeMemSize pw.pool ((c.M - bs.length * (8 * nodeWords K) : Nat) : Int) pw.pool ∧
      bs.length * (8 * nodeWords K) ≤ c.M := by
  obtain ⟨bs, h1, h2⟩ := h.mem.held
  obtain ⟨g1, g2⟩ := h1.count hc hG
  refine ⟨bs, h1.nodup, h2, h1.le hc hG nodeWords_pos, ?_, g2⟩
  rw [Int.ofNat_sub g2]
  exact g1

theorem WR.not_over (hc : Sma.Legal c) (hG : G.solo) {w : Tree.World δ} {pw : World} (h : WR c G K E f S w pw) :
    ¬ Over c G (nodeWords K) w := by
  intro ho
  obtain ⟨bs, h1, h2, h3⟩ := ho hG
  obtain ⟨cs, g1, g2, g3, _⟩ := h.count hc hG
  have := List.Nodup.length_le_of_subset h1 (l₂ := cs) fun n hn => (g2 n).2 (h2 n hn)
  omega

theorem WR.init {s0 s : Sma.St} (h : Returns (Sma.construct c) s0 () s) (f : Nat → Nat) :
    WR c Slots.Env.own K E f (live (Tree.World.init : Tree.World δ)) Tree.World.init ⟨s, fun _ => none⟩ := by
  refine ⟨⟨fun _ _ => rfl, fun n hn => absurd rfl hn, ?_, PR.null, rfl, ⟨[], Slots.Held.init h, ?_⟩, ?_⟩, fun _ => rfl, ?_⟩
  · intro n d hn; cases hn
  · intro n; simp [Tree.World.init, Tree.World.load]
  · intro n d hn; cases hn
  · intro k o hk; cases hk

end Verif.TPool
