import Verif.TreePoolOps

/-! Helper lemmas: the functions of `BinarySearchTree` do on the bytes of the static pool what they do on
nodes with identifiers. -/

namespace Verif.TPool

open Prog Lean.Order
open Verif.Tree (Ptr Order St)
open Verif.Pool (returns_bind)

variable {δ β γ β' γ' : Type} {md : Sma.Mode} {c : Sma.Cfg} {G : Slots.Env} {K : Pool.Layout δ} {E : PtrRep} {f : Nat → Nat}
  {S : Nat → Prop} {ro : Prop} {p p' q q' : Ptr}

/-! ## Programs that may ask for a node -/

/-- As many nodes are in use as fit in the pool.  If others use it too, there is no room for one more. -/
def Full (md : Sma.Mode) (c : Sma.Cfg) (G : Slots.Env) (N : Nat) (s : St δ) (t : Sma.St) : Prop :=
  (G.solo → ∃ bs : List Nat, bs.Nodup ∧ (∀ n, n ∈ bs ↔ s.dat n ≠ none) ∧ c.M / (8 * N) ≤ bs.length) ∧
  (md = .port → Pool.NoRoom c t (Slots.size N))

/-- More nodes; those known stay where they are. -/
def Ext (f : Nat → Nat) (S : Nat → Prop) (f' : Nat → Nat) (S' : Nat → Prop) : Prop :=
  (∀ n, S n → S' n ∧ f' n = f n) ∧ Inj f' S'

theorem PR.ext {f' : Nat → Nat} {S' : Nat → Prop} (h : PR f S p p') (he : Ext f S f' S') : PR f' S' p p' := by
  refine ⟨?_, fun n e => (he.1 n (h.2 n e)).1⟩
  rw [h.1]
  cases p with
  | none => rfl
  | some n => exact congrArg some (he.1 n (h.2 n rfl)).2.symm

/-- Like `Sim`, for a program that asks for one node at most: if the pool is full, it may crash. -/
def SimX (md : Sma.Mode) (c : Sma.Cfg) (G : Slots.Env) (K : Pool.Layout δ) (E : PtrRep) (f : Nat → Nat) (S : Nat → Prop)
    (p : Prog (St δ) β) (q : Prog PSt γ) (A : (Nat → Nat) → (Nat → Prop) → β → γ → Prop) : Prop :=
  ∀ s w, R c G K E f S s w → (∀ n, S n → s.dat n ≠ none) → ∀ a s', Returns p s a s' →
    (Full md c G (nodeWords K) s w.pool ∧ Faults q w .crash) ∨
    ∃ f' S' a' w', Ext f S f' S' ∧ Returns q w a' w' ∧ R c G K E f' S' s' w' ∧ A f' S' a a'

theorem faults_bind {σ : Type} {q : Prog σ β} {w : σ} {e : Fault} {h : β → Prog σ γ} (hf : Faults q w e) :
    Faults (q >>= h) w e := by
  unfold Faults at *
  exact bind_faults hf

theorem SimX.bindR {p : Prog (St δ) β} {q : Prog PSt γ} {A : β → γ → Prop}
    {g : β → Prog (St δ) β'} {h : γ → Prog PSt γ'} {B : (Nat → Nat) → (Nat → Prop) → β' → γ' → Prop}
    (h1 : Sim c G K E f S True p q A) (h2 : ∀ a a', A a a' → SimX md c G K E f S (g a) (h a') B) :
    SimX md c G K E f S (p >>= g) (q >>= h) B := by
  intro s w hR hS b s2 hr
  obtain ⟨a, s1, r1, r2⟩ := returns_bind hr
  obtain ⟨a', w1, g1, g2, g3, g4⟩ := h1 s w hR a s1 r1
  obtain ⟨rfl, rfl⟩ := g4 trivial
  rcases h2 a a' g3 s1 w1 g2 hS b s2 r2 with ⟨e1, e2⟩ | ⟨f', S', b', w2, e1, e2, e3, e4⟩
  · refine Or.inl ⟨e1, ?_⟩
    unfold Faults
    rw [bind_returns g1]; exact e2
  · refine Or.inr ⟨f', S', b', w2, e1, ?_, e3, e4⟩
    unfold Returns
    rw [bind_returns g1]; exact e2

theorem SimX.bindW {p : Prog (St δ) β} {q : Prog PSt γ} {A : (Nat → Nat) → (Nat → Prop) → β → γ → Prop}
    {g : β → Prog (St δ) β'} {h : γ → Prog PSt γ'} {B : (Nat → Nat) → (Nat → Prop) → β' → γ' → Prop}
    (h1 : SimX md c G K E f S p q A)
    (h2 : ∀ f' S', Ext f S f' S' → Inj f' S' → ∀ a a', A f' S' a a' → Sim c G K E f' S' False (g a) (h a') (B f' S')) :
    SimX md c G K E f S (p >>= g) (q >>= h) B := by
  intro s w hR hS b s2 hr
  obtain ⟨a, s1, r1, r2⟩ := returns_bind hr
  rcases h1 s w hR hS a s1 r1 with ⟨e1, e2⟩ | ⟨f', S', a', w1, e1, e2, e3, e4⟩
  · exact Or.inl ⟨e1, faults_bind e2⟩
  · obtain ⟨b', w2, g1, g2, g3, _⟩ := h2 f' S' e1 e1.2 a a' e4 s1 w1 e3 b s2 r2
    refine Or.inr ⟨f', S', b', w2, e1, ?_, g2, g3⟩
    unfold Returns
    rw [bind_returns e2]; exact g1

theorem SimX.of (hi : Inj f S) {p : Prog (St δ) β} {q : Prog PSt γ} {A : (Nat → Nat) → (Nat → Prop) → β → γ → Prop}
    (h : Sim c G K E f S False p q (A f S)) : SimX md c G K E f S p q A := by
  intro s w hR hS a s' hr
  obtain ⟨a', w', g1, g2, g3, _⟩ := h s w hR a s' hr
  exact Or.inr ⟨f, S, a', w', ⟨fun n hn => ⟨hn, rfl⟩, hi⟩, g1, g2, g3⟩

theorem SimX.ite {Q Q' : Prop} [Decidable Q] [Decidable Q'] {p p2 : Prog (St δ) β}
    {q q2 : Prog PSt γ} {A : (Nat → Nat) → (Nat → Prop) → β → γ → Prop} (he : Q ↔ Q')
    (h1 : Q → SimX md c G K E f S p q A) (h2 : ¬ Q → SimX md c G K E f S p2 q2 A) :
    SimX md c G K E f S (if Q then p else p2) (if Q' then q else q2) A := by
  by_cases hq : Q
  · rw [if_pos hq, if_pos (he.1 hq)]; exact h1 hq
  · rw [if_neg hq, if_neg (fun h => hq (he.2 h))]; exact h2 hq

/-- Simulation can be established by fixpoint induction. -/
theorem adm_simX {κ : Sort _} (q : κ → Prog PSt γ) (Rel : κ → Prop)
    (A : (Nat → Nat) → (Nat → Prop) → β → γ → Prop) :
    admissible fun g : Prog (St δ) β => ∀ k, Rel k → SimX md c G K E f S g (q k) A := by
  have : (fun g : Prog (St δ) β => ∀ k, Rel k → SimX md c G K E f S g (q k) A) =
      fun g => ∀ s, wlp g (fun a s' => ∀ k, Rel k → ∀ w, R c G K E f S s w → (∀ n, S n → s.dat n ≠ none) →
        (Full md c G (nodeWords K) s w.pool ∧ Faults (q k) w .crash) ∨
        ∃ f' S' a' w', Ext f S f' S' ∧ Returns (q k) w a' w' ∧ R c G K E f' S' s' w' ∧ A f' S' a a') s := by
    funext g
    refine propext ⟨fun h s a s' hr k hk w hR hS => h k hk s w hR hS a s' hr, fun h k hk s w hR hS a s' hr =>
      h s a s' hr k hk w hR hS⟩
  rw [this]
  refine admissible_pi_apply (α := St δ) (β := fun _ => Option (Except Fault (β × St δ)))
    (fun s x => ∀ a t, x = some (.ok (a, t)) → ∀ k, Rel k → ∀ w, R c G K E f S s w → (∀ n, S n → s.dat n ≠ none) →
        (Full md c G (nodeWords K) s w.pool ∧ Faults (q k) w .crash) ∨
        ∃ f' S' a' w', Ext f S f' S' ∧ Returns (q k) w a' w' ∧ R c G K E f' S' t w' ∧ A f' S' a a') (fun s => ?_)
  exact admissible_flatOrder _ (fun _ _ h => by cases h)

/-- For functions of two arguments. -/
theorem adm_two {ι κ ι' κ' : Type} (q : ι' → κ' → Prog PSt γ) (Rel : ι → ι' → Prop) (Rel' : κ → κ' → Prop)
    (A : β → γ → Prop) :
    admissible fun X : ι → κ → Prog (St δ) β => ∀ i j i' j', Rel i i' → Rel' j j' →
      Sim c G K E f S ro (X i j) (q i' j') A := by
  refine admissible_pi_apply (fun i (g : κ → Prog (St δ) β) => ∀ j i' j', Rel i i' → Rel' j j' →
      Sim c G K E f S ro (g j) (q i' j') A) fun i => ?_
  refine admissible_pi_apply (fun j (g : Prog (St δ) β) => ∀ i' j', Rel i i' → Rel' j j' →
      Sim c G K E f S ro g (q i' j') A) fun j => ?_
  have := adm_sim (c := c) (G := G) (K := K) (E := E) (f := f) (S := S) (ro := ro) (fun k : ι' × κ' => q k.1 k.2)
    (fun k => Rel i k.1 ∧ Rel' j k.2) fun _ => A
  have e : (fun g : Prog (St δ) β => ∀ k : ι' × κ', Rel i k.1 ∧ Rel' j k.2 → Sim c G K E f S ro g (q k.1 k.2) A) =
      fun g => ∀ i' j', Rel i i' → Rel' j j' → Sim c G K E f S ro g (q i' j') A := by
    funext g
    exact propext ⟨fun h i' j' h1 h2 => h (i', j') ⟨h1, h2⟩, fun h k hk => h k.1 k.2 hk.1 hk.2⟩
  rwa [e] at this

/-- For functions of two arguments. -/
theorem adm_twoX {ι κ ι' κ' : Type} (q : ι' → κ' → Prog PSt γ) (Rel : ι → ι' → Prop) (Rel' : κ → κ' → Prop)
    (A : (Nat → Nat) → (Nat → Prop) → β → γ → Prop) :
    admissible fun X : ι → κ → Prog (St δ) β => ∀ i j i' j', Rel i i' → Rel' j j' →
      SimX md c G K E f S (X i j) (q i' j') A := by
  refine admissible_pi_apply (fun i (g : κ → Prog (St δ) β) => ∀ j i' j', Rel i i' → Rel' j j' →
      SimX md c G K E f S (g j) (q i' j') A) fun i => ?_
  refine admissible_pi_apply (fun j (g : Prog (St δ) β) => ∀ i' j', Rel i i' → Rel' j j' →
      SimX md c G K E f S g (q i' j') A) fun j => ?_
  have := adm_simX (md := md) (c := c) (G := G) (K := K) (E := E) (f := f) (S := S) (fun k : ι' × κ' => q k.1 k.2)
    (fun k => Rel i k.1 ∧ Rel' j k.2) A
  have e : (fun g : Prog (St δ) β => ∀ k : ι' × κ', Rel i k.1 ∧ Rel' j k.2 → SimX md c G K E f S g (q k.1 k.2) A) =
      fun g => ∀ i' j', Rel i i' → Rel' j j' → SimX md c G K E f S g (q i' j') A := by
    funext g
    exact propext ⟨fun h i' j' h1 h2 => h (i', j') ⟨h1, h2⟩, fun h k hk => h k.1 k.2 hk.1 hk.2⟩
  rwa [e] at this

/-- Asking for a node, then going on with it.  With the null pointer, going on crashes. -/
theorem SimX.alloc (hc : Sma.Legal c) (hfit : 8 * nodeWords K + 8 < 2 ^ 31)
    {g : Nat → Prog (St δ) β'} {h : Nat → Prog PSt γ'} {B : (Nat → Nat) → (Nat → Prop) → β' → γ' → Prop}
    (h0 : ∀ s w, R c G K E f S s w → (∃ b s2, Returns (g s.next)
      { s with dat := Tree.upd s.dat s.next (some none), next := s.next + 1 } b s2) → Faults (h 0) w .crash)
    (h2 : ∀ f' S', Ext f S f' S' → Inj f' S' → ∀ n, PR f' S' (some n) (some (f' n)) →
      Sim c G K E f' S' False (g n) (h (f' n)) (B f' S')) :
    SimX md c G K E f S (Tree.allocNode >>= g) ((poolTree md c K E).alloc >>= h) B := by
  intro s w hR hS b s2 hr
  obtain ⟨n, s1, r1, r2⟩ := returns_bind hr
  cases r1
  rcases alloc_ok (md := md) hc hfit hR hS with ⟨hfull, ha⟩ | ⟨f', w1, g1, g2, g3, g4⟩
  · refine Or.inl ⟨hfull, ?_⟩
    rcases ha with ha | ha
    · exact faults_bind ha
    · unfold Faults
      rw [bind_returns ha]
      exact h0 s w hR ⟨b, s2, r2⟩
  · have hext : Ext f S f' (fun n => S n ∨ n = s.next) := ⟨fun n hn => ⟨Or.inl hn, g2 n hn⟩, g3⟩
    obtain ⟨b', w2, e1, e2, e3, _⟩ := h2 f' _ hext g3 s.next (PR.node (Or.inr rfl)) _ w1 g4 b s2 r2
    refine Or.inr ⟨f', _, b', w2, hext, ?_, e2, e3⟩
    unfold Returns
    rw [bind_returns g1]; exact e1

theorem construct_zero (d : δ) (w : PSt) : Faults ((poolTree md c K E).construct 0 d) w .crash := by
  rfl

theorem Faults.bind_after {σ : Type} {q : Prog σ β} {w w' : σ} {a : β} {e : Fault} {h : β → Prog σ γ}
    (h1 : Returns q w a w') (h2 : Faults (h a) w' e) : Faults (q >>= h) w e := by
  unfold Faults
  rw [bind_returns h1]; exact h2

attribute [local irreducible] Tree.touch Tree.getParent Tree.getLeft Tree.getRight Tree.setParent Tree.setLeft Tree.setRight
  Tree.getData Tree.setData Tree.allocNode Tree.constructNode Tree.destroyNode Tree.freeNode Tree.getRoot Tree.getSize
  Tree.setSize poolTree Prog.when

set_option linter.unusedSectionVars false

namespace B

variable {lt : δ → δ → Bool}

/-- The same argument. -/
def ArgR (f : Nat → Nat) (S : Nat → Prop) : BST.Arg δ → BST.Arg δ → Prop
  | .val x, .val y => x = y
  | .ref p, .ref p' => PR f S p p'
  | _, _ => False

theorem ArgR.ext {f' : Nat → Nat} {S' : Nat → Prop} {o o' : BST.Arg δ} (h : ArgR f S o o') (he : Ext f S f' S') :
    ArgR f' S' o o' := by
  cases o <;> cases o' <;> first | exact h | exact PR.ext h he

section
variable (hc : Sma.Legal c) (hi : Inj f S)
include hc hi

theorem readArg_sim {o o' : BST.Arg δ} (ho : ArgR f S o o') :
    Sim c G K E f S ro (BST.readArg o) (readArg (poolTree md c K E) o') Eq := by
  cases o <;> cases o'
  · exact Sim.pure ho
  · exact ho.elim
  · exact ho.elim
  · exact getData_sim hc ho

macro_rules | `(tactic| sim_call) => `(tactic| exact readArg_sim (by assumption) (by assumption) (by assumption))

theorem insertLoop_sim {o o' : BST.Arg δ} (ho : ArgR f S o o') : ∀ p q p' q', PR f S p p' → PR f S q q' →
    Sim c G K E f S ro (BST.insertLoop lt o p q) (insertLoop (poolTree md c K E) lt o' p' q')
      fun a a' => PR f S a.1 a'.1 ∧ PR f S a.2 a'.2 := by
  refine BST.insertLoop.fixpoint_induct lt o (fun X => ∀ p q p' q', PR f S p p' → PR f S q q' →
    Sim c G K E f S ro (X p q) (insertLoop (poolTree md c K E) lt o' p' q')
      fun a a' => PR f S a.1 a'.1 ∧ PR f S a.2 a'.2) (adm_two _ _ _ _) ?_
  intro X ih p q p' q' hp hq
  rw [insertLoop]
  sim1
  · exact Sim.pure ⟨PR.null, hq⟩
  sim1
  sim1
  sim1
  · sim1
    exact ih _ _ _ _ (by sim_pr) (by sim_pr)
  sim1
  · sim1
    exact ih _ _ _ _ (by sim_pr) (by sim_pr)
  · exact Sim.pure ⟨hp, hp⟩

theorem insert_sim (hfit : 8 * nodeWords K + 8 < 2 ^ 31) {o o' : BST.Arg δ} (ho : ArgR f S o o') :
    SimX md c G K E f S (BST.insert lt o) (insert (poolTree md c K E) lt o') PR := by
  unfold BST.insert insert
  refine SimX.bindR getRoot_sim fun r r' hr => ?_
  refine SimX.bindR (insertLoop_sim hc hi ho _ _ _ _ hr PR.null) ?_
  rintro ⟨t, pa⟩ ⟨t', pa'⟩ ⟨ht, hpa⟩
  refine SimX.ite (by sim_iff) (fun _ => SimX.of hi (Sim.pure ht)) fun _ => ?_
  refine SimX.alloc hc hfit ?_ ?_
  · rintro s w hR ⟨b, s2, hr⟩
    obtain ⟨x, s3, r1, _⟩ := returns_bind hr
    have hx : ∃ x', Returns (readArg (poolTree md c K E) o') w x' w := by
      cases o with
      | val y => cases o' with
        | val y' => exact ⟨y', rfl⟩
        | ref _ => exact ho.elim
      | ref y => cases o' with
        | val y' => exact ho.elim
        | ref y' =>
          obtain ⟨rfl, n, rfl, hd⟩ := returns_getData r1
          have hd' : s.dat n = some (some x) := by
            by_cases e : n = s.next
            · rw [e] at hd
              have hd : Tree.upd s.dat s.next (some none) s.next = _ := hd
              rw [upd_at] at hd; cases hd
            · exact (upd_other _ _ _ e).symm.trans hd
          obtain ⟨x', w', g1, _, _, g4⟩ := getData_sim (md := md) (ro := True) hc ho s w hR x s (by
            with_unfolding_all
              show Tree.getData (some n) s = _
              unfold Tree.getData
              simp only [hd'])
          obtain ⟨_, rfl⟩ := g4 trivial
          exact ⟨x', g1⟩
    obtain ⟨x', hx'⟩ := hx
    exact Faults.bind_after hx' (faults_bind (construct_zero _ _))
  · intro f' S' hext hi' n hn
    have ho' := ho.ext hext
    have hpa := hpa.ext hext
    sim1
    refine Sim.bind (construct_sim hc _) fun _ _ _ => ?_
    sim1
    · sim1
      sim1
      sim1
      refine Sim.bind (A := PR f' S') (Sim.ite Iff.rfl (fun _ => ?_) (fun _ => ?_)) (fun _ _ _ => ?_)
      · repeat sim1
      · repeat sim1
      · repeat sim1
    · sim1

theorem push_sim (hfit : 8 * nodeWords K + 8 < 2 ^ 31) {o o' : BST.Arg δ} (ho : ArgR f S o o') :
    SimX md c G K E f S (BST.push lt o) (push (poolTree md c K E) lt o') fun _ _ => Eq := by
  unfold BST.push push
  refine SimX.bindW (insert_sim hc hi hfit ho) fun f' S' hext hi' t t' ht => ?_
  repeat sim1

theorem stuckLoop_sim : ∀ p p', PR f S p p' →
    Sim c G K E f S ro (BST.stuckLoop p) (stuckLoop (poolTree md c K E) p') (PR f S) := by
  refine BST.stuckLoop.fixpoint_induct (fun X => ∀ p p', PR f S p p' →
    Sim c G K E f S ro (X p) (stuckLoop (poolTree md c K E) p') (PR f S)) (adm_ptr _ _) ?_
  intro X ih p p' hp
  rw [stuckLoop]
  repeat sim1

macro_rules | `(tactic| sim_call) => `(tactic| exact stuckLoop_sim (by assumption) (by assumption) _ _ (by sim_pr))

theorem findFrom_sim (x : δ) : ∀ p p', PR f S p p' →
    Sim c G K E f S ro (BST.findFrom lt p x) (findFrom (poolTree md c K E) lt p' x) (PR f S) := by
  refine BST.findFrom.fixpoint_induct lt x (fun X => ∀ p p', PR f S p p' →
    Sim c G K E f S ro (X p) (findFrom (poolTree md c K E) lt p' x) (PR f S))
    (adm_ptr (fun p' => findFrom (poolTree md c K E) lt p' x) _) ?_
  intro X ih p p' hp
  rw [findFrom]
  repeat sim1

macro_rules | `(tactic| sim_call) => `(tactic| exact findFrom_sim (by assumption) (by assumption) _ _ _ (by sim_pr))

theorem find_sim (x : δ) : Sim c G K E f S ro (BST.find lt x) (find (poolTree md c K E) lt x) (PR f S) := by
  unfold BST.find find
  repeat sim1

theorem elements_sim (o : Order) :
    Sim c G K E f S ro (BST.elements o) (elements (poolTree md c K E) o) Eq := by
  unfold BST.elements elements
  refine Sim.bind (iterate_sim hc hi o) ?_
  rintro ds _ rfl
  refine Sim.pure ?_
  rw [List.map_map]; rfl

theorem readIt_sim (hp : PR f S p p') :
    Sim c G K E f S ro (BST.readIt p) (readIt (poolTree md c K E) p') Eq := by
  unfold BST.readIt readIt
  repeat sim1

section
variable (hfit : 8 * nodeWords K + 8 < 2 ^ 31)
include hfit

theorem spliceOut_sim (hp : PR f S p p') (hq : PR f S q q') :
    Sim c G K E f S False (BST.spliceOut p q) (spliceOut (poolTree md c K E) p' q') (PR f S) := by
  unfold BST.spliceOut spliceOut
  repeat sim1

macro_rules | `(tactic| sim_call) => `(tactic| exact spliceOut_sim (by assumption) (by assumption) (by assumption) (by sim_pr) (by sim_pr))

theorem delete_both_sim :
    (∀ p o p' o', PR f S p p' → ArgR f S o o' →
      Sim c G K E f S False (BST.delete lt p o) (delete (poolTree md c K E) lt p' o') (PR f S)) ∧
    (∀ p p', PR f S p p' →
      Sim c G K E f S False (BST.tryDelete lt p) (tryDelete (poolTree md c K E) lt p') (PR f S)) := by
  refine BST.delete.mutual_fixpoint_induct lt
    (fun X => ∀ p o p' o', PR f S p p' → ArgR f S o o' →
      Sim c G K E f S False (X p o) (delete (poolTree md c K E) lt p' o') (PR f S))
    (fun X => ∀ p p', PR f S p p' →
      Sim c G K E f S False (X p) (tryDelete (poolTree md c K E) lt p') (PR f S)) (adm_two _ _ _ _) (adm_ptr _ _) ?_ ?_
  · intro X Y ih1 ih p o p' o' hp ho
    rw [delete]
    sim1
    sim1
    sim1
    · sim1
      refine Sim.bind (ih1 _ _ _ _ (by sim_pr) ho) fun _ _ _ => ?_
      repeat sim1
    sim1
    · sim1
      refine Sim.bind (ih1 _ _ _ _ (by sim_pr) ho) fun _ _ _ => ?_
      repeat sim1
    · sim1
  · intro X ih1 p p' hp
    rw [tryDelete]
    sim1
    sim1
    · repeat sim1
    sim1
    sim1
    · repeat sim1
    sim1
    sim1
    rename_i t t' ht
    sim1
    sim1
    sim1
    refine Sim.bind (ih1 _ _ _ _ (by sim_pr) (show ArgR f S (.ref t) (.ref t') from by sim_pr)) fun _ _ _ => ?_
    repeat sim1

theorem pop_sim {o o' : BST.Arg δ} (ho : ArgR f S o o') :
    Sim c G K E f S False (BST.pop lt o) (pop (poolTree md c K E) lt o') Eq := by
  unfold BST.pop pop
  sim1
  sim1
  · sim1
  sim1
  refine Sim.bind ((delete_both_sim hc hi hfit).1 _ _ _ _ (by sim_pr) ho) fun _ _ _ => ?_
  repeat sim1

theorem erase_sim (hp : PR f S p p') :
    Sim c G K E f S False (BST.erase lt p) (erase (poolTree md c K E) lt p') (PR f S) := by
  unfold BST.erase erase
  sim1
  sim1
  refine Sim.bind ((delete_both_sim hc hi hfit).2 _ _ (by sim_pr)) fun _ _ _ => ?_
  repeat sim1

end

end

end B

end Verif.TPool
