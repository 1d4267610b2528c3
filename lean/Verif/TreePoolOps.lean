import Verif.TreePoolSim

/-! Helper lemmas: the functions of `BinaryTree` do on the bytes of the static pool what they do on nodes
with identifiers. -/

namespace Verif.TPool

open Prog Lean.Order
open Verif.Tree (Ptr Order St)

theorem Sim.when_bind {δ β' γ' : Type} {c : Sma.Cfg} {K : Pool.Layout δ} {E : PtrRep} {f : Nat → Nat} {S : Nat → Prop}
    {ro : Prop} {Q Q' : Prop} [Decidable Q] [Decidable Q'] {p : Prog (St δ) Unit} {q : Prog PSt Unit}
    {g : Unit → Prog (St δ) β'} {h : Unit → Prog PSt γ'} {B : β' → γ' → Prop}
    (he : Q ↔ Q') (h1 : Q → Sim c G K E f S ro p q Eq) (h2 : Sim c G K E f S ro (g ()) (h ()) B) :
    Sim c G K E f S ro (Prog.when Q p >>= g) (Prog.when Q' q >>= h) B :=
  Sim.bind (Sim.when he h1) fun _ _ _ => h2

theorem Sim.ite_bind {δ β' γ' : Type} {c : Sma.Cfg} {K : Pool.Layout δ} {E : PtrRep} {f : Nat → Nat} {S : Nat → Prop}
    {ro : Prop} {Q Q' : Prop} [Decidable Q] [Decidable Q'] {p p2 : Prog (St δ) Unit} {q q2 : Prog PSt Unit}
    {g : Unit → Prog (St δ) β'} {h : Unit → Prog PSt γ'} {B : β' → γ' → Prop}
    (he : Q ↔ Q') (h1 : Q → Sim c G K E f S ro p q Eq) (h1' : ¬ Q → Sim c G K E f S ro p2 q2 Eq)
    (h2 : Sim c G K E f S ro (g ()) (h ()) B) :
    Sim c G K E f S ro ((if Q then p else p2) >>= g) ((if Q' then q else q2) >>= h) B :=
  Sim.bind (Sim.ite he h1 h1') fun _ _ _ => h2

/-- the same pointer -/
macro "sim_pr" : tactic => `(tactic| first | assumption | exact PR.null)

/-- the same comparison of pointers -/
macro "sim_iff" : tactic => `(tactic| first
  | exact Iff.rfl
  | exact PR.none_iff (by sim_pr)
  | exact not_congr (PR.none_iff (by sim_pr))
  | exact PR.eq_iff (by assumption) (by sim_pr) (by sim_pr)
  | exact not_congr (PR.eq_iff (by assumption) (by sim_pr) (by sim_pr)))

/-- one call -/
syntax "sim_call" : tactic

macro_rules | `(tactic| sim_call) => `(tactic| exact touch_sim (by assumption) (by sim_pr))
macro_rules | `(tactic| sim_call) => `(tactic| exact getParent_sim (by assumption) (by sim_pr))
macro_rules | `(tactic| sim_call) => `(tactic| exact getLeft_sim (by assumption) (by sim_pr))
macro_rules | `(tactic| sim_call) => `(tactic| exact getRight_sim (by assumption) (by sim_pr))
macro_rules | `(tactic| sim_call) => `(tactic| exact getData_sim (by assumption) (by sim_pr))
macro_rules | `(tactic| sim_call) => `(tactic| exact getRoot_sim)
macro_rules | `(tactic| sim_call) => `(tactic| exact getSize_sim)
macro_rules | `(tactic| sim_call) => `(tactic| exact setParent_sim (by assumption) (by sim_pr) (by sim_pr))
macro_rules | `(tactic| sim_call) => `(tactic| exact setLeft_sim (by assumption) (by sim_pr) (by sim_pr))
macro_rules | `(tactic| sim_call) => `(tactic| exact setRight_sim (by assumption) (by sim_pr) (by sim_pr))
macro_rules | `(tactic| sim_call) => `(tactic| exact setData_sim (by assumption) (by sim_pr) _)
macro_rules | `(tactic| sim_call) => `(tactic| exact destroy_sim (by assumption) (by sim_pr))
macro_rules | `(tactic| sim_call) => `(tactic| exact free_sim (by assumption) (by assumption) (by sim_pr) (by assumption))
macro_rules | `(tactic| sim_call) => `(tactic| exact setRoot_sim (by sim_pr))
macro_rules | `(tactic| sim_call) => `(tactic| exact setSize_sim _)
macro_rules | `(tactic| sim_call) => `(tactic| assumption)
macro_rules
  | `(tactic| sim_call) => do
    let ih := Lean.mkIdent `ih
    `(tactic| exact $ih _ _ (by sim_pr))
macro_rules
  | `(tactic| sim_call) => do
    let hcb := Lean.mkIdent `hcb
    `(tactic| exact $hcb _ _ (by sim_pr))

/-- one step of a function -/
macro "sim1" : tactic => `(tactic| first
  | (apply Sim.bind; sim_call; (intro a a' h; try subst h))
  | sim_call
  | (refine Sim.pure ?_; first | rfl | sim_pr | (simp; done) | exact ⟨by sim_pr, by sim_pr⟩)
  | refine Sim.ite (by sim_iff) (fun _ => ?_) (fun _ => ?_)
  | refine Sim.when (by sim_iff) (fun _ => ?_)
  | refine Sim.when_bind (by sim_iff) (fun _ => ?_) ?_
  | refine Sim.ite_bind (by sim_iff) (fun _ => ?_) (fun _ => ?_) ?_)

variable {δ β γ β' γ' : Type} {md : Sma.Mode} {c : Sma.Cfg} {G : Slots.Env} {K : Pool.Layout δ} {E : PtrRep} {f : Nat → Nat}
  {S : Nat → Prop} {ro : Prop} {p p' q q' : Ptr}

attribute [local irreducible] Tree.touch Tree.getParent Tree.getLeft Tree.getRight Tree.setParent Tree.setLeft Tree.setRight
  Tree.getData Tree.setData Tree.allocNode Tree.constructNode Tree.destroyNode Tree.freeNode Tree.getRoot Tree.getSize
  Tree.setSize poolTree Prog.when

set_option linter.unusedSectionVars false

section
variable (hc : Sma.Legal c) (hi : Inj f S)
include hc hi

theorem leftRotate_sim (hp : PR f S p p') :
    Sim c G K E f S False (Tree.leftRotate p) (leftRotate (poolTree md c K E) p') (PR f S) := by
  unfold Tree.leftRotate leftRotate
  repeat sim1

macro_rules | `(tactic| sim_call) => `(tactic| exact leftRotate_sim (by assumption) (by assumption) (by sim_pr))

theorem rightRotate_sim (hp : PR f S p p') :
    Sim c G K E f S False (Tree.rightRotate p) (rightRotate (poolTree md c K E) p') (PR f S) := by
  unfold Tree.rightRotate rightRotate
  repeat sim1

macro_rules | `(tactic| sim_call) => `(tactic| exact rightRotate_sim (by assumption) (by assumption) (by sim_pr))

theorem height_sim : ∀ p p', PR f S p p' →
    Sim c G K E f S ro (Tree.height p) (height (poolTree md c K E) p') (Eq) := by
  refine Tree.height.fixpoint_induct (fun X => ∀ p p', PR f S p p' →
    Sim c G K E f S ro (X p) (height (poolTree md c K E) p') (Eq)) (adm_ptr _ _) ?_
  intro X ih p p' hp
  rw [height]
  repeat sim1

macro_rules | `(tactic| sim_call) => `(tactic| exact height_sim (by assumption) (by assumption) _ _ (by sim_pr))

theorem preClimb_sim : ∀ p p', PR f S p p' →
    Sim c G K E f S ro (Tree.preClimb p) (preClimb (poolTree md c K E) p') (PR f S) := by
  refine Tree.preClimb.fixpoint_induct (fun X => ∀ p p', PR f S p p' →
    Sim c G K E f S ro (X p) (preClimb (poolTree md c K E) p') (PR f S)) (adm_ptr _ _) ?_
  intro X ih p p' hp
  rw [preClimb]
  sim1
  refine Sim.ite (by sim_iff) (fun _ => ?_) (fun _ => by sim1)
  sim1
  refine Sim.ite (and_congr (by sim_iff) (by sim_iff)) (fun _ => by sim1) (fun _ => by sim1)

macro_rules | `(tactic| sim_call) => `(tactic| exact preClimb_sim (by assumption) (by assumption) _ _ (by sim_pr))

theorem nextPre_sim (hp : PR f S p p') :
    Sim c G K E f S ro (Tree.nextPre p) (nextPre (poolTree md c K E) p') (PR f S) := by
  unfold Tree.nextPre nextPre
  repeat sim1

macro_rules | `(tactic| sim_call) => `(tactic| exact nextPre_sim (by assumption) (by assumption) (by sim_pr))

theorem leftmost_sim : ∀ p p', PR f S p p' →
    Sim c G K E f S ro (Tree.leftmost p) (leftmost (poolTree md c K E) p') (PR f S) := by
  refine Tree.leftmost.fixpoint_induct (fun X => ∀ p p', PR f S p p' →
    Sim c G K E f S ro (X p) (leftmost (poolTree md c K E) p') (PR f S)) (adm_ptr _ _) ?_
  intro X ih p p' hp
  rw [leftmost]
  repeat sim1

macro_rules | `(tactic| sim_call) => `(tactic| exact leftmost_sim (by assumption) (by assumption) _ _ (by sim_pr))

theorem inClimb_sim : ∀ p p', PR f S p p' →
    Sim c G K E f S ro (Tree.inClimb p) (inClimb (poolTree md c K E) p') (PR f S) := by
  refine Tree.inClimb.fixpoint_induct (fun X => ∀ p p', PR f S p p' →
    Sim c G K E f S ro (X p) (inClimb (poolTree md c K E) p') (PR f S)) (adm_ptr _ _) ?_
  intro X ih p p' hp
  rw [inClimb]
  repeat sim1

macro_rules | `(tactic| sim_call) => `(tactic| exact inClimb_sim (by assumption) (by assumption) _ _ (by sim_pr))

theorem nextIn_sim (hp : PR f S p p') :
    Sim c G K E f S ro (Tree.nextIn p) (nextIn (poolTree md c K E) p') (PR f S) := by
  unfold Tree.nextIn nextIn
  repeat sim1

macro_rules | `(tactic| sim_call) => `(tactic| exact nextIn_sim (by assumption) (by assumption) (by sim_pr))

theorem postDescend_sim : ∀ p p', PR f S p p' →
    Sim c G K E f S ro (Tree.postDescend p) (postDescend (poolTree md c K E) p') (PR f S) := by
  refine Tree.postDescend.fixpoint_induct (fun X => ∀ p p', PR f S p p' →
    Sim c G K E f S ro (X p) (postDescend (poolTree md c K E) p') (PR f S)) (adm_ptr _ _) ?_
  intro X ih p p' hp
  rw [postDescend]
  repeat sim1

macro_rules | `(tactic| sim_call) => `(tactic| exact postDescend_sim (by assumption) (by assumption) _ _ (by sim_pr))

theorem postClimb_sim : ∀ p p', PR f S p p' →
    Sim c G K E f S ro (Tree.postClimb p) (postClimb (poolTree md c K E) p') (PR f S) := by
  refine Tree.postClimb.fixpoint_induct (fun X => ∀ p p', PR f S p p' →
    Sim c G K E f S ro (X p) (postClimb (poolTree md c K E) p') (PR f S)) (adm_ptr _ _) ?_
  intro X ih p p' hp
  rw [postClimb]
  repeat sim1

macro_rules | `(tactic| sim_call) => `(tactic| exact postClimb_sim (by assumption) (by assumption) _ _ (by sim_pr))

theorem nextPost_sim (hp : PR f S p p') :
    Sim c G K E f S ro (Tree.nextPost p) (nextPost (poolTree md c K E) p') (PR f S) := by
  unfold Tree.nextPost nextPost
  repeat sim1

macro_rules | `(tactic| sim_call) => `(tactic| exact nextPost_sim (by assumption) (by assumption) (by sim_pr))

theorem preTraversal_sim {m : β → γ} {cb : Ptr → Prog (St δ) (List β)} {cb' : Ptr → Prog PSt (List γ)}
    (hcb : ∀ p p', PR f S p p' → Sim c G K E f S ro (cb p) (cb' p') fun a a' => a' = a.map m) : ∀ p p', PR f S p p' →
    Sim c G K E f S ro (Tree.preTraversal p cb) (preTraversal (poolTree md c K E) p' cb') fun a a' => a' = a.map m := by
  refine Tree.preTraversal.fixpoint_induct cb (fun X => ∀ p p', PR f S p p' →
    Sim c G K E f S ro (X p) (preTraversal (poolTree md c K E) p' cb') fun a a' => a' = a.map m) (adm_ptr (fun p' => preTraversal (poolTree md c K E) p' cb') _) ?_
  intro X ih p p' hp
  rw [preTraversal]
  repeat sim1

theorem inTraversal_sim {m : β → γ} {cb : Ptr → Prog (St δ) (List β)} {cb' : Ptr → Prog PSt (List γ)}
    (hcb : ∀ p p', PR f S p p' → Sim c G K E f S ro (cb p) (cb' p') fun a a' => a' = a.map m) : ∀ p p', PR f S p p' →
    Sim c G K E f S ro (Tree.inTraversal p cb) (inTraversal (poolTree md c K E) p' cb') fun a a' => a' = a.map m := by
  refine Tree.inTraversal.fixpoint_induct cb (fun X => ∀ p p', PR f S p p' →
    Sim c G K E f S ro (X p) (inTraversal (poolTree md c K E) p' cb') fun a a' => a' = a.map m) (adm_ptr (fun p' => inTraversal (poolTree md c K E) p' cb') _) ?_
  intro X ih p p' hp
  rw [inTraversal]
  repeat sim1

theorem postTraversal_sim {m : β → γ} {cb : Ptr → Prog (St δ) (List β)} {cb' : Ptr → Prog PSt (List γ)}
    (hcb : ∀ p p', PR f S p p' → Sim c G K E f S ro (cb p) (cb' p') fun a a' => a' = a.map m) : ∀ p p', PR f S p p' →
    Sim c G K E f S ro (Tree.postTraversal p cb) (postTraversal (poolTree md c K E) p' cb') fun a a' => a' = a.map m := by
  refine Tree.postTraversal.fixpoint_induct cb (fun X => ∀ p p', PR f S p p' →
    Sim c G K E f S ro (X p) (postTraversal (poolTree md c K E) p' cb') fun a a' => a' = a.map m) (adm_ptr (fun p' => postTraversal (poolTree md c K E) p' cb') _) ?_
  intro X ih p p' hp
  rw [postTraversal]
  repeat sim1

theorem empty_sim : Sim c G K E f S ro Tree.empty (empty (poolTree md c K E)) Eq := by
  unfold Tree.empty empty
  repeat sim1

theorem firstNode_sim {o : Order} (hp : PR f S p p') :
    Sim c G K E f S ro (Tree.firstNode p o) (firstNode (poolTree md c K E) p' o) (PR f S) := by
  unfold Tree.firstNode firstNode
  repeat sim1

macro_rules | `(tactic| sim_call) => `(tactic| exact firstNode_sim (by assumption) (by assumption) (by sim_pr))

theorem updateRoot_sim (hp : PR f S p p') :
    Sim c G K E f S False (Tree.updateRoot p) (updateRoot (poolTree md c K E) p') (Eq) := by
  unfold Tree.updateRoot updateRoot
  repeat sim1

macro_rules | `(tactic| sim_call) => `(tactic| exact updateRoot_sim (by assumption) (by assumption) (by sim_pr))

section
variable (hfit : 8 * nodeWords K + 8 < 2 ^ 31)
include hfit

theorem releaseNode_sim (p p' : Ptr) (hp : PR f S p p') :
    Sim c G K E f S False (Tree.releaseNode p) (releaseNode (poolTree md c K E) p') fun a a' => a' = a.map id := by
  unfold Tree.releaseNode releaseNode
  repeat sim1

theorem clearRoot_sim : Sim c G K E f S False Tree.clearRoot (clearRoot (poolTree md c K E)) Eq := by
  unfold Tree.clearRoot clearRoot
  sim1
  sim1
  · refine Sim.bind (postTraversal_sim hc hi (releaseNode_sim hc hi hfit) _ _ (by sim_pr)) ?_
    intro _ _ _
    sim1
  · sim1

macro_rules | `(tactic| sim_call) => `(tactic| exact clearRoot_sim (by assumption) (by assumption) (by assumption))

theorem clear_sim : Sim c G K E f S False Tree.clear (clear (poolTree md c K E)) Eq := by
  unfold Tree.clear clear
  repeat sim1

end

/-- The node at its address. -/
def moved (f : Nat → Nat) (x : Nat × δ) : Nat × δ := (f x.1, x.2)

theorem visit_sim (p p' : Ptr) (hp : PR f S p p') :
    Sim c G K E f S ro (Tree.visit p) (visit (poolTree md c K E) p') fun a a' => a' = a.map (moved f) := by
  unfold Tree.visit visit
  apply Sim.bind
  · exact touch_sim hc (by sim_pr)
  rintro n _ ⟨rfl, hn⟩
  sim1
  exact Sim.pure rfl

theorem traversal_sim (o : Order) :
    Sim c G K E f S ro (Tree.traversal o) (traversal (poolTree md c K E) o) fun a a' => a' = a.map (moved f) := by
  unfold Tree.traversal traversal
  sim1
  sim1
  cases o
  · exact preTraversal_sim hc hi (visit_sim hc hi) _ _ (by sim_pr)
  · exact inTraversal_sim hc hi (visit_sim hc hi) _ _ (by sim_pr)
  · exact postTraversal_sim hc hi (visit_sim hc hi) _ _ (by sim_pr)

theorem nextFn_sim (o : Order) (hp : PR f S p p') :
    Sim c G K E f S ro (Tree.nextFn o p) (nextFn (poolTree md c K E) o p') (PR f S) := by
  cases o
  · exact nextPre_sim hc hi hp
  · exact nextIn_sim hc hi hp
  · exact nextPost_sim hc hi hp

macro_rules | `(tactic| sim_call) => `(tactic| exact nextFn_sim (by assumption) (by assumption) _ (by sim_pr))

theorem begin_sim (o : Order) :
    Sim c G K E f S ro (Tree.begin_ o) (begin_ (poolTree md c K E) o) (PR f S) := by
  unfold Tree.begin_ begin_
  repeat sim1

macro_rules | `(tactic| sim_call) => `(tactic| exact begin_sim (by assumption) (by assumption) _)

theorem iterFrom_sim (o : Order) : ∀ p p', PR f S p p' →
    Sim c G K E f S ro (Tree.iterFrom o p) (iterFrom (poolTree md c K E) o p') fun a a' => a' = a.map (moved f) := by
  refine Tree.iterFrom.fixpoint_induct o (fun X => ∀ p p', PR f S p p' →
    Sim c G K E f S ro (X p) (iterFrom (poolTree md c K E) o p') fun a a' => a' = a.map (moved f)) (adm_ptr _ _) ?_
  intro X ih p p' hp
  rw [iterFrom]
  sim1
  · exact Sim.pure rfl
  apply Sim.bind
  · exact touch_sim hc (by sim_pr)
  rintro n _ ⟨rfl, hn⟩
  repeat sim1

macro_rules | `(tactic| sim_call) => `(tactic| exact iterFrom_sim (by assumption) (by assumption) _ _ _ (by sim_pr))

theorem iterate_sim (o : Order) :
    Sim c G K E f S ro (Tree.iterate o) (iterate (poolTree md c K E) o) fun a a' => a' = a.map (moved f) := by
  unfold Tree.iterate iterate
  repeat sim1

end

end Verif.TPool
