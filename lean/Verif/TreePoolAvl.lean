import Verif.TreePoolBst

/-! Helper lemmas: the functions of `AVLTree` do on the bytes of the static pool what they do on nodes with
identifiers. -/

namespace Verif.TPool.A

open Prog Lean.Order
open Verif.Tree (Ptr Order)
open Verif.AVL (D St)
open Verif.Pool (returns_bind)

variable {α : Type} {md : Sma.Mode} {c : Sma.Cfg} {G : Slots.Env} {K : Pool.Layout (D α)} {E : PtrRep} {f : Nat → Nat}
  {S : Nat → Prop} {ro : Prop} {p p' q q' : Ptr} {lt : α → α → Bool}

attribute [local irreducible] Tree.touch Tree.getParent Tree.getLeft Tree.getRight Tree.setParent Tree.setLeft Tree.setRight
  Tree.getData Tree.setData Tree.allocNode Tree.constructNode Tree.destroyNode Tree.freeNode Tree.getRoot Tree.getSize
  Tree.setSize poolTree Prog.when Tree.leftRotate TPool.leftRotate Tree.rightRotate TPool.rightRotate Tree.firstNode
  firstNode Tree.nextIn nextIn Tree.updateRoot updateRoot

set_option linter.unusedSectionVars false

/-- The same argument. -/
def ArgR (f : Nat → Nat) (S : Nat → Prop) : AVL.Arg α → AVL.Arg α → Prop
  | .val x, .val y => x = y
  | .ref p, .ref p' => PR f S p p'
  | _, _ => False

section
variable (hc : Sma.Legal c) (hi : Inj f S)
include hc hi

theorem readArg_sim {o o' : AVL.Arg α} (ho : ArgR f S o o') :
    Sim c G K E f S ro (AVL.readArg o) (readArg (poolTree md c K E) o') Eq := by
  cases o <;> cases o'
  · exact Sim.pure ho
  · exact ho.elim
  · exact ho.elim
  · have ho : PR f S _ _ := ho
    unfold AVL.readArg readArg
    repeat sim1

macro_rules | `(tactic| sim_call) => `(tactic| exact readArg_sim (by assumption) (by assumption) (by assumption))

theorem heightOf_sim (hp : PR f S p p') :
    Sim c G K E f S ro (AVL.heightOf p) (heightOf (poolTree md c K E) p') (Eq) := by
  unfold AVL.heightOf heightOf
  repeat sim1

macro_rules | `(tactic| sim_call) => `(tactic| exact heightOf_sim (by assumption) (by assumption) (by sim_pr))

attribute [local irreducible] AVL.heightOf heightOf

theorem setHeight_sim (hp : PR f S p p') (h : Int) :
    Sim c G K E f S False (AVL.setHeight p h) (setHeight (poolTree md c K E) p' h) Eq := by
  unfold AVL.setHeight setHeight
  repeat sim1

macro_rules | `(tactic| sim_call) => `(tactic| exact setHeight_sim (by assumption) (by assumption) (by sim_pr) _)

attribute [local irreducible] AVL.setHeight setHeight

theorem updateHeight_sim (hp : PR f S p p') :
    Sim c G K E f S False (AVL.updateHeight p) (updateHeight (poolTree md c K E) p') (Eq) := by
  unfold AVL.updateHeight updateHeight
  repeat sim1

macro_rules | `(tactic| sim_call) => `(tactic| exact updateHeight_sim (by assumption) (by assumption) (by sim_pr))

attribute [local irreducible] AVL.updateHeight updateHeight

theorem balanceFactor_sim (hp : PR f S p p') :
    Sim c G K E f S ro (AVL.balanceFactor p) (balanceFactor (poolTree md c K E) p') (Eq) := by
  unfold AVL.balanceFactor balanceFactor
  repeat sim1

macro_rules | `(tactic| sim_call) => `(tactic| exact balanceFactor_sim (by assumption) (by assumption) (by sim_pr))

attribute [local irreducible] AVL.balanceFactor balanceFactor

theorem leftRotate_sim (hp : PR f S p p') :
    Sim c G K E f S False (AVL.leftRotate p) (leftRotate (poolTree md c K E) p') (PR f S) := by
  unfold AVL.leftRotate leftRotate
  repeat sim1

macro_rules | `(tactic| sim_call) => `(tactic| exact leftRotate_sim (by assumption) (by assumption) (by sim_pr))

attribute [local irreducible] AVL.leftRotate leftRotate

theorem rightRotate_sim (hp : PR f S p p') :
    Sim c G K E f S False (AVL.rightRotate p) (rightRotate (poolTree md c K E) p') (PR f S) := by
  unfold AVL.rightRotate rightRotate
  repeat sim1

macro_rules | `(tactic| sim_call) => `(tactic| exact rightRotate_sim (by assumption) (by assumption) (by sim_pr))

attribute [local irreducible] AVL.rightRotate rightRotate

theorem checkAndBalance_sim (hp : PR f S p p') :
    Sim c G K E f S False (AVL.checkAndBalance p) (checkAndBalance (poolTree md c K E) p') (PR f S) := by
  unfold AVL.checkAndBalance checkAndBalance
  repeat sim1

macro_rules | `(tactic| sim_call) => `(tactic| exact checkAndBalance_sim (by assumption) (by assumption) (by sim_pr))

attribute [local irreducible] AVL.checkAndBalance checkAndBalance

theorem rebalanceAfterDelete_sim : ∀ p p', PR f S p p' →
    Sim c G K E f S False (AVL.rebalanceAfterDelete p) (rebalanceAfterDelete (poolTree md c K E) p') Eq := by
  refine AVL.rebalanceAfterDelete.fixpoint_induct (fun X => ∀ p p', PR f S p p' →
    Sim c G K E f S False (X p) (rebalanceAfterDelete (poolTree md c K E) p') Eq) (adm_ptr _ _) ?_
  intro X ih p p' hp
  rw [rebalanceAfterDelete]
  repeat sim1

macro_rules | `(tactic| sim_call) => `(tactic| exact rebalanceAfterDelete_sim (by assumption) (by assumption) _ _ (by sim_pr))

theorem insert_sim (hfit : 8 * nodeWords K + 8 < 2 ^ 31) (x : α) : ∀ p q p' q', PR f S p p' → PR f S q q' →
    SimX md c G K E f S (AVL.insert lt (fail .assert) p x q) (insert (poolTree md c K E) lt (fail .assert) p' x q') PR := by
  refine AVL.insert.fixpoint_induct lt (fail .assert) x (fun X => ∀ p q p' q', PR f S p p' → PR f S q q' →
    SimX md c G K E f S (X p q) (insert (poolTree md c K E) lt (fail .assert) p' x q') PR)
    (adm_twoX (fun p' q' => insert (poolTree md c K E) lt (fail .assert) p' x q') _ _ _) ?_
  intro X ih p q p' q' hp hq
  rw [insert]
  refine SimX.ite (by sim_iff) (fun _ => ?_) fun _ => ?_
  · refine SimX.alloc hc hfit (fun _ _ _ _ => faults_bind (construct_zero _ _)) ?_
    intro f' S' hext hi' n hn
    have hq := hq.ext hext
    refine Sim.bind (construct_sim hc _) fun _ _ _ => ?_
    repeat sim1
  · refine SimX.bindR (getData_sim hc hp) ?_
    rintro d _ rfl
    refine SimX.ite Iff.rfl (fun _ => ?_) fun _ => ?_
    · refine SimX.bindR (getLeft_sim hc hp) fun l l' hl => ?_
      refine SimX.bindW (ih _ _ _ _ hl hp) fun f' S' hext hi' t t' ht => ?_
      have hp := hp.ext hext
      sim1
      sim1
      sim1
      sim1
      sim1
      refine Sim.bind (A := PR f' S') (Sim.ite Iff.rfl (fun _ => ?_) (fun _ => ?_)) (fun _ _ _ => ?_)
      · repeat sim1
      · repeat sim1
      · repeat sim1
    · refine SimX.ite Iff.rfl (fun _ => ?_) fun _ => SimX.of hi Sim.fail
      refine SimX.bindR (getRight_sim hc hp) fun l l' hl => ?_
      refine SimX.bindW (ih _ _ _ _ hl hp) fun f' S' hext hi' t t' ht => ?_
      have hp := hp.ext hext
      sim1
      sim1
      sim1
      sim1
      sim1
      refine Sim.bind (A := PR f' S') (Sim.ite Iff.rfl (fun _ => ?_) (fun _ => ?_)) (fun _ _ _ => ?_)
      · repeat sim1
      · repeat sim1
      · repeat sim1

theorem push_sim (hfit : 8 * nodeWords K + 8 < 2 ^ 31) (x : α) :
    SimX md c G K E f S (AVL.push lt x) (push (poolTree md c K E) lt x) fun _ _ => Eq := by
  unfold AVL.push push AVL.pushOr pushOr
  refine SimX.bindR getRoot_sim fun r r' hr => ?_
  refine SimX.bindW (insert_sim hc hi hfit x _ _ _ _ hr PR.null) fun f' S' hext hi' t t' ht => ?_
  repeat sim1

theorem replaceChild_sim {a a' b b' : Ptr} (hp : PR f S p p') (ha : PR f S a a') (hb : PR f S b b') :
    Sim c G K E f S False (AVL.replaceChild p a b) (replaceChild (poolTree md c K E) p' a' b') (Eq) := by
  unfold AVL.replaceChild replaceChild
  repeat sim1

macro_rules | `(tactic| sim_call) => `(tactic| exact replaceChild_sim (by assumption) (by assumption) (by sim_pr) (by sim_pr) (by sim_pr))

attribute [local irreducible] AVL.replaceChild replaceChild

theorem swapAdjacent_sim {a a' b b' d d' e e' g g' i i' : Ptr} (hp : PR f S p p') (ha : PR f S a a') (hb : PR f S b b') (hd : PR f S d d') (he : PR f S e e') (hg : PR f S g g') (hi : PR f S i i') :
    Sim c G K E f S False (AVL.swapAdjacent p a b d e g i) (swapAdjacent (poolTree md c K E) p' a' b' d' e' g' i') (Eq) := by
  unfold AVL.swapAdjacent swapAdjacent
  repeat sim1

macro_rules | `(tactic| sim_call) => `(tactic| exact swapAdjacent_sim (by assumption) (by assumption) (by sim_pr) (by sim_pr) (by sim_pr) (by sim_pr) (by sim_pr) (by sim_pr) (by sim_pr))

attribute [local irreducible] AVL.swapAdjacent swapAdjacent

theorem swapApart_sim {a a' b b' d d' e e' g g' i i' j j' : Ptr} (hp : PR f S p p') (ha : PR f S a a') (hb : PR f S b b') (hd : PR f S d d') (he : PR f S e e') (hg : PR f S g g') (hi : PR f S i i') (hj : PR f S j j') :
    Sim c G K E f S False (AVL.swapApart p a b d e g i j) (swapApart (poolTree md c K E) p' a' b' d' e' g' i' j') (Eq) := by
  unfold AVL.swapApart swapApart
  repeat sim1

macro_rules | `(tactic| sim_call) => `(tactic| exact swapApart_sim (by assumption) (by assumption) (by sim_pr) (by sim_pr) (by sim_pr) (by sim_pr) (by sim_pr) (by sim_pr) (by sim_pr) (by sim_pr))

attribute [local irreducible] AVL.swapApart swapApart

theorem swapFinish_sim (hp : PR f S p p') (hq : PR f S q q') :
    Sim c G K E f S False (AVL.swapFinish p q) (swapFinish (poolTree md c K E) p' q')
      fun a a' => PR f S a.1 a'.1 ∧ PR f S a.2 a'.2 := by
  unfold AVL.swapFinish swapFinish
  iterate 4 sim1
  repeat sim1

theorem swapNode_sim (hp : PR f S p p') (hq : PR f S q q') :
    Sim c G K E f S False (AVL.swapNode p q) (swapNode (poolTree md c K E) p' q')
      fun a a' => PR f S a.1 a'.1 ∧ PR f S a.2 a'.2 := by
  unfold AVL.swapNode swapNode
  apply Sim.bind
  · exact getParent_sim hc hp
  intro pa pa' hpa
  have key : ∀ a b a' b', PR f S a a' → PR f S b b' → Sim c G K E f S False
      (do
        let aParent ← Tree.getParent a
        let aLeft ← Tree.getLeft a
        let aRight ← Tree.getRight a
        let bParent ← Tree.getParent b
        let bLeft ← Tree.getLeft b
        let bRight ← Tree.getRight b
        (if bParent = a then AVL.swapAdjacent a b aParent aLeft aRight bLeft bRight
          else AVL.swapApart a b aParent aLeft aRight bParent bLeft bRight)
        AVL.swapFinish a b)
      (do
        let aParent ← (poolTree md c K E).getParent a'
        let aLeft ← (poolTree md c K E).getLeft a'
        let aRight ← (poolTree md c K E).getRight a'
        let bParent ← (poolTree md c K E).getParent b'
        let bLeft ← (poolTree md c K E).getLeft b'
        let bRight ← (poolTree md c K E).getRight b'
        (if bParent = a' then swapAdjacent (poolTree md c K E) a' b' aParent aLeft aRight bLeft bRight
          else swapApart (poolTree md c K E) a' b' aParent aLeft aRight bParent bLeft bRight)
        swapFinish (poolTree md c K E) a' b')
      fun a a' => PR f S a.1 a'.1 ∧ PR f S a.2 a'.2 := by
    intro a b a' b' ha hb
    iterate 7 sim1
    · sim1
    · sim1
    · exact swapFinish_sim hc hi ha hb
  have he := PR.eq_iff hi hpa hq
  by_cases h : pa = q
  · rw [if_pos h, if_pos (he.1 h)]
    exact key _ _ _ _ hq hp
  · rw [if_neg h, if_neg (fun e => h (he.2 e))]
    exact key _ _ _ _ hp hq

theorem relink_sim {a a' : Ptr} (hp : PR f S p p') (hq : PR f S q q') (ha : PR f S a a') :
    Sim c G K E f S False (AVL.relink p q a) (relink (poolTree md c K E) p' q' a') Eq := by
  unfold AVL.relink relink
  repeat sim1

macro_rules | `(tactic| sim_call) => `(tactic| exact relink_sim (by assumption) (by assumption) (by sim_pr) (by sim_pr) (by sim_pr))

section
variable (hfit : 8 * nodeWords K + 8 < 2 ^ 31)
include hfit

theorem realDelete_sim (hp : PR f S p p') :
    Sim c G K E f S False (AVL.realDelete p) (realDelete (poolTree md c K E) p') Eq := by
  unfold AVL.realDelete realDelete
  repeat sim1

macro_rules | `(tactic| sim_call) => `(tactic| exact realDelete_sim (by assumption) (by assumption) (by assumption) (by sim_pr))

theorem deleteByTarget_sim : ∀ p p', PR f S p p' →
    Sim c G K E f S False (AVL.deleteByTarget p) (deleteByTarget (poolTree md c K E) p') (PR f S) := by
  refine AVL.deleteByTarget.fixpoint_induct (fun X => ∀ p p', PR f S p p' →
    Sim c G K E f S False (X p) (deleteByTarget (poolTree md c K E) p') (PR f S)) (adm_ptr _ _) ?_
  intro X ih p p' hp
  rw [deleteByTarget]
  sim1
  · sim1
  sim1
  sim1
  sim1
  rename_i l l' hl r r' hr
  refine Sim.ite (and_congr (by sim_iff) (by sim_iff)) (fun _ => by repeat sim1) (fun _ => ?_)
  refine Sim.ite (and_congr (by sim_iff) (by sim_iff)) (fun _ => ?_) (fun _ => ?_)
  · sim1
    refine Sim.bind (swapNode_sim hc hi (by sim_pr) (by sim_pr)) ?_
    rintro ⟨a, b⟩ ⟨a', b'⟩ ⟨ha, hb⟩
    sim1
  · have hch : PR f S (if l ≠ none then l else r) (if l' ≠ none then l' else r') := by
      by_cases h : l = none
      · rw [if_neg (fun e => e h), if_neg (fun e => e (hl.none_iff.1 h))]; exact hr
      · rw [if_pos h, if_pos (fun e => h (hl.none_iff.2 e))]; exact hl
    show Sim c G K E f S False (Tree.setParent (if l ≠ none then l else r) _ >>= _)
      ((poolTree md c K E).setParent (if l' ≠ none then l' else r') _ >>= _) _
    generalize (if l ≠ none then l else r) = sub at hch ⊢
    generalize (if l' ≠ none then l' else r') = sub' at hch ⊢
    repeat sim1

macro_rules | `(tactic| sim_call) => `(tactic| exact deleteByTarget_sim (by assumption) (by assumption) (by assumption) _ _ (by sim_pr))

theorem delete_sim {o o' : AVL.Arg α} (ho : ArgR f S o o') : ∀ p p', PR f S p p' →
    Sim c G K E f S False (AVL.delete lt p o) (delete (poolTree md c K E) lt p' o') (PR f S) := by
  refine AVL.delete.fixpoint_induct lt o (fun X => ∀ p p', PR f S p p' →
    Sim c G K E f S False (X p) (delete (poolTree md c K E) lt p' o') (PR f S))
    (adm_ptr (fun p' => delete (poolTree md c K E) lt p' o') _) ?_
  intro X ih p p' hp
  rw [delete]
  sim1
  sim1
  sim1
  · repeat sim1
  sim1
  · repeat sim1
  sim1
  sim1
  rename_i l l' hl r r' hr
  refine Sim.ite (and_congr (by sim_iff) (by sim_iff)) (fun _ => ?_) (fun _ => ?_)
  · sim1
    refine Sim.bind (swapNode_sim hc hi (by sim_pr) (by sim_pr)) ?_
    rintro ⟨a, b⟩ ⟨a', b'⟩ ⟨ha, hb⟩
    repeat sim1
  · have hch : PR f S (if l = none then r else l) (if l' = none then r' else l') := by
      by_cases h : l = none
      · rw [if_pos h, if_pos (hl.none_iff.1 h)]; exact hr
      · rw [if_neg h, if_neg (fun e => h (hl.none_iff.2 e))]; exact hl
    show Sim c G K E f S False (Prog.when ((if l = none then r else l) ≠ none) _ >>= _)
      (Prog.when ((if l' = none then r' else l') ≠ none) _ >>= _) _
    generalize (if l = none then r else l) = sub at hch ⊢
    generalize (if l' = none then r' else l') = sub' at hch ⊢
    repeat sim1

theorem pop_sim {o o' : AVL.Arg α} (ho : ArgR f S o o') :
    Sim c G K E f S False (AVL.pop lt o) (pop (poolTree md c K E) lt o') Eq := by
  unfold AVL.pop pop
  sim1
  sim1
  · sim1
  sim1
  refine Sim.bind (delete_sim hc hi hfit ho _ _ (by sim_pr)) fun _ _ _ => ?_
  repeat sim1

end

theorem findFrom_sim (x : α) : ∀ p p', PR f S p p' →
    Sim c G K E f S ro (AVL.findFrom lt p x) (findFrom (poolTree md c K E) lt p' x) (PR f S) := by
  refine AVL.findFrom.fixpoint_induct lt x (fun X => ∀ p p', PR f S p p' →
    Sim c G K E f S ro (X p) (findFrom (poolTree md c K E) lt p' x) (PR f S))
    (adm_ptr (fun p' => findFrom (poolTree md c K E) lt p' x) _) ?_
  intro X ih p p' hp
  rw [findFrom]
  repeat sim1

macro_rules | `(tactic| sim_call) => `(tactic| exact findFrom_sim (by assumption) (by assumption) _ _ _ (by sim_pr))

theorem find_sim (x : α) : Sim c G K E f S ro (AVL.find lt x) (find (poolTree md c K E) lt x) (PR f S) := by
  unfold AVL.find find
  repeat sim1

macro_rules | `(tactic| sim_call) => `(tactic| exact find_sim (by assumption) (by assumption) _)

theorem erase_sim (hfit : 8 * nodeWords K + 8 < 2 ^ 31) (hp : PR f S p p') :
    Sim c G K E f S False (AVL.erase lt p) (erase (poolTree md c K E) lt p') (PR f S) := by
  unfold AVL.erase erase
  repeat sim1

theorem height_sim : Sim c G K E f S ro AVL.height (height (poolTree md c K E)) Eq := by
  unfold AVL.height height
  repeat sim1

theorem readIt_sim (hp : PR f S p p') :
    Sim c G K E f S ro (AVL.readIt p) (readIt (poolTree md c K E) p') Eq := by
  unfold AVL.readIt readIt AVL.deref deref
  sim1
  · sim1
  · refine Sim.bind (A := Eq) (by repeat sim1) ?_
    rintro a _ rfl
    sim1

theorem elements_sim : Sim c G K E f S ro AVL.elements (elements (poolTree md c K E)) Eq := by
  unfold AVL.elements elements
  refine Sim.bind (iterate_sim hc hi .ino) ?_
  rintro ds _ rfl
  refine Sim.pure ?_
  rw [List.map_map]; rfl

end

end Verif.TPool.A
