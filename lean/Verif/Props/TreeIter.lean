import Verif.TreeIter
import Verif.Props.Tree

/-! # Tree iterators are values (C82) -/

namespace Verif.TreeIter

open Prog Verif.Tree

variable {δ I : Type}

/-! ## Specification: an iterator is a position in one of the orders of the tree -/

/-- A position `i` (the end when `i` is the number of nodes) in order `o`, or an iterator that was moved from. -/
inductive SIt
  | at (o : Order) (i : Nat)
  | gone
  deriving DecidableEq

abbrev Spec := Nat → Option SIt

def Spec.put (w : Spec) (k : Nat) (v : Option SIt) : Spec := fun x => if x = k then v else w x

/-- The next position among `n` elements; the end stays the end. -/
def succ (n i : Nat) : Nat := if i < n then i + 1 else i

/-- The meaning of a statement over a tree with `n` nodes; `none` when its precondition fails (unknown or
existing names, use of a moved-from iterator other than assigning to it). -/
def specStep (n : Nat) : Op → Spec → Option Spec
  | .begin_ k o, w => if (w k).isNone then some (w.put k (some (.at o 0))) else none
  | .end_ k o, w => if (w k).isNone then some (w.put k (some (.at o n))) else none
  | .newCopy d s, w => match w d, w s with
    | none, some (.at o i) => some (w.put d (some (.at o i)))
    | _, _ => none
  | .newMove d s, w => match w d, w s with
    | none, some (.at o i) => some ((w.put d (some (.at o i))).put s (some .gone))
    | _, _ => none
  | .copy d s, w => match w d, w s with
    | some _, some (.at o i) => some (w.put d (some (.at o i)))
    | _, _ => none
  | .move d s, w => match w d, w s with
    | some _, some (.at o i) => if d = s then some w else some ((w.put d (some (.at o i))).put s (some .gone))
    | _, _ => none
  | .inc k, w => match w k with
    | some (.at o i) => some (w.put k (some (.at o (succ n i))))
    | _ => none
  | .newPostInc d k, w => match w d, w k with
    | none, some (.at o i) => some ((w.put k (some (.at o (succ n i)))).put d (some (.at o i)))
    | _, _ => none
  | .postInc d k, w => match w d, w k with
    | some _, some (.at o i) => some ((w.put k (some (.at o (succ n i)))).put d (some (.at o i)))
    | _, _ => none
  | .drop k, w => if (w k).isSome then some (w.put k none) else none

def specRun (n : Nat) : List Op → Spec → Option Spec
  | [], w => some w
  | op :: ops, w => (specStep n op w).bind (specRun n ops)

/-- The situations in which the code goes wrong: `begin()` of an empty tree (C42), post-order iteration (C48), and
moving an iterator to itself. -/
def Avoids (t : T δ) : Op → Prop
  | .begin_ _ o => o = .pre ∨ (o = .ino ∧ t ≠ .nil)
  | .end_ _ o => o ≠ .post
  | .move d s => d ≠ s
  | _ => True

/-- What the observers show: the iterators alive; dereferencing gives the node at the position; two iterators
of the same order are equal exactly when their positions are. -/
def Shows (c : Impl δ I) (t : T δ) (w : World δ I) (sw : Spec) : Prop :=
  (∀ k, sw k = none ↔ w.its k = none) ∧
  (∀ k o i (h : i < (t.order o).length), sw k = some (.at o i) → Returns (deref c k) w (t.order o)[i] w) ∧
  ∀ j k o i i', sw j = some (.at o i) → sw k = some (.at o i') →
    Returns (eq c j k) w (decide (i = i')) w

/-! ## Proof -/

/-- What both classes of iterators satisfy. -/
structure Lawful (c : Impl δ I) : Prop where
  ptr : ∀ p o, c.ptr (c.make p o) = p
  copy : ∀ p o, c.copy (c.make p o) = c.make p o
  move : ∀ p o, (c.moveFrom (c.make p o)).1 = c.make p o
  inc : ∀ p o s q, Returns (nextFn o p) s q s → Returns (c.inc (c.make p o)) s (c.make q o) s
  postInc : ∀ p o s q, Returns (nextFn o p) s q s →
    Returns (c.postInc (c.make p o)) s (c.make p o, c.make q o) s

theorem plain_lawful : Lawful (plain δ) where
  ptr _ _ := rfl
  copy _ _ := rfl
  move _ _ := rfl
  inc p o s q h := by
    show (nextFn o p >>= _) s = _
    rw [bind_returns h]; rfl
  postInc p o s q h := by
    show (nextFn o p >>= _) s = _
    rw [bind_returns h]; rfl

theorem avl_lawful : Lawful (avl δ) where
  ptr _ _ := rfl
  copy _ _ := rfl
  move _ _ := rfl
  inc p o s q h := by
    show ((nextFn o p >>= _) >>= _) s = _
    rw [bind_assoc, bind_returns h]; rfl
  postInc p o s q h := by
    show ((nextFn o p >>= _) >>= _) s = _
    rw [bind_assoc, bind_returns h]; rfl

/-- The pointer of an iterator at position `i`. -/
def ptrAt (t : T δ) (o : Order) (i : Nat) : Ptr := hd ((t.order o).drop i)

theorem next_at {s : St δ} {t : T δ} (h : IsTree s t) {o : Order} (ho : o ≠ .post) {i : Nat}
    (hi : i ≤ (t.order o).length) :
    Returns (nextFn o (ptrAt t o i)) s (ptrAt t o (succ (t.order o).length i)) s := by
  unfold succ
  split
  · rename_i hlt
    have e : t.order o = (t.order o).take i ++ (t.order o)[i] :: (t.order o).drop (i + 1) := by
      rw [List.getElem_cons_drop, List.take_append_drop]
    have e2 : ptrAt t o i = some (t.order o)[i].1 := by
      unfold ptrAt
      rw [List.drop_eq_getElem_cons hlt]; rfl
    rw [e2]
    unfold ptrAt
    generalize (t.order o).take i = xs, (t.order o).drop (i + 1) = ys, (t.order o)[i] = a at e
    obtain ⟨p, d⟩ := a
    cases o with
    | post => exact absurd rfl ho
    | ino =>
      obtain ⟨c, l, r, e1, e2, e3⟩ := split_in .top e
      simp only [Ctx.plug, Ctx.after, List.append_nil] at e1 e3
      rw [e1] at h
      exact e3 ▸ nextIn_at h.at
    | pre =>
      obtain ⟨c, l, r, e1, e3⟩ := split_pre .top e
      simp only [Ctx.plug, Ctx.afterPre, List.append_nil] at e1 e3
      rw [e1] at h
      exact e3 ▸ nextPre_at h.at
  · have : ptrAt t o i = none := by
      unfold ptrAt
      rw [List.drop_eq_nil_of_le (by omega)]; rfl
    rw [this]
    exact next_end s o

/-- Memory holds the tree, and every iterator is as if newly made at its position. -/
structure Inv (c : Impl δ I) (s : St δ) (t : T δ) (w : World δ I) (sw : Spec) : Prop where
  mem : w.mem = s
  its : ∀ k, match sw k with
    | none => w.its k = none
    | some .gone => ∃ i, w.its k = some i
    | some (.at o i) => o ≠ .post ∧ i ≤ t.count ∧ w.its k = some (c.make (ptrAt t o i) o)

theorem Inv.at {c : Impl δ I} {s : St δ} {t : T δ} {w : World δ I} {sw : Spec} (h : Inv c s t w sw) {k : Nat}
    {o : Order} {i : Nat} (hk : sw k = some (.at o i)) :
    o ≠ .post ∧ i ≤ t.count ∧ w.its k = some (c.make (ptrAt t o i) o) := by
  have := h.its k
  rw [hk] at this
  exact this

theorem Inv.live {c : Impl δ I} {s : St δ} {t : T δ} {w : World δ I} {sw : Spec} (h : Inv c s t w sw) {k : Nat}
    {v : SIt} (hk : sw k = some v) : ∃ i, w.its k = some i := by
  have := h.its k
  rw [hk] at this
  cases v with
  | gone => exact this
  | _ => exact ⟨_, this.2.2⟩

theorem Inv.put {c : Impl δ I} {s : St δ} {t : T δ} {w : World δ I} {sw : Spec} (h : Inv c s t w sw) {k : Nat}
    {o : Order} {i : Nat} (ho : o ≠ .post) (hi : i ≤ t.count) {x : I} (hx : x = c.make (ptrAt t o i) o) :
    Inv c s t (w.put k (some x)) (sw.put k (some (.at o i))) := by
  refine ⟨h.mem, fun j => ?_⟩
  by_cases hj : j = k
  · subst hj
    simp only [Spec.put, World.put, if_true]
    exact ⟨ho, hi, by rw [hx]⟩
  · simp only [Spec.put, World.put, if_neg hj]
    exact h.its j

theorem Inv.put_gone {c : Impl δ I} {s : St δ} {t : T δ} {w : World δ I} {sw : Spec} (h : Inv c s t w sw) (k : Nat)
    (x : I) : Inv c s t (w.put k (some x)) (sw.put k (some .gone)) := by
  refine ⟨h.mem, fun j => ?_⟩
  by_cases hj : j = k
  · subst hj
    simp only [Spec.put, World.put, if_true]
    exact ⟨x, rfl⟩
  · simp only [Spec.put, World.put, if_neg hj]
    exact h.its j

theorem Inv.put_none {c : Impl δ I} {s : St δ} {t : T δ} {w : World δ I} {sw : Spec} (h : Inv c s t w sw) (k : Nat) :
    Inv c s t (w.put k none) (sw.put k none) := by
  refine ⟨h.mem, fun j => ?_⟩
  by_cases hj : j = k
  · subst hj
    simp only [Spec.put, World.put, if_true]
  · simp only [Spec.put, World.put, if_neg hj]
    exact h.its j

theorem getIt_ok {w : World δ I} {k : Nat} {i : I} (h : w.its k = some i) : Returns (getIt k) w i w := by
  simp [Returns, getIt, h]

theorem onTree_ok {β : Type} {p : Prog (St δ) β} {w : World δ I} {a : β} (h : Returns p w.mem a w.mem) :
    Returns (onTree p) w a w := by
  unfold Returns at h
  simp [Returns, onTree, h]

theorem length_order (t : T δ) (o : Order) : (t.order o).length = t.count := by
  induction t with
  | nil => cases o <;> rfl
  | node l p d r ih1 ih2 =>
    cases o <;> simp [T.order, T.preorder, T.inorder, T.postorder, T.count] at * <;> omega

theorem putIt_ok (k : Nat) (v : Option I) (w : World δ I) : Returns (putIt k v) w () (w.put k v) := rfl

theorem wp_putIt {k : Nat} {v : Option I} {w : World δ I} {Q : Unit → World δ I → Prop} :
    wp (putIt k v) Q w ↔ Q () (w.put k v) := wp_of_returns (putIt_ok k v w) Q

theorem step_ok {c : Impl δ I} (hc : Lawful c) {s : St δ} {t : T δ} (ht : IsTree s t) {w : World δ I} {sw sw' : Spec}
    (h : Inv c s t w sw) {op : Op} (hs : specStep t.count op sw = some sw') (ha : Avoids t op) :
    wp (step c op) (fun _ w' => Inv c s t w' sw') w := by
  have hnext : ∀ {o : Order} {i : Nat}, o ≠ .post → i ≤ t.count →
      Returns (nextFn o (ptrAt t o i)) s (ptrAt t o (succ t.count i)) s := by
    intro o i ho hi
    have := next_at ht ho (i := i) (by rw [length_order]; exact hi)
    rwa [length_order] at this
  have hsucc : ∀ {i : Nat}, i ≤ t.count → succ t.count i ≤ t.count := by
    intro i hi; unfold succ; split <;> omega
  cases op with
  | begin_ k o =>
    simp only [specStep] at hs
    split at hs
    · cases hs
      have ho : o ≠ .post := by rintro rfl; rcases ha with ha | ha <;> simp at ha
      have hb : Returns (Tree.begin_ o) w.mem (ptrAt t o 0) w.mem := by
        rw [h.mem]
        rcases ha with rfl | ⟨rfl, hn⟩
        · exact begin_pre ht
        · exact begin_in ht hn (by simp)
      rw [step, wp_bind, wp_of_returns (onTree_ok hb), wp_putIt]
      exact h.put ho (Nat.zero_le _) rfl
    · cases hs
  | end_ k o =>
    simp only [specStep] at hs
    split at hs
    · cases hs
      rw [step, wp_putIt]
      refine h.put ha (Nat.le_refl _) ?_
      unfold ptrAt
      rw [List.drop_eq_nil_of_le (by rw [length_order]; exact Nat.le_refl _)]; rfl
    · cases hs
  | newCopy d k =>
    simp only [specStep] at hs
    split at hs
    · rename_i o i hd hk
      cases hs
      obtain ⟨h1, h2, h3⟩ := h.at hk
      rw [step, wp_bind, wp_of_returns (getIt_ok h3), wp_putIt]
      exact h.put h1 h2 (hc.copy _ _)
    · cases hs
  | newMove d k =>
    simp only [specStep] at hs
    split at hs
    · rename_i o i hd hk
      cases hs
      obtain ⟨h1, h2, h3⟩ := h.at hk
      rw [step, wp_bind, wp_of_returns (getIt_ok h3), wp_bind, wp_putIt, wp_putIt]
      exact (h.put h1 h2 (hc.move _ _)).put_gone _ _
    · cases hs
  | copy d k =>
    simp only [specStep] at hs
    split at hs
    · rename_i v o i hd hk
      cases hs
      obtain ⟨h1, h2, h3⟩ := h.at hk
      obtain ⟨j, h4⟩ := h.live hd
      rw [step, wp_bind, wp_of_returns (getIt_ok h4), wp_bind, wp_of_returns (getIt_ok h3), wp_putIt]
      exact h.put h1 h2 (hc.copy _ _)
    · cases hs
  | move d k =>
    have ha : d ≠ k := ha
    simp only [specStep] at hs
    split at hs
    · rename_i v o i hd hk
      rw [if_neg ha] at hs
      cases hs
      obtain ⟨h1, h2, h3⟩ := h.at hk
      obtain ⟨j, h4⟩ := h.live hd
      rw [step, wp_bind, wp_of_returns (getIt_ok h4), wp_bind, wp_of_returns (getIt_ok h3), if_neg ha, wp_bind,
        wp_putIt, wp_putIt]
      exact (h.put h1 h2 (hc.move _ _)).put_gone _ _
    · cases hs
  | inc k =>
    simp only [specStep] at hs
    split at hs
    · rename_i o i hk
      cases hs
      obtain ⟨h1, h2, h3⟩ := h.at hk
      have hi := hc.inc _ _ _ _ (hnext h1 h2)
      rw [← h.mem] at hi
      rw [step, wp_bind, wp_of_returns (getIt_ok h3), wp_bind, wp_of_returns (onTree_ok hi), wp_putIt]
      exact h.put h1 (hsucc h2) rfl
    · cases hs
  | newPostInc d k =>
    simp only [specStep] at hs
    split at hs
    · rename_i o i hd hk
      cases hs
      obtain ⟨h1, h2, h3⟩ := h.at hk
      have hi := hc.postInc _ _ _ _ (hnext h1 h2)
      rw [← h.mem] at hi
      rw [step, wp_bind, wp_of_returns (getIt_ok h3), wp_bind, wp_of_returns (onTree_ok hi), wp_bind, wp_putIt,
        wp_putIt]
      exact (h.put h1 (hsucc h2) rfl).put h1 h2 rfl
    · cases hs
  | postInc d k =>
    simp only [specStep] at hs
    split at hs
    · rename_i v o i hd hk
      cases hs
      obtain ⟨h1, h2, h3⟩ := h.at hk
      obtain ⟨j, h4⟩ := h.live hd
      have hi := hc.postInc _ _ _ _ (hnext h1 h2)
      rw [← h.mem] at hi
      rw [step, wp_bind, wp_of_returns (getIt_ok h4), wp_bind, wp_of_returns (getIt_ok h3), wp_bind,
        wp_of_returns (onTree_ok hi), wp_bind, wp_putIt, wp_putIt]
      exact (h.put h1 (hsucc h2) rfl).put h1 h2 (hc.move _ _)
    · cases hs
  | drop k =>
    simp only [specStep] at hs
    split at hs
    · rename_i hk
      cases hs
      obtain ⟨v, hv⟩ := Option.isSome_iff_exists.1 hk
      obtain ⟨j, h4⟩ := h.live hv
      rw [step, wp_bind, wp_of_returns (getIt_ok h4), wp_putIt]
      exact h.put_none _
    · cases hs

theorem run_ok {c : Impl δ I} (hc : Lawful c) {s : St δ} {t : T δ} (ht : IsTree s t) {ops : List Op}
    {w : World δ I} {sw sw' : Spec} (h : Inv c s t w sw) (hs : specRun t.count ops sw = some sw')
    (ha : ∀ op ∈ ops, Avoids t op) : wp (run c ops) (fun _ w' => Inv c s t w' sw') w := by
  induction ops generalizing w sw with
  | nil => cases hs; exact (wp_pure _ _ _).2 h
  | cons op ops ih =>
    simp only [specRun, Option.bind_eq_some_iff] at hs
    obtain ⟨w1, h1, h2⟩ := hs
    show wp (do step c op; run c ops) _ w
    rw [wp_bind]
    exact wp_mono (step_ok hc ht h h1 (ha op (List.mem_cons_self ..)))
      (fun _ _ hw => ih hw h2 (fun o ho => ha o (List.mem_cons_of_mem _ ho)))

theorem order_nodup {s : St δ} {t : T δ} (ht : IsTree s t) (o : Order) : ((t.order o).map (·.1)).Nodup := by
  have h1 : (t.inorder.map (·.1)).Nodup := T.ptrs_eq t ▸ ht.nodup
  cases o with
  | pre => exact (t.preorder_perm.map _).nodup_iff.2 h1
  | ino => exact h1
  | post => exact (t.postorder_perm.map _).nodup_iff.2 h1

theorem ptrAt_inj {s : St δ} {t : T δ} (ht : IsTree s t) {o : Order} {i j : Nat} (hi : i ≤ t.count) (hj : j ≤ t.count) :
    ptrAt t o i = ptrAt t o j ↔ i = j := by
  refine ⟨fun h => ?_, fun h => by rw [h]⟩
  rw [← length_order t o] at hi hj
  have hn := order_nodup ht o
  have key : ∀ {a}, (ha : a < (t.order o).length) → ptrAt t o a = some (t.order o)[a].1 := by
    intro a ha
    unfold ptrAt
    rw [List.drop_eq_getElem_cons ha]; rfl
  have kend : ptrAt t o (t.order o).length = none := by
    unfold ptrAt; rw [List.drop_eq_nil_of_le (Nat.le_refl _)]; rfl
  by_cases h1 : i < (t.order o).length
  · by_cases h2 : j < (t.order o).length
    · rw [key h1, key h2, Option.some.injEq] at h
      exact (List.getElem_inj (h₀ := by simpa using h1) (h₁ := by simpa using h2) hn).1 (by simpa using h)
    · have : j = (t.order o).length := by omega
      rw [this, key h1, kend] at h; cases h
  · have e1 : i = (t.order o).length := by omega
    by_cases h2 : j < (t.order o).length
    · rw [e1, key h2, kend] at h; cases h
    · omega

theorem dat_of_mem {s : St δ} {pa : Ptr} {t : T δ} (h : Rep s pa t) {x : Nat × δ} (hx : x ∈ t.inorder) :
    s.dat x.1 = some (some x.2) := by
  induction t generalizing pa with
  | nil => simp [T.inorder] at hx
  | node l p d r ihl ihr =>
    obtain ⟨h1, _, _, _, h2, h3⟩ := h
    simp only [T.inorder, List.mem_append, List.mem_cons] at hx
    rcases hx with hx | rfl | hx
    · exact ihl h2 hx
    · exact h1
    · exact ihr h3 hx

theorem order_dat {s : St δ} {t : T δ} (ht : IsTree s t) {o : Order} {i : Nat} (hi : i < (t.order o).length) :
    s.dat (t.order o)[i].1 = some (some (t.order o)[i].2) := by
  have hm : (t.order o)[i] ∈ t.inorder := by
    have : (t.order o)[i] ∈ t.order o := List.getElem_mem hi
    cases o with
    | pre => exact (t.preorder_perm.mem_iff).1 this
    | ino => exact this
    | post => exact (t.postorder_perm.mem_iff).1 this
  exact dat_of_mem ht.rep hm

theorem Inv.shows {c : Impl δ I} (hc : Lawful c) {s : St δ} {t : T δ} (ht : IsTree s t) {w : World δ I} {sw : Spec}
    (h : Inv c s t w sw) : Shows c t w sw := by
  refine ⟨fun k => ?_, ?_, ?_⟩
  · have := h.its k
    cases hk : sw k with
    | none => rw [hk] at this; simp [this]
    | some v => obtain ⟨i, hi⟩ := h.live hk; simp [hi]
  · intro k o i hi hk
    obtain ⟨h1, h2, h3⟩ := h.at hk
    have hp : ptrAt t o i = some (t.order o)[i].1 := by
      unfold ptrAt; rw [List.drop_eq_getElem_cons hi]; rfl
    have hd := order_dat ht hi
    rw [← h.mem] at hd
    unfold deref Returns
    rw [bind_returns (getIt_ok h3), hc.ptr, hp, bind_returns (onTree_ok (touch_ok ⟨_, hd⟩)),
      bind_returns (onTree_ok (getData_ok hd))]
    rfl
  · intro j k o i i' hj hk
    obtain ⟨_, h2, h3⟩ := h.at hj
    obtain ⟨_, g2, g3⟩ := h.at hk
    unfold eq Returns
    rw [bind_returns (getIt_ok h3), bind_returns (getIt_ok g3), hc.ptr, hc.ptr]
    simp only [ptrAt_inj ht h2 g2]
    rfl

theorem Inv.init (c : Impl δ I) (s : St δ) (t : T δ) : Inv c s t ⟨s, fun _ => none⟩ (fun _ => none) :=
  ⟨rfl, fun _ => rfl⟩

/-! ## The theorems -/

/-- **C82** (`_partial`: the three exceptions are in `Avoids`).  Iterators of a binary tree behave as positions in
its pre-order or in-order sequence under every history of copies, moves, increments of both kinds and
destructions: none of them fails or changes the tree, dereferencing gives the node at the position, and
comparison compares positions. -/
theorem tree_iterators_values_partial {s : St δ} {t : T δ} (ht : IsTree s t) (ops : List Op) {sw : Spec}
    (hs : specRun t.count ops (fun _ => none) = some sw) (ha : ∀ op ∈ ops, Avoids t op) :
    ∃ w, Returns (run (plain δ) ops) ⟨s, fun _ => none⟩ () w ∧ w.mem = s ∧ Shows (plain δ) t w sw := by
  obtain ⟨_, w, e, hw⟩ := run_ok plain_lawful ht (Inv.init (plain δ) s t) hs ha
  exact ⟨w, e, hw.mem, hw.shows plain_lawful ht⟩

/-- **C82** (`_partial` as above) for the iterators of an AVL tree. -/
theorem avl_iterators_values_partial {s : St δ} {t : T δ} (ht : IsTree s t) (ops : List Op) {sw : Spec}
    (hs : specRun t.count ops (fun _ => none) = some sw) (ha : ∀ op ∈ ops, Avoids t op) :
    ∃ w, Returns (run (avl δ) ops) ⟨s, fun _ => none⟩ () w ∧ w.mem = s ∧ Shows (avl δ) t w sw := by
  obtain ⟨_, w, e, hw⟩ := run_ok avl_lawful ht (Inv.init (avl δ) s t) hs ha
  exact ⟨w, e, hw.mem, hw.shows avl_lawful ht⟩

/-- **C82, the failing case**: a tree iterator assigned from itself by move loses its position.  It then compares
equal to `end()` wherever it was, and advancing it calls a null function pointer. -/
theorem tree_iterator_self_move_crashes (w : World δ It) (k e : Nat) (p : Ptr) (o : Order)
    (hk : w.its k = some (It.mk' p o)) (he : w.its e = some (It.mk' none o)) :
    ∃ w', Returns (step (plain δ) (.move k k)) w () w' ∧ Returns (eq (plain δ) k e) w' true w' ∧
      Faults (step (plain δ) (.inc k)) w' .crash := by
  refine ⟨w.put k (some ⟨none, none, none⟩), ?_, ?_, ?_⟩
  · unfold Returns
    rw [step, bind_returns (getIt_ok hk), bind_returns (getIt_ok hk), if_pos rfl]
    rfl
  · have h1 : (w.put k (some ⟨none, none, none⟩)).its k = some ⟨none, none, none⟩ := by simp [World.put]
    have h2 : ∃ i : It, (w.put k (some ⟨none, none, none⟩)).its e = some i ∧ i.ptr = none := by
      by_cases h : e = k
      · subst h; exact ⟨_, h1, rfl⟩
      · exact ⟨_, by simpa [World.put, h] using he, rfl⟩
    obtain ⟨i, h2, h3⟩ := h2
    unfold Returns eq
    rw [bind_returns (getIt_ok h1), bind_returns (getIt_ok h2)]
    show some (Except.ok (decide (none = i.ptr), _)) = _
    rw [h3]; rfl
  · have h1 : (w.put k (some ⟨none, none, none⟩)).its k = some ⟨none, none, none⟩ := by simp [World.put]
    unfold Faults
    rw [step, bind_returns (getIt_ok h1)]
    rfl

/-- **C82, the failing case** for an AVL tree: there only the wrapped iterator loses its position, so the iterator
still compares and dereferences as before, but advancing it calls a null function pointer. -/
theorem avl_iterator_self_move_crashes (w : World δ AIt) (k : Nat) (p : Ptr) (o : Order)
    (hk : w.its k = some (AIt.mk' p o)) :
    ∃ w', Returns (step (avl δ) (.move k k)) w () w' ∧ Faults (step (avl δ) (.inc k)) w' .crash := by
  refine ⟨w.put k (some ⟨⟨none, none, none⟩, p⟩), ?_, ?_⟩
  · unfold Returns
    rw [step, bind_returns (getIt_ok hk), bind_returns (getIt_ok hk), if_pos rfl]
    rfl
  · have h1 : (w.put k (some ⟨⟨none, none, none⟩, p⟩)).its k = some ⟨⟨none, none, none⟩, p⟩ := by simp [World.put]
    unfold Faults
    rw [step, bind_returns (getIt_ok h1)]
    rfl

/-- **C82** (an iterator that was moved from).  It still compares equal to the iterator that took its place, but advancing
it calls a null function pointer. -/
theorem tree_iterator_moved (w : World δ It) (d s : Nat) (hds : d ≠ s) (p : Ptr) (o : Order)
    (hs : w.its s = some (It.mk' p o)) (op : Op) (hop : op = .newMove d s ∨ op = .move d s ∧ w.its d ≠ none) :
    ∃ w', Returns (step (plain δ) op) w () w' ∧ Returns (eq (plain δ) d s) w' true w' ∧
      (∀ n x, Returns (deref (plain δ) d) w' (n, x) w' → Returns (deref (plain δ) s) w' (n, x) w') ∧
      Faults (step (plain δ) (.inc s)) w' .crash ∧ Faults (step (plain δ) (.newPostInc d s)) w' .crash := by
  have h1 : ((w.put d (some (It.mk' p o))).put s (some (⟨none, none, p⟩ : It))).its d = some (It.mk' p o) := by
    simp [World.put, hds]
  have h2 : ((w.put d (some (It.mk' p o))).put s (some (⟨none, none, p⟩ : It))).its s = some (⟨none, none, p⟩ : It) := by simp [World.put]
  refine ⟨(w.put d (some (It.mk' p o))).put s (some (⟨none, none, p⟩ : It)), ?_, ?_, ?_, ?_, ?_⟩
  · unfold Returns
    rcases hop with rfl | ⟨rfl, hd⟩
    · rw [step, bind_returns (getIt_ok hs)]
      rfl
    · obtain ⟨j, hj⟩ := Option.ne_none_iff_exists'.1 hd
      rw [step, bind_returns (getIt_ok hj), bind_returns (getIt_ok hs), if_neg hds]
      rfl
  · unfold Returns eq
    rw [bind_returns (getIt_ok h1), bind_returns (getIt_ok h2)]
    show some (Except.ok (decide (p = p), _)) = _
    rw [decide_eq_true rfl]
  · intro n x h
    unfold Returns deref at *
    rw [bind_returns (getIt_ok h1)] at h
    rw [bind_returns (getIt_ok h2)]
    exact h
  · unfold Faults
    rw [step, bind_returns (getIt_ok h2)]
    rfl
  · unfold Faults
    rw [step, bind_returns (getIt_ok h2)]
    rfl

/-- **C82** (an iterator that was moved from, AVL tree).  It still compares equal to the iterator that took its place, but advancing
it calls a null function pointer. -/
theorem avl_iterator_moved (w : World δ AIt) (d s : Nat) (hds : d ≠ s) (p : Ptr) (o : Order)
    (hs : w.its s = some (AIt.mk' p o)) (op : Op) (hop : op = .newMove d s ∨ op = .move d s ∧ w.its d ≠ none) :
    ∃ w', Returns (step (avl δ) op) w () w' ∧ Returns (eq (avl δ) d s) w' true w' ∧
      (∀ n x, Returns (deref (avl δ) d) w' (n, x) w' → Returns (deref (avl δ) s) w' (n, x) w') ∧
      Faults (step (avl δ) (.inc s)) w' .crash ∧ Faults (step (avl δ) (.newPostInc d s)) w' .crash := by
  have h1 : ((w.put d (some (AIt.mk' p o))).put s (some (⟨⟨none, none, p⟩, p⟩ : AIt))).its d = some (AIt.mk' p o) := by
    simp [World.put, hds]
  have h2 : ((w.put d (some (AIt.mk' p o))).put s (some (⟨⟨none, none, p⟩, p⟩ : AIt))).its s = some (⟨⟨none, none, p⟩, p⟩ : AIt) := by simp [World.put]
  refine ⟨(w.put d (some (AIt.mk' p o))).put s (some (⟨⟨none, none, p⟩, p⟩ : AIt)), ?_, ?_, ?_, ?_, ?_⟩
  · unfold Returns
    rcases hop with rfl | ⟨rfl, hd⟩
    · rw [step, bind_returns (getIt_ok hs)]
      rfl
    · obtain ⟨j, hj⟩ := Option.ne_none_iff_exists'.1 hd
      rw [step, bind_returns (getIt_ok hj), bind_returns (getIt_ok hs), if_neg hds]
      rfl
  · unfold Returns eq
    rw [bind_returns (getIt_ok h1), bind_returns (getIt_ok h2)]
    show some (Except.ok (decide (p = p), _)) = _
    rw [decide_eq_true rfl]
  · intro n x h
    unfold Returns deref at *
    rw [bind_returns (getIt_ok h1)] at h
    rw [bind_returns (getIt_ok h2)]
    exact h
  · unfold Faults
    rw [step, bind_returns (getIt_ok h2)]
    rfl
  · unfold Faults
    rw [step, bind_returns (getIt_ok h2)]
    rfl

/-! Concrete instances: `exT` has five nodes. -/

/-- An iterator is advanced past a copy of itself, moved away, its name is reused. -/
def exOps : List Op :=
  [.begin_ 0 .ino, .inc 0, .newCopy 1 0, .newPostInc 2 0, .inc 0, .newMove 3 0, .copy 0 1, .postInc 2 0, .end_ 4 .ino,
   .drop 1, .begin_ 5 .pre]

example : ∃ w, Returns (run (avl _) exOps) ⟨exS, fun _ => none⟩ () w ∧
    Returns (deref (avl _) 3) w (exT.order .ino)[3] w ∧ Returns (eq (avl _) 3 4) w false w := by
  obtain ⟨w, h1, _, h2⟩ := avl_iterators_values_partial exS_isTree exOps rfl (by
    intro op hop
    simp only [exOps, List.mem_cons, List.not_mem_nil, or_false] at hop
    rcases hop with rfl | rfl | rfl | rfl | rfl | rfl | rfl | rfl | rfl | rfl | rfl <;> simp [Avoids, exT])
  exact ⟨w, h1, h2.2.1 3 .ino 3 (by decide) rfl, h2.2.2 3 4 .ino 3 5 rfl rfl⟩

example : ∃ w, Returns (run (plain _) exOps) ⟨exS, fun _ => none⟩ () w ∧
    Returns (deref (plain _) 3) w (exT.order .ino)[3] w ∧ Returns (deref (plain _) 2) w (exT.order .ino)[1] w := by
  obtain ⟨w, h1, _, h2⟩ := tree_iterators_values_partial exS_isTree exOps rfl (by
    intro op hop
    simp only [exOps, List.mem_cons, List.not_mem_nil, or_false] at hop
    rcases hop with rfl | rfl | rfl | rfl | rfl | rfl | rfl | rfl | rfl | rfl | rfl <;> simp [Avoids, exT])
  exact ⟨w, h1, h2.2.1 3 .ino 3 (by decide) rfl, h2.2.1 2 .ino 1 (by decide) rfl⟩

example : ∃ w', Returns (step (plain Nat) (.move 0 0)) ⟨exS, fun k => if k = 0 then some (It.mk' (some 3) .ino)
      else some (It.mk' none .ino)⟩ () w' ∧ Returns (eq (plain Nat) 0 1) w' true w' ∧
      Faults (step (plain Nat) (.inc 0)) w' .crash :=
  tree_iterator_self_move_crashes _ 0 1 (some 3) .ino rfl rfl

example : ∃ w', Returns (step (avl Nat) (.move 1 0)) ⟨exS, fun k => if k = 0 then some (AIt.mk' (some 3) .ino)
      else some (AIt.mk' none .ino)⟩ () w' ∧ Returns (eq (avl Nat) 1 0) w' true w' ∧
      Faults (step (avl Nat) (.inc 0)) w' .crash := by
  obtain ⟨w', h1, h2, _, h3, _⟩ := avl_iterator_moved (δ := Nat) ⟨exS, fun k => if k = 0 then
    some (AIt.mk' (some 3) .ino) else some (AIt.mk' none .ino)⟩ 1 0 (by decide) (some 3) .ino rfl (.move 1 0)
    (Or.inr ⟨rfl, by simp⟩)
  exact ⟨w', h1, h2, h3⟩

end Verif.TreeIter
