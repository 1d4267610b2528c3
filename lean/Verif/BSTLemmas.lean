import Verif.BSTFun
import Verif.TreeWorldSized

/-! # The methods of a search tree on one tree in memory -/

namespace Verif.BST

open Prog Verif.Tree
open Verif.AVL (StrictWeak Ascending Equiv same with_ without)

variable {α : Type} {lt : α → α → Bool}

/-- Reading the argument gives `x`. -/
def Reads (s : St α) (obj : Arg α) (x : α) : Prop :=
  match obj with
  | .val y => y = x
  | .ref p => ∃ n, p = some n ∧ s.dat n = some (some x)

theorem readArg_ok {s : St α} {obj : Arg α} {x : α} (h : Reads s obj x) : Returns (readArg obj) s x s := by
  cases obj with
  | val y => cases h; rfl
  | ref p =>
    obtain ⟨n, rfl, h⟩ := h
    exact getData_ok h

/-! ## Searching -/

theorem findFrom_ok {s : St α} {pa : Ptr} {t : T α} (h : Rep s pa t) (x : α) :
    Returns (findFrom lt t.root x) s (fFind lt x t) s := by
  induction t generalizing pa with
  | nil => unfold findFrom; rfl
  | node l p d r ihl ihr =>
    obtain ⟨h1, h2, h3, h4, h5, h6⟩ := h
    unfold findFrom Returns
    rw [if_neg (by simp [T.root])]
    simp only [T.root, fFind]
    rw [bind_returns (getData_ok h1)]
    by_cases c1 : lt x d
    · rw [if_pos c1, if_pos c1, bind_returns (getLeft_ok ⟨d, h1⟩), h3]
      exact ihl h5
    · rw [if_neg c1, if_neg c1]
      by_cases c2 : lt d x
      · rw [if_pos c2, if_pos c2, bind_returns (getRight_ok ⟨d, h1⟩), h4]
        exact ihr h6
      · rw [if_neg c2, if_neg c2]; rfl

theorem find_ok {s : St α} {t : T α} (h : IsTree s t) (x : α) :
    Returns (find lt x) s (fFind lt x t) s := by
  unfold find Returns
  rw [bind_returns (show Returns getRoot s s.root s from rfl), h.root]
  exact findFrom_ok h.rep x

/-! ## Inserting -/

theorem insertLoop_dup {s : St α} {pa pr : Ptr} {t : T α} {x : α} {obj : Arg α} {z : Nat} (h : Rep s pa t)
    (hx : Reads s obj x) (hf : fFind lt x t = some z) :
    Returns (insertLoop lt obj t.root pr) s (some z, some z) s := by
  induction t generalizing pa pr with
  | nil => cases hf
  | node l p d r ihl ihr =>
    obtain ⟨h1, h2, h3, h4, h5, h6⟩ := h
    simp only [fFind] at hf
    unfold insertLoop Returns
    rw [if_neg (by simp [T.root]), bind_returns (readArg_ok hx)]
    simp only [T.root]
    rw [bind_returns (getData_ok h1)]
    by_cases c1 : lt x d
    · rw [if_pos c1] at hf ⊢
      rw [bind_returns (getLeft_ok ⟨d, h1⟩), h3]
      exact ihl h5 hf
    · rw [if_neg c1] at hf ⊢
      by_cases c2 : lt d x
      · rw [if_pos c2] at hf ⊢
        rw [bind_returns (getRight_ok ⟨d, h1⟩), h4]
        exact ihr h6 hf
      · rw [if_neg c2] at hf ⊢
        cases hf; rfl

/-- The innermost step of the path is the one `_insert` chooses. -/
def Dir (lt : α → α → Bool) (x : α) : Ctx α → Prop
  | .top => True
  | .left _ _ d _ => lt x d = true
  | .right _ _ _ d => lt x d = false

theorem insertLoop_new {s : St α} {pa : Ptr} {t : T α} {x : α} {obj : Arg α} (h : Rep s pa t)
    (hx : Reads s obj x) (hf : fFind lt x t = none) (c0 : Ctx α) (hd : Dir lt x c0) :
    ∃ c : Ctx α, c0.plug t = c.plug .nil ∧ Dir lt x c ∧
      (∀ q, c0.plug (fIns lt x q t) = c.plug (.node .nil q x .nil)) ∧
      Returns (insertLoop lt obj t.root c0.ptr) s (none, c.ptr) s := by
  induction t generalizing pa c0 with
  | nil =>
    refine ⟨c0, rfl, hd, fun q => rfl, ?_⟩
    unfold insertLoop
    rfl
  | node l p d r ihl ihr =>
    obtain ⟨h1, h2, h3, h4, h5, h6⟩ := h
    simp only [fFind] at hf
    by_cases c1 : lt x d
    · rw [if_pos c1] at hf
      obtain ⟨c, e1, e2, e3, e4⟩ := ihl h5 hf (.left c0 p d r) c1
      refine ⟨c, e1, e2, fun q => ?_, ?_⟩
      · rw [← e3 q]; simp [fIns, c1, Ctx.plug]
      · unfold insertLoop Returns
        rw [if_neg (by simp [T.root]), bind_returns (readArg_ok hx)]
        simp only [T.root]
        rw [bind_returns (getData_ok h1), if_pos c1, bind_returns (getLeft_ok ⟨d, h1⟩), h3]
        exact e4
    · rw [if_neg c1] at hf
      by_cases c2 : lt d x
      · rw [if_pos c2] at hf
        obtain ⟨c, e1, e2, e3, e4⟩ := ihr h6 hf (.right c0 l p d) (by simpa [Dir] using c1)
        refine ⟨c, e1, e2, fun q => ?_, ?_⟩
        · rw [← e3 q]; simp [fIns, c1, Ctx.plug]
        · unfold insertLoop Returns
          rw [if_neg (by simp [T.root]), bind_returns (readArg_ok hx)]
          simp only [T.root]
          rw [bind_returns (getData_ok h1), if_neg c1, if_pos c2, bind_returns (getRight_ok ⟨d, h1⟩), h4]
          exact e4
      · rw [if_neg c2] at hf; cases hf

/-- What a finished `push` of a new element leaves. -/
structure PushPost (lt : α → α → Bool) (x : α) (t : T α) (s s' : St α) : Prop where
  tree : IsTree s' (fIns lt x s.next t)
  next : s'.next = s.next + 1
  lost : s'.lost = s.lost
  size : s'.size = s.size + 1
  out : ∀ n, n ∉ t.ptrs → n ≠ s.next → SameAt s s' n

/-- Memory with a new node for `x`. -/
@[reducible] def added (s : St α) (x : α) : St α where
  dat := upd s.dat s.next (some (some x))
  par := upd s.par s.next none
  lft := upd s.lft s.next none
  rgt := upd s.rgt s.next none
  next := s.next + 1
  lost := s.lost
  root := s.root
  size := s.size

theorem newNode_ok {s : St α} {obj : Arg α} {x : α} (hu : s.dat s.next = none) (hx : Reads s obj x) {β : Type}
    {k : Nat → Prog (St α) β} {Q : β → St α → Prop}
    (hk : wp (k s.next) Q (added s x)) :
    wp (do let n ← allocNode; let x ← readArg obj; constructNode n x; k n) Q s := by
  rw [wp_bind]
  refine Returns.wp (show Returns allocNode s s.next _ from rfl) ?_
  rw [wp_bind]
  refine Returns.wp (readArg_ok (x := x) ?_) ?_
  · cases obj with
    | val y => exact hx
    | ref p =>
      obtain ⟨n, rfl, h⟩ := hx
      refine ⟨n, rfl, ?_⟩
      have : n ≠ s.next := fun e => by rw [e, hu] at h; cases h
      simp [upd, this, h]
  · rw [wp_bind]
    refine Returns.wp (a := ()) (s' := added s x) ?_ hk
    unfold Returns constructNode
    simp only [upd_self, Option.isSome_none, Bool.false_eq_true, if_false, Nat.add_zero]
    congr 4
    funext n
    by_cases e : n = s.next <;> simp [upd, e]

theorem Reads.mono {s s' : St α} {obj : Arg α} {x : α} (h : Reads s obj x)
    (hs : ∀ n, s.dat n = some (some x) → s'.dat n = some (some x)) : Reads s' obj x := by
  cases obj with
  | val y => exact h
  | ref p =>
    obtain ⟨n, e, h⟩ := h
    exact ⟨n, e, hs n h⟩

theorem root_some {s : St α} {t : T α} (h : IsTree s t) {n : Nat} (hn : n ∈ t.ptrs) : ∃ m, s.root = some m := by
  rw [h.root]
  cases t with
  | nil => simp [T.ptrs] at hn
  | node l p d r => exact ⟨p, rfl⟩

theorem tree_of_plug {s : St α} {c : Ctx α} {t u : T α} (e : t = c.plug u) (h1 : Rep s c.ptr u) (h2 : CRep s c u.root)
    (hn : t.ptrs.Nodup) : IsTree s t := by
  have := rep_plug.2 ⟨h1, h2⟩
  rw [← e] at this
  exact ⟨this.1, this.2, hn⟩

theorem push_new {s : St α} {t : T α} {x : α} {obj : Arg α} (h : IsTree s t)
    (hu : ∀ n, s.next ≤ n → s.dat n = none) (hx : Reads s obj x) (hf : fFind lt x t = none) :
    wp (push lt obj) (fun _ s' => PushPost lt x t s s') s := by
  obtain ⟨c, e1, e2, e3, e4⟩ := insertLoop_new h.rep hx hf .top trivial
  simp only [Ctx.plug, Ctx.ptr] at e1 e3 e4
  have hq : s.next ∉ t.ptrs := fun hm => by
    obtain ⟨d, hd⟩ := h.rep.live hm
    rw [hu _ (Nat.le_refl _)] at hd; cases hd
  have hnd : (fIns lt x s.next t).ptrs.Nodup := by
    rw [(ptrs_ins x s.next t).nodup_iff, List.nodup_cons]; exact ⟨hq, h.nodup⟩
  have hc := (rep_plug (c := c) (t := .nil)).1 ⟨e1 ▸ h.root, e1 ▸ h.rep⟩
  have hqc : s.next ∉ c.ptrs := fun hm => hq (by rw [e1, Ctx.mem_plug]; exact Or.inr hm)
  have hct : ∀ n ∈ c.ptrs, n ∈ t.ptrs := fun n hm => by rw [e1, Ctx.mem_plug]; exact Or.inr hm
  unfold push insert
  rw [wp_bind, wp_bind, wp_getRoot, wp_bind, h.root]
  refine Returns.wp e4 ?_
  simp only [ne_eq, not_true_eq_false, if_false]
  refine newNode_ok (hu _ (Nat.le_refl _)) hx ?_
  have hrx : Reads (added s x) obj x :=
    hx.mono fun n hd => by
      have : n ≠ s.next := fun e => by rw [e, hu _ (Nat.le_refl _)] at hd; cases hd
      simp [upd, this, hd]
  cases c with
  | top =>
    simp only [Ctx.plug] at e1
    subst e1
    rw [wp_bind]
    simp only [Ctx.ptr, ne_eq, not_true_eq_false, Prog.when, if_false]
    rw [wp_pure, wp_pure, wp_bind, wp_getRoot]
    simp only [h.root, T.root, if_true]
    unfold updateRoot
    rw [wp_bind, wp_bind, wp_modify]
    simp only [ne_eq, reduceCtorEq, not_false_eq_true, Prog.when, if_true]
    rw [wp_setParent ⟨x, upd_self _ _ _⟩, wp_bind, wp_getSize, wp_setSize]
    refine ⟨⟨rfl, ⟨upd_self _ _ _, upd_self _ _ _, upd_self _ _ _, upd_self _ _ _, trivial, trivial⟩, hnd⟩, rfl, rfl,
      rfl, fun n _ hn => ?_⟩
    exact ⟨by simp [upd, hn], by simp [upd, hn], by simp [upd, hn], by simp [upd, hn]⟩
  | left c p d r =>
    obtain ⟨_, k1, k2, k3, k4, k5, k6⟩ := hc
    have hpq : p ≠ s.next := fun e => hqc (by simp [Ctx.ptrs, e])
    have hlx : lt x d = true := e2
    have lq : ∀ {f : Nat → Option (Option α)}, Live (upd f s.next (some (some x))) s.next := fun {f} => ⟨x, upd_self _ _ _⟩
    have lp : Live (upd s.dat s.next (some (some x))) p := ⟨d, by simp [upd, hpq, k1]⟩
    have dp : upd s.dat s.next (some (some x)) p = some (some d) := by simp [upd, hpq, k1]
    rw [wp_bind]
    simp only [Ctx.ptr, ne_eq, reduceCtorEq, not_false_eq_true, Prog.when, if_true]
    rw [wp_bind, wp_setParent lq, wp_bind]
    refine Returns.wp (readArg_ok (x := x) ?_) ?_
    · exact hrx.mono fun n hd => hd
    rw [wp_bind, wp_getData dp, if_pos hlx, wp_bind, wp_bind, wp_getLeft lp, wp_bind, wp_setLeft lp, wp_bind, wp_setLeft lq]
    simp only [wp_pure, upd_ne _ _ hpq, k3, T.root, not_true_eq_false, if_false]
    rw [wp_bind, wp_getRoot]
    obtain ⟨m, hm⟩ : ∃ m, s.root = some m := root_some h (hct p (by simp [Ctx.ptrs]))
    simp only [hm, reduceCtorEq, if_false]
    rw [wp_bind, wp_pure, wp_bind, wp_getSize, wp_setSize]
    have hnp := (Ctx.nodup_plug.1 (e1 ▸ h.nodup)).2.1
    simp only [Ctx.ptrs, List.nodup_cons, List.mem_append, not_or] at hnp
    simp only [Ctx.ptrs, List.mem_cons, List.mem_append, not_or] at hqc
    refine ⟨?_, rfl, rfl, rfl, fun n hn hn' => ?_⟩
    · refine tree_of_plug (e3 _) ⟨upd_self _ _ _, upd_self _ _ _, upd_self _ _ _, ?_, trivial, trivial⟩ 
        ⟨?_, ?_, ?_, ?_, ?_, ?_⟩ hnd
      · simp [upd, T.root]
      · simp [upd, hpq, k1]
      · simp [upd, hpq, k2]
      · simp [upd, hpq, T.root]
      · simp [upd, hpq, k4]
      · refine k5.congr fun n hn => ?_
        have a1 : n ≠ s.next := fun e => hqc.2.1 (e ▸ hn)
        have a2 : n ≠ p := fun e => hnp.1.1 (e ▸ hn)
        exact ⟨by simp [upd, a1], by simp [upd, a1], by simp [upd, a1, a2], by simp [upd, a1]⟩
      · refine k6.congr (fun n hn => ?_) hm.symm
        have a1 : n ≠ s.next := fun e => hqc.2.2 (e ▸ hn)
        have a2 : n ≠ p := fun e => hnp.1.2 (e ▸ hn)
        exact ⟨by simp [upd, a1], by simp [upd, a1], by simp [upd, a1, a2], by simp [upd, a1]⟩
    · have : n ≠ p := fun e => hn (hct n (by simp [Ctx.ptrs, e]))
      exact ⟨by simp [upd, hn'], by simp [upd, hn'], by simp [upd, this, hn'], by simp [upd, hn']⟩
  | right c l p d =>
    obtain ⟨_, k1, k2, k3, k4, k5, k6⟩ := hc
    have hpq : p ≠ s.next := fun e => hqc (by simp [Ctx.ptrs, e])
    have hlx : lt x d = false := e2
    have lq : ∀ {f : Nat → Option (Option α)}, Live (upd f s.next (some (some x))) s.next := fun {f} => ⟨x, upd_self _ _ _⟩
    have lp : Live (upd s.dat s.next (some (some x))) p := ⟨d, by simp [upd, hpq, k1]⟩
    have dp : upd s.dat s.next (some (some x)) p = some (some d) := by simp [upd, hpq, k1]
    rw [wp_bind]
    simp only [Ctx.ptr, ne_eq, reduceCtorEq, not_false_eq_true, Prog.when, if_true]
    rw [wp_bind, wp_setParent lq, wp_bind]
    refine Returns.wp (readArg_ok (x := x) ?_) ?_
    · exact hrx.mono fun n hd => hd
    rw [wp_bind, wp_getData dp, if_neg (by simp [hlx]), wp_bind, wp_bind, wp_getRight lp, wp_bind, wp_setRight lp, wp_bind, wp_setRight lq]
    simp only [wp_pure, upd_ne _ _ hpq, k4, T.root, not_true_eq_false, if_false]
    rw [wp_bind, wp_getRoot]
    obtain ⟨m, hm⟩ : ∃ m, s.root = some m := root_some h (hct p (by simp [Ctx.ptrs]))
    simp only [hm, reduceCtorEq, if_false]
    rw [wp_bind, wp_pure, wp_bind, wp_getSize, wp_setSize]
    have hnp := (Ctx.nodup_plug.1 (e1 ▸ h.nodup)).2.1
    simp only [Ctx.ptrs, List.nodup_cons, List.mem_append, not_or] at hnp
    simp only [Ctx.ptrs, List.mem_cons, List.mem_append, not_or] at hqc
    refine ⟨?_, rfl, rfl, rfl, fun n hn hn' => ?_⟩
    · refine tree_of_plug (e3 _) ⟨upd_self _ _ _, upd_self _ _ _, ?_, upd_self _ _ _, trivial, trivial⟩ 
        ⟨?_, ?_, ?_, ?_, ?_, ?_⟩ hnd
      · simp [upd, T.root]
      · simp [upd, hpq, k1]
      · simp [upd, hpq, k2]
      · simp [upd, hpq, k3]
      · simp [upd, hpq, T.root]
      · refine k5.congr fun n hn => ?_
        have a1 : n ≠ s.next := fun e => hqc.2.1 (e ▸ hn)
        have a2 : n ≠ p := fun e => hnp.1.1 (e ▸ hn)
        exact ⟨by simp [upd, a1], by simp [upd, a1], by simp [upd, a1], by simp [upd, a1, a2]⟩
      · refine k6.congr (fun n hn => ?_) hm.symm
        have a1 : n ≠ s.next := fun e => hqc.2.2 (e ▸ hn)
        have a2 : n ≠ p := fun e => hnp.1.2 (e ▸ hn)
        exact ⟨by simp [upd, a1], by simp [upd, a1], by simp [upd, a1], by simp [upd, a1, a2]⟩
    · have : n ≠ p := fun e => hn (hct n (by simp [Ctx.ptrs, e]))
      exact ⟨by simp [upd, hn'], by simp [upd, hn'], by simp [upd, hn'], by simp [upd, this, hn']⟩

/-- `push` of a present element only counts. -/
theorem push_dup {s : St α} {t : T α} {x : α} {obj : Arg α} {z : Nat} (h : IsTree s t) (hx : Reads s obj x)
    (hf : fFind lt x t = some z) : Returns (push lt obj) s () { s with size := s.size + 1 } := by
  have hi : Returns (insert lt obj) s (some z) s := by
    unfold insert Returns
    rw [bind_returns (show Returns getRoot s s.root s from rfl), h.root, bind_returns (insertLoop_dup h.rep hx hf)]
    rfl
  have hr : s.root ≠ none := by
    rw [h.root]
    cases t with
    | nil => cases hf
    | node l p d r => simp [T.root]
  unfold push Returns
  rw [bind_returns hi, bind_returns (show Returns getRoot s s.root s from rfl)]
  simp only [Prog.when, hr, if_false]
  rfl

/-! ## Deleting -/

/-- What a finished deletion in the subtree `t` leaves; `z` is the released node. -/
structure Cut (s s' : St α) (pa : Ptr) (t t' : T α) (z : Nat) : Prop where
  rep : Rep s' pa t'
  gone : s'.dat z = none
  next : s'.next = s.next
  lost : s'.lost = s.lost
  root : s'.root = s.root
  size : s'.size = s.size - 1
  out : ∀ n, n ∉ t.ptrs → SameAt s s' n

theorem release_ok {s : St α} {p : Nat} (h : Live s.dat p) {sub : Ptr} :
    Returns (do destroyNode (some p); freeNode (some p); let n ← getSize; setSize (n - 1); pure sub) s sub
      { s with dat := upd s.dat p none, size := s.size - 1 } := by
  obtain ⟨d, hd⟩ := h
  unfold Returns
  rw [bind_returns (show Returns (destroyNode (some p)) s () { s with dat := upd s.dat p (some none) } by
    unfold Returns destroyNode; simp [hd])]
  have e : upd (upd s.dat p (some none)) p none = upd s.dat p none := by
    funext n; by_cases h : n = p <;> simp [upd, h]
  rw [bind_returns (show Returns (freeNode (some p)) { s with dat := upd s.dat p (some none) } ()
    { s with dat := upd s.dat p none } by
    unfold Returns freeNode; simp [e])]
  rfl

theorem spliceOut_ok {s : St α} {pa : Ptr} {l r u : T α} {p : Nat} {d : α} (h : Rep s pa (.node l p d r))
    (hn : (T.node l p d r).ptrs.Nodup) (hu : (l = .nil ∧ u = r) ∨ (r = .nil ∧ u = l)) :
    wp (spliceOut (some p) u.root) (fun y s' => y = u.root ∧ Cut s s' pa (.node l p d r) u p) s := by
  obtain ⟨h1, h2, h3, h4, h5, h6⟩ := h
  obtain ⟨n1, n2, n3, n4, n5⟩ := nodup_node hn
  have lp : Live s.dat p := ⟨d, h1⟩
  have hru : Rep s (some p) u ∧ u.ptrs.Nodup ∧ p ∉ u.ptrs ∧ ∀ n ∈ u.ptrs, n ∈ (T.node l p d r).ptrs := by
    rcases hu with ⟨_, rfl⟩ | ⟨_, rfl⟩
    · exact ⟨h6, n2, n4, fun n hn => by simp [T.ptrs, hn]⟩
    · exact ⟨h5, n1, n3, fun n hn => by simp [T.ptrs, hn]⟩
  obtain ⟨u1, u2, u3, u4⟩ := hru
  have hp : p ∈ (T.node l p d r).ptrs := by simp [T.ptrs]
  unfold spliceOut
  rw [wp_bind]
  cases u with
  | nil =>
    simp only [T.root, ne_eq, not_true_eq_false, Prog.when, if_false]
    rw [wp_pure]
    refine Returns.wp (release_ok lp) ⟨rfl, trivial, upd_self _ _ _, rfl, rfl, rfl, rfl, fun n hn => ?_⟩
    exact ⟨upd_ne _ _ (fun e => hn (e ▸ hp)), rfl, rfl, rfl⟩
  | node a q e b =>
    have hq : q ∈ (T.node a q e b).ptrs := by simp [T.ptrs]
    have hqp : q ≠ p := fun e => u3 (e ▸ hq)
    simp only [T.root, ne_eq, reduceCtorEq, not_false_eq_true, Prog.when, if_true]
    rw [wp_bind, wp_getParent lp, wp_setParent (u1.live hq)]
    refine Returns.wp (release_ok (s := { s with par := upd s.par q (s.par p) }) lp) ?_
    refine ⟨rfl, ?_, upd_self _ _ _, rfl, rfl, rfl, rfl, fun n hn => ?_⟩
    · refine u1.reparent u2 (fun n hn hr => ?_) fun n hr => ?_
      · have a1 : n ≠ p := fun e => u3 (e ▸ hn)
        have a2 : n ≠ q := fun e => hr (by simp [T.root, e])
        exact ⟨by simp [upd, a1], by simp [upd, a2], rfl, rfl⟩
      · simp only [T.root, Option.some.injEq] at hr
        subst hr
        exact ⟨by simp [upd, hqp], rfl, rfl, by simp [h2]⟩
    · exact ⟨upd_ne _ _ (fun e => hn (e ▸ hp)), upd_ne _ _ (fun e => hn (u4 n (e ▸ hq))), rfl, rfl⟩

/-- The two steps that lead from `_try_to_delete` of a node to that of its right child. -/
theorem delete_self (hirr : ∀ a, lt a a = false) {s : St α} {q : Nat} {e : α} (h : s.dat q = some (some e)) :
    delete lt (some q) (.ref (some q)) s = tryDelete lt (some q) s := by
  rw [delete]
  rw [bind_returns (show Returns (readArg (.ref (some q))) s e s from getData_ok h), bind_returns (getData_ok h)]
  simp [hirr]

theorem stuckLoop_ok {s : St α} {pa : Ptr} {l r : T α} {p : Nat} {d : α} (h : Rep s pa (.node l p d r)) (hl : l ≠ .nil) :
    Returns (stuckLoop (some p)) s (some p) s := by
  obtain ⟨h1, h2, h3, h4, h5, h6⟩ := h
  unfold stuckLoop Returns
  rw [bind_returns (getLeft_ok ⟨d, h1⟩), h3, if_neg (by simpa [T.root_none] using hl)]
  rfl

theorem stuckLoop_null {s : St α} {pa : Ptr} {r : T α} {p : Nat} {d : α} (h : Rep s pa (.node .nil p d r)) :
    Faults (stuckLoop (some p)) s .nullDeref := by
  obtain ⟨h1, h2, h3, h4, h5, h6⟩ := h
  unfold stuckLoop Faults
  rw [bind_returns (getLeft_ok ⟨d, h1⟩), h3, if_pos (show (T.nil : T α).root = none from rfl)]
  rw [bind_returns (getLeft_ok ⟨d, h1⟩), h3]
  unfold stuckLoop
  exact bind_faults (bind_faults rfl)

theorem tryDelete_ok (hirr : ∀ a, lt a a = false) {s : St α} {pa : Ptr} {t t' : T α} {z : Nat} (h : Rep s pa t)
    (hn : t.ptrs.Nodup) (ht : fTry t = some (t', z)) :
    wp (tryDelete lt t.root) (fun y s' => y = t'.root ∧ Cut s s' pa t t' z) s := by
  induction t generalizing s pa t' z with
  | nil => cases ht
  | node l p d r _ ihr =>
    have h' := h
    obtain ⟨h1, h2, h3, h4, h5, h6⟩ := h
    obtain ⟨n1, n2, n3, n4, n5⟩ := nodup_node hn
    have lp : Live s.dat p := ⟨d, h1⟩
    rw [tryDelete]
    simp only [T.root]
    rw [wp_bind, wp_getLeft lp, h3]
    cases l with
    | nil =>
      cases ht
      simp only [T.root, if_true]
      rw [wp_bind, wp_getRight lp, h4]
      exact spliceOut_ok h' hn (Or.inl ⟨rfl, rfl⟩)
    | node a1 q1 e1 b1 =>
      simp only [T.root, reduceCtorEq, if_false]
      rw [wp_bind, wp_getRight lp, h4]
      cases r with
      | nil =>
        cases ht
        simp only [T.root, if_true]
        rw [wp_bind, wp_getLeft lp, h3]
        exact spliceOut_ok h' hn (Or.inr ⟨rfl, rfl⟩)
      | node rl rp rd rr =>
        simp only [T.root, reduceCtorEq, if_false]
        cases rl with
        | nil => cases ht
        | node a q e b =>
          simp only [fTry, Option.map_eq_some_iff] at ht
          obtain ⟨⟨r', z'⟩, ht, hr⟩ := ht
          cases hr
          have hrp := h6.1
          have hprp : rp ≠ p := fun e => n4 (by simp [T.ptrs, ← e])
          rw [wp_bind, wp_getRight lp, h4, wp_bind]
          simp only [T.root]
          refine Returns.wp (stuckLoop_ok h6 (by simp)) ?_
          rw [wp_bind, wp_getData hrp, wp_bind, wp_setData lp]
          generalize hs1 : ({ s with dat := upd s.dat p (some (some rd)) } : St α) = s1
          have hp1 : s1.dat p = some (some rd) := by rw [← hs1]; exact upd_self _ _ _
          have same1 : ∀ n, n ≠ p → SameAt s s1 n := fun n hne => by
            subst hs1; exact ⟨upd_ne _ _ hne, rfl, rfl, rfl⟩
          have r6 : Rep s1 (some p) (.node (.node a q e b) rp rd rr) :=
            h6.congr fun n hm => same1 n fun e => n4 (e ▸ hm)
          have e4 : s1.rgt p = some rp := by subst hs1; exact h4
          rw [wp_bind, wp_getRight ⟨rd, hp1⟩, e4, wp_bind]
          have := ihr r6 n2 ht
          obtain ⟨y, s2, k1, rfl, k⟩ := this
          refine Returns.wp ((delete_self hirr r6.1).trans k1) ?_
          have ep := k.out p n4
          rw [wp_bind, wp_setRight ⟨rd, ep.dat.trans hp1⟩, wp_pure]
          have hpt := try_ptrs ht
          have sub : ∀ n ∈ r'.ptrs, n ∈ (T.node (.node a q e b) rp rd rr).ptrs := fun n hm =>
            hpt.mem_iff.2 (List.mem_cons_of_mem _ hm)
          refine ⟨rfl, ⟨ep.dat.trans hp1, ep.par.trans ?_, ep.lft.trans ?_, upd_self _ _ _, ?_, ?_⟩, k.gone, k.next.trans ?_,
            k.lost.trans ?_, k.root.trans ?_, k.size.trans ?_, fun n hm => ?_⟩
          · subst hs1; exact h2
          · subst hs1; exact h3
          · refine (h5.congr fun n hm => ?_)
            have a1 : n ≠ p := fun e => n3 (e ▸ hm)
            have := (same1 n a1).trans (k.out n (n5 n hm))
            exact ⟨this.dat, this.par, this.lft, (upd_ne _ _ a1).trans this.rgt⟩
          · refine k.rep.congr fun n hm => ?_
            have a1 : n ≠ p := fun e => n4 (e ▸ sub n hm)
            exact ⟨rfl, rfl, rfl, upd_ne _ _ a1⟩
          · subst hs1; rfl
          · subst hs1; rfl
          · subst hs1; rfl
          · subst hs1; rfl
          · simp only [T.ptrs.eq_def (.node (.node a1 q1 e1 b1) p d _), List.mem_append, List.mem_cons, not_or] at hm
            have := (same1 n hm.2.1).trans (k.out n hm.2.2)
            exact ⟨this.dat, this.par, this.lft, (upd_ne _ _ hm.2.1).trans this.rgt⟩

theorem tryDelete_null (hirr : ∀ a, lt a a = false) {s : St α} {pa : Ptr} {t : T α} (h : Rep s pa t)
    (hn : t.ptrs.Nodup) (ht : fTry t = none) : Faults (tryDelete lt t.root) s .nullDeref := by
  induction t generalizing s pa with
  | nil =>
    rw [tryDelete]
    exact bind_faults (bind_faults rfl)
  | node l p d r _ ihr =>
    obtain ⟨h1, h2, h3, h4, h5, h6⟩ := h
    obtain ⟨n1, n2, n3, n4, n5⟩ := nodup_node hn
    have lp : Live s.dat p := ⟨d, h1⟩
    cases l with
    | nil => cases r <;> cases ht
    | node a1 q1 e1 b1 =>
      cases r with
      | nil => cases ht
      | node rl rp rd rr =>
        rw [tryDelete]
        unfold Faults
        simp only [T.root] at h3 h4 ⊢
        rw [bind_returns (getLeft_ok lp), h3]
        simp only [reduceCtorEq, if_false]
        rw [bind_returns (getRight_ok lp), h4]
        simp only [reduceCtorEq, if_false]
        rw [bind_returns (getRight_ok lp), h4]
        cases rl with
        | nil => exact bind_faults (stuckLoop_null h6)
        | node a q e b =>
          simp only [fTry, Option.map_eq_none_iff] at ht
          have hrp := h6.1
          rw [bind_returns (stuckLoop_ok h6 (by simp)), bind_returns (getData_ok hrp), bind_returns (setData_ok lp)]
          have lp1 : Live (upd s.dat p (some (some rd))) p := ⟨rd, upd_self _ _ _⟩
          rw [bind_returns (getRight_ok lp1), h4]
          have r6 : Rep { s with dat := upd s.dat p (some (some rd)) } (some p) (.node (.node a q e b) rp rd rr) :=
            h6.congr fun n hm => ⟨upd_ne _ _ fun e => n4 (e ▸ hm), rfl, rfl, rfl⟩
          refine bind_faults ?_
          unfold Faults
          rw [delete_self hirr r6.1]
          exact ihr r6 n2 ht

theorem delete_ok (hirr : ∀ a, lt a a = false) {s : St α} {pa : Ptr} {t t' : T α} {z : Nat} {x : α} {obj : Arg α}
    (h : Rep s pa t) (hn : t.ptrs.Nodup) (hx : Reads s obj x) (ht : fDel lt x t = some (t', z)) :
    wp (delete lt t.root obj) (fun y s' => y = t'.root ∧ Cut s s' pa t t' z ∧ t.ptrs.Perm (z :: t'.ptrs)) s := by
  induction t generalizing s pa t' z with
  | nil => cases ht
  | node l p d r ihl ihr =>
    have h' := h
    obtain ⟨h1, h2, h3, h4, h5, h6⟩ := h
    obtain ⟨n1, n2, n3, n4, n5⟩ := nodup_node hn
    have lp : Live s.dat p := ⟨d, h1⟩
    rw [delete]
    simp only [T.root]
    simp only [fDel] at ht
    rw [wp_bind]
    refine Returns.wp (readArg_ok hx) ?_
    rw [wp_bind, wp_getData h1]
    by_cases c1 : lt x d
    · rw [if_pos c1] at ht ⊢
      rw [Option.map_eq_some_iff] at ht
      obtain ⟨⟨l', z'⟩, ht, e⟩ := ht
      cases e
      rw [wp_bind, wp_getLeft lp, h3, wp_bind]
      refine wp_mono (ihl h5 n1 hx ht) ?_
      rintro _ s2 ⟨rfl, k, hpm⟩
      have ep := k.out p n3
      have sub : ∀ n ∈ l'.ptrs, n ∈ l.ptrs := fun n hm => hpm.mem_iff.2 (List.mem_cons_of_mem _ hm)
      rw [wp_bind, wp_setLeft ⟨d, ep.dat.trans h1⟩, wp_pure]
      refine ⟨rfl, ⟨⟨ep.dat.trans h1, ep.par.trans h2, upd_self _ _ _, ep.rgt.trans h4, ?_, ?_⟩, k.gone, k.next, k.lost, k.root,
        k.size, fun n hm => ?_⟩, ?_⟩
      · refine k.rep.congr fun n hm => ?_
        have a1 : n ≠ p := fun e => n3 (e ▸ sub n hm)
        exact ⟨rfl, rfl, upd_ne _ _ a1, rfl⟩
      · refine h6.congr fun n hm => ?_
        have a1 : n ≠ p := fun e => n4 (e ▸ hm)
        have := k.out n (fun x => n5 n x hm)
        exact ⟨this.dat, this.par, (upd_ne _ _ a1).trans this.lft, this.rgt⟩
      · simp only [T.ptrs, List.mem_append, List.mem_cons, not_or] at hm
        have := k.out n hm.1
        exact ⟨this.dat, this.par, (upd_ne _ _ hm.2.1).trans this.lft, this.rgt⟩
      · exact hpm.append_right _
    · rw [if_neg c1] at ht ⊢
      by_cases c2 : lt d x
      · rw [if_pos c2] at ht ⊢
        rw [Option.map_eq_some_iff] at ht
        obtain ⟨⟨r', z'⟩, ht, e⟩ := ht
        cases e
        rw [wp_bind, wp_getRight lp, h4, wp_bind]
        refine wp_mono (ihr h6 n2 hx ht) ?_
        rintro _ s2 ⟨rfl, k, hpm⟩
        have ep := k.out p n4
        have sub : ∀ n ∈ r'.ptrs, n ∈ r.ptrs := fun n hm => hpm.mem_iff.2 (List.mem_cons_of_mem _ hm)
        rw [wp_bind, wp_setRight ⟨d, ep.dat.trans h1⟩, wp_pure]
        refine ⟨rfl, ⟨⟨ep.dat.trans h1, ep.par.trans h2, ep.lft.trans h3, upd_self _ _ _, ?_, ?_⟩, k.gone, k.next, k.lost, k.root,
          k.size, fun n hm => ?_⟩, ?_⟩
        · refine h5.congr fun n hm => ?_
          have a1 : n ≠ p := fun e => n3 (e ▸ hm)
          have := k.out n (n5 n hm)
          exact ⟨this.dat, this.par, this.lft, (upd_ne _ _ a1).trans this.rgt⟩
        · refine k.rep.congr fun n hm => ?_
          have a1 : n ≠ p := fun e => n4 (e ▸ sub n hm)
          exact ⟨rfl, rfl, rfl, upd_ne _ _ a1⟩
        · simp only [T.ptrs, List.mem_append, List.mem_cons, not_or] at hm
          have := k.out n hm.2.2
          exact ⟨this.dat, this.par, this.lft, (upd_ne _ _ hm.2.1).trans this.rgt⟩
        · refine List.perm_iff_count.2 fun y => ?_
          have := hpm.count_eq y
          simp only [T.ptrs, List.count_append, List.count_cons] at this ⊢; omega
      · rw [if_neg c2] at ht ⊢
        refine wp_mono (tryDelete_ok (t := .node l p d r) hirr h' hn ht) ?_
        rintro y s2 ⟨e, k⟩
        exact ⟨e, k, try_ptrs ht⟩

theorem delete_null (hirr : ∀ a, lt a a = false) {s : St α} {pa : Ptr} {t : T α} {x : α} {obj : Arg α}
    (h : Rep s pa t) (hn : t.ptrs.Nodup) (hx : Reads s obj x) (ht : fDel lt x t = none) :
    Faults (delete lt t.root obj) s .nullDeref := by
  induction t generalizing s pa with
  | nil =>
    rw [delete]
    unfold Faults
    rw [bind_returns (readArg_ok hx)]
    exact bind_faults rfl
  | node l p d r ihl ihr =>
    have h' := h
    obtain ⟨h1, h2, h3, h4, h5, h6⟩ := h
    obtain ⟨n1, n2, n3, n4, n5⟩ := nodup_node hn
    have lp : Live s.dat p := ⟨d, h1⟩
    rw [delete]
    unfold Faults
    simp only [T.root]
    simp only [fDel] at ht
    rw [bind_returns (readArg_ok hx), bind_returns (getData_ok h1)]
    by_cases c1 : lt x d
    · rw [if_pos c1] at ht ⊢
      rw [bind_returns (getLeft_ok lp), h3]
      exact bind_faults (ihl h5 n1 hx (by simpa using ht))
    · rw [if_neg c1] at ht ⊢
      by_cases c2 : lt d x
      · rw [if_pos c2] at ht ⊢
        rw [bind_returns (getRight_ok lp), h4]
        exact bind_faults (ihr h6 n2 hx (by simpa using ht))
      · rw [if_neg c2] at ht ⊢
        exact tryDelete_null hirr h' hn ht

/-! ## `pop` and `erase` -/

/-- What a finished deletion leaves of a whole tree. -/
structure Removed (s s' : St α) (t t' : T α) (z : Nat) : Prop where
  tree : IsTree s' t'
  perm : t.ptrs.Perm (z :: t'.ptrs)
  gone : s'.dat z = none
  next : s'.next = s.next
  lost : s'.lost = s.lost
  size : s'.size = s.size - 1
  out : ∀ n, n ∉ t.ptrs → SameAt s s' n

theorem pop_empty {s : St α} {obj : Arg α} (hs : s.size = 0) : Returns (pop lt obj) s () s := by
  unfold pop Returns
  rw [bind_returns (show Returns getSize s s.size s from rfl), if_pos hs]; rfl

theorem pop_ok (hirr : ∀ a, lt a a = false) {s : St α} {t t' : T α} {z : Nat} {x : α} {obj : Arg α}
    (h : IsTree s t) (hx : Reads s obj x) (hs : s.size ≠ 0) (ht : fDel lt x t = some (t', z)) :
    wp (pop lt obj) (fun _ s' => Removed s s' t t' z) s := by
  unfold pop
  rw [wp_bind, wp_getSize, if_neg hs, wp_bind, wp_getRoot, h.root, wp_bind]
  refine wp_mono (delete_ok hirr h.rep h.nodup hx ht) ?_
  rintro _ s1 ⟨rfl, k, hpm⟩
  have hnd : t'.ptrs.Nodup := (List.nodup_cons.1 (hpm.nodup_iff.1 h.nodup)).2
  rw [wp_bind, wp_getRoot, wp_when]
  constructor
  · intro _
    unfold updateRoot
    rw [wp_bind, wp_modify, wp_when]
    constructor
    · intro hr
      cases t' with
      | nil => exact absurd rfl hr
      | node a q e b =>
        have hrep := k.rep
        have lq : Live s1.dat q := ⟨e, hrep.1⟩
        have e1 : upd s1.par q none = s1.par := by
          funext n; by_cases x : n = q
          · rw [x, upd_self]; exact hrep.2.1.symm
          · exact upd_ne _ _ x
        simp only [T.root]
        rw [wp_setParent (by exact lq)]
        simp only [e1]
        refine ⟨⟨rfl, hrep.congr fun n _ => ⟨rfl, rfl, rfl, rfl⟩, hnd⟩, hpm, k.gone, k.next, k.lost, k.size, fun n hn => ?_⟩
        have := k.out n hn
        exact ⟨this.dat, this.par, this.lft, this.rgt⟩
    · intro _
      refine ⟨⟨rfl, k.rep.congr fun n _ => ⟨rfl, rfl, rfl, rfl⟩, hnd⟩, hpm, k.gone, k.next, k.lost, k.size, fun n hn => ?_⟩
      have := k.out n hn
      exact ⟨this.dat, this.par, this.lft, this.rgt⟩
  · intro hr
    exact ⟨⟨Classical.not_not.1 hr, k.rep, hnd⟩, hpm, k.gone, k.next, k.lost, k.size, k.out⟩

theorem pop_null (hirr : ∀ a, lt a a = false) {s : St α} {t : T α} {x : α} {obj : Arg α}
    (h : IsTree s t) (hx : Reads s obj x) (hs : s.size ≠ 0) (ht : fDel lt x t = none) :
    Faults (pop lt obj) s .nullDeref := by
  unfold pop Faults
  rw [bind_returns (show Returns getSize s s.size s from rfl), if_neg hs,
    bind_returns (show Returns getRoot s s.root s from rfl), h.root]
  exact bind_faults (delete_null hirr h.rep h.nodup hx ht)

/-- `erase`: the iterator it returns leads to the successor, except when the node had two
children. -/
theorem erase_ok (hirr : ∀ a, lt a a = false) {s : St α} {c : Ctx α} {l r u : T α} {p z : Nat} {d : α}
    (h : IsTree s (c.plug (.node l p d r))) (ht : fTry (.node l p d r) = some (u, z)) :
    wp (erase lt (some p)) (fun y s' => Removed s s' (c.plug (.node l p d r)) (c.plug u) z ∧
      y = if u.root = some p then some p else hd (r.inorder ++ c.after)) s := by
  have hat := h.at
  have hrep : Rep s c.ptr (.node l p d r) := ⟨hat.dat, hat.par, hat.lft, hat.rgt, hat.repl, hat.repr⟩
  have lp : Live s.dat p := ⟨d, hat.dat⟩
  obtain ⟨m1, m2, m3⟩ := Ctx.nodup_plug.1 h.nodup
  have hpt := try_ptrs ht
  have hpm : (c.plug (.node l p d r)).ptrs.Perm (z :: (c.plug u).ptrs) := by
    refine (Ctx.ptrs_plug _ _).trans ((hpt.append_right _).trans ?_)
    exact ((Ctx.ptrs_plug c u).symm.cons z)
  have hnd : (c.plug u).ptrs.Nodup := (List.nodup_cons.1 (hpm.nodup_iff.1 h.nodup)).2
  have sub : ∀ n ∈ u.ptrs, n ∈ (T.node l p d r).ptrs := fun n hm => hpt.mem_iff.2 (List.mem_cons_of_mem _ hm)
  unfold erase
  rw [wp_bind, wp_getParent lp, hat.par, wp_bind]
  refine Returns.wp (nextIn_at hat) ?_
  rw [wp_bind]
  refine wp_mono (tryDelete_ok (t := .node l p d r) hirr hrep m1 ht) ?_
  rintro _ s1 ⟨rfl, k⟩
  have hc1 : CRep s1 c (some p) := hat.crep.congr (fun n hn => k.out n fun x => m3 n x hn) k.root
  have hout : ∀ n, n ∉ (c.plug (.node l p d r)).ptrs → SameAt s s1 n := fun n hn =>
    k.out n fun x => hn (Ctx.mem_plug.2 (Or.inl x))
  by_cases hu : u.root = some p
  · rw [if_neg (by simp [hu]), wp_pure]
    refine ⟨⟨?_, hpm, k.gone, k.next, k.lost, k.size, hout⟩, by rw [if_pos hu]⟩
    exact tree_of_plug rfl k.rep (hu ▸ hc1) hnd
  · rw [if_pos (Ne.symm hu), if_neg hu]
    cases c with
    | top =>
      simp only [Ctx.ptr, if_true]
      rw [wp_bind]
      unfold updateRoot
      rw [wp_bind, wp_modify, wp_when]
      constructor
      · intro hr
        cases u with
        | nil => exact absurd rfl hr
        | node a q e b =>
          have hrep := k.rep
          have lq : Live s1.dat q := ⟨e, hrep.1⟩
          have e1 : upd s1.par q none = s1.par := by
            funext n; by_cases x : n = q
            · rw [x, upd_self]; exact hrep.2.1.symm
            · exact upd_ne _ _ x
          simp only [T.root]
          rw [wp_setParent (by exact lq), wp_pure]
          simp only [e1]
          refine ⟨⟨⟨rfl, hrep.congr fun n _ => ⟨rfl, rfl, rfl, rfl⟩, hnd⟩, hpm, k.gone, k.next, k.lost, k.size, fun n hn => ?_⟩, trivial⟩
          have := hout n hn
          exact ⟨this.dat, this.par, this.lft, this.rgt⟩
      · intro _
        rw [wp_pure]
        refine ⟨⟨⟨rfl, k.rep.congr fun n _ => ⟨rfl, rfl, rfl, rfl⟩, hnd⟩, hpm, k.gone, k.next, k.lost, k.size, fun n hn => ?_⟩, rfl⟩
        have := hout n hn
        exact ⟨this.dat, this.par, this.lft, this.rgt⟩
    | left c q e v =>
      obtain ⟨k1, k2, k3, k4, k5, k6⟩ := hc1
      simp only [Ctx.ptr, reduceCtorEq, if_false]
      rw [wp_bind, wp_getLeft ⟨e, k1⟩, k3, if_pos rfl, wp_bind, wp_setLeft ⟨e, k1⟩, wp_pure]
      simp only [Ctx.ptrs, List.nodup_cons, List.mem_append, not_or] at m2
      have hqu : q ∉ u.ptrs := fun x => m3 q (sub q x) (by simp [Ctx.ptrs])
      refine ⟨⟨?_, hpm, k.gone, k.next, k.lost, k.size, fun n hn => ?_⟩, rfl⟩
      · refine tree_of_plug rfl ?_ ⟨k1, k2, upd_self _ _ _, k4, ?_, ?_⟩ hnd
        · exact k.rep.congr fun n hn => ⟨rfl, rfl, upd_ne _ _ fun e => hqu (e ▸ hn), rfl⟩
        · exact k5.congr fun n hn => ⟨rfl, rfl, upd_ne _ _ fun e => m2.1.1 (e ▸ hn), rfl⟩
        · exact k6.congr (fun n hn => ⟨rfl, rfl, upd_ne _ _ fun e => m2.1.2 (e ▸ hn), rfl⟩) rfl
      · have := hout n hn
        refine ⟨this.dat, this.par, (upd_ne _ _ fun e => hn ?_).trans this.lft, this.rgt⟩
        rw [Ctx.mem_plug]; exact Or.inr (by simp [Ctx.ptrs, e])
    | right c v q e =>
      obtain ⟨k1, k2, k3, k4, k5, k6⟩ := hc1
      simp only [Ctx.ptr, reduceCtorEq, if_false]
      have hvp : v.root ≠ some p := fun x => m3 p (by simp [T.ptrs]) (by simp [Ctx.ptrs, T.root_mem x])
      rw [wp_bind, wp_getLeft ⟨e, k1⟩, k3, if_neg hvp, wp_bind, wp_setRight ⟨e, k1⟩, wp_pure]
      simp only [Ctx.ptrs, List.nodup_cons, List.mem_append, not_or] at m2
      have hqu : q ∉ u.ptrs := fun x => m3 q (sub q x) (by simp [Ctx.ptrs])
      refine ⟨⟨?_, hpm, k.gone, k.next, k.lost, k.size, fun n hn => ?_⟩, rfl⟩
      · refine tree_of_plug rfl ?_ ⟨k1, k2, k3, upd_self _ _ _, ?_, ?_⟩ hnd
        · exact k.rep.congr fun n hn => ⟨rfl, rfl, rfl, upd_ne _ _ fun e => hqu (e ▸ hn)⟩
        · exact k5.congr fun n hn => ⟨rfl, rfl, rfl, upd_ne _ _ fun e => m2.1.1 (e ▸ hn)⟩
        · exact k6.congr (fun n hn => ⟨rfl, rfl, rfl, upd_ne _ _ fun e => m2.1.2 (e ▸ hn)⟩) rfl
      · have := hout n hn
        refine ⟨this.dat, this.par, this.lft, (upd_ne _ _ fun e => hn ?_).trans this.rgt⟩
        rw [Ctx.mem_plug]; exact Or.inr (by simp [Ctx.ptrs, e])

theorem erase_null (hirr : ∀ a, lt a a = false) {s : St α} {c : Ctx α} {l r : T α} {p : Nat} {d : α}
    (h : IsTree s (c.plug (.node l p d r))) (ht : fTry (.node l p d r) = none) :
    Faults (erase lt (some p)) s .nullDeref := by
  have hat := h.at
  have hrep : Rep s c.ptr (.node l p d r) := ⟨hat.dat, hat.par, hat.lft, hat.rgt, hat.repl, hat.repr⟩
  have lp : Live s.dat p := ⟨d, hat.dat⟩
  obtain ⟨m1, m2, m3⟩ := Ctx.nodup_plug.1 h.nodup
  unfold erase Faults
  rw [bind_returns (getParent_ok lp), bind_returns (nextIn_at hat)]
  exact bind_faults (tryDelete_null (t := .node l p d r) hirr hrep m1 ht)

theorem erase_end (s : St α) : Faults (erase lt none) s .nullDeref := bind_faults (bind_faults rfl)

end Verif.BST
