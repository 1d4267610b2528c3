import Verif.AVLFoot

/-! # Which nodes `pop` of an AVL tree uses -/

namespace Verif.Tree

open Prog

variable {δ β γ : Type} {P : List Nat}

/-- `p` runs, and uses no nodes but `P`, in every state in which these are constructed. -/
def Uses (P : List Nat) (p : Prog (St δ) β) : Prop :=
  ∀ s : St δ, (∀ n ∈ P, Live s.dat n) → Foot P p (fun _ s' => ∀ n ∈ P, Live s'.dat n) s

theorem Uses.imp' {p : Prog (St δ) β} (h : Uses P p) {s : St δ} (hs : ∀ n ∈ P, Live s.dat n) :
    Foot P p (fun _ _ => True) s := (h s hs).imp fun _ _ _ => trivial

theorem uses_pure (b : β) : Uses P (pure b : Prog (St δ) β) := fun _ h => foot_pure h

theorem uses_bind {p : Prog (St δ) β} {f : β → Prog (St δ) γ} (h : Uses P p) (hf : ∀ b, Uses P (f b)) : Uses P (p >>= f) :=
  fun s hs => foot_bind ((h s hs).imp fun b s1 h1 => hf b s1 h1)

theorem uses_ite {c : Prop} [Decidable c] {p q : Prog (St δ) β} (h1 : Uses P p) (h2 : Uses P q) : Uses P (if c then p else q) := by
  split
  · exact h1
  · exact h2

theorem uses_when {c : Prop} [Decidable c] {p : Prog (St δ) Unit} (h : c → Uses P p) : Uses P (Prog.when c p) := by
  unfold Prog.when
  split
  · exact h ‹_›
  · exact uses_pure ()

/-- The pointer is null or points into `P`. -/
def In (P : List Nat) (x : Ptr) : Prop := ∀ n, x = some n → n ∈ P

theorem uses_setLeft {n : Nat} (x : Ptr) (hn : n ∈ P) : Uses P (setLeft (some n) x : Prog (St δ) Unit) :=
  fun _ h => foot_setLeft (h n hn) hn h

theorem uses_setRight {n : Nat} (x : Ptr) (hn : n ∈ P) : Uses P (setRight (some n) x : Prog (St δ) Unit) :=
  fun _ h => foot_setRight (h n hn) hn h

theorem uses_setParent {n : Nat} (x : Ptr) (hn : n ∈ P) : Uses P (setParent (some n) x : Prog (St δ) Unit) :=
  fun _ h => foot_setParent (h n hn) hn h

theorem uses_getLeft {n : Nat} {f : Ptr → Prog (St δ) β} (hn : n ∈ P) (hf : ∀ x, Uses P (f x)) : Uses P (getLeft (some n) >>= f) :=
  fun s h => foot_getLeft (h n hn) hn (hf _ s h)

theorem uses_getRight {n : Nat} {f : Ptr → Prog (St δ) β} (hn : n ∈ P) (hf : ∀ x, Uses P (f x)) : Uses P (getRight (some n) >>= f) :=
  fun s h => foot_getRight (h n hn) hn (hf _ s h)

theorem uses_getParent {n : Nat} {f : Ptr → Prog (St δ) β} (hn : n ∈ P) (hf : ∀ x, Uses P (f x)) : Uses P (getParent (some n) >>= f) :=
  fun s h => foot_getParent (h n hn) hn (hf _ s h)

theorem uses_getData {n : Nat} {f : δ → Prog (St δ) β} (hn : n ∈ P) (hf : ∀ x, Uses P (f x)) : Uses P (getData (some n) >>= f) := by
  intro s h
  obtain ⟨d, hd⟩ := h n hn
  exact foot_getData hd hn (hf d s h)

theorem uses_setData {n : Nat} (d : δ) (hn : n ∈ P) : Uses P (setData (some n) d) := by
  refine fun s h => foot_setData (h n hn) hn fun m hm => ?_
  by_cases e : m = n
  · subst e; exact ⟨d, upd_self _ _ _⟩
  · obtain ⟨d', hd⟩ := h m hm
    exact ⟨d', (upd_ne _ _ e).trans hd⟩

theorem uses_whenParent {x : Ptr} (y : Ptr) (hx : In P x) : Uses P (Prog.when (x ≠ none) (setParent x y) : Prog (St δ) Unit) := by
  refine uses_when fun hne => ?_
  cases x with
  | none => exact absurd rfl hne
  | some n => exact uses_setParent y (hx n rfl)

theorem uses_updateRoot {n : Nat} (hn : n ∈ P) : Uses P (updateRoot (some n) : Prog (St δ) Unit) :=
  fun s h => foot_updateRoot (fun k hk => by cases hk; exact ⟨h n hn, hn⟩) fun s' e m hm => by rw [e]; exact h m hm

/-- The neighbours of a node. -/
def nbrs (s : St δ) (n : Nat) : List Nat := (s.par n).toList ++ ((s.lft n).toList ++ (s.rgt n).toList)

theorem length_nbrs (s : St δ) (n : Nat) : (nbrs s n).length ≤ 3 := by
  have h : ∀ x : Ptr, x.toList.length ≤ 1 := by intro x; cases x <;> simp
  have := h (s.par n)
  have := h (s.lft n)
  have := h (s.rgt n)
  simp only [nbrs, List.length_append]
  omega

theorem mem_plug (c : Ctx δ) {t : T δ} {n : Nat} (h : n ∈ t.ptrs) : n ∈ (c.plug t).ptrs := by
  rw [T.ptrs_eq, Ctx.inorder_plug]
  rw [T.ptrs_eq] at h
  simp only [List.map_append, List.mem_append]
  exact Or.inl (Or.inr h)

theorem Rep.near {s : St δ} {pa : Ptr} {t : T δ} (h : Rep s pa t) {n : Nat} (hn : n ∈ t.ptrs) :
    ∀ m ∈ nbrs s n, m ∈ t.ptrs ∨ pa = some m := by
  induction t generalizing pa with
  | nil => cases hn
  | node l p d r ihl ihr =>
    obtain ⟨h1, h2, h3, h4, h5, h6⟩ := h
    simp only [T.ptrs, List.mem_append, List.mem_cons] at hn
    intro m hm
    simp only [T.ptrs, List.mem_append, List.mem_cons]
    rcases hn with hn | rfl | hn
    · rcases ihl h5 hn m hm with h | h
      · exact Or.inl (Or.inl h)
      · cases h; exact Or.inl (Or.inr (Or.inl rfl))
    · simp only [nbrs, h2, h3, h4, List.mem_append, Option.mem_toList] at hm
      rcases hm with h | h | h
      · exact Or.inr h
      · exact Or.inl (Or.inl (T.root_mem h))
      · exact Or.inl (Or.inr (Or.inr (T.root_mem h)))
    · rcases ihr h6 hn m hm with h | h
      · exact Or.inl (Or.inr (Or.inr h))
      · cases h; exact Or.inl (Or.inr (Or.inl rfl))

/-- The nodes on the way to the leftmost one. -/
def spine : T δ → List Nat
  | .nil => []
  | .node l p _ _ => p :: spine l

theorem length_spine (t : T δ) : (spine t).length ≤ t.height := by
  induction t with
  | nil => simp [spine]
  | node l p d r ih _ => simp only [spine, List.length_cons, T.height]; omega

theorem foot_leftmost {s : St δ} {pa : Ptr} {t : T δ} (h : Rep s pa t) (hne : t ≠ .nil) (hp : ∀ n ∈ spine t, n ∈ P) :
    Foot P (leftmost t.root) (fun _ _ => True) s := by
  induction t generalizing pa with
  | nil => exact absurd rfl hne
  | node l p d r ih _ =>
    obtain ⟨h1, h2, h3, h4, h5, h6⟩ := h
    simp only [T.root]
    unfold leftmost
    refine foot_getLeft ⟨d, h1⟩ (hp p (by simp [spine])) ?_
    rw [h3]
    cases l with
    | nil => exact foot_pure trivial
    | node a q e b =>
      rw [if_pos (by simp [T.root])]
      exact ih h5 (by simp) fun n hn => hp n (by rw [spine]; exact List.mem_cons_of_mem _ hn)

end Verif.Tree

namespace Verif.AVL

open Prog Verif.Tree

variable {α β : Type} {P : List Nat}

theorem uses_setHeight {n : Nat} (v : Int) (hn : n ∈ P) : Uses P (setHeight (some n) v : Prog (St α) Unit) :=
  uses_getData hn fun _ => uses_setData _ hn

theorem uses_replaceChild {x : Ptr} (a b : Ptr) (hx : In P x) : Uses P (replaceChild x a b : Prog (St α) Unit) := by
  unfold replaceChild
  cases x with
  | none => exact uses_bind (uses_when fun h => absurd rfl h) fun _ => uses_when fun h => absurd rfl h
  | some n =>
    have hn := hx n rfl
    exact uses_bind (uses_when fun _ => uses_getLeft hn fun _ => uses_when fun _ => uses_setLeft _ hn) fun _ =>
      uses_when fun _ => uses_getRight hn fun _ => uses_when fun _ => uses_setRight _ hn

theorem uses_swapAdjacent {a b : Nat} {x y z u v : Ptr} (ha : a ∈ P) (hb : b ∈ P) (hx : In P x) (hy : In P y) (hz : In P z)
    (hu : In P u) (hv : In P v) : Uses P (swapAdjacent (some a) (some b) x y z u v : Prog (St α) Unit) := by
  unfold swapAdjacent
  refine uses_bind (uses_setParent _ hb) fun _ => uses_getRight ha fun _ => uses_bind (uses_ite ?_ ?_) fun _ => ?_
  · exact uses_bind (uses_setLeft _ hb) fun _ => uses_bind (uses_setRight _ hb) fun _ => uses_whenParent _ hy
  · exact uses_bind (uses_setLeft _ hb) fun _ => uses_bind (uses_setRight _ hb) fun _ => uses_whenParent _ hz
  · exact uses_bind (uses_setRight _ ha) fun _ => uses_bind (uses_setLeft _ ha) fun _ => uses_bind (uses_setParent _ ha) fun _ =>
      uses_bind (uses_replaceChild _ _ hx) fun _ => uses_bind (uses_whenParent _ hv) fun _ => uses_whenParent _ hu

theorem uses_swapApart {a b : Nat} {x y z w u v : Ptr} (ha : a ∈ P) (hb : b ∈ P) (hx : In P x) (hy : In P y) (hz : In P z)
    (hw : In P w) (hu : In P u) (hv : In P v) : Uses P (swapApart (some a) (some b) x y z w u v : Prog (St α) Unit) := by
  unfold swapApart
  exact uses_bind (uses_replaceChild _ _ hx) fun _ => uses_bind (uses_setParent _ hb) fun _ =>
    uses_bind (uses_replaceChild _ _ hw) fun _ => uses_bind (uses_setParent _ ha) fun _ =>
    uses_bind (uses_whenParent _ hy) fun _ => uses_bind (uses_whenParent _ hz) fun _ =>
    uses_bind (uses_setLeft _ hb) fun _ => uses_bind (uses_setRight _ hb) fun _ =>
    uses_bind (uses_whenParent _ hu) fun _ => uses_bind (uses_whenParent _ hv) fun _ =>
    uses_bind (uses_setLeft _ ha) fun _ => uses_setRight _ ha

theorem uses_swapFinish {a b : Nat} (ha : a ∈ P) (hb : b ∈ P) : Uses P (swapFinish (some a) (some b) : Prog (St α) (Ptr × Ptr)) := by
  unfold swapFinish
  exact uses_getData ha fun _ => uses_getData hb fun _ => uses_bind (uses_setHeight _ ha) fun _ =>
    uses_bind (uses_setHeight _ hb) fun _ => uses_getParent hb fun _ => uses_bind (uses_when fun _ => uses_updateRoot hb) fun _ =>
    uses_getParent ha fun _ => uses_bind (uses_when fun _ => uses_updateRoot ha) fun _ => uses_pure _

/-- `_swap_node` uses the two nodes and their neighbours. -/
theorem swapNode_foot {s : St α} {a b : Nat} (hl : ∀ n ∈ [a, b] ++ (nbrs s a ++ nbrs s b), Live s.dat n) :
    Foot ([a, b] ++ (nbrs s a ++ nbrs s b)) (swapNode (some a) (some b)) (fun _ _ => True) s := by
  have ha : a ∈ [a, b] ++ (nbrs s a ++ nbrs s b) := by simp
  have hb : b ∈ [a, b] ++ (nbrs s a ++ nbrs s b) := by simp
  have i1 : In ([a, b] ++ (nbrs s a ++ nbrs s b)) (s.par a) := fun n hn => by simp [nbrs, hn]
  have i2 : In ([a, b] ++ (nbrs s a ++ nbrs s b)) (s.lft a) := fun n hn => by simp [nbrs, hn]
  have i3 : In ([a, b] ++ (nbrs s a ++ nbrs s b)) (s.rgt a) := fun n hn => by simp [nbrs, hn]
  have j1 : In ([a, b] ++ (nbrs s a ++ nbrs s b)) (s.par b) := fun n hn => by simp [nbrs, hn]
  have j2 : In ([a, b] ++ (nbrs s a ++ nbrs s b)) (s.lft b) := fun n hn => by simp [nbrs, hn]
  have j3 : In ([a, b] ++ (nbrs s a ++ nbrs s b)) (s.rgt b) := fun n hn => by simp [nbrs, hn]
  generalize [a, b] ++ (nbrs s a ++ nbrs s b) = P at *
  have la := hl a ha
  have lb := hl b hb
  unfold swapNode
  refine foot_getParent la ha ?_
  by_cases c : s.par a = some b
  · rw [if_pos c]
    simp only
    refine foot_getParent lb hb (foot_getLeft lb hb (foot_getRight lb hb (foot_getParent la ha (foot_getLeft la ha
      (foot_getRight la ha ?_)))))
    exact (uses_bind (uses_ite (uses_swapAdjacent hb ha j1 j2 j3 i2 i3) (uses_swapApart hb ha j1 j2 j3 i1 i2 i3)) fun _ =>
      uses_swapFinish hb ha).imp' hl
  · rw [if_neg c]
    simp only
    refine foot_getParent la ha (foot_getLeft la ha (foot_getRight la ha (foot_getParent lb hb (foot_getLeft lb hb
      (foot_getRight lb hb ?_)))))
    exact (uses_bind (uses_ite (uses_swapAdjacent ha hb i1 i2 i3 j2 j3) (uses_swapApart ha hb i1 i2 i3 j1 j2 j3)) fun _ =>
      uses_swapFinish ha hb).imp' hl

theorem foot_realDelete {s : St α} {n : Nat} {Q : Unit → St α → Prop} (hl : Live s.dat n) (hn : n ∈ P)
    (h : Q () { s with dat := upd s.dat n none, size := s.size - 1 }) : Foot P (realDelete (some n)) Q s := by
  refine ⟨(), _, h, realDelete_ok hl, fun m hm => ⟨upd_ne _ _ fun e => hm (e ▸ hn), rfl, rfl, rfl⟩, fun s' hs =>
    ⟨_, realDelete_ok (hs.live hn hl), ⟨⟨hs.hdr.next, hs.hdr.lost, hs.hdr.root, by rw [hs.hdr.size]⟩, fun m hm => ?_⟩,
      fun m hm => ⟨upd_ne _ _ fun e => hm (e ▸ hn), rfl, rfl, rfl⟩⟩⟩
  have := hs.same m hm
  exact ⟨upd_agree this.dat, this.par, this.lft, this.rgt⟩

theorem fixBal_foot {s : St α} {pa : Ptr} {l r : Tr α} {p : Nat} {d : D α}
    (h : Rep s pa (.node l p d r)) (hn : (T.node l p d r).ptrs.Nodup) (hl : Avl l) (hr : Avl r)
    (hp : ∀ n ∈ top 4 (.node l p d r), n ∈ P) :
    Foot P (do updateHeight (some p); checkAndBalance (some p)) (fun _ _ => True) s := by
  obtain ⟨n1, n2, n3, n4, n5⟩ := nodup_node hn
  refine foot_seq (updateHeight_foot h fun n hn => hp n (top_le (by omega) _ n hn)) (fun _ h => h) (updateHeight_ok h n3 n4) ?_
  rintro _ s1 ⟨h1, h2, _⟩
  exact checkAndBalance_foot h1 hn hl hr hp

theorem delLeft_foot {s s1 : St α} {c : Ctx (D α)} {l l' r : Tr α} {p z : Nat} {d : D α}
    (hn : (c.plug (.node l p d r)).ptrs.Nodup) (hsub : ∀ n ∈ l'.ptrs, n ∈ l.ptrs)
    (hl' : l'.ptrs.Nodup) (hv : Avl l') (hvr : Avl r) (hd : DelPost s s1 (.left c p d r) l l' z)
    (hp : ∀ n ∈ top 4 (.node l' p d r), n ∈ P) :
    Foot P (do setLeft (some p) l'.root; updateHeight (some p); checkAndBalance (some p)) (fun _ _ => True) s1 := by
  obtain ⟨hnt, hcn, hdc⟩ := Ctx.nodup_plug.1 hn
  obtain ⟨n1, n2, n3, n4, n5⟩ := nodup_node hnt
  obtain ⟨_, g1, g2, g3, g4, g5, g6⟩ := hd.ctx
  have hp' : p ∉ l'.ptrs := fun x => n3 (hsub _ x)
  have hnd : (T.node l' p d r).ptrs.Nodup := nodup_node' hl' n2 hp' n4 fun n hn => n5 n (hsub n hn)
  refine foot_bind (foot_setLeft ⟨d, g1⟩ (hp p ((top_node ..).2 (Or.inl rfl))) ?_)
  have hrep : Rep { s1 with lft := upd s1.lft p l'.root } c.ptr (.node l' p d r) :=
    ⟨g1, g2, by simp, g4, hd.rep.congr fun n hn => ⟨rfl, rfl, upd_ne _ _ (fun x => hp' (x ▸ hn)), rfl⟩,
      g5.congr fun n hn => ⟨rfl, rfl, upd_ne _ _ (fun x => n4 (x ▸ hn)), rfl⟩⟩
  exact fixBal_foot hrep hnd hv hvr hp

theorem delRight_foot {s s1 : St α} {c : Ctx (D α)} {l r r' : Tr α} {p z : Nat} {d : D α}
    (hn : (c.plug (.node l p d r)).ptrs.Nodup) (hsub : ∀ n ∈ r'.ptrs, n ∈ r.ptrs)
    (hr' : r'.ptrs.Nodup) (hvl : Avl l) (hv : Avl r') (hd : DelPost s s1 (.right c l p d) r r' z)
    (hp : ∀ n ∈ top 4 (.node l p d r'), n ∈ P) :
    Foot P (do setRight (some p) r'.root; updateHeight (some p); checkAndBalance (some p)) (fun _ _ => True) s1 := by
  obtain ⟨hnt, hcn, hdc⟩ := Ctx.nodup_plug.1 hn
  obtain ⟨n1, n2, n3, n4, n5⟩ := nodup_node hnt
  obtain ⟨_, g1, g2, g3, g4, g5, g6⟩ := hd.ctx
  have hp' : p ∉ r'.ptrs := fun x => n4 (hsub _ x)
  have hnd : (T.node l p d r').ptrs.Nodup := nodup_node' n1 hr' n3 hp' fun n hn x => n5 n hn (hsub n x)
  refine foot_bind (foot_setRight ⟨d, g1⟩ (hp p ((top_node ..).2 (Or.inl rfl))) ?_)
  have hrep : Rep { s1 with rgt := upd s1.rgt p r'.root } c.ptr (.node l p d r') :=
    ⟨g1, g2, g3, by simp, g5.congr fun n hn => ⟨rfl, rfl, rfl, upd_ne _ _ (fun x => n3 (x ▸ hn))⟩,
      hd.rep.congr fun n hn => ⟨rfl, rfl, rfl, upd_ne _ _ (fun x => hp' (x ▸ hn))⟩⟩
  exact fixBal_foot hrep hnd hvl hv hp

theorem height_setMin (z : Nat) (f : D α) (t : Tr α) : (setMin z f t).height = t.height := by
  induction t with
  | nil => rfl
  | node l p d r ih _ =>
    cases l with
    | nil => rfl
    | node a q e b =>
      rw [show setMin z f (.node (.node a q e b) p d r) = .node (setMin z f (.node a q e b)) p d r from rfl]
      rw [T.height, ih]
      rfl

theorem minNode_setMin {z : Nat} {f : D α} {t : Tr α} (h : t ≠ .nil) : minNode (setMin z f t) = some (z, f) := by
  induction t with
  | nil => exact absurd rfl h
  | node l p d r ih _ =>
    cases l with
    | nil => rfl
    | node a q e b =>
      rw [show setMin z f (.node (.node a q e b) p d r) = .node (setMin z f (.node a q e b)) p d r from rfl]
      have i := ih (by simp)
      cases h : setMin z f (.node a q e b) with
      | nil => rw [h] at i; cases i
      | node a' q' e' b' => rw [h] at i; exact i

theorem minNode_left {l r : Tr α} {p : Nat} {d : D α} (h : l ≠ .nil) : minNode (.node l p d r) = minNode l := by
  cases l with
  | nil => exact absurd rfl h
  | node _ _ _ _ => rfl

/-- The nodes an argument refers to. -/
def Arg.ptrs : Arg α → List Nat
  | .val _ => []
  | .ref p => p.toList

theorem foot_readArg {s : St α} {obj : Arg α} {x : α} {f : α → Prog (St α) β} {Q : β → St α → Prop} (h : Reads s obj x)
    (hp : ∀ n ∈ obj.ptrs, n ∈ P) (hf : Foot P (f x) Q s) : Foot P (readArg obj >>= f) Q s := by
  refine foot_bind (foot_read hf fun s' hs => ?_)
  cases obj with
  | val y => cases h; rfl
  | ref p =>
    obtain ⟨n, d, rfl, h, rfl⟩ := h
    exact readArg_ok (obj := .ref (some n)) ⟨n, d, rfl, (hs.same n (hp n (by simp [Arg.ptrs]))).dat.trans h, rfl⟩

section
variable {lt : α → α → Bool}

/-- Deleting uses at most 15 nodes on each level, and the way to the successor and its
surroundings if a node with two children is removed. -/
theorem delete_foot (w : StrictWeak lt) (k : Nat) {s : St α} {c : Ctx (D α)} {t : Tr α} {x : α} {obj : Arg α} {z : Nat}
    (hk : t.count ≤ k) (h : Rep s c.ptr t) (hc : CRep s c t.root) (hn : (c.plug t).ptrs.Nodup) (hv : Avl t)
    (ha : Ascending lt (vals t)) (hf : fFind lt x t = some z) (hx : Reads s obj x) :
    ∃ P : List Nat, P.length ≤ 15 * t.height + (if (minNode t).map (·.1) = some z then 0 else t.height + 8) ∧
      Foot (obj.ptrs ++ P) (delete lt t.root obj) (fun _ _ => True) s := by
  induction k generalizing s c t z with
  | zero =>
    cases t with
    | nil => cases hf
    | node l p d r => simp [T.count] at hk
  | succ k ih =>
    cases t with
    | nil => cases hf
    | node l p d r =>
      have h' := h
      obtain ⟨h1, h2, h3, h4, h5, h6⟩ := h
      obtain ⟨hnt, hcn, hdc⟩ := Ctx.nodup_plug.1 hn
      obtain ⟨n1, n2, n3, n4, n5⟩ := nodup_node hnt
      obtain ⟨a1, a2, a3, a4⟩ := asc_node ha
      have hv' := hv
      obtain ⟨v1, v2, v3, v4, v5⟩ := hv
      simp only [T.count] at hk
      unfold delete
      simp only [root_node]
      have qo : ∀ (R : List Nat), ∀ n ∈ obj.ptrs, n ∈ obj.ptrs ++ R := fun R n hn => List.mem_append_left _ hn
      simp only [fFind] at hf
      by_cases c1 : lt x d.val
      · rw [if_pos c1] at hf
        obtain ⟨xs, ys, e1, e2⟩ := del_ptrs hf
        have hlne : l ≠ .nil := by rintro rfl; cases hf
        obtain ⟨P, hP, hF⟩ := ih (c := .left c p d r) (by omega) h5 ⟨h1, h2, h3, h4, h6, hc⟩ hn v1 a1 hf hx
        refine ⟨P ++ top 4 (.node (fDel lt x l) p d r), ?_, ?_⟩
        · have e := length_top 4 (T.node (fDel lt x l) p d r)
          rw [minNode_left hlne]
          simp only [List.length_append, T.height]
          by_cases c : (minNode l).map (·.1) = some z
          · rw [if_pos c] at hP ⊢; omega
          · rw [if_neg c] at hP ⊢; omega
        have q1 : ∀ n ∈ obj.ptrs ++ P, n ∈ obj.ptrs ++ (P ++ top 4 (.node (fDel lt x l) p d r)) := by
          intro n hn; rw [← List.append_assoc]; exact List.mem_append_left _ hn
        have q2 : ∀ n ∈ top 4 (.node (fDel lt x l) p d r), n ∈ obj.ptrs ++ (P ++ top 4 (.node (fDel lt x l) p d r)) := by
          intro n hn; rw [← List.append_assoc]; exact List.mem_append_right _ hn
        have pp := q2 p ((top_node ..).2 (Or.inl rfl))
        refine foot_getData h1 pp (foot_readArg hx (qo _) ?_)
        rw [if_pos c1]
        refine foot_getLeft ⟨d, h1⟩ pp ?_
        rw [h3]
        refine foot_seq hF q1 (delete_ok w k (c := .left c p d r) (by omega) h5 ⟨h1, h2, h3, h4, h6, hc⟩ hn v1 a1 hf hx) ?_
        rintro y s1 ⟨rfl, hd⟩
        rw [e1] at n1
        have hnd : (xs ++ ys).Nodup :=
          (List.nodup_cons.1 ((List.perm_middle (a := z) (l₁ := xs) (l₂ := ys)).nodup_iff.1 n1)).2
        exact delLeft_foot hn (by rw [e1, e2]; simp; grind) (by rw [e2]; exact hnd) (del_ok v1 hf).1 v2 hd q2
      · rw [if_neg c1] at hf
        by_cases c2 : lt d.val x
        · rw [if_pos c2] at hf
          obtain ⟨xs, ys, e1, e2⟩ := del_ptrs hf
          have hzr : z ∈ r.ptrs := by rw [e1]; simp
          have hmz : (minNode (.node l p d r)).map (·.1) ≠ some z := by
            intro hm
            cases l with
            | nil => injection hm with hm; exact n4 (by rw [show p = z from hm]; exact hzr)
            | node a q e b =>
              obtain ⟨q', e', hm'⟩ := minNode_some (t := .node a q e b) (by simp)
              rw [minNode_left (by simp), hm'] at hm
              injection hm with hm
              exact n5 z (by rw [(minNode_mem hm').1, ← hm]; simp) hzr
          obtain ⟨P, hP, hF⟩ := ih (c := .right c l p d) (by omega) h6 ⟨h1, h2, h3, h4, h5, hc⟩ hn v2 a2 hf hx
          refine ⟨P ++ top 4 (.node l p d (fDel lt x r)), ?_, ?_⟩
          · have e := length_top 4 (T.node l p d (fDel lt x r))
            rw [if_neg hmz]
            simp only [List.length_append, T.height]
            split at hP <;> omega
          have q1 : ∀ n ∈ obj.ptrs ++ P, n ∈ obj.ptrs ++ (P ++ top 4 (.node l p d (fDel lt x r))) := by
            intro n hn; rw [← List.append_assoc]; exact List.mem_append_left _ hn
          have q2 : ∀ n ∈ top 4 (.node l p d (fDel lt x r)), n ∈ obj.ptrs ++ (P ++ top 4 (.node l p d (fDel lt x r))) := by
            intro n hn; rw [← List.append_assoc]; exact List.mem_append_right _ hn
          have pp := q2 p ((top_node ..).2 (Or.inl rfl))
          refine foot_getData h1 pp (foot_readArg hx (qo _) ?_)
          rw [if_neg c1, if_pos c2]
          refine foot_getRight ⟨d, h1⟩ pp ?_
          rw [h4]
          refine foot_seq hF q1 (delete_ok w k (c := .right c l p d) (by omega) h6 ⟨h1, h2, h3, h4, h5, hc⟩ hn v2 a2 hf hx) ?_
          rintro y s1 ⟨rfl, hd⟩
          rw [e1] at n2
          have hnd : (xs ++ ys).Nodup :=
            (List.nodup_cons.1 ((List.perm_middle (a := z) (l₁ := xs) (l₂ := ys)).nodup_iff.1 n2)).2
          exact delRight_foot hn (by rw [e1, e2]; simp; grind) (by rw [e2]; exact hnd) v1 (del_ok v2 hf).1 hd q2
        · rw [if_neg c2] at hf
          obtain rfl : p = z := by simpa using hf
          have heq : Equiv lt x d.val := ⟨by simpa using c1, by simpa using c2⟩
          by_cases c3 : l.root ≠ none ∧ r.root ≠ none
          · have hrne : r ≠ .nil := fun e => c3.2 (by rw [e]; rfl)
            have hlne : l ≠ .nil := fun e => c3.1 (by rw [e]; rfl)
            obtain ⟨q, e, hm⟩ := minNode_some hrne
            obtain ⟨em, es⟩ := minNode_mem hm
            obtain ⟨im, is⟩ := items_min hm
            have hmz : (minNode (.node l p d r)).map (·.1) ≠ some p := by
              intro hm
              rw [minNode_left hlne] at hm
              obtain ⟨q', e', hm'⟩ := minNode_some hlne
              rw [hm'] at hm
              injection hm with hm
              exact n3 (by rw [(minNode_mem hm').1, ← hm]; simp)
            have hqt : q ∈ (T.node l p d r).ptrs := by simp [T.ptrs, em]
            -- the exchange
            have hIs := IsTree.of_plug h' hc hn
            have hin : ∀ n ∈ (T.node l p d r).ptrs, n ∈ (c.plug (.node l p d r)).ptrs := by
              intro n hn; exact mem_plug c hn
            have hlive : ∀ n ∈ [p, q] ++ (nbrs s p ++ nbrs s q), Live s.dat n := by
              have hw : ∀ m ∈ (c.plug (.node l p d r)).ptrs, Live s.dat m := fun m hm => hIs.rep.live hm
              intro n hn
              rw [List.mem_append, List.mem_append] at hn
              rcases hn with hn | hn | hn
              · rcases List.mem_cons.1 hn with rfl | hn
                · exact ⟨d, h1⟩
                · rw [List.mem_singleton.1 hn]; exact hw _ (hin _ hqt)
              · rcases hIs.rep.near (hin p (by simp [T.ptrs])) n hn with h | h
                · exact hw n h
                · cases h
              · rcases hIs.rep.near (hin q hqt) n hn with h | h
                · exact hw n h
                · cases h
            have hdm := del_setMin (lt := lt) (x := x) (p := p) (f := setH d e.height) hrne
              heq.1 heq.2 (fun v hv => w.lt_of_equiv heq (a4 v (by
                rw [vals_eq, im]; rw [vals_eq] at hv; simp only [List.map_cons, List.mem_cons]; exact Or.inr hv)))
            have hperm : (T.node l q (setH e d.height) (setMin p (setH d e.height) r)).ptrs.Perm (T.node l p d r).ptrs := by
              simp only [T.ptrs]
              rw [es, em]
              exact List.Perm.append_left _ (List.Perm.swap _ _ _)
            have hn2 : (c.plug (.node l q (setH e d.height) (setMin p (setH d e.height) r))).ptrs.Nodup := by
              rw [Ctx.nodup_plug]
              exact ⟨hperm.nodup_iff.2 hnt, hcn, fun n hn => hdc n (hperm.mem_iff.1 hn)⟩
            have hv2 := setMin_avl (z := p) (f := setH d e.height) hm rfl v2
            obtain ⟨b1, s1, ⟨_, rfl, sw⟩, r1, o1, g1'⟩ := (swapNode_foot hlive).with_wp (swapNode_ok h' hc hm hn)
            have sr := sw.rep
            obtain ⟨g1, g2, g3, g4, g5, g6⟩ := sr
            have hx1 : Reads s1 obj x := by
              cases obj with
              | val y => exact hx
              | ref y =>
                obtain ⟨n, f, rfl, hf1, hf2⟩ := hx
                obtain ⟨f', hf3, hf4⟩ := sw.val n f hf1
                exact ⟨n, f', rfl, hf3, hf4.trans hf2⟩
            have hk1 : (setMin p (setH d e.height) r).count ≤ k := by
              rw [count_ptrs, es]; rw [count_ptrs r, em] at hk; simp only [List.length_cons] at hk ⊢; omega
            have ha1 : Ascending lt (vals (setMin p (setH d e.height) r)) := by
              rw [vals_eq, is]
              rw [vals_eq, im] at a2 a4
              exact List.pairwise_cons.2 ⟨fun v hv => a4 v (by simp only [List.map_cons, List.mem_cons]; exact Or.inr hv),
                (List.pairwise_cons.1 a2).2⟩
            obtain ⟨P, hP, hF⟩ := ih (c := .right c l q (setH e d.height)) hk1 g6 ⟨g1, g2, g3, g4, g5, sw.ctx⟩ hn2 hv2.1 ha1 hdm.1 hx1
            rw [minNode_setMin hrne, height_setMin, if_pos (by rfl)] at hP
            have hpd : p ∉ (fDelMin r).ptrs := fun x => n4 (by rw [em]; simp [x])
            have hnm : (fDelMin r).ptrs.Nodup := by rw [em] at n2; exact (List.nodup_cons.1 n2).2
            refine ⟨P ++ (([p, q] ++ (nbrs s p ++ nbrs s q)) ++ (spine r ++ top 4 (.node l q (setH e d.height) (fDelMin r)))), ?_, ?_⟩
            · have e1 := length_top 4 (T.node l q (setH e d.height) (fDelMin r))
              have e2 := length_nbrs s p
              have e3 := length_nbrs s q
              have e4 := length_spine r
              rw [if_neg hmz]
              simp only [List.length_append, T.height, List.length_cons, List.length_nil]
              omega
            generalize hL : P ++ (([p, q] ++ (nbrs s p ++ nbrs s q)) ++ (spine r ++ top 4 (.node l q (setH e d.height) (fDelMin r)))) = L
            have q1 : ∀ n ∈ obj.ptrs ++ P, n ∈ obj.ptrs ++ L := by
              intro n hn; rw [← hL, ← List.append_assoc]; exact List.mem_append_left _ hn
            have q2 : ∀ n ∈ [p, q] ++ (nbrs s p ++ nbrs s q), n ∈ obj.ptrs ++ L := by
              intro n hn; rw [← hL]
              exact List.mem_append_right _ (List.mem_append_right _ (List.mem_append_left _ hn))
            have q3 : ∀ n ∈ spine r, n ∈ obj.ptrs ++ L := by
              intro n hn; rw [← hL]
              exact List.mem_append_right _ (List.mem_append_right _ (List.mem_append_right _ (List.mem_append_left _ hn)))
            have q4 : ∀ n ∈ top 4 (.node l q (setH e d.height) (fDelMin r)), n ∈ obj.ptrs ++ L := by
              intro n hn; rw [← hL]
              exact List.mem_append_right _ (List.mem_append_right _ (List.mem_append_right _ (List.mem_append_right _ hn)))
            have pp : p ∈ obj.ptrs ++ L := q2 p (by simp)
            have pq : q ∈ obj.ptrs ++ L := q2 q (by simp)
            refine foot_getData h1 pp (foot_readArg hx (qo _) ?_)
            rw [if_neg c1, if_neg c2]
            refine foot_getLeft ⟨d, h1⟩ pp (foot_getRight ⟨d, h1⟩ pp ?_)
            rw [h3, h4, if_pos c3]
            refine foot_bind (Foot.of_returns (foot_leftmost h6 hrne q3) (firstNode_min h6 hm) ?_)
            refine foot_bind (Foot.of_returns ((swapNode_foot hlive).weaken q2) r1 ?_)
            simp only
            refine foot_getRight ⟨_, g1⟩ pq ?_
            rw [g4]
            refine foot_seq hF q1 (delete_ok w k (c := .right c l q (setH e d.height)) hk1 g6 ⟨g1, g2, g3, g4, g5, sw.ctx⟩ hn2
              hv2.1 ha1 hdm.1 hx1) ?_
            rintro y s2 ⟨rfl, hd⟩
            rw [hdm.2] at hd ⊢
            exact delRight_foot hn2 (by rw [es]; intro n hn; simp [hn]) hnm v1 (delMin_ok v2 hrne).1 hd q4
          · refine ⟨top 2 (.node l p d r), ?_, ?_⟩
            · have := length_top 2 (T.node l p d r)
              simp only [T.height]; omega
            have q2 : ∀ n ∈ top 2 (.node l p d r), n ∈ obj.ptrs ++ top 2 (.node l p d r) :=
              fun n hn => List.mem_append_right _ hn
            have q0 := qo (top 2 (.node l p d r))
            generalize obj.ptrs ++ top 2 (.node l p d r) = L at q2 q0
            have pp : p ∈ L := q2 p ((top_node ..).2 (Or.inl rfl))
            refine foot_getData h1 pp (foot_readArg hx q0 ?_)
            rw [if_neg c1, if_neg c2]
            refine foot_getLeft ⟨d, h1⟩ pp (foot_getRight ⟨d, h1⟩ pp ?_)
            rw [h3, h4, if_neg c3]
            obtain ⟨u, hu, eu1, eu2⟩ := fDel_one p c1 c2 c3
            generalize (if l.root = none then r.root else l.root) = g at eu1 ⊢
            subst eu1
            have hru : Rep s (some p) u := by rcases hu with rfl | rfl <;> assumption
            have hpu : ∀ n ∈ top 1 u, n ∈ L := by
              rcases hu with rfl | rfl
              · exact fun n hn => q2 n ((top_node ..).2 (Or.inr (Or.inl hn)))
              · exact fun n hn => q2 n ((top_node ..).2 (Or.inr (Or.inr hn)))
            refine foot_bind (foot_when (fun hne => foot_getParent ⟨d, h1⟩ pp ?_) fun _ => ?_)
            · cases u with
              | nil => exact absurd rfl hne
              | node a m f b =>
                exact foot_setParent ⟨f, hru.1⟩ (hpu m (by simp [top])) (foot_bind (foot_realDelete ⟨d, h1⟩ pp (foot_pure trivial)))
            · exact foot_bind (foot_realDelete ⟨d, h1⟩ pp (foot_pure trivial))

/-- `pop` of an element that is there uses at most 16 nodes on each level and ten others. -/
theorem pop_foot (w : StrictWeak lt) {s : St α} {t : Tr α} {x : α} {obj : Arg α} {z : Nat} (h : IsTree s t)
    (hv : Avl t) (ha : Ascending lt (vals t)) (hf : fFind lt x t = some z) (hx : Reads s obj x)
    (hs : s.size ≠ 0) : ∃ P : List Nat, P.length ≤ 16 * t.height + 10 ∧ Foot P (pop lt obj) (fun _ _ => True) s := by
  obtain ⟨P, hP, hF⟩ := delete_foot w t.count (c := .top) (Nat.le_refl _) h.rep h.root h.nodup hv ha hf hx
  refine ⟨top 1 (fDel lt x t) ++ (obj.ptrs ++ P), ?_, ?_⟩
  · have e1 := length_top 1 (fDel lt x t)
    have e2 : obj.ptrs.length ≤ 1 := by
      cases obj with
      | val _ => simp [Arg.ptrs]
      | ref p => cases p <;> simp [Arg.ptrs]
    have e3 : (if (minNode t).map (·.1) = some z then 0 else t.height + 8) ≤ t.height + 8 := by split <;> omega
    simp only [List.length_append]
    omega
  unfold pop
  refine foot_getSize ?_
  rw [if_neg hs]
  refine foot_getRoot ?_
  rw [h.root]
  refine foot_seq hF (fun n hn => List.mem_append_right _ hn)
    (delete_ok w t.count (c := .top) (Nat.le_refl _) h.rep h.root h.nodup hv ha hf hx) ?_
  rintro y s1 ⟨rfl, hd⟩
  refine foot_getRoot (foot_when (fun _ => foot_updateRoot (fun k hk =>
    ⟨hd.rep.live (T.root_mem hk), List.mem_append_left _ ?_⟩) fun _ _ => trivial) fun _ => trivial)
  cases hc : fDel lt x t with
  | nil => rw [hc] at hk; cases hk
  | node l p d r => rw [hc] at hk; cases hk; exact (top_node ..).2 (Or.inl rfl)

end

end Verif.AVL
