import Verif.AVLSwap
import Verif.Spec.AVLTree

/-! # `pop` of an AVL tree -/

namespace Verif.AVL

open Prog Verif.Tree

variable {α : Type}

theorem realDelete_ok {s : St α} {p : Nat} (h : Live s.dat p) :
    Returns (realDelete (some p)) s () { s with dat := upd s.dat p none, size := s.size - 1 } := by
  obtain ⟨d, hd⟩ := h
  unfold realDelete Returns
  rw [bind_returns (show Returns (destroyNode (some p)) s () { s with dat := upd s.dat p (some none) } by
    unfold Returns destroyNode; simp [hd])]
  have e : upd (upd s.dat p (some none)) p none = upd s.dat p none := by
    funext n; by_cases h : n = p <;> simp [upd, h]
  rw [bind_returns (show Returns (freeNode (some p)) { s with dat := upd s.dat p (some none) } ()
    { s with dat := upd s.dat p none } by
    unfold Returns freeNode; simp [e])]
  rfl

theorem fixBal_ok {s : St α} {pa : Ptr} {l r : Tr α} {p : Nat} {d : D α}
    (h : Rep s pa (.node l p d r)) (hn : (T.node l p d r).ptrs.Nodup) (hl : Avl l) (hr : Avl r) :
    wp (do updateHeight (some p); checkAndBalance (some p)) (fun y s' =>
      y = (fBal (updH (.node l p d r))).root ∧ Rep s' pa (fBal (updH (.node l p d r))) ∧
      Frame s s' (T.node l p d r).ptrs) s := by
  obtain ⟨n1, n2, n3, n4, n5⟩ := nodup_node hn
  rw [wp_bind]
  refine wp_mono (updateHeight_ok h n3 n4) ?_
  rintro _ s1 ⟨h1, h2, _⟩
  refine wp_mono (checkAndBalance_ok h1 hn hl hr) ?_
  rintro y s2 ⟨e, h3, h4⟩
  refine ⟨e, h3, (h2.mono (by simp [T.ptrs])).trans (h4.mono ?_)⟩
  intro n hn; exact hn

theorem firstNode_min {s : St α} {pa : Ptr} {t : Tr α} {q : Nat} {e : D α} (h : Rep s pa t)
    (hm : minNode t = some (q, e)) : Returns (firstNode t.root .ino) s (some q) s := by
  unfold firstNode Returns
  rw [if_pos (by simp)]
  induction t generalizing pa with
  | nil => cases hm
  | node l k dk b ih _ =>
    obtain ⟨h1, h2, h3, h4, h5, h6⟩ := h
    simp only [T.root]
    unfold leftmost
    rw [bind_returns (getLeft_ok ⟨dk, h1⟩), h3]
    cases l with
    | nil => cases hm; rfl
    | node a q' e' b' =>
      rw [if_pos (by simp [T.root])]
      exact ih h5 hm

section
variable {lt : α → α → Bool}

theorem del_ptrs {x : α} {t : Tr α} {z : Nat} (hf : fFind lt x t = some z) :
    ∃ xs ys, t.ptrs = xs ++ z :: ys ∧ (fDel lt x t).ptrs = xs ++ ys := by
  obtain ⟨xs, v, ys, e1, e2, _⟩ := del_items hf
  exact ⟨xs.map (·.1), ys.map (·.1), by rw [ptrs_items, e1]; simp, by rw [ptrs_items, e2]; simp⟩

/-- After the exchange the search ends at the leftmost node. -/
theorem del_setMin {x : α} {r : Tr α} {p : Nat} {f : D α} (hne : r ≠ .nil) (h1 : lt x f.val = false)
    (h2 : lt f.val x = false) (h3 : ∀ v ∈ vals (fDelMin r), lt x v = true) :
    fFind lt x (setMin p f r) = some p ∧ fDel lt x (setMin p f r) = fDelMin r := by
  induction r with
  | nil => exact absurd rfl hne
  | node l k dk b ih _ =>
    cases l with
    | nil => simp [setMin, fFind, fDel, h1, h2, fDelMin, T.root]
    | node a q e c =>
      have hi : items (fDelMin (.node (.node a q e c) k dk b)) =
          items (fDelMin (.node a q e c)) ++ (k, dk.val) :: items b := by
        simp [fDelMin]
      simp only [vals_eq, hi] at h3
      have i := ih (by simp) (fun v hv => h3 v (by rw [vals_eq] at hv; simp only [List.map_append, List.mem_append]; exact Or.inl hv))
      have hk := h3 dk.val (by simp)
      have e1 : setMin p f (.node (.node a q e c) k dk b) = .node (setMin p f (.node a q e c)) k dk b := rfl
      have e2 : fDelMin (.node (.node a q e c) k dk b) = fBal (updH (.node (fDelMin (.node a q e c)) k dk b)) := rfl
      rw [e1, e2]
      generalize setMin p f (.node a q e c) = u at i
      simp only [fFind, fDel]
      rw [if_pos hk, if_pos hk, i.2]
      exact ⟨i.1, rfl⟩

theorem fDel_one {x : α} {l r : Tr α} (p : Nat) {d : D α} (c1 : ¬ lt x d.val = true) (c2 : ¬ lt d.val x = true)
    (c3 : ¬ (l.root ≠ none ∧ r.root ≠ none)) :
    ∃ u : Tr α, (u = l ∨ u = r) ∧ (if l.root = none then r.root else l.root) = u.root ∧
      fDel lt x (.node l p d r) = u := by
  simp only [fDel]
  rw [if_neg c1, if_neg c2]
  by_cases c4 : l.root = none
  · exact ⟨r, Or.inr rfl, by rw [if_pos c4], by rw [if_pos c4]⟩
  · have c5 : r.root = none := by
      by_cases c5 : r.root = none
      · exact c5
      · exact absurd ⟨c4, c5⟩ c3
    exact ⟨l, Or.inl rfl, by rw [if_neg c4], by rw [if_neg c4, if_pos c5]⟩

/-- Reading the argument gives `x`. -/
def Reads (s : St α) (obj : Arg α) (x : α) : Prop :=
  match obj with
  | .val y => y = x
  | .ref p => ∃ n d, p = some n ∧ s.dat n = some (some d) ∧ d.val = x

theorem readArg_ok {s : St α} {obj : Arg α} {x : α} (h : Reads s obj x) : Returns (readArg obj) s x s := by
  cases obj with
  | val y => cases h; rfl
  | ref p =>
    obtain ⟨n, d, rfl, h, rfl⟩ := h
    show (getData (some n) >>= fun d => pure d.val) s = _
    rw [bind_returns (getData_ok h)]; rfl

structure DelPost (s s' : St α) (c : Ctx (D α)) (t t' : Tr α) (z : Nat) : Prop where
  rep : Rep s' c.ptr t'
  ctx : ∃ h, CRep s' c h
  gone : s'.dat z = none
  next : s'.next = s.next
  lost : s'.lost = s.lost
  size : s'.size = s.size - 1
  out : ∀ n, n ∉ t.ptrs → n ∉ c.ptrs → SameAt s s' n

/-- The part of `_delete` after the recursive call, on the left. -/
theorem delLeft_ok {s s1 : St α} {c : Ctx (D α)} {l l' r : Tr α} {p z : Nat} {d : D α}
    (hn : (c.plug (.node l p d r)).ptrs.Nodup) (hz : z ∈ l.ptrs) (hsub : ∀ n ∈ l'.ptrs, n ∈ l.ptrs)
    (hl' : l'.ptrs.Nodup) (hzl : z ∉ l'.ptrs) (hv : Avl l') (hvr : Avl r)
    (hd : DelPost s s1 (.left c p d r) l l' z) :
    wp (do setLeft (some p) l'.root; updateHeight (some p); checkAndBalance (some p)) (fun y s' =>
      y = (fBal (updH (.node l' p d r))).root ∧
      DelPost s s' c (.node l p d r) (fBal (updH (.node l' p d r))) z) s1 := by
  obtain ⟨hnt, hcn, hdc⟩ := Ctx.nodup_plug.1 hn
  obtain ⟨n1, n2, n3, n4, n5⟩ := nodup_node hnt
  obtain ⟨_, g1, g2, g3, g4, g5, g6⟩ := hd.ctx
  have hp' : p ∉ l'.ptrs := fun x => n3 (hsub _ x)
  have hnd : (T.node l' p d r).ptrs.Nodup := nodup_node' hl' n2 hp' n4 fun n hn => n5 n (hsub n hn)
  rw [wp_bind, wp_setLeft ⟨d, g1⟩]
  have hrep : Rep { s1 with lft := upd s1.lft p l'.root } c.ptr (.node l' p d r) :=
    ⟨g1, g2, by simp, g4, hd.rep.congr fun n hn => ⟨rfl, rfl, upd_ne _ _ (fun x => hp' (x ▸ hn)), rfl⟩,
      g5.congr fun n hn => ⟨rfl, rfl, upd_ne _ _ (fun x => n4 (x ▸ hn)), rfl⟩⟩
  refine wp_mono (fixBal_ok hrep hnd hv hvr) ?_
  rintro y s3 ⟨rfl, h3, h4⟩
  have hzp : z ≠ p := fun x => n3 (x ▸ hz)
  have hzr : z ∉ r.ptrs := n5 z hz
  refine ⟨rfl, h3, ⟨some p, g6.congr (fun n hn => ?_) h4.hdr.root⟩, ?_, h4.hdr.next.trans hd.next,
    h4.hdr.lost.trans hd.lost, h4.hdr.size.trans hd.size, fun n hnt' hnc => ?_⟩
  · have hnt' : n ∉ (T.node l p d r).ptrs := fun x => hdc n x hn
    simp only [T.ptrs, List.mem_append, List.mem_cons, not_or] at hnt'
    have := h4.out n (by simp only [T.ptrs, List.mem_append, List.mem_cons, not_or]; exact ⟨fun x => hnt'.1 (hsub _ x), hnt'.2⟩)
    exact ⟨this.dat, this.par, this.lft.trans (upd_ne _ _ hnt'.2.1), this.rgt⟩
  · have := h4.out z (by simp only [T.ptrs, List.mem_append, List.mem_cons, not_or]; exact ⟨hzl, hzp, hzr⟩)
    exact this.dat.trans hd.gone
  · have hnt'' := hnt'
    simp only [T.ptrs, List.mem_append, List.mem_cons, not_or] at hnt'
    have := h4.out n (by simp only [T.ptrs, List.mem_append, List.mem_cons, not_or]; exact ⟨fun x => hnt'.1 (hsub _ x), hnt'.2⟩)
    refine (hd.out n hnt'.1 ?_).trans ⟨this.dat, this.par, this.lft.trans (upd_ne _ _ hnt'.2.1), this.rgt⟩
    simp only [Ctx.ptrs, List.mem_append, List.mem_cons, not_or]
    exact ⟨hnt'.2.1, hnt'.2.2, hnc⟩

theorem delRight_ok {s s1 : St α} {c : Ctx (D α)} {l r r' : Tr α} {p z : Nat} {d : D α}
    (hn : (c.plug (.node l p d r)).ptrs.Nodup) (hz : z ∈ r.ptrs) (hsub : ∀ n ∈ r'.ptrs, n ∈ r.ptrs)
    (hr' : r'.ptrs.Nodup) (hzr : z ∉ r'.ptrs) (hvl : Avl l) (hv : Avl r')
    (hd : DelPost s s1 (.right c l p d) r r' z) :
    wp (do setRight (some p) r'.root; updateHeight (some p); checkAndBalance (some p)) (fun y s' =>
      y = (fBal (updH (.node l p d r'))).root ∧
      DelPost s s' c (.node l p d r) (fBal (updH (.node l p d r'))) z) s1 := by
  obtain ⟨hnt, hcn, hdc⟩ := Ctx.nodup_plug.1 hn
  obtain ⟨n1, n2, n3, n4, n5⟩ := nodup_node hnt
  obtain ⟨_, g1, g2, g3, g4, g5, g6⟩ := hd.ctx
  have hp' : p ∉ r'.ptrs := fun x => n4 (hsub _ x)
  have hnd : (T.node l p d r').ptrs.Nodup := nodup_node' n1 hr' n3 hp' fun n hn x => n5 n hn (hsub n x)
  rw [wp_bind, wp_setRight ⟨d, g1⟩]
  have hrep : Rep { s1 with rgt := upd s1.rgt p r'.root } c.ptr (.node l p d r') :=
    ⟨g1, g2, g3, by simp, g5.congr fun n hn => ⟨rfl, rfl, rfl, upd_ne _ _ (fun x => n3 (x ▸ hn))⟩,
      hd.rep.congr fun n hn => ⟨rfl, rfl, rfl, upd_ne _ _ (fun x => hp' (x ▸ hn))⟩⟩
  refine wp_mono (fixBal_ok hrep hnd hvl hv) ?_
  rintro y s3 ⟨rfl, h3, h4⟩
  have hzp : z ≠ p := fun x => n4 (x ▸ hz)
  have hzl : z ∉ l.ptrs := fun x => n5 z x hz
  refine ⟨rfl, h3, ⟨some p, g6.congr (fun n hn => ?_) h4.hdr.root⟩, ?_, h4.hdr.next.trans hd.next,
    h4.hdr.lost.trans hd.lost, h4.hdr.size.trans hd.size, fun n hnt' hnc => ?_⟩
  · have hnt' : n ∉ (T.node l p d r).ptrs := fun x => hdc n x hn
    simp only [T.ptrs, List.mem_append, List.mem_cons, not_or] at hnt'
    have := h4.out n (by simp only [T.ptrs, List.mem_append, List.mem_cons, not_or]; exact ⟨hnt'.1, hnt'.2.1, fun x => hnt'.2.2 (hsub _ x)⟩)
    exact ⟨this.dat, this.par, this.lft, this.rgt.trans (upd_ne _ _ hnt'.2.1)⟩
  · have := h4.out z (by simp only [T.ptrs, List.mem_append, List.mem_cons, not_or]; exact ⟨hzl, hzp, hzr⟩)
    exact this.dat.trans hd.gone
  · have hnt'' := hnt'
    simp only [T.ptrs, List.mem_append, List.mem_cons, not_or] at hnt'
    have := h4.out n (by simp only [T.ptrs, List.mem_append, List.mem_cons, not_or]; exact ⟨hnt'.1, hnt'.2.1, fun x => hnt'.2.2 (hsub _ x)⟩)
    refine (hd.out n hnt'.2.2 ?_).trans ⟨this.dat, this.par, this.lft, this.rgt.trans (upd_ne _ _ hnt'.2.1)⟩
    simp only [Ctx.ptrs, List.mem_append, List.mem_cons, not_or]
    exact ⟨hnt'.2.1, hnt'.1, hnc⟩

theorem vals_node (l r : Tr α) (p : Nat) (d : D α) : vals (.node l p d r) = vals l ++ d.val :: vals r := by
  simp [vals_eq]

theorem asc_node {l r : Tr α} {p : Nat} {d : D α} (h : Ascending lt (vals (.node l p d r))) :
    Ascending lt (vals l) ∧ Ascending lt (vals r) ∧ (∀ v ∈ vals l, lt v d.val = true) ∧
      (∀ v ∈ vals r, lt d.val v = true) := by
  rw [vals_node] at h
  obtain ⟨h1, h2, h3⟩ := List.pairwise_append.1 h
  obtain ⟨h4, h5⟩ := List.pairwise_cons.1 h2
  exact ⟨h1, h5, fun v hv => h3 v hv _ (by simp), h4⟩

theorem StrictWeak.lt_of_equiv (w : StrictWeak lt) {x a b : α} (h : Equiv lt x a) (hab : lt a b = true) :
    lt x b = true := by
  rcases w.cotrans a x b hab with h' | h'
  · rw [h.2] at h'; cases h'
  · exact h'

theorem count_ptrs (t : Tr α) : t.count = t.ptrs.length := by
  rw [T.count_eq, T.ptrs_eq, List.length_map]

theorem delete_ok (w : StrictWeak lt) (k : Nat) {s : St α} {c : Ctx (D α)} {t : Tr α} {x : α} {obj : Arg α} {z : Nat}
    (hk : t.count ≤ k) (h : Rep s c.ptr t) (hc : CRep s c t.root) (hn : (c.plug t).ptrs.Nodup) (hv : Avl t)
    (ha : Ascending lt (vals t)) (hf : fFind lt x t = some z) (hx : Reads s obj x) :
    wp (delete lt t.root obj) (fun y s' => y = (fDel lt x t).root ∧ DelPost s s' c t (fDel lt x t) z) s := by
  induction k generalizing s c t z with
  | zero =>
    cases t with
    | nil => cases hf
    | node l p d r => simp [T.count] at hk
  | succ k ih =>
    cases t with
    | nil => cases hf
    | node l p d r =>
      have h' := h
      obtain ⟨h1, h2, h3, h4, h5, h6⟩ := h
      obtain ⟨hnt, hcn, hdc⟩ := Ctx.nodup_plug.1 hn
      obtain ⟨n1, n2, n3, n4, n5⟩ := nodup_node hnt
      obtain ⟨a1, a2, a3, a4⟩ := asc_node ha
      have hv' := hv
      obtain ⟨v1, v2, v3, v4, v5⟩ := hv
      simp only [T.count] at hk
      unfold delete
      simp only [root_node]
      rw [wp_bind, wp_getData h1, wp_bind, wp_of_returns (readArg_ok hx)]
      simp only [fFind] at hf
      by_cases c1 : lt x d.val
      · simp only [fDel]
        rw [if_pos c1] at hf ⊢
        rw [if_pos c1, wp_bind, wp_getLeft ⟨d, h1⟩, h3, wp_bind]
        obtain ⟨xs, ys, e1, e2⟩ := del_ptrs hf
        refine wp_mono (ih (c := .left c p d r) (by omega) h5 ⟨h1, h2, h3, h4, h6, hc⟩ hn v1 a1 hf hx) ?_
        rintro y s1 ⟨rfl, hd⟩
        rw [e1] at n1
        have hnd : (xs ++ ys).Nodup ∧ z ∉ xs ++ ys := by
          have := (List.perm_middle (a := z) (l₁ := xs) (l₂ := ys)).nodup_iff.1 n1
          exact ⟨(List.nodup_cons.1 this).2, (List.nodup_cons.1 this).1⟩
        refine delLeft_ok hn (by rw [e1]; simp) (by rw [e1, e2]; simp; grind) (by rw [e2]; exact hnd.1)
          (by rw [e2]; exact hnd.2) (del_ok v1 hf).1 v2 hd
      · rw [if_neg c1] at hf ⊢
        by_cases c2 : lt d.val x
        · simp only [fDel]
          rw [if_neg c1]
          rw [if_pos c2] at hf ⊢
          rw [if_pos c2, wp_bind, wp_getRight ⟨d, h1⟩, h4, wp_bind]
          obtain ⟨xs, ys, e1, e2⟩ := del_ptrs hf
          refine wp_mono (ih (c := .right c l p d) (by omega) h6 ⟨h1, h2, h3, h4, h5, hc⟩ hn v2 a2 hf hx) ?_
          rintro y s1 ⟨rfl, hd⟩
          rw [e1] at n2
          have hnd : (xs ++ ys).Nodup ∧ z ∉ xs ++ ys := by
            have := (List.perm_middle (a := z) (l₁ := xs) (l₂ := ys)).nodup_iff.1 n2
            exact ⟨(List.nodup_cons.1 this).2, (List.nodup_cons.1 this).1⟩
          refine delRight_ok hn (by rw [e1]; simp) (by rw [e1, e2]; simp; grind) (by rw [e2]; exact hnd.1)
            (by rw [e2]; exact hnd.2) v1 (del_ok v2 hf).1 hd
        · rw [if_neg c2] at hf ⊢
          obtain rfl : p = z := by simpa using hf
          rw [wp_bind, wp_getLeft ⟨d, h1⟩, h3, wp_bind, wp_getRight ⟨d, h1⟩, h4]
          have heq : Equiv lt x d.val := ⟨by simpa using c1, by simpa using c2⟩
          by_cases c3 : l.root ≠ none ∧ r.root ≠ none
          · simp only [fDel]
            rw [if_pos c3, if_neg c1, if_neg c2, if_neg c3.1, if_neg c3.2]
            have hrne : r ≠ .nil := fun e => c3.2 (by rw [e]; rfl)
            obtain ⟨q, e, hm⟩ := minNode_some hrne
            simp only [hm]
            obtain ⟨em, es⟩ := minNode_mem hm
            obtain ⟨im, is⟩ := items_min hm
            rw [wp_bind, wp_of_returns (firstNode_min h6 hm), wp_bind]
            refine wp_mono (swapNode_ok h' hc hm hn) ?_
            rintro _ s1 ⟨rfl, sw⟩
            simp only
            have sr := sw.rep
            obtain ⟨g1, g2, g3, g4, g5, g6⟩ := sr
            rw [wp_bind, wp_getRight ⟨_, g1⟩, g4, wp_bind]
            -- the right subtree with `p` in the place of its leftmost node
            have hdm := del_setMin (lt := lt) (x := x) (p := p) (f := setH d e.height) hrne
              heq.1 heq.2 (fun v hv => w.lt_of_equiv heq (a4 v (by
                rw [vals_eq, im]; rw [vals_eq] at hv; simp only [List.map_cons, List.mem_cons]; exact Or.inr hv)))
            have hperm : (T.node l q (setH e d.height) (setMin p (setH d e.height) r)).ptrs.Perm (T.node l p d r).ptrs := by
              simp only [T.ptrs]
              rw [es, em]
              exact List.Perm.append_left _ (List.Perm.swap _ _ _)
            have hn2 : (c.plug (.node l q (setH e d.height) (setMin p (setH d e.height) r))).ptrs.Nodup := by
              rw [Ctx.nodup_plug]
              exact ⟨hperm.nodup_iff.2 hnt, hcn, fun n hn => hdc n (hperm.mem_iff.1 hn)⟩
            have hqt : q ∈ (T.node l p d r).ptrs := by simp [T.ptrs, em]
            have hpd : p ∉ (fDelMin r).ptrs := fun x => n4 (by rw [em]; simp [x])
            have hv2 := setMin_avl (z := p) (f := setH d e.height) hm rfl v2
            refine wp_mono (ih (c := .right c l q (setH e d.height)) (t := setMin p (setH d e.height) r) ?_ g6
              ⟨g1, g2, g3, g4, g5, sw.ctx⟩ hn2 hv2.1 ?_ hdm.1 ?_) ?_
            · rw [count_ptrs, es]; rw [count_ptrs r, em] at hk; simp only [List.length_cons] at hk ⊢; omega
            · rw [vals_eq, is]
              rw [vals_eq, im] at a2 a4
              exact List.pairwise_cons.2 ⟨fun v hv => a4 v (by simp only [List.map_cons, List.mem_cons]; exact Or.inr hv),
                (List.pairwise_cons.1 a2).2⟩
            · cases obj with
              | val y => exact hx
              | ref y =>
                obtain ⟨n, f, rfl, hf1, hf2⟩ := hx
                obtain ⟨f', hf3, hf4⟩ := sw.val n f hf1
                exact ⟨n, f', rfl, hf3, hf4.trans hf2⟩
            rintro y s2 ⟨rfl, hd⟩
            rw [hdm.2] at hd ⊢
            have hnm : (fDelMin r).ptrs.Nodup := by rw [em] at n2; exact (List.nodup_cons.1 n2).2
            refine wp_mono (delRight_ok hn2 (by rw [es]; simp) (by rw [es]; intro n hn; simp [hn]) hnm hpd v1
              (delMin_ok v2 hrne).1 hd) ?_
            rintro y s3 ⟨rfl, hd3⟩
            refine ⟨rfl, hd3.rep, hd3.ctx, hd3.gone, hd3.next.trans sw.next, hd3.lost.trans sw.lost,
              hd3.size.trans (by rw [sw.size]), fun n hnt' hnc => ?_⟩
            exact (sw.out n hnt' hnc).trans (hd3.out n (fun x => hnt' (hperm.mem_iff.1 x)) hnc)
          · rw [if_neg c3]
            obtain ⟨u, hu, eu1, eu2⟩ := fDel_one p c1 c2 c3
            rw [eu2]
            generalize (if l.root = none then r.root else l.root) = g at eu1 ⊢
            subst eu1
            have hru : Rep s (some p) u := by rcases hu with rfl | rfl <;> assumption
            have hun : u.ptrs.Nodup := by rcases hu with rfl | rfl <;> assumption
            have hup : p ∉ u.ptrs := by rcases hu with rfl | rfl <;> assumption
            have hut : ∀ n ∈ u.ptrs, n ∈ (T.node l p d r).ptrs := by
              rcases hu with rfl | rfl <;> intro n hn <;> simp [T.ptrs, hn]
            have key : wp (Prog.when (u.root ≠ none) (do let p ← getParent (some p); setParent u.root p))
                (fun _ s' => s' = { s with par := fun n => if some n = u.root then c.ptr else s.par n }) s := by
              rw [wp_when]
              constructor
              · intro hne
                rw [wp_bind, wp_getParent ⟨d, h1⟩, h2]
                have := when_setParent (s := s) (r := u.root) (x := c.ptr) (fun k hk => hru.live (T.root_mem hk))
                unfold Prog.when at this
                rw [if_pos hne] at this
                rw [wp_of_returns this]
              · intro hne
                have : u.root = none := by
                  cases hc : u.root with
                  | none => rfl
                  | some k => exact absurd (by rw [hc]; simp) hne
                simp [this]
            rw [wp_bind]
            refine wp_mono key ?_
            rintro _ s1 rfl
            rw [wp_bind, wp_of_returns (realDelete_ok ⟨d, by exact h1⟩), wp_pure]
            refine ⟨rfl, ?_, ⟨some p, ?_⟩, by simp, rfl, rfl, rfl, fun n hnt' hnc => ?_⟩
            · refine hru.reparent hun (fun n hn hr => ?_) fun n hr => ?_
              · exact ⟨upd_ne _ _ (fun x => hup (x ▸ hn)), by simp [hr], rfl, rfl⟩
              · have hn := T.root_mem hr
                exact ⟨upd_ne _ _ (fun x => hup (x ▸ hn)), rfl, rfl, by simp [hr]⟩
            · refine hc.congr (fun n hn => ?_) rfl
              have hnt' : n ∉ (T.node l p d r).ptrs := fun x => hdc n x hn
              refine ⟨upd_ne _ _ (fun x => hnt' (by simp [T.ptrs, x])), ?_, rfl, rfl⟩
              have : some n ≠ u.root := fun x => hnt' (hut n (T.root_mem x.symm))
              simp [this]
            · refine ⟨upd_ne _ _ (fun x => hnt' (by simp [T.ptrs, x])), ?_, rfl, rfl⟩
              have : some n ≠ u.root := fun x => hnt' (hut n (T.root_mem x.symm))
              simp [this]

/-! ## Searching -/

theorem findFrom_ok {s : St α} {pa : Ptr} {t : Tr α} (h : Rep s pa t) (x : α) :
    Returns (findFrom lt t.root x) s (fFind lt x t) s := by
  induction t generalizing pa with
  | nil => unfold findFrom; rfl
  | node l p d r ihl ihr =>
    obtain ⟨h1, h2, h3, h4, h5, h6⟩ := h
    unfold findFrom Returns
    rw [if_neg (by simp [T.root])]
    simp only [root_node, fFind]
    rw [bind_returns (getData_ok h1)]
    by_cases c1 : lt x d.val
    · rw [if_pos c1, if_pos c1, bind_returns (getLeft_ok ⟨d, h1⟩), h3]
      exact ihl h5
    · rw [if_neg c1, if_neg c1]
      by_cases c2 : lt d.val x
      · rw [if_pos c2, if_pos c2, bind_returns (getRight_ok ⟨d, h1⟩), h4]
        exact ihr h6
      · rw [if_neg c2, if_neg c2]; rfl

theorem find_ok {s : St α} {t : Tr α} (h : IsTree s t) (x : α) :
    Returns (find lt x) s (fFind lt x t) s := by
  unfold find Returns
  rw [bind_returns (show Returns getRoot s s.root s from rfl), h.root]
  exact findFrom_ok h.rep x

/-- The search only ends at an equivalent element. -/
theorem find_some {x : α} {t : Tr α} {z : Nat} (h : fFind lt x t = some z) :
    ∃ v, (z, v) ∈ items t ∧ Equiv lt x v := by
  induction t with
  | nil => cases h
  | node l p d r ihl ihr =>
    simp only [fFind] at h
    by_cases c1 : lt x d.val
    · rw [if_pos c1] at h
      obtain ⟨v, h1, h2⟩ := ihl h
      exact ⟨v, by simp [h1], h2⟩
    · rw [if_neg c1] at h
      by_cases c2 : lt d.val x
      · rw [if_pos c2] at h
        obtain ⟨v, h1, h2⟩ := ihr h
        exact ⟨v, by simp [h1], h2⟩
      · rw [if_neg c2] at h
        cases h
        exact ⟨d.val, by simp, by simpa using c1, by simpa using c2⟩

theorem StrictWeak.gt_of_equiv (w : StrictWeak lt) {x a b : α} (h : Equiv lt x b) (hab : lt a b = true) :
    lt a x = true := by
  rcases w.cotrans a x b hab with h' | h'
  · exact h'
  · rw [h.1] at h'; cases h'

theorem StrictWeak.asymm (w : StrictWeak lt) {a b : α} (h : lt a b = true) : lt b a = false := by
  cases h' : lt b a with
  | false => rfl
  | true => have := w.trans _ _ _ h h'; rw [w.irrefl] at this; cases this

/-- The search finds every equivalent element. -/
theorem find_of_mem (w : StrictWeak lt) {x v : α} {t : Tr α} {z : Nat} (ha : Ascending lt (vals t))
    (hm : (z, v) ∈ items t) (he : Equiv lt x v) : fFind lt x t = some z := by
  induction t with
  | nil => simp at hm
  | node l p d r ihl ihr =>
    obtain ⟨a1, a2, a3, a4⟩ := asc_node ha
    simp only [items_node, List.mem_append, List.mem_cons, Prod.mk.injEq] at hm
    simp only [fFind]
    rcases hm with hm | ⟨rfl, rfl⟩ | hm
    · have h1 := a3 v (by rw [vals_eq]; exact List.mem_map_of_mem hm)
      rw [if_pos (w.lt_of_equiv he h1)]
      exact ihl a1 hm
    · rw [if_neg (by simp [he.1]), if_neg (by simp [he.2])]
    · have h1 := a4 v (by rw [vals_eq]; exact List.mem_map_of_mem hm)
      have h2 := w.gt_of_equiv he h1
      rw [if_neg (by simp [w.asymm h2]), if_pos h2]
      exact ihr a2 hm

theorem find_none (w : StrictWeak lt) {x : α} {t : Tr α} (ha : Ascending lt (vals t)) :
    fFind lt x t = none ↔ ∀ v ∈ vals t, ¬ Equiv lt x v := by
  constructor
  · intro h v hv he
    rw [vals_eq, List.mem_map] at hv
    obtain ⟨⟨z, v'⟩, hm, rfl⟩ := hv
    rw [find_of_mem w ha hm he] at h; cases h
  · intro h
    cases hf : fFind lt x t with
    | none => rfl
    | some z =>
      obtain ⟨v, h1, h2⟩ := find_some hf
      exact absurd h2 (h v (by rw [vals_eq]; exact List.mem_map_of_mem h1))

/-! ## `pop` -/

structure PopPost (s s' : St α) (t t' : Tr α) (z : Nat) : Prop where
  tree : IsTree s' t'
  gone : s'.dat z = none
  next : s'.next = s.next
  lost : s'.lost = s.lost
  size : s'.size = s.size - 1
  out : ∀ n, n ∉ t.ptrs → SameAt s s' n

theorem pop_ok (w : StrictWeak lt) {s : St α} {t : Tr α} {x : α} {obj : Arg α} {z : Nat} (h : IsTree s t)
    (hv : Avl t) (ha : Ascending lt (vals t)) (hf : fFind lt x t = some z) (hx : Reads s obj x)
    (hs : s.size ≠ 0) : wp (pop lt obj) (fun _ s' => PopPost s s' t (fDel lt x t) z) s := by
  unfold pop
  rw [wp_bind, wp_getSize, if_neg hs, wp_bind, wp_getRoot, h.root, wp_bind]
  refine wp_mono (delete_ok w t.count (c := .top) (Nat.le_refl _) h.rep h.root h.nodup hv ha hf hx) ?_
  rintro y s1 ⟨rfl, hd⟩
  obtain ⟨xs, ys, e1, e2⟩ := del_ptrs hf
  have hnd : (fDel lt x t).ptrs.Nodup := by
    have := h.nodup
    rw [e1] at this
    rw [e2]
    exact (List.nodup_cons.1 ((List.perm_middle (a := z) (l₁ := xs) (l₂ := ys)).nodup_iff.1 this)).2
  rw [wp_bind, wp_getRoot, wp_when]
  constructor
  · intro _
    unfold updateRoot
    rw [wp_bind, wp_modify, wp_when]
    have hrep := hd.rep
    constructor
    · intro hne
      cases hc : fDel lt x t with
      | nil => rw [hc] at hne; exact absurd rfl hne
      | node l p d r =>
        rw [hc] at hrep hnd
        obtain ⟨h1, h2, h3, h4, h5, h6⟩ := hrep
        have hsame : upd s1.par p none = s1.par := by
          funext n
          by_cases hn : n = p
          · rw [hn, upd_self]; exact h2.symm
          · exact upd_ne _ _ hn
        simp only [root_node]
        rw [wp_setParent ⟨d, by exact h1⟩]
        simp only [hsame]
        exact ⟨⟨rfl, Rep.congr (s := s1) ⟨h1, h2, h3, h4, h5, h6⟩ fun n _ => ⟨rfl, rfl, rfl, rfl⟩, hnd⟩,
          hd.gone, hd.next, hd.lost, hd.size, fun n hn =>
          have := hd.out n hn (by simp [Ctx.ptrs]); ⟨this.dat, this.par, this.lft, this.rgt⟩⟩
    · intro _
      exact ⟨⟨rfl, Rep.congr (s := s1) hrep fun n _ => ⟨rfl, rfl, rfl, rfl⟩, hnd⟩,
          hd.gone, hd.next, hd.lost, hd.size, fun n hn =>
          have := hd.out n hn (by simp [Ctx.ptrs]); ⟨this.dat, this.par, this.lft, this.rgt⟩⟩
  · intro hne
    have hr : s1.root = (fDel lt x t).root := by
      by_cases h : s1.root = (fDel lt x t).root
      · exact h
      · exact absurd h hne
    exact ⟨⟨hr, hd.rep, hnd⟩, hd.gone, hd.next, hd.lost, hd.size, fun n hn => hd.out n hn (by simp [Ctx.ptrs])⟩

theorem pop_empty {s : St α} {obj : Arg α} (hs : s.size = 0) : Returns (pop lt obj) s () s := by
  unfold pop Returns
  rw [bind_returns (show Returns getSize s s.size s from rfl), if_pos hs]; rfl

theorem delete_absent {s : St α} {pa : Ptr} {t : Tr α} {x : α} {obj : Arg α} (h : Rep s pa t)
    (hf : fFind lt x t = none) (hx : Reads s obj x) : Faults (delete lt t.root obj) s .nullDeref := by
  induction t generalizing pa with
  | nil => unfold delete; rfl
  | node l p d r ihl ihr =>
    obtain ⟨h1, h2, h3, h4, h5, h6⟩ := h
    simp only [fFind] at hf
    unfold delete Faults
    simp only [root_node]
    rw [bind_returns (getData_ok h1), bind_returns (readArg_ok hx)]
    by_cases c1 : lt x d.val
    · rw [if_pos c1] at hf ⊢
      rw [bind_returns (getLeft_ok ⟨d, h1⟩), h3]
      exact bind_faults (ihl h5 hf)
    · rw [if_neg c1] at hf ⊢
      by_cases c2 : lt d.val x
      · rw [if_pos c2] at hf ⊢
        rw [bind_returns (getRight_ok ⟨d, h1⟩), h4]
        exact bind_faults (ihr h6 hf)
      · rw [if_neg c2] at hf; cases hf

theorem pop_absent {s : St α} {t : Tr α} {x : α} {obj : Arg α} (h : IsTree s t)
    (hf : fFind lt x t = none) (hx : Reads s obj x) (hs : s.size ≠ 0) :
    Faults (pop lt obj) s .nullDeref := by
  unfold pop Faults
  rw [bind_returns (show Returns getSize s s.size s from rfl), if_neg hs,
    bind_returns (show Returns getRoot s s.root s from rfl), h.root]
  exact bind_faults (delete_absent h.rep hf hx)

end

end Verif.AVL
