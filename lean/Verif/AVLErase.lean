import Verif.AVLDelete

/-! # `erase` of an AVL tree -/

namespace Verif.AVL

open Prog Verif.Tree

variable {α : Type}

structure Same (s s' : St α) (ns : List Nat) : Prop where
  next : s'.next = s.next
  lost : s'.lost = s.lost
  size : s'.size = s.size
  out : ∀ n, n ∉ ns → SameAt s s' n

theorem rebalance_ok {c : Ctx (D α)} {s : St α} {t0 : Tr α} {l r : Tr α} {p : Nat} {d : D α}
    (h : Rep s c.ptr (.node l p d r)) (hc : CRep s c (some p))
    (hn : (c.plug (.node l p d r)).ptrs.Nodup) (hv : Avl (c.plug t0)) (hnear : Near t0 (.node l p d r)) :
    wp (rebalanceAfterDelete (some p)) (fun _ s' => IsTree s' (fReb c (.node l p d r)) ∧
      Same s s' (c.plug (.node l p d r)).ptrs) s := by
  induction c generalizing s t0 l p d r with
  | top =>
    have hn' := hn
    have hnear' := hnear
    obtain ⟨_, _, _, _, e, v1, v2, v3, v4, v5, v6⟩ := hnear
    cases e
    have h' := h
    obtain ⟨h1, h2, h3, h4, h5, h6⟩ := h
    unfold rebalanceAfterDelete
    rw [if_neg (by simp), wp_bind, wp_getParent ⟨d, h1⟩, h2, wp_bind]
    refine wp_mono (checkAndBalance_ok h' hn v1 v2) ?_
    rintro y s1 ⟨rfl, hr, hf⟩
    have hnd : (fBal (.node l p d r)).ptrs.Nodup := by rw [ptrs_bal]; exact hn
    rw [if_neg (by simp [Ctx.ptr]), wp_bind, wp_when]
    constructor
    · intro _
      unfold updateRoot
      rw [wp_bind, wp_modify, wp_when]
      have key : ∀ (s2 : St α), s2 = { s1 with root := (fBal (.node l p d r)).root } →
          wp (rebalanceAfterDelete (Ctx.top : Ctx (D α)).ptr) (fun _ s' => IsTree s' (fReb .top (.node l p d r)) ∧
            Same s s' (Ctx.top.plug (.node l p d r)).ptrs) s2 := by
        rintro s2 rfl
        unfold rebalanceAfterDelete
        rw [if_pos (by rfl), wp_pure]
        exact ⟨⟨rfl, hr.congr fun n _ => ⟨rfl, rfl, rfl, rfl⟩, hnd⟩, hf.hdr.next, hf.hdr.lost, hf.hdr.size,
          fun n hn => have := hf.out n hn; ⟨this.dat, this.par, this.lft, this.rgt⟩⟩
      constructor
      · intro hne
        cases hcc : fBal (.node l p d r) with
        | nil => rw [hcc] at hne; exact absurd rfl hne
        | node l' p' d' r' =>
          have hr' := hr
          rw [hcc] at hr'
          obtain ⟨k1, k2, k3, k4, k5, k6⟩ := hr'
          have hsame : upd s1.par p' none = s1.par := by
            funext n
            by_cases hn : n = p'
            · rw [hn, upd_self]; exact k2.symm
            · exact upd_ne _ _ hn
          simp only [root_node]
          rw [wp_setParent ⟨d', by exact k1⟩]
          simp only [hsame]
          exact key _ (by rw [hcc]; rfl)
      · intro _
        exact key _ rfl
    · intro hne
      have he : (fBal (.node l p d r)).root = some p := by
        by_cases h : (fBal (.node l p d r)).root = some p
        · exact h
        · exact absurd h hne
      unfold rebalanceAfterDelete
      rw [if_pos (by rfl), wp_pure]
      exact ⟨⟨hf.hdr.root.trans (Eq.trans hc he.symm), hr, hnd⟩, hf.hdr.next, hf.hdr.lost, hf.hdr.size, hf.out⟩
  | left c a da ra ih =>
    obtain ⟨_, _, _, _, e, v1, v2, v3, v4, v5, v6⟩ := hnear
    cases e
    have h' := h
    obtain ⟨h1, h2, h3, h4, h5, h6⟩ := h
    have hn' := hn
    simp only [Ctx.plug] at hn
    obtain ⟨hnt, hcn, hdc⟩ := Ctx.nodup_plug.1 hn
    obtain ⟨n1, n2, n3, n4, n5⟩ := nodup_node hnt
    obtain ⟨g1, g2, g3, g4, g5, g6⟩ := hc
    unfold rebalanceAfterDelete
    rw [if_neg (by simp), wp_bind, wp_getParent ⟨d, h1⟩, h2, wp_bind]
    refine wp_mono (checkAndBalance_ok h' n1 v1 v2) ?_
    rintro y s1 ⟨rfl, hr, hf⟩
    have ea := hf.out a n3
    rw [if_pos (by simp [Ctx.ptr]), wp_bind]
    simp only [Ctx.ptr]
    rw [wp_bind, wp_getLeft ⟨da, ea.dat.trans g1⟩, wp_bind, if_pos (ea.lft.trans g3),
      wp_setLeft ⟨da, ea.dat.trans g1⟩]
    have hrep : Rep { s1 with lft := upd s1.lft a (fBal (.node l p d r)).root } c.ptr
        (.node (fBal (.node l p d r)) a da ra) := by
      refine ⟨ea.dat.trans g1, ea.par.trans g2, by simp, ea.rgt.trans g4, hr.congr fun n hn => ?_, g5.congr fun n hn => ?_⟩
      · rw [ptrs_bal] at hn
        exact ⟨rfl, rfl, upd_ne _ _ (fun x => n3 (x ▸ hn)), rfl⟩
      · have := hf.out n (fun x => n5 n x hn)
        exact ⟨this.dat, this.par, (upd_ne _ _ (fun x : n = a => n4 (x ▸ hn))).trans this.lft, this.rgt⟩
    refine wp_mono (updateHeight_ok hrep (by rw [ptrs_bal]; exact n3) n4) ?_
    rintro _ s3 ⟨hr3, hf3, _⟩
    have hsame : ∀ n, n ∉ (T.node (.node l p d r) a da ra).ptrs → SameAt s s3 n := by
      intro n hn
      have hn' := hn
      rw [show (T.node (.node l p d r) a da ra).ptrs = (T.node l p d r).ptrs ++ a :: ra.ptrs from rfl] at hn
      simp only [List.mem_append, List.mem_cons, not_or] at hn
      have b1 := hf.out n hn.1
      have b2 := hf3.out n (by simp [hn.2.1])
      exact ⟨b2.dat.trans b1.dat, b2.par.trans b1.par, b2.lft.trans ((upd_ne _ _ hn.2.1).trans b1.lft), b2.rgt.trans b1.rgt⟩
    have hpt : (T.node (fBal (.node l p d r)) a (setH da (max (ht (fBal (.node l p d r))) (ht ra) + 1)) ra).ptrs =
        (T.node (.node l p d r) a da ra).ptrs := by
      show (fBal (.node l p d r)).ptrs ++ a :: ra.ptrs = (T.node l p d r).ptrs ++ a :: ra.ptrs
      rw [ptrs_bal]
    have hn2 : (c.plug (T.node (fBal (.node l p d r)) a (setH da (max (ht (fBal (.node l p d r))) (ht ra) + 1)) ra)).ptrs.Nodup := by
      rw [Ctx.nodup_plug, hpt]; exact ⟨hnt, hcn, hdc⟩
    refine wp_mono (ih hr3 (g6.congr (fun n hn => ?_) ?_) hn2 hv
      (near_left (avl_sub (t := .node t0 a da ra) hv) v6)) ?_
    · exact hsame n fun x => hdc n x hn
    · exact hf3.hdr.root.trans hf.hdr.root
    rintro _ s4 ⟨i1, i2⟩
    refine ⟨i1, i2.next.trans (hf3.hdr.next.trans hf.hdr.next), i2.lost.trans (hf3.hdr.lost.trans hf.hdr.lost),
      i2.size.trans (hf3.hdr.size.trans hf.hdr.size), fun n hn => ?_⟩
    simp only [Ctx.plug] at hn
    refine (hsame n fun x => hn (Ctx.mem_plug.2 (Or.inl x))).trans (i2.out n fun x => hn ?_)
    rw [Ctx.mem_plug] at x ⊢
    rwa [hpt] at x
  | right c la a da ih =>
    obtain ⟨_, _, _, _, e, v1, v2, v3, v4, v5, v6⟩ := hnear
    cases e
    have h' := h
    obtain ⟨h1, h2, h3, h4, h5, h6⟩ := h
    have hn' := hn
    simp only [Ctx.plug] at hn
    obtain ⟨hnt, hcn, hdc⟩ := Ctx.nodup_plug.1 hn
    obtain ⟨n1, n2, n3, n4, n5⟩ := nodup_node hnt
    obtain ⟨g1, g2, g3, g4, g5, g6⟩ := hc
    unfold rebalanceAfterDelete
    rw [if_neg (by simp), wp_bind, wp_getParent ⟨d, h1⟩, h2, wp_bind]
    refine wp_mono (checkAndBalance_ok h' n2 v1 v2) ?_
    rintro y s1 ⟨rfl, hr, hf⟩
    have ea := hf.out a n4
    have hne : ¬ s1.lft a = some p := by
      rw [ea.lft, g3]
      intro x
      exact n5 p (T.root_mem x) (by simp [T.ptrs])
    rw [if_pos (by simp [Ctx.ptr]), wp_bind]
    simp only [Ctx.ptr]
    rw [wp_bind, wp_getLeft ⟨da, ea.dat.trans g1⟩, wp_bind, if_neg hne, wp_setRight ⟨da, ea.dat.trans g1⟩]
    have hrep : Rep { s1 with rgt := upd s1.rgt a (fBal (.node l p d r)).root } c.ptr
        (.node la a da (fBal (.node l p d r))) := by
      refine ⟨ea.dat.trans g1, ea.par.trans g2, ea.lft.trans g3, by simp, g5.congr fun n hn => ?_, hr.congr fun n hn => ?_⟩
      · have := hf.out n (fun x => n5 n hn x)
        exact ⟨this.dat, this.par, this.lft, (upd_ne _ _ (fun x : n = a => n3 (x ▸ hn))).trans this.rgt⟩
      · rw [ptrs_bal] at hn
        exact ⟨rfl, rfl, rfl, upd_ne _ _ (fun x => n4 (x ▸ hn))⟩
    refine wp_mono (updateHeight_ok hrep n3 (by rw [ptrs_bal]; exact n4)) ?_
    rintro _ s3 ⟨hr3, hf3, _⟩
    have hsame : ∀ n, n ∉ (T.node la a da (.node l p d r)).ptrs → SameAt s s3 n := by
      intro n hn
      have hn' := hn
      rw [show (T.node la a da (.node l p d r)).ptrs = la.ptrs ++ a :: (T.node l p d r).ptrs from rfl] at hn
      simp only [List.mem_append, List.mem_cons, not_or] at hn
      have b1 := hf.out n hn.2.2
      have b2 := hf3.out n (by simp [hn.2.1])
      exact ⟨b2.dat.trans b1.dat, b2.par.trans b1.par, b2.lft.trans b1.lft, b2.rgt.trans ((upd_ne _ _ hn.2.1).trans b1.rgt)⟩
    have hpt : (T.node la a (setH da (max (ht la) (ht (fBal (.node l p d r))) + 1)) (fBal (.node l p d r))).ptrs =
        (T.node la a da (.node l p d r)).ptrs := by
      show la.ptrs ++ a :: (fBal (.node l p d r)).ptrs = la.ptrs ++ a :: (T.node l p d r).ptrs
      rw [ptrs_bal]
    have hn2 : (c.plug (T.node la a (setH da (max (ht la) (ht (fBal (.node l p d r))) + 1)) (fBal (.node l p d r)))).ptrs.Nodup := by
      rw [Ctx.nodup_plug, hpt]; exact ⟨hnt, hcn, hdc⟩
    refine wp_mono (ih hr3 (g6.congr (fun n hn => ?_) ?_) hn2 hv
      (near_right (avl_sub (t := .node la a da t0) hv) v6)) ?_
    · exact hsame n fun x => hdc n x hn
    · exact hf3.hdr.root.trans hf.hdr.root
    rintro _ s4 ⟨i1, i2⟩
    refine ⟨i1, i2.next.trans (hf3.hdr.next.trans hf.hdr.next), i2.lost.trans (hf3.hdr.lost.trans hf.hdr.lost),
      i2.size.trans (hf3.hdr.size.trans hf.hdr.size), fun n hn => ?_⟩
    simp only [Ctx.plug] at hn
    refine (hsame n fun x => hn (Ctx.mem_plug.2 (Or.inl x))).trans (i2.out n fun x => hn ?_)
    rw [Ctx.mem_plug] at x ⊢
    rwa [hpt] at x

/-- The tree after a node with the only subtree `u` has been taken out. -/
def fUnlink : Ctx (D α) → Tr α → Tr α
  | .top, u => u
  | .left c a da ra, u => fReb c (updH (.node u a da ra))
  | .right c la a da, u => fReb c (updH (.node la a da u))

theorem items_unlink (c : Ctx (D α)) (u : Tr α) : items (fUnlink c u) = items (c.plug u) := by
  cases c with
  | top => rfl
  | left c a da ra => rw [fUnlink, items_reb]; exact items_plug c (by simp)
  | right c la a da => rw [fUnlink, items_reb]; exact items_plug c (by simp)

theorem unlink_avl {c : Ctx (D α)} {t0 u : Tr α} (hc : c ≠ .top) (h : Avl (c.plug t0)) (hs : Shrunk t0 u) :
    Avl (fUnlink c u) := by
  cases c with
  | top => exact absurd rfl hc
  | left c a da ra => exact reb_ok (t0 := .node t0 a da ra) h (near_left (avl_sub (t := .node t0 a da ra) h) hs)
  | right c la a da => exact reb_ok (t0 := .node la a da t0) h (near_right (avl_sub (t := .node la a da t0) h) hs)

theorem relink_ok {c : Ctx (D α)} {s : St α} {t0 u : Tr α} {p : Nat} (hct : c ≠ .top)
    (h : Rep s c.ptr u) (hc : CRep s c (some p)) (hn : (c.plug u).ptrs.Nodup) (hpc : p ∉ c.ptrs)
    (hv : Avl (c.plug t0)) (hs : Shrunk t0 u) :
    wp (relink c.ptr (some p) u.root) (fun _ s' => IsTree s' (fUnlink c u) ∧ Same s s' (c.plug u).ptrs) s := by
  cases c with
  | top => exact absurd rfl hct
  | left c a da ra =>
    simp only [Ctx.plug] at hn
    obtain ⟨hnt, hcn, hdc⟩ := Ctx.nodup_plug.1 hn
    obtain ⟨n1, n2, n3, n4, n5⟩ := nodup_node hnt
    obtain ⟨g1, g2, g3, g4, g5, g6⟩ := hc
    show wp (relink (some a) (some p) u.root) _ s
    unfold relink
    rw [wp_when]
    refine ⟨fun _ => ?_, fun h => absurd (by simp) h⟩
    rw [wp_bind, wp_getLeft ⟨da, g1⟩, wp_bind, if_pos g3, wp_setLeft ⟨da, g1⟩, wp_bind]
    have hrep : Rep { s with lft := upd s.lft a u.root } c.ptr (.node u a da ra) :=
      ⟨g1, g2, by simp, g4, h.congr fun n hn => ⟨rfl, rfl, upd_ne _ _ (fun x => n3 (x ▸ hn)), rfl⟩,
        g5.congr fun n hn => ⟨rfl, rfl, upd_ne _ _ (fun x => n4 (x ▸ hn)), rfl⟩⟩
    refine wp_mono (updateHeight_ok hrep n3 n4) ?_
    rintro _ s2 ⟨hr, hf, _⟩
    have hsame : ∀ n, n ≠ a → SameAt s s2 n := by
      intro n hn
      have := hf.out n (by simp [hn])
      exact ⟨this.dat, this.par, this.lft.trans (upd_ne _ _ hn), this.rgt⟩
    refine wp_mono (rebalance_ok hr (g6.congr (fun n hn' => hsame n fun x => ?_) hf.hdr.root)
      (Ctx.nodup_plug.2 ⟨hnt, hcn, hdc⟩) hv
      (near_left (avl_sub (t := .node t0 a da ra) hv) hs)) ?_
    · exact hdc n (by simp [T.ptrs, x]) hn'
    rintro _ s3 ⟨i1, i2⟩
    refine ⟨i1, i2.next.trans hf.hdr.next, i2.lost.trans hf.hdr.lost, i2.size.trans hf.hdr.size, fun n hn => ?_⟩
    refine (hsame n fun x => hn ?_).trans (i2.out n fun x => hn (by
      have y := Ctx.mem_plug.1 x; simp only [Ctx.plug]; exact Ctx.mem_plug.2 y))
    simp only [Ctx.plug]
    exact Ctx.mem_plug.2 (Or.inl (by simp [T.ptrs, x]))
  | right c la a da =>
    simp only [Ctx.plug] at hn
    obtain ⟨hnt, hcn, hdc⟩ := Ctx.nodup_plug.1 hn
    obtain ⟨n1, n2, n3, n4, n5⟩ := nodup_node hnt
    obtain ⟨g1, g2, g3, g4, g5, g6⟩ := hc
    simp only [Ctx.ptrs, List.mem_cons, List.mem_append, not_or] at hpc
    show wp (relink (some a) (some p) u.root) _ s
    unfold relink
    rw [wp_when]
    refine ⟨fun _ => ?_, fun h => absurd (by simp) h⟩
    have hne : ¬ s.lft a = some p := by
      rw [g3]; intro x; exact hpc.2.1 (T.root_mem x)
    rw [wp_bind, wp_getLeft ⟨da, g1⟩, wp_bind, if_neg hne, wp_setRight ⟨da, g1⟩, wp_bind]
    have hrep : Rep { s with rgt := upd s.rgt a u.root } c.ptr (.node la a da u) :=
      ⟨g1, g2, g3, by simp, g5.congr fun n hn => ⟨rfl, rfl, rfl, upd_ne _ _ (fun x => n3 (x ▸ hn))⟩,
        h.congr fun n hn => ⟨rfl, rfl, rfl, upd_ne _ _ (fun x => n4 (x ▸ hn))⟩⟩
    refine wp_mono (updateHeight_ok hrep n3 n4) ?_
    rintro _ s2 ⟨hr, hf, _⟩
    have hsame : ∀ n, n ≠ a → SameAt s s2 n := by
      intro n hn
      have := hf.out n (by simp [hn])
      exact ⟨this.dat, this.par, this.lft, this.rgt.trans (upd_ne _ _ hn)⟩
    refine wp_mono (rebalance_ok hr (g6.congr (fun n hn' => hsame n fun x => ?_) hf.hdr.root)
      (Ctx.nodup_plug.2 ⟨hnt, hcn, hdc⟩) hv
      (near_right (avl_sub (t := .node la a da t0) hv) hs)) ?_
    · exact hdc n (by simp [T.ptrs, x]) hn'
    rintro _ s3 ⟨i1, i2⟩
    refine ⟨i1, i2.next.trans hf.hdr.next, i2.lost.trans hf.hdr.lost, i2.size.trans hf.hdr.size, fun n hn => ?_⟩
    refine (hsame n fun x => hn ?_).trans (i2.out n fun x => hn (by
      have y := Ctx.mem_plug.1 x; simp only [Ctx.plug]; exact Ctx.mem_plug.2 y))
    simp only [Ctx.plug]
    exact Ctx.mem_plug.2 (Or.inl (by simp [T.ptrs, x]))

structure ErasePost (s s' : St α) (t t' : Tr α) (p : Nat) : Prop where
  tree : IsTree s' t'
  avl : Avl t'
  split : ∃ xs v ys, items t = xs ++ (p, v) :: ys ∧ items t' = xs ++ ys
  gone : s'.dat p = none
  next : s'.next = s.next
  lost : s'.lost = s.lost
  size : s'.size = s.size - 1
  out : ∀ n, n ∉ t.ptrs → SameAt s s' n

theorem items_plug_split (c : Ctx (D α)) : ∃ xs ys, ∀ t : Tr α, items (c.plug t) = xs ++ items t ++ ys := by
  induction c with
  | top => exact ⟨[], [], fun t => by simp [Ctx.plug]⟩
  | left c a da ra ih =>
    obtain ⟨xs, ys, h⟩ := ih
    exact ⟨xs, (a, da.val) :: items ra ++ ys, fun t => by simp [Ctx.plug, h]⟩
  | right c la a da ih =>
    obtain ⟨xs, ys, h⟩ := ih
    exact ⟨xs ++ items la ++ [(a, da.val)], ys, fun t => by simp [Ctx.plug, h]⟩

/-- At most one child. -/
theorem deleteByTarget_one {s : St α} {c : Ctx (D α)} {l r u : Tr α} {p : Nat} {d : D α} (hct : c ≠ .top)
    (h : IsTree s (c.plug (.node l p d r))) (hv : Avl (c.plug (.node l p d r)))
    (hu : (l = .nil ∧ r = u) ∨ (r = .nil ∧ l = u)) :
    wp (deleteByTarget (some p)) (fun _ s' => ErasePost s s' (c.plug (.node l p d r)) (fUnlink c u) p) s := by
  have ha := h.at
  have hav := avl_sub (t := .node l p d r) hv
  have hs : Shrunk (.node l p d r) u := by
    obtain ⟨v1, v2, v3, v4, v5⟩ := hav
    rcases hu with ⟨rfl, rfl⟩ | ⟨rfl, rfl⟩
    · have := ht_nonneg v2
      simp only [ht_nil] at *
      exact ⟨v2, Or.inr (by simp only [ht_node]; omega)⟩
    · have := ht_nonneg v1
      simp only [ht_nil] at *
      exact ⟨v1, Or.inr (by simp only [ht_node]; omega)⟩
  have hru : Rep s (some p) u := by
    rcases hu with ⟨rfl, rfl⟩ | ⟨rfl, rfl⟩
    · exact ha.repr
    · exact ha.repl
  have hun : u.ptrs.Nodup := by
    rcases hu with ⟨rfl, rfl⟩ | ⟨rfl, rfl⟩
    · exact ha.nr
    · exact ha.nl
  have hup : p ∉ u.ptrs := by
    rcases hu with ⟨rfl, rfl⟩ | ⟨rfl, rfl⟩
    · exact ha.pr
    · exact ha.pl
  have huc : ∀ n ∈ u.ptrs, n ∉ c.ptrs := by
    rcases hu with ⟨rfl, rfl⟩ | ⟨rfl, rfl⟩
    · exact ha.rc
    · exact ha.lc
  have hitems : items (.node l p d r) = [] ++ (p, d.val) :: items u ∨ items (.node l p d r) = items u ++ [(p, d.val)] := by
    rcases hu with ⟨rfl, rfl⟩ | ⟨rfl, rfl⟩
    · left; simp
    · right; simp
  have hsub : ∀ n ∈ (c.plug u).ptrs, n ∈ (c.plug (.node l p d r)).ptrs := by
    intro n hn
    rw [Ctx.mem_plug] at hn ⊢
    refine hn.imp_left fun h => ?_
    rcases hu with ⟨rfl, rfl⟩ | ⟨rfl, rfl⟩ <;> simp [T.ptrs, h]
  have hpu : p ∉ (c.plug u).ptrs := by
    rw [Ctx.mem_plug]; exact fun h => h.elim hup ha.pc
  have hnu : (c.plug u).ptrs.Nodup := Ctx.nodup_plug.2 ⟨hun, ha.nc, huc⟩
  -- unlinking and releasing the node
  have key : ∀ s1 : St α, s1 = { s with par := fun n => if some n = u.root then c.ptr else s.par n } → ∀ v : Ptr,
      wp (do relink c.ptr (some p) u.root; realDelete (some p); pure v)
        (fun _ s' => ErasePost s s' (c.plug (.node l p d r)) (fUnlink c u) p) s1 := by
    rintro s1 rfl v
    rw [wp_bind]
    refine wp_mono (relink_ok (t0 := .node l p d r) hct ?_ (ha.crep.congr (fun n hn => ?_) rfl) hnu ha.pc hv hs) ?_
    · refine hru.reparent hun (fun n hn hr => ?_) fun n hr => ?_
      · exact ⟨rfl, by simp [hr], rfl, rfl⟩
      · exact ⟨rfl, rfl, rfl, by simp [hr]⟩
    · have : some n ≠ u.root := fun x => huc n (T.root_mem x.symm) hn
      exact ⟨rfl, by simp [this], rfl, rfl⟩
    rintro _ s2 ⟨i1, i2⟩
    have hp2 : s2.dat p = some (some d) := (i2.out p hpu).dat.trans ha.dat
    rw [wp_bind, wp_of_returns (realDelete_ok ⟨d, hp2⟩), wp_pure]
    have hpt : p ∉ (fUnlink c u).ptrs := by
      rw [ptrs_items, items_unlink, ← ptrs_items]; exact hpu
    refine ⟨⟨i1.root, Rep.congr i1.rep fun n hn => ⟨upd_ne _ _ fun x => hpt (x ▸ hn), rfl, rfl, rfl⟩, i1.nodup⟩,
      unlink_avl hct hv hs, ?_, by simp, i2.next, i2.lost, by simp [i2.size], fun n hn => ?_⟩
    · obtain ⟨xs, ys, e⟩ := items_plug_split c
      rw [items_unlink, e, e]
      rcases hitems with e' | e'
      · exact ⟨xs, d.val, items u ++ ys, by rw [e']; simp, by simp⟩
      · exact ⟨xs ++ items u, d.val, ys, by rw [e']; simp, by simp⟩
    · have b1 := i2.out n (fun x => hn (hsub n x))
      have b2 : some n ≠ u.root := fun x => hn (hsub n (Ctx.mem_plug.2 (Or.inl (T.root_mem x.symm))))
      have b3 : n ≠ p := fun x => hn (Ctx.mem_plug.2 (Or.inl (by simp [T.ptrs, x])))
      exact ⟨(upd_ne _ _ b3).trans b1.dat, b1.par.trans (by simp [b2]), b1.lft, b1.rgt⟩
  unfold deleteByTarget
  rw [if_neg (by simp), wp_bind, wp_getParent ⟨d, ha.dat⟩, wp_bind, wp_getLeft ⟨d, ha.dat⟩, wp_bind,
    wp_getRight ⟨d, ha.dat⟩, ha.par, ha.lft, ha.rgt]
  by_cases c1 : l.root = none ∧ r.root = none
  · rw [if_pos c1]
    have hnil : u = .nil := by
      have h1 := T.root_none.1 c1.1
      have h2 := T.root_none.1 c1.2
      rcases hu with ⟨_, rfl⟩ | ⟨_, rfl⟩ <;> assumption
    subst hnil
    exact key s (by simp [T.root]) none
  · rw [if_neg c1, if_neg (by rcases hu with ⟨rfl, _⟩ | ⟨rfl, _⟩ <;> simp [T.root])]
    have hchild : (if l.root ≠ none then l.root else r.root) = u.root := by
      rcases hu with ⟨rfl, rfl⟩ | ⟨rfl, rfl⟩
      · simp [T.root]
      · split
        · rfl
        · rename_i h
          have : l.root = none := by cases hh : l.root with
            | none => rfl
            | some k => exact absurd (by rw [hh]; simp) h
          rw [this]; rfl
    have hne : u.root ≠ none := by
      rcases hu with ⟨rfl, rfl⟩ | ⟨rfl, rfl⟩
      · exact fun x => c1 ⟨rfl, x⟩
      · exact fun x => c1 ⟨x, rfl⟩
    generalize (if l.root ≠ none then l.root else r.root) = g at hchild
    subst hchild
    have := when_setParent (s := s) (r := u.root) (x := c.ptr) (fun k hk => hru.live (T.root_mem hk))
    unfold Prog.when at this
    rw [if_pos hne] at this
    simp only
    rw [wp_bind, wp_of_returns this]
    exact key _ rfl u.root

theorem IsTree.of_plug {s : St α} {c : Ctx (D α)} {t : Tr α} (h : Rep s c.ptr t) (hc : CRep s c t.root)
    (hn : (c.plug t).ptrs.Nodup) : IsTree s (c.plug t) :=
  have := rep_plug.2 ⟨h, hc⟩
  ⟨this.1, this.2, hn⟩

theorem split_unique {xs ys xs' ys' : List (Nat × α)} {p : Nat} {v v' : α}
    (hn : ((xs ++ (p, v) :: ys).map (·.1)).Nodup) (h : xs ++ (p, v) :: ys = xs' ++ (p, v') :: ys') :
    xs = xs' ∧ ys = ys' := by
  induction xs generalizing xs' with
  | nil =>
    cases xs' with
    | nil => exact ⟨rfl, (List.cons.inj h).2⟩
    | cons a as =>
      simp only [List.nil_append, List.cons_append, List.cons.injEq] at h
      obtain ⟨rfl, rfl⟩ := h
      simp at hn
  | cons b bs ih =>
    cases xs' with
    | nil =>
      simp only [List.nil_append, List.cons_append, List.cons.injEq] at h
      obtain ⟨rfl, rfl⟩ := h
      simp at hn
    | cons a as =>
      simp only [List.cons_append, List.cons.injEq] at h
      obtain ⟨rfl, h⟩ := h
      simp only [List.cons_append, List.map_cons, List.nodup_cons] at hn
      obtain ⟨e1, e2⟩ := ih hn.2 h
      exact ⟨by rw [e1], e2⟩

/-- Two children. -/
theorem deleteByTarget_two {s : St α} {c : Ctx (D α)} {l r : Tr α} {p : Nat} {d : D α}
    (h : IsTree s (c.plug (.node l p d r))) (hv : Avl (c.plug (.node l p d r))) (hl : l ≠ .nil) (hr : r ≠ .nil) :
    wp (deleteByTarget (some p)) (fun _ s' => ∃ t', ErasePost s s' (c.plug (.node l p d r)) t' p) s := by
  have ha := h.at
  have hav := avl_sub (t := .node l p d r) hv
  obtain ⟨q, e, hm⟩ := minNode_some hr
  obtain ⟨em, es⟩ := minNode_mem hm
  obtain ⟨im, is⟩ := items_min hm
  have hlr : l.root ≠ none := fun x => hl (T.root_none.1 x)
  have hrr : r.root ≠ none := fun x => hr (T.root_none.1 x)
  unfold deleteByTarget
  rw [if_neg (by simp), wp_bind, wp_getParent ⟨d, ha.dat⟩, wp_bind, wp_getLeft ⟨d, ha.dat⟩, wp_bind,
    wp_getRight ⟨d, ha.dat⟩, ha.par, ha.lft, ha.rgt, if_neg (fun x => hlr x.1), if_pos ⟨hlr, hrr⟩,
    wp_bind, wp_of_returns (firstNode_min ha.repr hm), wp_bind]
  refine wp_mono (swapNode_ok ⟨ha.dat, ha.par, ha.lft, ha.rgt, ha.repl, ha.repr⟩ ha.crep hm h.nodup) ?_
  rintro _ s1 ⟨rfl, sw⟩
  simp only
  have hperm : (T.node l q (setH e d.height) (setMin p (setH d e.height) r)).ptrs.Perm (T.node l p d r).ptrs := by
    simp only [T.ptrs]
    rw [es, em]
    exact List.Perm.append_left _ (List.Perm.swap _ _ _)
  obtain ⟨hnt, hcn, hdc⟩ := Ctx.nodup_plug.1 h.nodup
  have hn2 : (c.plug (.node l q (setH e d.height) (setMin p (setH d e.height) r))).ptrs.Nodup := by
    rw [Ctx.nodup_plug]
    exact ⟨hperm.nodup_iff.2 hnt, hcn, fun n hn => hdc n (hperm.mem_iff.1 hn)⟩
  have ht2 : IsTree s1 (c.plug (.node l q (setH e d.height) (setMin p (setH d e.height) r))) :=
    IsTree.of_plug sw.rep sw.ctx hn2
  have hv2 : Avl (c.plug (.node l q (setH e d.height) (setMin p (setH d e.height) r))) := by
    obtain ⟨v1, v2, v3, v4, v5⟩ := hav
    have m := setMin_avl (z := p) (f := setH d e.height) hm rfl v2
    refine (avl_plug hv (t' := .node l q (setH e d.height) (setMin p (setH d e.height) r)) ?_ rfl).1
    exact ⟨v1, m.1, by rw [m.2]; exact v3, by rw [m.2]; exact v4, by rw [m.2]; exact v5⟩
  obtain ⟨c1, rr, e1, e2, e3⟩ := min_split hm (.right c l q (setH e d.height))
  have e4 : c.plug (.node l q (setH e d.height) (setMin p (setH d e.height) r)) = c1.plug (.node .nil p (setH d e.height) rr) :=
    e2 p (setH d e.height)
  rw [e4] at ht2 hv2
  refine wp_mono (deleteByTarget_one (e3 (by simp)) ht2 hv2 (Or.inl ⟨rfl, rfl⟩)) ?_
  rintro _ s2 i
  rw [← e4] at i
  obtain ⟨xs, ys, ec⟩ := items_plug_split c
  refine ⟨_, i.tree, i.avl, ?_, i.gone, i.next.trans sw.next, i.lost.trans sw.lost, i.size.trans (by rw [sw.size]), fun n hn => ?_⟩
  · obtain ⟨xs', v, ys', i1, i2⟩ := i.split
    -- the node stands once in the list, so the parts before and after it are known
    have hnd : (xs ++ items l ++ [(q, e.val)] ++ (p, d.val) :: (items (fDelMin r) ++ ys)).map (·.1) |>.Nodup := by
      have : items (c.plug (.node l q (setH e d.height) (setMin p (setH d e.height) r))) =
          xs ++ items l ++ [(q, e.val)] ++ (p, d.val) :: (items (fDelMin r) ++ ys) := by
        rw [ec, items_node, is]; simp
      rw [← this, ← ptrs_items]; exact hn2
    have heq : xs' ++ (p, v) :: ys' = xs ++ items l ++ [(q, e.val)] ++ (p, d.val) :: (items (fDelMin r) ++ ys) := by
      rw [← i1, ec, items_node, is]; simp
    obtain ⟨q1, q2⟩ : xs' = xs ++ items l ++ [(q, e.val)] ∧ ys' = items (fDelMin r) ++ ys := by
      rw [← heq] at hnd
      exact split_unique hnd heq
    refine ⟨xs ++ items l, d.val, (q, e.val) :: items (fDelMin r) ++ ys, ?_, ?_⟩
    · rw [ec, items_node, im]; simp
    · rw [i2, q1, q2]; simp
  · rw [Ctx.mem_plug] at hn
    refine (sw.out n (fun x => hn (Or.inl x)) (fun x => hn (Or.inr x))).trans (i.out n fun x => hn ?_)
    rw [Ctx.mem_plug] at x
    exact x.imp_left fun y => hperm.mem_iff.1 y

theorem deleteByTarget_ok {s : St α} {c : Ctx (D α)} {l r : Tr α} {p : Nat} {d : D α}
    (h : IsTree s (c.plug (.node l p d r))) (hv : Avl (c.plug (.node l p d r)))
    (hc : c ≠ .top ∨ (l ≠ .nil ∧ r ≠ .nil)) :
    wp (deleteByTarget (some p)) (fun _ s' => ∃ t', ErasePost s s' (c.plug (.node l p d r)) t' p) s := by
  by_cases h1 : l ≠ .nil ∧ r ≠ .nil
  · exact deleteByTarget_two h hv h1.1 h1.2
  · have hct : c ≠ .top := hc.resolve_right h1
    have hu : ∃ u, (l = .nil ∧ r = u) ∨ (r = .nil ∧ l = u) := by
      cases l with
      | nil => exact ⟨r, Or.inl ⟨rfl, rfl⟩⟩
      | node _ _ _ _ =>
        cases r with
        | nil => exact ⟨_, Or.inr ⟨rfl, rfl⟩⟩
        | node _ _ _ _ => exact absurd ⟨by simp, by simp⟩ h1
    obtain ⟨u, hu⟩ := hu
    exact wp_mono (deleteByTarget_one hct h hv hu) fun _ s' i => ⟨_, i⟩

/-- The root with fewer than two children is released, but `mRootPtr_d` keeps pointing to it. -/
theorem deleteByTarget_root {s : St α} {l r : Tr α} {p : Nat} {d : D α}
    (h : IsTree s (.node l p d r)) (h1 : l = .nil ∨ r = .nil) :
    wp (deleteByTarget (some p)) (fun _ s' => s'.root = some p ∧ s'.dat p = none) s := by
  have ha : At s .top l p d r := IsTree.at (c := .top) h
  have hroot : s.root = some p := h.root
  unfold deleteByTarget
  have hpar : s.par p = none := ha.par
  rw [if_neg (by simp), wp_bind, wp_getParent ⟨d, ha.dat⟩, wp_bind, wp_getLeft ⟨d, ha.dat⟩, wp_bind,
    wp_getRight ⟨d, ha.dat⟩, hpar, ha.lft, ha.rgt]
  by_cases c1 : l.root = none ∧ r.root = none
  · rw [if_pos c1, wp_bind]
    unfold relink
    rw [wp_when]
    refine ⟨fun h => absurd rfl h, fun _ => ?_⟩
    rw [wp_bind, wp_of_returns (realDelete_ok ⟨d, ha.dat⟩), wp_pure]
    exact ⟨hroot, by simp⟩
  · rw [if_neg c1, if_neg (by rcases h1 with rfl | rfl <;> simp [T.root])]
    have hk : ∃ k, (if l.root ≠ none then l.root else r.root) = some k ∧ Live s.dat k := by
      by_cases c2 : l.root = none
      · cases hr : r.root with
        | none => exact absurd ⟨c2, hr⟩ c1
        | some k => exact ⟨k, by rw [if_neg (by simp [c2])], ha.repr.live (T.root_mem hr)⟩
      · cases hr : l.root with
        | none => exact absurd hr c2
        | some k => exact ⟨k, by rw [if_pos (by simp)], ha.repl.live (T.root_mem hr)⟩
    obtain ⟨k, ek, hk⟩ := hk
    generalize (if l.root ≠ none then l.root else r.root) = g at ek
    subst ek
    simp only
    rw [wp_bind, wp_setParent hk, wp_bind]
    unfold relink
    rw [wp_when]
    refine ⟨fun h => absurd rfl h, fun _ => ?_⟩
    rw [wp_bind, wp_of_returns (realDelete_ok ⟨d, by exact ha.dat⟩), wp_pure]
    exact ⟨hroot, by simp⟩

/-! ## `erase` -/

section
variable {lt : α → α → Bool}

theorem hd_eq {xs : List (Nat × D α)} {n : Nat} (h : hd xs = some n) : ∃ e ys, xs = (n, e) :: ys := by
  cases xs with
  | nil => cases h
  | cons a ys => obtain ⟨m, e⟩ := a; cases h; exact ⟨e, ys, rfl⟩

/-- Every node of the tree can be erased, except a root with fewer than two children: the node
is released, the other elements stay, and the result is an iterator at the next element. -/
theorem erase_ok (w : StrictWeak lt) {s : St α} {c : Ctx (D α)} {l r : Tr α} {p : Nat} {d : D α}
    (h : IsTree s (c.plug (.node l p d r))) (hv : Avl (c.plug (.node l p d r)))
    (ha : Ascending lt (vals (c.plug (.node l p d r))))
    (hc : c ≠ .top ∨ (l ≠ .nil ∧ r ≠ .nil)) :
    wp (erase lt (some p)) (fun y s' => y = hd (r.inorder ++ c.after) ∧
      ∃ t', ErasePost s s' (c.plug (.node l p d r)) t' p) s := by
  have hat := h.at
  unfold erase
  rw [wp_bind, wp_of_returns (nextIn_at hat)]
  cases hh : hd (r.inorder ++ c.after) with
  | none =>
    rw [if_neg (by simp), wp_bind]
    refine wp_mono (deleteByTarget_ok h hv hc) ?_
    rintro _ s1 i
    rw [wp_pure]
    exact ⟨rfl, i⟩
  | some n =>
    obtain ⟨e, ys, he⟩ := hd_eq hh
    have hin : (c.plug (.node l p d r)).inorder = c.before ++ l.inorder ++ (p, d) :: (n, e) :: ys := by
      rw [Ctx.inorder_plug, ← he]; simp [T.inorder]
    have hmem : (n, e) ∈ (c.plug (.node l p d r)).inorder := by rw [hin]; simp
    have hdn : s.dat n = some (some e) := by
      obtain ⟨c2, l2, r2, e1, _, _⟩ := split_in (t := c.plug (.node l p d r)) .top
        (show (c.plug (.node l p d r)).inorder = (c.before ++ l.inorder ++ [(p, d)]) ++ (n, e) :: ys by rw [hin]; simp)
      simp only [Ctx.plug] at e1
      rw [e1] at h
      exact h.at.dat
    rw [if_pos (by simp), wp_bind, wp_getData hdn, wp_bind]
    refine wp_mono (deleteByTarget_ok h hv hc) ?_
    rintro _ s1 ⟨t', i⟩
    rw [wp_of_returns (find_ok i.tree e.val)]
    refine ⟨?_, t', i⟩
    obtain ⟨xs, v, ys', i1, i2⟩ := i.split
    have hmi : (n, e.val) ∈ items (c.plug (.node l p d r)) := by
      unfold items; exact List.mem_map.2 ⟨(n, e), hmem, rfl⟩
    have hne : n ≠ p := by
      have := h.nodup
      rw [T.ptrs_eq, hin] at this
      simp only [List.map_append, List.map_cons] at this
      have := (List.nodup_cons.1 (List.nodup_append.1 this).2.1).1
      intro x; exact this (by simp [x])
    refine find_of_mem w ?_ ?_ ⟨w.irrefl _, w.irrefl _⟩
    · rw [vals_eq, i2]
      rw [vals_eq, i1] at ha
      simp only [List.map_append, List.map_cons] at ha ⊢
      exact List.Pairwise.sublist (List.Sublist.append_left (List.sublist_cons_self _ _) _) ha
    · rw [i2]
      rw [i1] at hmi
      simp only [List.mem_append, List.mem_cons, Prod.mk.injEq] at hmi ⊢
      rcases hmi with x | ⟨x, _⟩ | x
      · exact Or.inl x
      · exact absurd x hne
      · exact Or.inr x

/-- `erase(end())`. -/
theorem erase_end (s : St α) : Returns (erase lt none) s none s := by
  unfold erase Returns
  rw [bind_returns (show Returns (nextIn none) s none s by unfold nextIn; rfl), if_neg (by simp),
    bind_returns (show Returns (deleteByTarget none) s none s by unfold deleteByTarget; rfl)]
  rfl

theorem touch_freed {s : St α} {p : Nat} (h : s.dat p = none) : Faults (touch (some p)) s .useAfterFree := by
  unfold touch Faults; simp [h]

theorem getData_freed {s : St α} {p : Nat} (h : s.dat p = none) : Faults (getData (some p)) s .useAfterFree := by
  unfold getData Faults; simp [h]

/-- A search after `mRootPtr_d` has been left dangling. -/
theorem find_dangling {s : St α} {p : Nat} (hr : s.root = some p) (h : s.dat p = none) (x : α) :
    Faults (find lt x) s .useAfterFree := by
  unfold find Faults
  rw [bind_returns (show Returns getRoot s s.root s from rfl), hr]
  unfold findFrom
  rw [if_neg (by simp)]
  exact bind_faults (getData_freed h)

/-- Erasing a root that has a right child but no left child. -/
theorem erase_root_right {s : St α} {r : Tr α} {p : Nat} {d : D α}
    (h : IsTree s (.node .nil p d r)) (hr : r ≠ .nil) : Faults (erase lt (some p)) s .useAfterFree := by
  have hat : At s .top .nil p d r := IsTree.at (c := .top) h
  unfold erase Faults
  rw [bind_returns (nextIn_at hat)]
  cases hh : hd (r.inorder ++ (Ctx.top : Ctx (D α)).after) with
  | none =>
    cases r with
    | nil => exact absurd rfl hr
    | node a q e b =>
      simp only [T.inorder, Ctx.after, List.append_nil] at hh
      cases hx : a.inorder with
      | nil => rw [hx] at hh; cases hh
      | cons y ys => rw [hx] at hh; cases hh
  | some n =>
    obtain ⟨e, ys, he⟩ := hd_eq hh
    have hdn : s.dat n = some (some e) := by
      obtain ⟨c2, l2, r2, e1, _, _⟩ := split_in (t := T.node .nil p d r) .top
        (show (T.node .nil p d r).inorder = [(p, d)] ++ (n, e) :: ys by
          rw [← he]; simp [T.inorder, Ctx.after])
      simp only [Ctx.plug] at e1
      rw [e1] at h
      exact h.at.dat
    rw [if_pos (by simp), bind_returns (getData_ok hdn)]
    obtain ⟨v, s', h1, h2, h3⟩ := deleteByTarget_root h (Or.inl rfl)
    rw [bind_returns h1]
    exact find_dangling h2 h3 _

/-- Erasing a root without a right child returns, but leaves `mRootPtr_d` dangling. -/
theorem erase_root_last {s : St α} {l : Tr α} {p : Nat} {d : D α} (h : IsTree s (.node l p d .nil)) :
    wp (erase lt (some p)) (fun y s' => y = none ∧ s'.root = some p ∧ s'.dat p = none) s := by
  have hat : At s .top l p d .nil := IsTree.at (c := .top) h
  unfold erase
  rw [wp_bind, wp_of_returns (nextIn_at hat), if_neg (by simp [T.inorder, Ctx.after, hd]), wp_bind]
  refine wp_mono (deleteByTarget_root h (Or.inr rfl)) ?_
  rintro _ s' ⟨h1, h2⟩
  rw [wp_pure]
  exact ⟨rfl, h1, h2⟩

end

end Verif.AVL
