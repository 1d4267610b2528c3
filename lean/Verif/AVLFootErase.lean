import Verif.AVLFootDelete
import Verif.Props.TreeLookup

/-! # Which nodes `erase` of an AVL tree uses -/

namespace Verif.Tree

open Prog

variable {δ β γ : Type} {P : List Nat}

/-- At most `k` nodes are used. -/
def FootN (k : Nat) (p : Prog (St δ) β) (Q : β → St δ → Prop) (s : St δ) : Prop := ∃ P : List Nat, P.length ≤ k ∧ Foot P p Q s

theorem FootN.of {k : Nat} {p : Prog (St δ) β} {Q : β → St δ → Prop} {s : St δ} (h : Foot P p Q s) (hk : P.length ≤ k) :
    FootN k p Q s := ⟨P, hk, h⟩

theorem FootN.le {k k' : Nat} {p : Prog (St δ) β} {Q : β → St δ → Prop} {s : St δ} (h : FootN k p Q s) (hk : k ≤ k') :
    FootN k' p Q s := by
  obtain ⟨P, h1, h2⟩ := h
  exact ⟨P, by omega, h2⟩

/-- Two parts one after the other. -/
theorem footN_bind {k m : Nat} {p : Prog (St δ) β} {f : β → Prog (St δ) γ} {Q : γ → St δ → Prop} {R : β → St δ → Prop}
    {s : St δ} (h : FootN k p (fun _ _ => True) s) (hw : wp p R s) (hf : ∀ b s1, R b s1 → FootN m (f b) Q s1) :
    FootN (k + m) (p >>= f) Q s := by
  obtain ⟨P, hk, b, s1, _, r1, g1⟩ := h
  rw [wp_of_returns r1] at hw
  obtain ⟨P2, hm, h2⟩ := hf b s1 hw
  refine ⟨P ++ P2, by rw [List.length_append]; omega, foot_bind ?_⟩
  exact (Foot.weaken (P := P) (Q := fun b' s1' => b' = b ∧ s1' = s1) ⟨b, s1, ⟨rfl, rfl⟩, r1, g1⟩
    (fun n hn => List.mem_append_left _ hn)).imp (by
      rintro _ _ ⟨rfl, rfl⟩
      exact h2.weaken fun n hn => List.mem_append_right _ hn)

theorem footN_getParent {k n : Nat} {f : Ptr → Prog (St δ) β} {Q : β → St δ → Prop} {s : St δ} (hl : Live s.dat n)
    (h : FootN k (f (s.par n)) Q s) : FootN (k + 1) (getParent (some n) >>= f) Q s := by
  obtain ⟨P, h1, h2⟩ := h
  exact ⟨n :: P, by simp; omega, foot_getParent hl (by simp) (h2.weaken fun m hm => List.mem_cons_of_mem _ hm)⟩

theorem footN_getLeft {k n : Nat} {f : Ptr → Prog (St δ) β} {Q : β → St δ → Prop} {s : St δ} (hl : Live s.dat n)
    (h : FootN k (f (s.lft n)) Q s) : FootN (k + 1) (getLeft (some n) >>= f) Q s := by
  obtain ⟨P, h1, h2⟩ := h
  exact ⟨n :: P, by simp; omega, foot_getLeft hl (by simp) (h2.weaken fun m hm => List.mem_cons_of_mem _ hm)⟩

theorem footN_getRight {k n : Nat} {f : Ptr → Prog (St δ) β} {Q : β → St δ → Prop} {s : St δ} (hl : Live s.dat n)
    (h : FootN k (f (s.rgt n)) Q s) : FootN (k + 1) (getRight (some n) >>= f) Q s := by
  obtain ⟨P, h1, h2⟩ := h
  exact ⟨n :: P, by simp; omega, foot_getRight hl (by simp) (h2.weaken fun m hm => List.mem_cons_of_mem _ hm)⟩

theorem footN_getData {k n : Nat} {f : δ → Prog (St δ) β} {Q : β → St δ → Prop} {s : St δ} {d : δ} (hl : s.dat n = some (some d))
    (h : FootN k (f d) Q s) : FootN (k + 1) (getData (some n) >>= f) Q s := by
  obtain ⟨P, h1, h2⟩ := h
  exact ⟨n :: P, by simp; omega, foot_getData hl (by simp) (h2.weaken fun m hm => List.mem_cons_of_mem _ hm)⟩

/-- The nodes above the hole. -/
def Ctx.path : Ctx δ → List Nat
  | .top => []
  | .left c p _ _ => p :: c.path
  | .right c _ p _ => p :: c.path

theorem path_height (c : Ctx δ) (t : T δ) : c.path.length + t.height ≤ (c.plug t).height := by
  induction c generalizing t with
  | top => simp [Ctx.path, Ctx.plug]
  | left c p d r ih =>
    have := ih (.node t p d r)
    simp only [Ctx.path, Ctx.plug, T.height, List.length_cons] at this ⊢
    omega
  | right c l p d ih =>
    have := ih (.node l p d t)
    simp only [Ctx.path, Ctx.plug, T.height, List.length_cons] at this ⊢
    omega

theorem height_plug (c : Ctx δ) {t t' : T δ} (h : t.height = t'.height) : (c.plug t).height = (c.plug t').height := by
  induction c generalizing t t' with
  | top => exact h
  | left c p d r ih => exact ih (by simp only [T.height, h])
  | right c l p d ih => exact ih (by simp only [T.height, h])

theorem foot_inClimb {s : St δ} {c : Ctx δ} {n : Nat} (hc : CRep s c (some n)) (hl : Live s.dat n) (hp : s.par n = c.ptr)
    (hn : n ∈ P) (hP : ∀ m ∈ c.path, m ∈ P) : Foot P (inClimb (some n)) (fun _ _ => True) s := by
  induction c generalizing n with
  | top =>
    unfold inClimb
    refine foot_getParent hl hn ?_
    rw [hp]
    exact foot_pure trivial
  | left c p d r ih =>
    obtain ⟨h1, h2, h3, h4, h5, h6⟩ := hc
    have pp : p ∈ P := hP p (by simp [Ctx.path])
    unfold inClimb
    refine foot_getParent hl hn ?_
    rw [hp, if_pos (by simp [Ctx.ptr])]
    refine foot_getLeft ⟨d, h1⟩ pp ?_
    split
    · exact ih h6 ⟨d, h1⟩ h2 pp fun m hm => hP m (by simp [Ctx.path, hm])
    · exact foot_pure trivial
  | right c l p d ih =>
    obtain ⟨h1, h2, h3, h4, h5, h6⟩ := hc
    have pp : p ∈ P := hP p (by simp [Ctx.path])
    unfold inClimb
    refine foot_getParent hl hn ?_
    rw [hp, if_pos (by simp [Ctx.ptr])]
    refine foot_getLeft ⟨d, h1⟩ pp ?_
    split
    · exact ih h6 ⟨d, h1⟩ h2 pp fun m hm => hP m (by simp [Ctx.path, hm])
    · exact foot_pure trivial

theorem foot_nextIn {s : St δ} {c : Ctx δ} {l r : T δ} {p : Nat} {d : δ} (h : At s c l p d r) (hp : p ∈ P)
    (h1 : ∀ m ∈ spine r, m ∈ P) (h2 : ∀ m ∈ c.path, m ∈ P) : Foot P (nextIn (some p)) (fun _ _ => True) s := by
  unfold nextIn
  rw [if_neg (by simp)]
  refine foot_getRight ⟨d, h.dat⟩ hp ?_
  rw [h.rgt]
  split
  · rename_i hne
    exact foot_leftmost h.repr (fun e => hne (T.root_none.2 e)) h1
  · exact foot_inClimb h.crep ⟨d, h.dat⟩ h.par hp h2

end Verif.Tree

namespace Verif.AVL

open Prog Verif.Tree

variable {α β : Type} {P : List Nat}

theorem top_one {t : Tr α} {n : Nat} (h : t.root = some n) : n ∈ top 1 t := by
  cases t with
  | nil => cases h
  | node l p d r => cases h; exact (top_node ..).2 (Or.inl rfl)

theorem rebalance_foot {c : Ctx (D α)} {s : St α} {t0 : Tr α} {l r : Tr α} {p : Nat} {d : D α}
    (h : Rep s c.ptr (.node l p d r)) (hc : CRep s c (some p))
    (hn : (c.plug (.node l p d r)).ptrs.Nodup) (hv : Avl (c.plug t0)) (hnear : Near t0 (.node l p d r)) :
    FootN (19 * c.path.length + 17) (rebalanceAfterDelete (some p)) (fun _ _ => True) s := by
  have e4 := length_top 4 (T.node l p d r)
  have e1 := length_top 1 (fBal (.node l p d r))
  induction c generalizing s t0 l p d r with
  | top =>
    obtain ⟨_, _, _, _, e, v1, v2, v3, v4, v5, v6⟩ := hnear
    cases e
    have h' := h
    obtain ⟨h1, h2, h3, h4, h5, h6⟩ := h
    unfold rebalanceAfterDelete
    rw [if_neg (by simp)]
    refine FootN.le (footN_getParent ⟨d, h1⟩ (k := 15 + 1) ?_) (by simp [Ctx.path])
    rw [h2]
    refine footN_bind (.of (checkAndBalance_foot h' hn v1 v2 fun _ h => h) (by omega)) (checkAndBalance_ok h' hn v1 v2) ?_
    rintro y s1 ⟨rfl, hr, hf⟩
    rw [if_neg (by simp [Ctx.ptr])]
    have fin : ∀ s2 : St α, Foot (top 1 (fBal (.node l p d r)))
        (rebalanceAfterDelete (Ctx.top : Ctx (D α)).ptr) (fun _ _ => True) s2 := by
      intro s2
      unfold rebalanceAfterDelete
      exact foot_pure trivial
    exact .of (foot_bind (foot_when (fun _ => foot_updateRoot (fun k hk => ⟨hr.live (T.root_mem hk),
      top_one hk⟩) fun _ _ => fin _) fun _ => fin _)) (by omega)
  | left c a da ra ih =>
    obtain ⟨_, _, _, _, e, v1, v2, v3, v4, v5, v6⟩ := hnear
    cases e
    have h' := h
    obtain ⟨h1, h2, h3, h4, h5, h6⟩ := h
    simp only [Ctx.plug] at hn
    obtain ⟨hnt, hcn, hdc⟩ := Ctx.nodup_plug.1 hn
    obtain ⟨n1, n2, n3, n4, n5⟩ := nodup_node hnt
    obtain ⟨g1, g2, g3, g4, g5, g6⟩ := hc
    unfold rebalanceAfterDelete
    rw [if_neg (by simp)]
    refine FootN.le (footN_getParent ⟨d, h1⟩ (k := 15 + (3 + (19 * c.path.length + 17))) ?_)
      (by simp only [Ctx.path, List.length_cons]; omega)
    rw [h2]
    refine footN_bind (.of (checkAndBalance_foot h' n1 v1 v2 fun _ h => h) (by omega)) (checkAndBalance_ok h' n1 v1 v2) ?_
    rintro y s1 ⟨rfl, hr, hf⟩
    have ea := hf.out a n3
    rw [if_pos (by simp [Ctx.ptr])]
    simp only [Ctx.ptr]
    have hrep : Rep { s1 with lft := upd s1.lft a (fBal (.node l p d r)).root } c.ptr
        (.node (fBal (.node l p d r)) a da ra) := by
      refine ⟨ea.dat.trans g1, ea.par.trans g2, by simp, ea.rgt.trans g4, hr.congr fun n hn => ?_, g5.congr fun n hn => ?_⟩
      · rw [ptrs_bal] at hn
        exact ⟨rfl, rfl, upd_ne _ _ (fun x => n3 (x ▸ hn)), rfl⟩
      · have := hf.out n (fun x => n5 n x hn)
        exact ⟨this.dat, this.par, (upd_ne _ _ (fun x : n = a => n4 (x ▸ hn))).trans this.lft, this.rgt⟩
    have e2 := length_top 2 (T.node (fBal (.node l p d r)) a da ra)
    have aa : a ∈ top 2 (T.node (fBal (.node l p d r)) a da ra) := (top_node ..).2 (Or.inl rfl)
    refine footN_bind (R := fun _ s3 => Rep s3 c.ptr (updH (.node (fBal (.node l p d r)) a da ra)) ∧ s3.root = s.root ∧
      ∀ n, n ∉ (T.node (.node l p d r) a da ra).ptrs → SameAt s s3 n)
      (.of (P := top 2 (T.node (fBal (.node l p d r)) a da ra)) ?_ (by omega)) ?_ ?_
    · refine foot_getLeft ⟨da, ea.dat.trans g1⟩ aa ?_
      rw [if_pos (ea.lft.trans g3)]
      exact foot_bind (foot_setLeft ⟨da, ea.dat.trans g1⟩ aa (updateHeight_foot hrep fun _ h => h))
    · rw [wp_bind, wp_getLeft ⟨da, ea.dat.trans g1⟩, wp_bind, if_pos (ea.lft.trans g3),
        wp_setLeft ⟨da, ea.dat.trans g1⟩]
      refine wp_mono (updateHeight_ok hrep (by rw [ptrs_bal]; exact n3) n4) ?_
      rintro _ s3 ⟨hr3, hf3, _⟩
      refine ⟨hr3, hf3.hdr.root.trans hf.hdr.root, fun n hn => ?_⟩
      rw [show (T.node (.node l p d r) a da ra).ptrs = (T.node l p d r).ptrs ++ a :: ra.ptrs from rfl] at hn
      simp only [List.mem_append, List.mem_cons, not_or] at hn
      have b1 := hf.out n hn.1
      have b2 := hf3.out n (by simp [hn.2.1])
      exact ⟨b2.dat.trans b1.dat, b2.par.trans b1.par, b2.lft.trans ((upd_ne _ _ hn.2.1).trans b1.lft), b2.rgt.trans b1.rgt⟩
    rintro _ s3 ⟨hr3, hroot, hsame⟩
    have hpt : (T.node (fBal (.node l p d r)) a (setH da (max (ht (fBal (.node l p d r))) (ht ra) + 1)) ra).ptrs =
        (T.node (.node l p d r) a da ra).ptrs := by
      show (fBal (.node l p d r)).ptrs ++ a :: ra.ptrs = (T.node l p d r).ptrs ++ a :: ra.ptrs
      rw [ptrs_bal]
    have hn2 : (c.plug (T.node (fBal (.node l p d r)) a (setH da (max (ht (fBal (.node l p d r))) (ht ra) + 1)) ra)).ptrs.Nodup := by
      rw [Ctx.nodup_plug, hpt]; exact ⟨hnt, hcn, hdc⟩
    exact ih hr3 (g6.congr (fun n hn => hsame n fun x => hdc n x hn) hroot) hn2 hv
      (near_left (avl_sub (t := .node t0 a da ra) hv) v6) (length_top 4 _) (length_top 1 _)
  | right c la a da ih =>
    obtain ⟨_, _, _, _, e, v1, v2, v3, v4, v5, v6⟩ := hnear
    cases e
    have h' := h
    obtain ⟨h1, h2, h3, h4, h5, h6⟩ := h
    simp only [Ctx.plug] at hn
    obtain ⟨hnt, hcn, hdc⟩ := Ctx.nodup_plug.1 hn
    obtain ⟨n1, n2, n3, n4, n5⟩ := nodup_node hnt
    obtain ⟨g1, g2, g3, g4, g5, g6⟩ := hc
    unfold rebalanceAfterDelete
    rw [if_neg (by simp)]
    refine FootN.le (footN_getParent ⟨d, h1⟩ (k := 15 + (3 + (19 * c.path.length + 17))) ?_)
      (by simp only [Ctx.path, List.length_cons]; omega)
    rw [h2]
    refine footN_bind (.of (checkAndBalance_foot h' n2 v1 v2 fun _ h => h) (by omega)) (checkAndBalance_ok h' n2 v1 v2) ?_
    rintro y s1 ⟨rfl, hr, hf⟩
    have ea := hf.out a n4
    have hne : ¬ s1.lft a = some p := by
      rw [ea.lft, g3]
      intro x
      exact n5 p (T.root_mem x) (by simp [T.ptrs])
    rw [if_pos (by simp [Ctx.ptr])]
    simp only [Ctx.ptr]
    have hrep : Rep { s1 with rgt := upd s1.rgt a (fBal (.node l p d r)).root } c.ptr
        (.node la a da (fBal (.node l p d r))) := by
      refine ⟨ea.dat.trans g1, ea.par.trans g2, ea.lft.trans g3, by simp, g5.congr fun n hn => ?_, hr.congr fun n hn => ?_⟩
      · have := hf.out n (fun x => n5 n hn x)
        exact ⟨this.dat, this.par, this.lft, (upd_ne _ _ (fun x : n = a => n3 (x ▸ hn))).trans this.rgt⟩
      · rw [ptrs_bal] at hn
        exact ⟨rfl, rfl, rfl, upd_ne _ _ (fun x => n4 (x ▸ hn))⟩
    have e2 := length_top 2 (T.node la a da (fBal (.node l p d r)))
    have aa : a ∈ top 2 (T.node la a da (fBal (.node l p d r))) := (top_node ..).2 (Or.inl rfl)
    refine footN_bind (R := fun _ s3 => Rep s3 c.ptr (updH (.node la a da (fBal (.node l p d r)))) ∧ s3.root = s.root ∧
      ∀ n, n ∉ (T.node la a da (.node l p d r)).ptrs → SameAt s s3 n)
      (.of (P := top 2 (T.node la a da (fBal (.node l p d r)))) ?_ (by omega)) ?_ ?_
    · refine foot_getLeft ⟨da, ea.dat.trans g1⟩ aa ?_
      rw [if_neg hne]
      exact foot_bind (foot_setRight ⟨da, ea.dat.trans g1⟩ aa (updateHeight_foot hrep fun _ h => h))
    · rw [wp_bind, wp_getLeft ⟨da, ea.dat.trans g1⟩, wp_bind, if_neg hne,
        wp_setRight ⟨da, ea.dat.trans g1⟩]
      refine wp_mono (updateHeight_ok hrep n3 (by rw [ptrs_bal]; exact n4)) ?_
      rintro _ s3 ⟨hr3, hf3, _⟩
      refine ⟨hr3, hf3.hdr.root.trans hf.hdr.root, fun n hn => ?_⟩
      rw [show (T.node la a da (.node l p d r)).ptrs = la.ptrs ++ a :: (T.node l p d r).ptrs from rfl] at hn
      simp only [List.mem_append, List.mem_cons, not_or] at hn
      have b1 := hf.out n hn.2.2
      have b2 := hf3.out n (by simp [hn.2.1])
      exact ⟨b2.dat.trans b1.dat, b2.par.trans b1.par, b2.lft.trans b1.lft, b2.rgt.trans ((upd_ne _ _ hn.2.1).trans b1.rgt)⟩
    rintro _ s3 ⟨hr3, hroot, hsame⟩
    have hpt : (T.node la a (setH da (max (ht la) (ht (fBal (.node l p d r))) + 1)) (fBal (.node l p d r))).ptrs =
        (T.node la a da (.node l p d r)).ptrs := by
      show la.ptrs ++ a :: (fBal (.node l p d r)).ptrs = la.ptrs ++ a :: (T.node l p d r).ptrs
      rw [ptrs_bal]
    have hn2 : (c.plug (T.node la a (setH da (max (ht la) (ht (fBal (.node l p d r))) + 1)) (fBal (.node l p d r)))).ptrs.Nodup := by
      rw [Ctx.nodup_plug, hpt]; exact ⟨hnt, hcn, hdc⟩
    exact ih hr3 (g6.congr (fun n hn => hsame n fun x => hdc n x hn) hroot) hn2 hv
      (near_right (avl_sub (t := .node la a da t0) hv) v6) (length_top 4 _) (length_top 1 _)

theorem relink_foot {c : Ctx (D α)} {s : St α} {t0 u : Tr α} {p : Nat} (hct : c ≠ .top)
    (h : Rep s c.ptr u) (hc : CRep s c (some p)) (hn : (c.plug u).ptrs.Nodup) (hpc : p ∉ c.ptrs)
    (hv : Avl (c.plug t0)) (hs : Shrunk t0 u) :
    FootN (19 * c.path.length + 1) (relink c.ptr (some p) u.root) (fun _ _ => True) s := by
  cases c with
  | top => exact absurd rfl hct
  | left c a da ra =>
    simp only [Ctx.plug] at hn
    obtain ⟨hnt, hcn, hdc⟩ := Ctx.nodup_plug.1 hn
    obtain ⟨n1, n2, n3, n4, n5⟩ := nodup_node hnt
    obtain ⟨g1, g2, g3, g4, g5, g6⟩ := hc
    refine FootN.le (k := 3 + (19 * c.path.length + 17)) ?_ (by simp only [Ctx.path, List.length_cons]; omega)
    show FootN _ (relink (some a) (some p) u.root) _ s
    unfold relink Prog.when
    rw [if_pos (by simp)]
    have hrep : Rep { s with lft := upd s.lft a u.root } c.ptr (.node u a da ra) :=
      ⟨g1, g2, by simp, g4, h.congr fun n hn => ⟨rfl, rfl, upd_ne _ _ (fun x => n3 (x ▸ hn)), rfl⟩,
        g5.congr fun n hn => ⟨rfl, rfl, upd_ne _ _ (fun x => n4 (x ▸ hn)), rfl⟩⟩
    have e2 := length_top 2 (T.node u a da ra)
    have aa : a ∈ top 2 (T.node u a da ra) := (top_node ..).2 (Or.inl rfl)
    have := footN_bind (s := s) (p := getLeft (some a) >>= fun l =>
        (if l = some p then setLeft (some a) u.root else setRight (some a) u.root) >>= fun _ => updateHeight (some a)) (f := fun _ => rebalanceAfterDelete (some a)) (Q := fun _ _ => True)
      (R := fun _ s3 => Rep s3 c.ptr (updH (.node u a da ra)) ∧ s3.root = s.root ∧ ∀ n, n ≠ a → SameAt s s3 n)
      (k := 3) (m := 19 * c.path.length + 17) (.of (P := top 2 (T.node u a da ra)) ?_ (by omega)) ?_ ?_
    · simp only [bind_assoc] at this
      exact this
    · refine foot_getLeft ⟨da, g1⟩ aa ?_
      rw [if_pos g3]
      exact foot_bind (foot_setLeft ⟨da, g1⟩ aa (updateHeight_foot hrep fun _ h => h))
    · rw [wp_bind, wp_getLeft ⟨da, g1⟩, wp_bind, if_pos g3, wp_setLeft ⟨da, g1⟩]
      refine wp_mono (updateHeight_ok hrep n3 n4) ?_
      rintro _ s2 ⟨hr, hf, _⟩
      refine ⟨hr, hf.hdr.root, fun n hn => ?_⟩
      have := hf.out n (by simp [hn])
      exact ⟨this.dat, this.par, this.lft.trans (upd_ne _ _ hn), this.rgt⟩
    rintro _ s3 ⟨hr3, hroot, hsame⟩
    exact rebalance_foot hr3 (g6.congr (fun n hn' => hsame n fun x => hdc n (by simp [T.ptrs, x]) hn') hroot)
      (Ctx.nodup_plug.2 ⟨hnt, hcn, hdc⟩) hv (near_left (avl_sub (t := .node t0 a da ra) hv) hs)
  | right c la a da =>
    simp only [Ctx.plug] at hn
    obtain ⟨hnt, hcn, hdc⟩ := Ctx.nodup_plug.1 hn
    obtain ⟨n1, n2, n3, n4, n5⟩ := nodup_node hnt
    obtain ⟨g1, g2, g3, g4, g5, g6⟩ := hc
    simp only [Ctx.ptrs, List.mem_cons, List.mem_append, not_or] at hpc
    refine FootN.le (k := 3 + (19 * c.path.length + 17)) ?_ (by simp only [Ctx.path, List.length_cons]; omega)
    show FootN _ (relink (some a) (some p) u.root) _ s
    unfold relink Prog.when
    rw [if_pos (by simp)]
    have hne : ¬ s.lft a = some p := by
      rw [g3]; intro x; exact hpc.2.1 (T.root_mem x)
    have hrep : Rep { s with rgt := upd s.rgt a u.root } c.ptr (.node la a da u) :=
      ⟨g1, g2, g3, by simp, g5.congr fun n hn => ⟨rfl, rfl, rfl, upd_ne _ _ (fun x => n3 (x ▸ hn))⟩,
        h.congr fun n hn => ⟨rfl, rfl, rfl, upd_ne _ _ (fun x => n4 (x ▸ hn))⟩⟩
    have e2 := length_top 2 (T.node la a da u)
    have aa : a ∈ top 2 (T.node la a da u) := (top_node ..).2 (Or.inl rfl)
    have := footN_bind (s := s) (p := getLeft (some a) >>= fun l =>
        (if l = some p then setLeft (some a) u.root else setRight (some a) u.root) >>= fun _ => updateHeight (some a)) (f := fun _ => rebalanceAfterDelete (some a)) (Q := fun _ _ => True)
      (R := fun _ s3 => Rep s3 c.ptr (updH (.node la a da u)) ∧ s3.root = s.root ∧ ∀ n, n ≠ a → SameAt s s3 n)
      (k := 3) (m := 19 * c.path.length + 17) (.of (P := top 2 (T.node la a da u)) ?_ (by omega)) ?_ ?_
    · simp only [bind_assoc] at this
      exact this
    · refine foot_getLeft ⟨da, g1⟩ aa ?_
      rw [if_neg hne]
      exact foot_bind (foot_setRight ⟨da, g1⟩ aa (updateHeight_foot hrep fun _ h => h))
    · rw [wp_bind, wp_getLeft ⟨da, g1⟩, wp_bind, if_neg hne, wp_setRight ⟨da, g1⟩]
      refine wp_mono (updateHeight_ok hrep n3 n4) ?_
      rintro _ s2 ⟨hr, hf, _⟩
      refine ⟨hr, hf.hdr.root, fun n hn => ?_⟩
      have := hf.out n (by simp [hn])
      exact ⟨this.dat, this.par, this.lft, this.rgt.trans (upd_ne _ _ hn)⟩
    rintro _ s3 ⟨hr3, hroot, hsame⟩
    exact rebalance_foot hr3 (g6.congr (fun n hn' => hsame n fun x => hdc n (by simp [T.ptrs, x]) hn') hroot)
      (Ctx.nodup_plug.2 ⟨hnt, hcn, hdc⟩) hv (near_right (avl_sub (t := .node la a da t0) hv) hs)

/-- At most one child. -/
theorem deleteByTarget_one_foot {s : St α} {c : Ctx (D α)} {l r u : Tr α} {p : Nat} {d : D α} (hct : c ≠ .top)
    (h : IsTree s (c.plug (.node l p d r))) (hv : Avl (c.plug (.node l p d r)))
    (hu : (l = .nil ∧ r = u) ∨ (r = .nil ∧ l = u)) :
    FootN (19 * c.path.length + 3) (deleteByTarget (some p)) (fun _ _ => True) s := by
  have ha := h.at
  have hav := avl_sub (t := .node l p d r) hv
  have hs : Shrunk (.node l p d r) u := by
    obtain ⟨v1, v2, v3, v4, v5⟩ := hav
    rcases hu with ⟨rfl, rfl⟩ | ⟨rfl, rfl⟩
    · have := ht_nonneg v2
      simp only [ht_nil] at *
      exact ⟨v2, Or.inr (by simp only [ht_node]; omega)⟩
    · have := ht_nonneg v1
      simp only [ht_nil] at *
      exact ⟨v1, Or.inr (by simp only [ht_node]; omega)⟩
  have hru : Rep s (some p) u := by
    rcases hu with ⟨rfl, rfl⟩ | ⟨rfl, rfl⟩
    · exact ha.repr
    · exact ha.repl
  have hun : u.ptrs.Nodup := by
    rcases hu with ⟨rfl, rfl⟩ | ⟨rfl, rfl⟩
    · exact ha.nr
    · exact ha.nl
  have hup : p ∉ u.ptrs := by
    rcases hu with ⟨rfl, rfl⟩ | ⟨rfl, rfl⟩
    · exact ha.pr
    · exact ha.pl
  have huc : ∀ n ∈ u.ptrs, n ∉ c.ptrs := by
    rcases hu with ⟨rfl, rfl⟩ | ⟨rfl, rfl⟩
    · exact ha.rc
    · exact ha.lc
  have hpu : p ∉ (c.plug u).ptrs := by
    rw [Ctx.mem_plug]; exact fun h => h.elim hup ha.pc
  have hnu : (c.plug u).ptrs.Nodup := Ctx.nodup_plug.2 ⟨hun, ha.nc, huc⟩
  have e1 := length_top 1 u
  obtain ⟨P, hP, hF⟩ : ∃ P : List Nat, P.length ≤ 19 * c.path.length + 1 ∧ ∀ v : Ptr,
      Foot (p :: (top 1 u ++ P)) (do relink c.ptr (some p) u.root; realDelete (some p); pure v) (fun _ _ => True)
        { s with par := fun n => if some n = u.root then c.ptr else s.par n } := by
    have hr' : Rep { s with par := fun n => if some n = u.root then c.ptr else s.par n } c.ptr u := by
      refine hru.reparent hun (fun n hn hr => ?_) fun n hr => ?_
      · exact ⟨rfl, by simp [hr], rfl, rfl⟩
      · exact ⟨rfl, rfl, rfl, by simp [hr]⟩
    have hc' : CRep { s with par := fun n => if some n = u.root then c.ptr else s.par n } c (some p) := by
      refine ha.crep.congr (fun n hn => ?_) rfl
      have : some n ≠ u.root := fun x => huc n (T.root_mem x.symm) hn
      exact ⟨rfl, by simp [this], rfl, rfl⟩
    obtain ⟨P, hP, hF⟩ := relink_foot (t0 := .node l p d r) hct hr' hc' hnu ha.pc hv hs
    refine ⟨P, hP, fun v => foot_seq hF (fun n hn => by simp [hn])
      (relink_ok (t0 := .node l p d r) hct hr' hc' hnu ha.pc hv hs) ?_⟩
    rintro _ s2 ⟨i1, i2⟩
    have hp2 : s2.dat p = some (some d) := (i2.out p hpu).dat.trans ha.dat
    exact foot_bind (foot_realDelete ⟨d, hp2⟩ (by simp) (foot_pure trivial))
  refine ⟨p :: (top 1 u ++ P), by simp only [List.length_cons, List.length_append]; omega, ?_⟩
  have hpm : p ∈ p :: (top 1 u ++ P) := by simp
  unfold deleteByTarget
  rw [if_neg (by simp)]
  refine foot_getParent ⟨d, ha.dat⟩ hpm (foot_getLeft ⟨d, ha.dat⟩ hpm (foot_getRight ⟨d, ha.dat⟩ hpm ?_))
  rw [ha.par, ha.lft, ha.rgt]
  by_cases c1 : l.root = none ∧ r.root = none
  · rw [if_pos c1]
    have hnil : u = .nil := by
      have h1 := T.root_none.1 c1.1
      have h2 := T.root_none.1 c1.2
      rcases hu with ⟨_, rfl⟩ | ⟨_, rfl⟩ <;> assumption
    subst hnil
    have := hF none
    simp only [T.root, reduceCtorEq, if_false] at this
    exact this
  · rw [if_neg c1, if_neg (by rcases hu with ⟨rfl, _⟩ | ⟨rfl, _⟩ <;> simp [T.root])]
    have hchild : (if l.root ≠ none then l.root else r.root) = u.root := by
      rcases hu with ⟨rfl, rfl⟩ | ⟨rfl, rfl⟩
      · simp [T.root]
      · split
        · rfl
        · rename_i h
          have : l.root = none := by cases hh : l.root with
            | none => rfl
            | some k => exact absurd (by rw [hh]; simp) h
          rw [this]; rfl
    have hne : u.root ≠ none := by
      rcases hu with ⟨rfl, rfl⟩ | ⟨rfl, rfl⟩
      · exact fun x => c1 ⟨rfl, x⟩
      · exact fun x => c1 ⟨x, rfl⟩
    generalize (if l.root ≠ none then l.root else r.root) = g at hchild
    subst hchild
    cases hur : u.root with
    | none => exact absurd hur hne
    | some k =>
      have hk := hF (some k)
      rw [hur] at hk
      refine foot_bind (foot_setParent (hru.live (T.root_mem hur)) (by simp [top_one hur]) ?_)
      have e : upd s.par k c.ptr = fun n => if some n = some k then c.ptr else s.par n := by
        funext n; simp [upd]
      rw [e]
      exact hk

/-- Two children. -/
theorem deleteByTarget_two_foot {s : St α} {c : Ctx (D α)} {l r : Tr α} {p : Nat} {d : D α}
    (h : IsTree s (c.plug (.node l p d r))) (hv : Avl (c.plug (.node l p d r))) (hl : l ≠ .nil) (hr : r ≠ .nil) :
    FootN (20 * (c.plug (.node l p d r)).height + 12) (deleteByTarget (some p)) (fun _ _ => True) s := by
  have ha := h.at
  have hav := avl_sub (t := .node l p d r) hv
  obtain ⟨q, e, hm⟩ := minNode_some hr
  obtain ⟨em, es⟩ := minNode_mem hm
  have hlr : l.root ≠ none := fun x => hl (T.root_none.1 x)
  have hrr : r.root ≠ none := fun x => hr (T.root_none.1 x)
  have hqr : q ∈ r.ptrs := by rw [em]; simp
  have hlen := path_height c (.node l p d r)
  simp only [T.height] at hlen
  have hsp := length_spine r
  have hqt : q ∈ (T.node l p d r).ptrs := by simp [T.ptrs, hqr]
  have hin : ∀ n ∈ (T.node l p d r).ptrs, n ∈ (c.plug (.node l p d r)).ptrs := fun n hn => mem_plug c hn
  have hlive : ∀ n ∈ [p, q] ++ (nbrs s p ++ nbrs s q), Live s.dat n := by
    have hw : ∀ m ∈ (c.plug (.node l p d r)).ptrs, Live s.dat m := fun m hm => h.rep.live hm
    intro n hn
    rw [List.mem_append, List.mem_append] at hn
    rcases hn with hn | hn | hn
    · rcases List.mem_cons.1 hn with rfl | hn
      · exact ⟨d, ha.dat⟩
      · rw [List.mem_singleton.1 hn]; exact hw _ (hin _ hqt)
    · rcases h.rep.near (hin p (by simp [T.ptrs])) n hn with h | h
      · exact hw n h
      · cases h
    · rcases h.rep.near (hin q hqt) n hn with h | h
      · exact hw n h
      · cases h
  have hperm : (T.node l q (setH e d.height) (setMin p (setH d e.height) r)).ptrs.Perm (T.node l p d r).ptrs := by
    simp only [T.ptrs]
    rw [es, em]
    exact List.Perm.append_left _ (List.Perm.swap _ _ _)
  obtain ⟨hnt, hcn, hdc⟩ := Ctx.nodup_plug.1 h.nodup
  have hn2 : (c.plug (.node l q (setH e d.height) (setMin p (setH d e.height) r))).ptrs.Nodup := by
    rw [Ctx.nodup_plug]
    exact ⟨hperm.nodup_iff.2 hnt, hcn, fun n hn => hdc n (hperm.mem_iff.1 hn)⟩
  have hv2 : Avl (c.plug (.node l q (setH e d.height) (setMin p (setH d e.height) r))) := by
    obtain ⟨v1, v2, v3, v4, v5⟩ := hav
    have m := setMin_avl (z := p) (f := setH d e.height) hm rfl v2
    refine (avl_plug hv (t' := .node l q (setH e d.height) (setMin p (setH d e.height) r)) ?_ rfl).1
    exact ⟨v1, m.1, by rw [m.2]; exact v3, by rw [m.2]; exact v4, by rw [m.2]; exact v5⟩
  have hh : (c.plug (.node l q (setH e d.height) (setMin p (setH d e.height) r))).height = (c.plug (.node l p d r)).height :=
    height_plug c (by simp only [T.height, height_setMin])
  obtain ⟨c1, rr, e1, e2, e3⟩ := min_split hm (.right c l q (setH e d.height))
  have e4 : c.plug (.node l q (setH e d.height) (setMin p (setH d e.height) r)) = c1.plug (.node .nil p (setH d e.height) rr) :=
    e2 p (setH d e.height)
  have hlen1 := path_height c1 (.node .nil p (setH d e.height) rr)
  rw [← e4, hh] at hlen1
  simp only [T.height] at hlen1
  have m1 := length_nbrs s p
  have m2 := length_nbrs s q
  refine FootN.le (k := r.height + (8 + (19 * c1.path.length + 3)) + 1 + 1 + 1) ?_ (by omega)
  unfold deleteByTarget
  rw [if_neg (by simp)]
  refine footN_getParent ⟨d, ha.dat⟩ (footN_getLeft ⟨d, ha.dat⟩ (footN_getRight ⟨d, ha.dat⟩ ?_))
  rw [ha.par, ha.lft, ha.rgt, if_neg (fun x => hlr x.1), if_pos ⟨hlr, hrr⟩]
  refine footN_bind (.of (P := spine r) (foot_leftmost ha.repr hr fun _ h => h) hsp)
    ((firstNode_min ha.repr hm).wp (Q := fun y s' => y = some q ∧ s' = s) ⟨rfl, rfl⟩) ?_
  rintro _ _ ⟨rfl, rfl⟩
  refine footN_bind (.of (swapNode_foot hlive) (by simp only [List.length_append, List.length_cons, List.length_nil]; omega))
    (swapNode_ok ⟨ha.dat, ha.par, ha.lft, ha.rgt, ha.repl, ha.repr⟩ ha.crep hm h.nodup) ?_
  rintro _ s1 ⟨rfl, sw⟩
  have ht2 := IsTree.of_plug sw.rep sw.ctx hn2
  rw [e4] at ht2 hv2
  exact deleteByTarget_one_foot (e3 (by simp)) ht2 hv2 (Or.inl ⟨rfl, rfl⟩)

/-- Every node but a root with fewer than two children. -/
theorem deleteByTarget_foot {s : St α} {c : Ctx (D α)} {l r : Tr α} {p : Nat} {d : D α}
    (h : IsTree s (c.plug (.node l p d r))) (hv : Avl (c.plug (.node l p d r)))
    (hc : c ≠ .top ∨ (l ≠ .nil ∧ r ≠ .nil)) :
    FootN (20 * (c.plug (.node l p d r)).height + 12) (deleteByTarget (some p)) (fun _ _ => True) s := by
  by_cases h1 : l ≠ .nil ∧ r ≠ .nil
  · exact deleteByTarget_two_foot h hv h1.1 h1.2
  · have hct : c ≠ .top := hc.resolve_right h1
    have hu : ∃ u, (l = .nil ∧ r = u) ∨ (r = .nil ∧ l = u) := by
      cases l with
      | nil => exact ⟨r, Or.inl ⟨rfl, rfl⟩⟩
      | node _ _ _ _ =>
        cases r with
        | nil => exact ⟨_, Or.inr ⟨rfl, rfl⟩⟩
        | node _ _ _ _ => exact absurd ⟨by simp, by simp⟩ h1
    obtain ⟨u, hu⟩ := hu
    have := path_height c (.node l p d r)
    exact (deleteByTarget_one_foot hct h hv hu).le (by omega)

theorem find_foot {lt : α → α → Bool} {s : St α} {t : Tr α} (h : IsTree s t) (x : α) :
    FootN t.height (find lt x) (fun _ _ => True) s := by
  obtain ⟨P, q1, q2, q3, q4⟩ := findFrom_path (lt := lt) h.rep h.nodup x
  refine ⟨P, q1, ?_⟩
  unfold find
  refine foot_getRoot ?_
  rw [h.root]
  exact foot_read trivial fun s' hs => q4 s' fun n hn => have := hs.same n hn; ⟨this.dat, this.lft, this.rgt⟩

/-- `erase` of every node but a root with fewer than two children. -/
theorem erase_foot {lt : α → α → Bool} {s : St α} {c : Ctx (D α)} {l r : Tr α} {p : Nat} {d : D α}
    (h : IsTree s (c.plug (.node l p d r))) (hv : Avl (c.plug (.node l p d r)))
    (hc : c ≠ .top ∨ (l ≠ .nil ∧ r ≠ .nil)) :
    FootN (46 * ((c.plug (.node l p d r)).count + 1).log2 + 37) (erase lt (some p)) (fun _ _ => True) s := by
  have hat := h.at
  have hlog := height_log hv
  have hpath := path_height c (.node l p d r)
  have hsp := length_spine r
  simp only [T.height] at hpath
  unfold erase
  refine FootN.le (k := (c.plug (.node l p d r)).height + (((20 * (c.plug (.node l p d r)).height + 12) +
    (2 * ((c.plug (.node l p d r)).count + 1).log2 + 1)) + 1)) ?_ (by omega)
  refine footN_bind (.of (P := p :: (spine r ++ c.path)) (foot_nextIn hat (by simp) (fun m hm => by simp [hm]) fun m hm => by simp [hm])
    (by simp only [List.length_cons, List.length_append]; omega))
    ((nextIn_at hat).wp (Q := fun y s' => y = hd (r.inorder ++ c.after) ∧ s' = s) ⟨rfl, rfl⟩) ?_
  rintro _ s0 ⟨rfl, rfl⟩
  cases hh : hd (r.inorder ++ c.after) with
  | none =>
    rw [if_neg (by simp)]
    refine FootN.le (k := (20 * (c.plug (.node l p d r)).height + 12) + 0) ?_ (by omega)
    exact footN_bind (deleteByTarget_foot h hv hc) (deleteByTarget_ok h hv hc) fun _ _ _ => .of (P := []) (foot_pure trivial) (by simp)
  | some n =>
    obtain ⟨e, ys, he⟩ := hd_eq hh
    have hin : (c.plug (.node l p d r)).inorder = (c.before ++ l.inorder ++ [(p, d)]) ++ (n, e) :: ys := by
      rw [Ctx.inorder_plug, ← he]; simp [T.inorder]
    have hdn : s0.dat n = some (some e) := by
      obtain ⟨c2, l2, r2, e1, _, _⟩ := split_in (t := c.plug (.node l p d r)) .top hin
      simp only [Ctx.plug] at e1
      have h2 := h
      rw [e1] at h2
      exact h2.at.dat
    rw [if_pos (by simp)]
    refine footN_getData hdn (footN_bind (deleteByTarget_foot h hv hc) (deleteByTarget_ok h hv hc) ?_)
    rintro _ s1 ⟨t', i⟩
    refine (find_foot i.tree _).le (Nat.le_trans (height_log i.avl) ?_)
    have hc' : t'.count ≤ (c.plug (.node l p d r)).count := by
      obtain ⟨xs, v, ys', i1, i2⟩ := i.split
      rw [count_items, count_items, i1, i2]
      simp only [List.length_append, List.length_cons]
      omega
    have := (Nat.le_log2 (n := (c.plug (.node l p d r)).count + 1) (by omega)).2
      (Nat.le_trans (Nat.log2_self_le (n := t'.count + 1) (by omega)) (by omega))
    omega

end Verif.AVL
