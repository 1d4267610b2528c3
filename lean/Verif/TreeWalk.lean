import Verif.TreeLemmas

/-! # Walking through trees in memory: contexts, successors, traversals, releasing -/

namespace Verif.Tree

open Prog

variable {δ β : Type}

/-! ## Contexts -/

/-- A tree with a hole: the path from the hole to the root with the subtrees beside it. -/
inductive Ctx (δ : Type)
  | top
  | left (c : Ctx δ) (p : Nat) (d : δ) (r : T δ)
  | right (c : Ctx δ) (l : T δ) (p : Nat) (d : δ)

namespace Ctx

/-- Fill the hole. -/
def plug : Ctx δ → T δ → T δ
  | top, t => t
  | left c p d r, t => c.plug (.node t p d r)
  | right c l p d, t => c.plug (.node l p d t)

/-- The parent of the hole. -/
def ptr : Ctx δ → Ptr
  | top => none
  | left _ p _ _ => some p
  | right _ _ p _ => some p

def before : Ctx δ → List (Nat × δ)
  | top => []
  | left c _ _ _ => c.before
  | right c l p d => c.before ++ l.inorder ++ [(p, d)]

def after : Ctx δ → List (Nat × δ)
  | top => []
  | left c p d r => (p, d) :: (r.inorder ++ c.after)
  | right c _ _ _ => c.after

def afterPre : Ctx δ → List (Nat × δ)
  | top => []
  | left c _ _ r => r.preorder ++ c.afterPre
  | right c _ _ _ => c.afterPre

def ptrs : Ctx δ → List Nat
  | top => []
  | left c p _ r => p :: (r.ptrs ++ c.ptrs)
  | right c l p _ => p :: (l.ptrs ++ c.ptrs)

theorem inorder_plug (c : Ctx δ) (t : T δ) :
    (c.plug t).inorder = c.before ++ t.inorder ++ c.after := by
  induction c generalizing t with
  | top => simp [plug, before, after]
  | left c p d r ih => simp [plug, before, after, ih, T.inorder]
  | right c l p d ih => simp [plug, before, after, ih, T.inorder]

theorem ptrs_plug (c : Ctx δ) (t : T δ) : (c.plug t).ptrs.Perm (t.ptrs ++ c.ptrs) := by
  induction c generalizing t with
  | top => simp [plug, ptrs]
  | left c p d r ih =>
    refine (ih _).trans ?_
    simp [T.ptrs, ptrs]
  | right c l p d ih =>
    refine (ih _).trans ?_
    simp only [T.ptrs, ptrs, List.append_assoc, List.cons_append]
    refine List.perm_iff_count.2 fun x => ?_
    simp only [List.count_append, List.count_cons]
    omega

theorem nodup_plug {c : Ctx δ} {t : T δ} : (c.plug t).ptrs.Nodup ↔
    t.ptrs.Nodup ∧ c.ptrs.Nodup ∧ ∀ n ∈ t.ptrs, n ∉ c.ptrs := by
  rw [(c.ptrs_plug t).nodup_iff, List.nodup_append]
  constructor
  · rintro ⟨h1, h2, h3⟩; exact ⟨h1, h2, fun n hn hc => h3 n hn n hc rfl⟩
  · rintro ⟨h1, h2, h3⟩; exact ⟨h1, h2, fun n hn m hm e => h3 n hn (e ▸ hm)⟩

theorem mem_plug {c : Ctx δ} {t : T δ} {n : Nat} :
    n ∈ (c.plug t).ptrs ↔ n ∈ t.ptrs ∨ n ∈ c.ptrs := by
  rw [(c.ptrs_plug t).mem_iff, List.mem_append]

end Ctx

/-- Memory holds the tree around the hole; the link leading to the hole is `h` (it is
`mRootPtr_d` when there is nothing around the hole). -/
def CRep (s : St δ) : Ctx δ → Ptr → Prop
  | .top, h => s.root = h
  | .left c p d r, h => s.dat p = some (some d) ∧ s.par p = c.ptr ∧ s.lft p = h ∧
      s.rgt p = r.root ∧ Rep s (some p) r ∧ CRep s c (some p)
  | .right c l p d, h => s.dat p = some (some d) ∧ s.par p = c.ptr ∧ s.lft p = l.root ∧
      s.rgt p = h ∧ Rep s (some p) l ∧ CRep s c (some p)

theorem rep_plug {s : St δ} {c : Ctx δ} {t : T δ} :
    (s.root = (c.plug t).root ∧ Rep s none (c.plug t)) ↔ Rep s c.ptr t ∧ CRep s c t.root := by
  induction c generalizing t with
  | top => simp only [Ctx.plug, Ctx.ptr, CRep]; exact And.comm
  | left c p d r ih =>
    rw [Ctx.plug, ih]
    simp only [Ctx.ptr, CRep, Rep, T.root]
    constructor
    · rintro ⟨⟨h1, h2, h3, h4, h5, h6⟩, h7⟩; exact ⟨h5, h1, h2, h3, h4, h6, h7⟩
    · rintro ⟨h5, h1, h2, h3, h4, h6, h7⟩; exact ⟨⟨h1, h2, h3, h4, h5, h6⟩, h7⟩
  | right c l p d ih =>
    rw [Ctx.plug, ih]
    simp only [Ctx.ptr, CRep, Rep, T.root]
    constructor
    · rintro ⟨⟨h1, h2, h3, h4, h5, h6⟩, h7⟩; exact ⟨h6, h1, h2, h3, h4, h5, h7⟩
    · rintro ⟨h6, h1, h2, h3, h4, h5, h7⟩; exact ⟨⟨h1, h2, h3, h4, h5, h6⟩, h7⟩

theorem CRep.congr {s s' : St δ} {c : Ctx δ} {h : Ptr} (hc : CRep s c h)
    (e : ∀ n ∈ c.ptrs, SameAt s s' n) (er : s'.root = s.root) : CRep s' c h := by
  induction c generalizing h with
  | top => exact er.trans hc
  | left c p d r ih =>
    obtain ⟨h1, h2, h3, h4, h5, h6⟩ := hc
    have ep := e p (by simp [Ctx.ptrs])
    exact ⟨ep.dat.trans h1, ep.par.trans h2, ep.lft.trans h3, ep.rgt.trans h4,
      h5.congr fun n hn => e n (by simp [Ctx.ptrs, hn]),
      ih h6 fun n hn => e n (by simp [Ctx.ptrs, hn])⟩
  | right c l p d ih =>
    obtain ⟨h1, h2, h3, h4, h5, h6⟩ := hc
    have ep := e p (by simp [Ctx.ptrs])
    exact ⟨ep.dat.trans h1, ep.par.trans h2, ep.lft.trans h3, ep.rgt.trans h4,
      h5.congr fun n hn => e n (by simp [Ctx.ptrs, hn]),
      ih h6 fun n hn => e n (by simp [Ctx.ptrs, hn])⟩

/-- Every node of a tree is the root of the subtree in some context. -/
theorem split_in {t : T δ} (c0 : Ctx δ) {xs ys : List (Nat × δ)} {p : Nat} {d : δ}
    (h : t.inorder = xs ++ (p, d) :: ys) :
    ∃ (c : Ctx δ) (l r : T δ), c0.plug t = c.plug (.node l p d r) ∧ c0.before ++ xs = c.before ++ l.inorder ∧
      ys ++ c0.after = r.inorder ++ c.after := by
  induction t generalizing c0 xs ys with
  | nil => simp [T.inorder] at h
  | node l q e r ihl ihr =>
    simp only [T.inorder] at h
    rw [List.append_eq_append_iff] at h
    rcases h with ⟨as, h1, h2⟩ | ⟨bs, h1, h2⟩
    · cases as with
      | nil =>
        simp at h2
        obtain ⟨⟨rfl, rfl⟩, rfl⟩ := h2
        exact ⟨c0, l, r, rfl, by simp [h1], rfl⟩
      | cons a as =>
        simp only [List.cons_append, List.cons.injEq] at h2
        obtain ⟨rfl, h2⟩ := h2
        obtain ⟨c, l', r', e1, e2, e3⟩ := ihr (.right c0 l q e) h2
        refine ⟨c, l', r', e1, ?_, e3⟩
        rw [← e2, h1]; simp [Ctx.before]
    · cases bs with
      | nil =>
        simp at h2
        obtain ⟨⟨rfl, rfl⟩, rfl⟩ := h2
        exact ⟨c0, l, r, rfl, by simp [h1], rfl⟩
      | cons b bs =>
        simp only [List.cons_append, List.cons.injEq] at h2
        obtain ⟨rfl, h2⟩ := h2
        obtain ⟨c, l', r', e1, e2, e3⟩ := ihl (.left c0 q e r) h1
        refine ⟨c, l', r', e1, e2, ?_⟩
        rw [← e3, h2]; simp [Ctx.after]

theorem split_pre {t : T δ} (c0 : Ctx δ) {xs ys : List (Nat × δ)} {p : Nat} {d : δ}
    (h : t.preorder = xs ++ (p, d) :: ys) :
    ∃ (c : Ctx δ) (l r : T δ), c0.plug t = c.plug (.node l p d r) ∧
      ys ++ c0.afterPre = l.preorder ++ r.preorder ++ c.afterPre := by
  induction t generalizing c0 xs ys with
  | nil => simp [T.preorder] at h
  | node l q e r ihl ihr =>
    simp only [T.preorder] at h
    cases xs with
    | nil =>
      simp at h
      obtain ⟨⟨rfl, rfl⟩, rfl⟩ := h
      exact ⟨c0, l, r, rfl, rfl⟩
    | cons x xs =>
      simp only [List.cons_append, List.cons.injEq] at h
      obtain ⟨_, h⟩ := h
      rw [List.append_eq_append_iff] at h
      rcases h with ⟨as, h1, h2⟩ | ⟨bs, h1, h2⟩
      · exact (ihr (.right c0 l q e) h2).imp fun c h => h
      · cases bs with
        | nil =>
          simp at h2
          obtain ⟨c, l', r', e1, e3⟩ := ihr (.right c0 l q e) (xs := []) h2.symm
          exact ⟨c, l', r', e1, e3⟩
        | cons b bs =>
          simp only [List.cons_append, List.cons.injEq] at h2
          obtain ⟨rfl, h2⟩ := h2
          obtain ⟨c, l', r', e1, e3⟩ := ihl (.left c0 q e r) h1
          refine ⟨c, l', r', e1, ?_⟩
          rw [← e3, h2]; simp [Ctx.afterPre]

/-- The first address of a list of nodes. -/
def hd (l : List (Nat × δ)) : Ptr := l.head?.map (·.1)

theorem hd_preorder (t : T δ) (ys : List (Nat × δ)) (h : t ≠ .nil) : hd (t.preorder ++ ys) = t.root := by
  cases t with
  | nil => exact absurd rfl h
  | node l p d r => rfl

/-! ## Successors -/

theorem leftmost_ok {s : St δ} {pa : Ptr} {t : T δ} (h : Rep s pa t) (hn : t ≠ .nil)
    (ys : List (Nat × δ)) : Returns (leftmost t.root) s (hd (t.inorder ++ ys)) s := by
  induction t generalizing pa ys with
  | nil => exact absurd rfl hn
  | node l p d r ihl _ =>
    obtain ⟨h1, _, h3, _, h5, _⟩ := h
    simp only [T.root]
    unfold leftmost Returns
    rw [bind_returns (getLeft_ok ⟨d, h1⟩), h3]
    cases l with
    | nil => rfl
    | node a q e b =>
      rw [if_pos (by simp [T.root])]
      have := ihl h5 (by simp) ((p, d) :: r.inorder ++ ys)
      simpa [T.inorder, Returns] using this

theorem inClimb_ok {s : St δ} {c : Ctx δ} {n : Nat} (hc : CRep s c (some n)) (hl : Live s.dat n)
    (hp : s.par n = c.ptr) (hn : n ∉ c.ptrs) (hd' : c.ptrs.Nodup) :
    Returns (inClimb (some n)) s (hd c.after) s := by
  induction c generalizing n with
  | top =>
    unfold inClimb Returns
    rw [bind_returns (getParent_ok hl), hp]; rfl
  | left c p d r ih =>
    obtain ⟨h1, h2, h3, h4, h5, h6⟩ := hc
    unfold inClimb Returns
    rw [bind_returns (getParent_ok hl), hp, if_pos (by simp [Ctx.ptr])]
    simp only [Ctx.ptr]
    rw [bind_returns (getLeft_ok ⟨d, h1⟩), h3, if_neg (by simp)]
    rfl
  | right c l p d ih =>
    obtain ⟨h1, h2, h3, h4, h5, h6⟩ := hc
    simp only [Ctx.ptrs, List.mem_cons, List.mem_append, not_or, List.nodup_cons, List.nodup_append] at hn hd'
    unfold inClimb Returns
    rw [bind_returns (getParent_ok hl), hp, if_pos (by simp [Ctx.ptr])]
    simp only [Ctx.ptr]
    rw [bind_returns (getLeft_ok ⟨d, h1⟩), h3, if_pos (fun e => hn.2.1 (T.root_mem e))]
    exact ih h6 ⟨d, h1⟩ h2 hd'.1.2 hd'.2.2.1

theorem postClimb_ok {s : St δ} {c : Ctx δ} {n : Nat} (hc : CRep s c (some n)) (hl : Live s.dat n)
    (hp : s.par n = c.ptr) (hn : n ∉ c.ptrs) (hd' : c.ptrs.Nodup) :
    Returns (postClimb (some n)) s (hd c.after) s := by
  induction c generalizing n with
  | top =>
    unfold postClimb Returns
    rw [bind_returns (getParent_ok hl), hp]; rfl
  | left c p d r ih =>
    obtain ⟨h1, h2, h3, h4, h5, h6⟩ := hc
    simp only [Ctx.ptrs, List.mem_cons, List.mem_append, not_or] at hn
    unfold postClimb Returns
    rw [bind_returns (getParent_ok hl), hp, if_pos (by simp [Ctx.ptr])]
    simp only [Ctx.ptr]
    rw [bind_returns (getRight_ok ⟨d, h1⟩), h4, if_neg (fun e => hn.2.1 (T.root_mem e))]
    rfl
  | right c l p d ih =>
    obtain ⟨h1, h2, h3, h4, h5, h6⟩ := hc
    simp only [Ctx.ptrs, List.mem_cons, List.mem_append, not_or, List.nodup_cons, List.nodup_append] at hn hd'
    unfold postClimb Returns
    rw [bind_returns (getParent_ok hl), hp, if_pos (by simp [Ctx.ptr])]
    simp only [Ctx.ptr]
    rw [bind_returns (getRight_ok ⟨d, h1⟩), h4, if_pos rfl]
    exact ih h6 ⟨d, h1⟩ h2 hd'.1.2 hd'.2.2.1

theorem preClimb_ok {s : St δ} {c : Ctx δ} {n : Nat} (hc : CRep s c (some n)) (hl : Live s.dat n)
    (hp : s.par n = c.ptr) (hn : n ∉ c.ptrs) (hd' : c.ptrs.Nodup) :
    Returns (preClimb (some n)) s (hd c.afterPre) s := by
  induction c generalizing n with
  | top =>
    unfold preClimb Returns
    rw [bind_returns (getParent_ok hl), hp]; rfl
  | left c p d r ih =>
    obtain ⟨h1, h2, h3, h4, h5, h6⟩ := hc
    simp only [Ctx.ptrs, List.mem_cons, List.mem_append, not_or, List.nodup_cons, List.nodup_append] at hn hd'
    unfold preClimb Returns
    rw [bind_returns (getParent_ok hl), hp, if_pos (by simp [Ctx.ptr])]
    simp only [Ctx.ptr]
    rw [bind_returns (getRight_ok ⟨d, h1⟩), h4]
    cases r with
    | nil =>
      rw [if_neg (by simp [T.root])]
      exact ih h6 ⟨d, h1⟩ h2 hd'.1.2 hd'.2.2.1
    | node a q e b =>
      rw [if_pos ⟨by simp [T.root], fun e => hn.2.1 (T.root_mem e)⟩]; rfl
  | right c l p d ih =>
    obtain ⟨h1, h2, h3, h4, h5, h6⟩ := hc
    simp only [Ctx.ptrs, List.mem_cons, List.mem_append, not_or, List.nodup_cons, List.nodup_append] at hn hd'
    unfold preClimb Returns
    rw [bind_returns (getParent_ok hl), hp, if_pos (by simp [Ctx.ptr])]
    simp only [Ctx.ptr]
    rw [bind_returns (getRight_ok ⟨d, h1⟩), h4, if_neg (by simp)]
    exact ih h6 ⟨d, h1⟩ h2 hd'.1.2 hd'.2.2.1

/-- What is known of a node in its context. -/
structure At (s : St δ) (c : Ctx δ) (l : T δ) (p : Nat) (d : δ) (r : T δ) : Prop where
  dat : s.dat p = some (some d)
  par : s.par p = c.ptr
  lft : s.lft p = l.root
  rgt : s.rgt p = r.root
  repl : Rep s (some p) l
  repr : Rep s (some p) r
  crep : CRep s c (some p)
  pc : p ∉ c.ptrs
  pl : p ∉ l.ptrs
  pr : p ∉ r.ptrs
  lc : ∀ n ∈ l.ptrs, n ∉ c.ptrs
  rc : ∀ n ∈ r.ptrs, n ∉ c.ptrs
  lr : ∀ n ∈ l.ptrs, n ∉ r.ptrs
  nc : c.ptrs.Nodup
  nl : l.ptrs.Nodup
  nr : r.ptrs.Nodup

theorem IsTree.at {s : St δ} {c : Ctx δ} {l r : T δ} {p : Nat} {d : δ}
    (h : IsTree s (c.plug (.node l p d r))) : At s c l p d r := by
  obtain ⟨⟨h1, h2, h3, h4, h5, h6⟩, h7⟩ := rep_plug.1 ⟨h.root, h.rep⟩
  obtain ⟨n1, n2, n3⟩ := Ctx.nodup_plug.1 h.nodup
  obtain ⟨m1, m2, m3, m4, m5⟩ := nodup_node n1
  exact ⟨h1, h2, h3, h4, h5, h6, h7, n3 p (by simp [T.ptrs]), m3, m4,
    fun n hn => n3 n (by simp [T.ptrs, hn]), fun n hn => n3 n (by simp [T.ptrs, hn]), m5, n2, m1, m2⟩

theorem At.isTree {s : St δ} {c : Ctx δ} {l r : T δ} {p : Nat} {d : δ} (h : At s c l p d r) :
    IsTree s (c.plug (.node l p d r)) := by
  have := rep_plug.2 (show Rep s c.ptr (.node l p d r) ∧ CRep s c (T.node l p d r).root from
    ⟨⟨h.dat, h.par, h.lft, h.rgt, h.repl, h.repr⟩, h.crep⟩)
  refine ⟨this.1, this.2, Ctx.nodup_plug.2 ⟨nodup_node' h.nl h.nr h.pl h.pr h.lr, h.nc, ?_⟩⟩
  intro n hn
  simp only [T.ptrs, List.mem_append, List.mem_cons] at hn
  rcases hn with hn | rfl | hn
  · exact h.lc n hn
  · exact h.pc
  · exact h.rc n hn

theorem nextIn_at {s : St δ} {c : Ctx δ} {l r : T δ} {p : Nat} {d : δ} (h : At s c l p d r) :
    Returns (nextIn (some p)) s (hd (r.inorder ++ c.after)) s := by
  unfold nextIn
  rw [if_neg (by simp)]
  unfold Returns
  rw [bind_returns (getRight_ok ⟨d, h.dat⟩), h.rgt]
  cases r with
  | nil =>
    rw [if_neg (by simp [T.root])]
    exact inClimb_ok h.crep ⟨d, h.dat⟩ h.par h.pc h.nc
  | node a q e b =>
    rw [if_pos (by simp [T.root])]
    exact leftmost_ok h.repr (by simp) _

theorem nextPre_at {s : St δ} {c : Ctx δ} {l r : T δ} {p : Nat} {d : δ} (h : At s c l p d r) :
    Returns (nextPre (some p)) s (hd (l.preorder ++ r.preorder ++ c.afterPre)) s := by
  unfold nextPre
  rw [if_neg (by simp)]
  unfold Returns
  rw [bind_returns (getLeft_ok ⟨d, h.dat⟩), h.lft]
  cases l with
  | node a q e b => rw [if_pos (by simp [T.root])]; rfl
  | nil =>
    rw [if_neg (by simp [T.root]), bind_returns (getRight_ok ⟨d, h.dat⟩), h.rgt]
    cases r with
    | nil =>
      rw [if_neg (by simp [T.root])]
      exact preClimb_ok h.crep ⟨d, h.dat⟩ h.par h.pc h.nc
    | node a q e b => rw [if_pos (by simp [T.root])]; rfl

theorem postDescend_ok {s : St δ} {pa : Ptr} {t : T δ} (h : Rep s pa t) (hn : t ≠ .nil) :
    ∃ n ∈ t.ptrs, Returns (postDescend t.root) s (some n) s := by
  induction t generalizing pa with
  | nil => exact absurd rfl hn
  | node l p d r ihl ihr =>
    obtain ⟨h1, _, h3, h4, h5, h6⟩ := h
    simp only [T.root]
    unfold postDescend Returns
    rw [bind_returns (getLeft_ok ⟨d, h1⟩), h3]
    cases l with
    | node a q e b =>
      rw [if_pos (by simp [T.root])]
      obtain ⟨n, hn, h⟩ := ihl h5 (by simp)
      exact ⟨n, by simp [T.ptrs] at hn ⊢; grind, h⟩
    | nil =>
      rw [if_neg (by simp [T.root]), bind_returns (getRight_ok ⟨d, h1⟩), h4]
      cases r with
      | node a q e b =>
        rw [if_pos (by simp [T.root])]
        obtain ⟨n, hn, h⟩ := ihr h6 (by simp)
        exact ⟨n, by simp [T.ptrs] at hn ⊢; grind, h⟩
      | nil => rw [if_neg (by simp [T.root])]; exact ⟨p, by simp [T.ptrs], rfl⟩

theorem nextPost_at {s : St δ} {c : Ctx δ} {l r : T δ} {p : Nat} {d : δ} (h : At s c l p d r) :
    (r = .nil → Returns (nextPost (some p)) s (hd c.after) s) ∧
    (r ≠ .nil → ∃ n ∈ r.ptrs, Returns (nextPost (some p)) s (some n) s) := by
  unfold nextPost
  rw [if_neg (by simp)]
  constructor
  · rintro rfl
    unfold Returns
    rw [bind_returns (getRight_ok ⟨d, h.dat⟩), h.rgt, if_neg (by simp [T.root])]
    exact postClimb_ok h.crep ⟨d, h.dat⟩ h.par h.pc h.nc
  · intro hr
    obtain ⟨n, hn, h'⟩ := postDescend_ok h.repr hr
    refine ⟨n, hn, ?_⟩
    unfold Returns
    rw [bind_returns (getRight_ok ⟨d, h.dat⟩), h.rgt, if_pos (by rwa [ne_eq, T.root_none])]
    exact h'

/-! ## Iteration -/

theorem iterFrom_none (o : Order) (s : St δ) : Returns (iterFrom o none) s [] s := by
  unfold Returns iterFrom; rfl

/-- If the successor of each element of a list is the next one, iteration gives the list. -/
theorem iterFrom_ok {o : Order} {s : St δ} {L : List (Nat × δ)}
    (h : ∀ xs p d ys, L = xs ++ (p, d) :: ys →
      s.dat p = some (some d) ∧ Returns (nextFn o (some p)) s (hd ys) s) :
    Returns (iterFrom o (hd L)) s L s := by
  induction L with
  | nil => exact iterFrom_none o s
  | cons a L ih =>
    obtain ⟨p, d⟩ := a
    obtain ⟨h1, h2⟩ := h [] p d L rfl
    have := ih fun xs q e ys hy => h ((p, d) :: xs) q e ys (by simp [hy])
    unfold Returns iterFrom
    rw [if_neg (by simp [hd])]
    show (touch (some p) >>= _) s = _
    rw [bind_returns (touch_ok ⟨d, h1⟩)]
    show (getData (some p) >>= _) s = _
    rw [bind_returns (getData_ok h1)]
    show (nextFn o (some p) >>= _) s = _
    rw [bind_returns h2, bind_returns this]
    rfl

theorem iterIn_ok {s : St δ} {t : T δ} (h : IsTree s t) :
    Returns (iterFrom .ino (hd t.inorder)) s t.inorder s := by
  refine iterFrom_ok fun xs p d ys e => ?_
  obtain ⟨c, l, r, e1, e2, e3⟩ := split_in .top e
  simp only [Ctx.plug, Ctx.after, List.append_nil] at e1 e3
  rw [e1] at h
  exact ⟨h.at.dat, e3 ▸ nextIn_at h.at⟩

theorem iterPre_ok {s : St δ} {t : T δ} (h : IsTree s t) :
    Returns (iterFrom .pre (hd t.preorder)) s t.preorder s := by
  refine iterFrom_ok fun xs p d ys e => ?_
  obtain ⟨c, l, r, e1, e3⟩ := split_pre .top e
  simp only [Ctx.plug, Ctx.afterPre, List.append_nil] at e1 e3
  rw [e1] at h
  exact ⟨h.at.dat, e3 ▸ nextPre_at h.at⟩

theorem begin_pre {s : St δ} {t : T δ} (h : IsTree s t) : Returns (begin_ .pre) s (hd t.preorder) s := by
  have : hd t.preorder = s.root := by rw [h.root]; cases t <;> rfl
  rw [this]; rfl

theorem begin_in {s : St δ} {t : T δ} (h : IsTree s t) (hn : t ≠ .nil) {o : Order} (ho : o ≠ .pre) :
    Returns (begin_ o) s (hd t.inorder) s := by
  have := leftmost_ok h.rep hn []
  rw [List.append_nil] at this
  unfold begin_ firstNode Returns
  rw [bind_returns (show Returns getRoot s s.root s from rfl), if_pos ho, h.root]
  exact this

theorem begin_null {s : St δ} (h : s.root = none) {o : Order} (ho : o ≠ .pre) :
    Faults (begin_ o) s .nullDeref := by
  unfold begin_ firstNode Faults
  rw [bind_returns (show Returns getRoot s s.root s from rfl), if_pos ho, h]
  unfold leftmost
  rfl

/-! ## Traversals -/

theorem visit_ok {s : St δ} {p : Nat} {d : δ} (h : s.dat p = some (some d)) :
    Returns (visit (some p)) s [(p, d)] s := by
  unfold visit Returns
  rw [bind_returns (touch_ok ⟨d, h⟩), bind_returns (getData_ok h)]; rfl

theorem preTraversal_ok {s : St δ} {pa : Ptr} {t : T δ} (h : Rep s pa t) :
    Returns (preTraversal t.root visit) s t.preorder s := by
  induction t generalizing pa with
  | nil => unfold preTraversal; rfl
  | node l p d r ihl ihr =>
    obtain ⟨h1, _, h3, h4, h5, h6⟩ := h
    have lp : Live s.dat p := ⟨d, h1⟩
    unfold preTraversal Returns
    rw [if_neg (by simp [T.root])]
    simp only [T.root]
    rw [bind_returns (visit_ok h1), bind_returns (getLeft_ok lp), h3, bind_returns (ihl h5),
      bind_returns (getRight_ok lp), h4, bind_returns (ihr h6)]
    simp [T.preorder, Prog.pure_apply]

theorem inTraversal_ok {s : St δ} {pa : Ptr} {t : T δ} (h : Rep s pa t) :
    Returns (inTraversal t.root visit) s t.inorder s := by
  induction t generalizing pa with
  | nil => unfold inTraversal; rfl
  | node l p d r ihl ihr =>
    obtain ⟨h1, _, h3, h4, h5, h6⟩ := h
    have lp : Live s.dat p := ⟨d, h1⟩
    unfold inTraversal Returns
    rw [if_neg (by simp [T.root])]
    simp only [T.root]
    rw [bind_returns (getLeft_ok lp), h3, bind_returns (ihl h5), bind_returns (visit_ok h1),
      bind_returns (getRight_ok lp), h4, bind_returns (ihr h6)]
    simp [T.inorder, Prog.pure_apply]

theorem postTraversal_ok {s : St δ} {pa : Ptr} {t : T δ} (h : Rep s pa t) :
    Returns (postTraversal t.root visit) s t.postorder s := by
  induction t generalizing pa with
  | nil => unfold postTraversal; rfl
  | node l p d r ihl ihr =>
    obtain ⟨h1, _, h3, h4, h5, h6⟩ := h
    have lp : Live s.dat p := ⟨d, h1⟩
    unfold postTraversal Returns
    rw [if_neg (by simp [T.root])]
    simp only [T.root]
    rw [bind_returns (getLeft_ok lp), h3, bind_returns (ihl h5), 
      bind_returns (getRight_ok lp), h4, bind_returns (ihr h6), bind_returns (visit_ok h1)]
    simp [T.postorder, Prog.pure_apply]

theorem height_ok {s : St δ} {pa : Ptr} {t : T δ} (h : Rep s pa t) :
    Returns (height t.root) s (t.height : Int) s := by
  induction t generalizing pa with
  | nil => unfold height; rfl
  | node l p d r ihl ihr =>
    obtain ⟨h1, _, h3, h4, h5, h6⟩ := h
    have lp : Live s.dat p := ⟨d, h1⟩
    unfold height Returns
    rw [if_neg (by simp [T.root])]
    simp only [T.root]
    rw [bind_returns (getLeft_ok lp), h3, bind_returns (ihl h5), 
      bind_returns (getRight_ok lp), h4, bind_returns (ihr h6)]
    simp only [Prog.pure_apply, T.height]
    congr 3
    split <;> omega

/-! ## Releasing -/

theorem release_ok {s : St δ} {n : Nat} (h : Live s.dat n) :
    Returns (releaseNode (some n)) s [] { s with dat := upd s.dat n none } := by
  obtain ⟨d, hd⟩ := h
  unfold releaseNode Returns
  have h1 : Returns (destroyNode (some n)) s () { s with dat := upd s.dat n (some none) } := by
    unfold Returns destroyNode; simp [hd]
  rw [bind_returns h1]
  have h2 : Returns (freeNode (some n)) { s with dat := upd s.dat n (some none) } ()
      { s with dat := upd s.dat n none } := by
    unfold Returns freeNode
    simp only [upd_self, Option.isSome_none, Bool.false_eq_true, if_false, Nat.add_zero]
    congr 4
    funext x; simp only [upd]; split <;> rfl
  rw [bind_returns h2]; rfl

theorem releaseAll_ok {s : St δ} {pa : Ptr} {t : T δ} (h : Rep s pa t) (hn : t.ptrs.Nodup) :
    wp (postTraversal t.root releaseNode) (fun _ s' => SameHdr s s' ∧
      (∀ n ∈ t.ptrs, s'.dat n = none) ∧ ∀ n, n ∉ t.ptrs → SameAt s s' n) s := by
  induction t generalizing pa s with
  | nil =>
    unfold postTraversal
    exact (wp_pure _ _ _).2 ⟨.refl s, by simp [T.ptrs], fun n _ => .refl s n⟩
  | node l p d r ihl ihr =>
    obtain ⟨h1, _, h3, h4, h5, h6⟩ := h
    obtain ⟨m1, m2, m3, m4, m5⟩ := nodup_node hn
    have lp : Live s.dat p := ⟨d, h1⟩
    unfold postTraversal
    rw [if_neg (by simp [T.root])]
    simp only [T.root]
    rw [wp_bind, wp_getLeft lp, h3, wp_bind]
    refine wp_mono (ihl h5 m1) ?_
    rintro _ s1 ⟨a1, a2, a3⟩
    have lp1 : Live s1.dat p := by rw [Live, (a3 p m3).dat]; exact lp
    rw [wp_bind, wp_getRight lp1, (a3 p m3).rgt, h4, wp_bind]
    refine wp_mono (ihr (h6.congr fun n hn => a3 n fun x => m5 n x hn) m2) ?_
    rintro _ s2 ⟨b1, b2, b3⟩
    have lp2 : Live s2.dat p := by rw [Live, (b3 p m4).dat]; exact lp1
    rw [wp_bind, wp_of_returns (release_ok lp2), wp_pure]
    refine ⟨⟨b1.next.trans a1.next, b1.lost.trans a1.lost, b1.root.trans a1.root, b1.size.trans a1.size⟩, ?_, ?_⟩
    · intro n hn
      simp only [T.ptrs, List.mem_append, List.mem_cons] at hn
      simp only [upd]
      split
      · rfl
      · rename_i hne
        by_cases hr : n ∈ r.ptrs
        · exact b2 n hr
        · rw [(b3 n hr).dat]
          rcases hn with hn | hn | hn
          · exact a2 n hn
          · exact absurd hn hne
          · exact absurd hn hr
    · intro n hn
      simp only [T.ptrs, List.mem_append, List.mem_cons, not_or] at hn
      have := (a3 n hn.1).trans (b3 n hn.2.2)
      exact ⟨by simp [upd, hn.2.1, this.dat], this.par, this.lft, this.rgt⟩

theorem clear_ok {s : St δ} {t : T δ} (h : IsTree s t) :
    wp clear (fun _ s' => s'.root = none ∧ s'.size = 0 ∧ s'.next = s.next ∧ s'.lost = s.lost ∧
      (∀ n ∈ t.ptrs, s'.dat n = none) ∧ ∀ n, n ∉ t.ptrs → SameAt s s' n) s := by
  unfold clear clearRoot
  rw [wp_bind, wp_bind, wp_getRoot, wp_bind, wp_when, h.root]
  constructor
  · intro hr
    rw [wp_bind]
    refine wp_mono (releaseAll_ok h.rep h.nodup) ?_
    rintro _ s1 ⟨a1, a2, a3⟩
    rw [wp_pure, wp_modify, wp_setSize]
    exact ⟨rfl, rfl, a1.next, a1.lost, a2, fun n hn => ⟨(a3 n hn).dat, (a3 n hn).par, (a3 n hn).lft, (a3 n hn).rgt⟩⟩
  · intro hr
    have := T.root_none.1 (Classical.not_not.1 hr)
    subst this
    rw [wp_modify, wp_setSize]
    exact ⟨rfl, rfl, rfl, rfl, by simp [T.ptrs], fun n _ => ⟨rfl, rfl, rfl, rfl⟩⟩

end Verif.Tree
