import Verif.AVLInsert

/-! # `_swap_node` -/

namespace Verif.AVL

open Prog Verif.Tree

variable {α : Type}

/-- The left subtree is not empty. -/
def Deep : Tr α → Prop
  | .node (.node _ _ _ _) _ _ _ => True
  | _ => False

/-- Parent of the leftmost node. -/
def minPar : Tr α → Nat
  | .node (.node (.node a q e b) m f c) _ _ _ => minPar (.node (.node a q e b) m f c)
  | .node (.node .nil _ _ _) k _ _ => k
  | _ => 0

/-- Right subtree of the leftmost node. -/
def minRight : Tr α → Tr α
  | .nil => .nil
  | .node .nil _ _ r => r
  | .node (.node a q e b) _ _ _ => minRight (.node a q e b)

structure MinFacts (s : St α) (u : Tr α) (q : Nat) (e : D α) : Prop where
  dat : s.dat q = some (some e)
  par : s.par q = some (minPar u)
  parMem : minPar u ∈ u.ptrs
  mem : q ∈ u.ptrs
  parNe : minPar u ≠ q
  plft : s.lft (minPar u) = some q
  prgt : s.rgt (minPar u) ≠ some q
  lft : s.lft q = none
  rgt : s.rgt q = (minRight u).root
  rep : Rep s (some q) (minRight u)
  sub : ∀ n ∈ (minRight u).ptrs, n ∈ u.ptrs
  qr : q ∉ (minRight u).ptrs
  parR : minPar u ∉ (minRight u).ptrs
  rootR : ∀ n, u.root = some n → n ∉ (minRight u).ptrs ∧ n ≠ q
  nodup : (minRight u).ptrs.Nodup

theorem minFacts {s : St α} {pa : Ptr} {u : Tr α} {q : Nat} {e : D α} (h : Rep s pa u)
    (hn : u.ptrs.Nodup) (hm : minNode u = some (q, e)) (hd : Deep u) : MinFacts s u q e := by
  induction u generalizing pa with
  | nil => cases hd
  | node l k dk b ih _ =>
    cases l with
    | nil => cases hd
    | node a q0 e0 c =>
      obtain ⟨h1, h2, h3, h4, h5, h6⟩ := h
      obtain ⟨n1, n2, n3, n4, n5⟩ := nodup_node hn
      cases a with
      | nil =>
        cases hm
        obtain ⟨k1, k2, k3, k4, k5, k6⟩ := h5
        obtain ⟨m1, m2, m3, m4, m5⟩ := nodup_node n1
        have hkq : k ≠ q := fun x => n3 (by simp [T.ptrs, x])
        have hkc : k ∉ c.ptrs := fun x => n3 (by simp [T.ptrs, x])
        refine ⟨k1, k2, by simp [minPar, T.ptrs], by simp [T.ptrs], by simpa [minPar] using hkq,
          by simpa [minPar, T.root] using h3, ?_, k3, k4, k6, ?_, m4, by simpa [minPar, minRight] using hkc, ?_, m2⟩
        · simp only [minPar]
          rw [h4]
          intro x
          exact n5 q (by simp [T.ptrs]) (T.root_mem x)
        · intro n hn; simp only [minRight] at hn; simp [T.ptrs, hn]
        · intro n hn; cases hn; exact ⟨hkc, hkq⟩
      | node a1 q1 e1 c1 =>
        have i := ih h5 n1 hm trivial
        have em : minPar (.node (.node (.node a1 q1 e1 c1) q0 e0 c) k dk b) =
          minPar (.node (.node a1 q1 e1 c1) q0 e0 c) := rfl
        have er : minRight (.node (.node (.node a1 q1 e1 c1) q0 e0 c) k dk b) =
          minRight (.node (.node a1 q1 e1 c1) q0 e0 c) := rfl
        have sub : ∀ n ∈ (T.node (.node a1 q1 e1 c1) q0 e0 c).ptrs,
            n ∈ (T.node (.node (.node a1 q1 e1 c1) q0 e0 c) k dk b).ptrs := by
          intro n hn
          have : (T.node (.node (.node a1 q1 e1 c1) q0 e0 c) k dk b).ptrs =
            (T.node (.node a1 q1 e1 c1) q0 e0 c).ptrs ++ k :: b.ptrs := rfl
          rw [this, List.mem_append]; exact Or.inl hn
        refine ⟨i.dat, by rw [em]; exact i.par, by rw [em]; exact sub _ i.parMem, sub _ i.mem,
          by rw [em]; exact i.parNe, by rw [em]; exact i.plft, by rw [em]; exact i.prgt, i.lft,
          by rw [er]; exact i.rgt, by rw [er]; exact i.rep, by rw [er]; exact fun n hn => sub _ (i.sub n hn),
          by rw [er]; exact i.qr, by rw [er, em]; exact i.parR, ?_, by rw [er]; exact i.nodup⟩
        intro n hn
        cases hn
        rw [er]
        exact ⟨fun x => n3 (i.sub _ x), fun x => n3 (x ▸ i.mem)⟩

/-- Another node takes the place of the leftmost one. -/
theorem setMin_rep {s s' : St α} {pa pa' : Ptr} {u : Tr α} {p q : Nat} {e f : D α} (h : Rep s pa u)
    (hn : u.ptrs.Nodup) (hm : minNode u = some (q, e)) (hd : Deep u)
    (e1 : ∀ n ∈ u.ptrs, n ≠ q → s'.dat n = s.dat n ∧ s'.rgt n = s.rgt n)
    (e2 : ∀ n ∈ u.ptrs, n ≠ q → n ≠ minPar u → s'.lft n = s.lft n)
    (e3 : s'.lft (minPar u) = some p)
    (e4 : ∀ n ∈ u.ptrs, n ≠ q → some n ≠ u.root → some n ≠ (minRight u).root → s'.par n = s.par n)
    (e5 : ∀ k, u.root = some k → s'.par k = pa')
    (e6 : ∀ k, (minRight u).root = some k → s'.par k = some p)
    (e7 : s'.dat p = some (some f) ∧ s'.par p = some (minPar u) ∧ s'.lft p = none ∧
      s'.rgt p = (minRight u).root) : Rep s' pa' (setMin p f u) := by
  induction u generalizing pa pa' with
  | nil => trivial
  | node l k dk b ih _ =>
    cases l with
    | nil => cases hd
    | node a q0 e0 c =>
      obtain ⟨h1, h2, h3, h4, h5, h6⟩ := h
      obtain ⟨n1, n2, n3, n4, n5⟩ := nodup_node hn
      have hmemk : k ∈ (T.node (.node a q0 e0 c) k dk b).ptrs := by simp [T.ptrs]
      have hsub : ∀ n ∈ (T.node a q0 e0 c).ptrs, n ∈ (T.node (.node a q0 e0 c) k dk b).ptrs := by
        intro n hn
        have : (T.node (.node a q0 e0 c) k dk b).ptrs = (T.node a q0 e0 c).ptrs ++ k :: b.ptrs := rfl
        rw [this, List.mem_append]; exact Or.inl hn
      have hsubb : ∀ n ∈ b.ptrs, n ∈ (T.node (.node a q0 e0 c) k dk b).ptrs := by
        intro n hn
        simp [T.ptrs, hn]
      cases a with
      | nil =>
        cases hm
        obtain ⟨k1, k2, k3, k4, k5, k6⟩ := h5
        obtain ⟨m1, m2, m3, m4, m5⟩ := nodup_node n1
        have hkq : k ≠ q := fun x => n3 (by simp [T.ptrs, x])
        have hkc : k ∉ c.ptrs := fun x => n3 (by simp [T.ptrs, x])
        simp only [minPar, minRight] at e2 e3 e4 e6 e7
        have hqb : ∀ n ∈ b.ptrs, n ≠ q := fun n hn x => n5 q (by simp [T.ptrs]) (x ▸ hn)
        have hkb : ∀ n ∈ b.ptrs, n ≠ k := fun n hn x => n4 (x ▸ hn)
        have hcm : ∀ n ∈ c.ptrs, n ∈ (T.node (.node .nil q e c) k dk b).ptrs := fun n hn => by simp [T.ptrs, hn]
        refine ⟨(e1 k hmemk hkq).1.trans h1, e5 k rfl, e3, (e1 k hmemk hkq).2.trans h4,
          ⟨e7.1, e7.2.1, e7.2.2.1, e7.2.2.2, trivial, ?_⟩, ?_⟩
        · refine k6.reparent m2 (fun n hn hr => ?_) fun n hr => ?_
          · have hnq : n ≠ q := fun x => m4 (x ▸ hn)
            have hnk : n ≠ k := fun x => hkc (x ▸ hn)
            exact ⟨(e1 n (hcm n hn) hnq).1, e4 n (hcm n hn) hnq (by simpa [T.root] using hnk) hr,
              e2 n (hcm n hn) hnq hnk, (e1 n (hcm n hn) hnq).2⟩
          · have hn := T.root_mem hr
            have hnq : n ≠ q := fun x => m4 (x ▸ hn)
            have hnk : n ≠ k := fun x => hkc (x ▸ hn)
            exact ⟨(e1 n (hcm n hn) hnq).1, e2 n (hcm n hn) hnq hnk, (e1 n (hcm n hn) hnq).2, e6 n hr⟩
        · refine h6.congr fun n hn => ?_
          have hnq := hqb n hn
          have hnk := hkb n hn
          refine ⟨(e1 n (hsubb n hn) hnq).1, e4 n (hsubb n hn) hnq (by simpa [T.root] using hnk) ?_,
            e2 n (hsubb n hn) hnq hnk, (e1 n (hsubb n hn) hnq).2⟩
          intro x
          exact n5 n (by simp [T.ptrs, T.root_mem x.symm]) hn
      | node a1 q1 e1' c1 =>
        have mf := minFacts h5 n1 hm trivial
        have em : minPar (.node (.node (.node a1 q1 e1' c1) q0 e0 c) k dk b) =
          minPar (.node (.node a1 q1 e1' c1) q0 e0 c) := rfl
        have er : minRight (.node (.node (.node a1 q1 e1' c1) q0 e0 c) k dk b) =
          minRight (.node (.node a1 q1 e1' c1) q0 e0 c) := rfl
        have es : setMin p f (.node (.node (.node a1 q1 e1' c1) q0 e0 c) k dk b) =
          .node (setMin p f (.node (.node a1 q1 e1' c1) q0 e0 c)) k dk b := rfl
        have hroot : (setMin p f (.node (.node a1 q1 e1' c1) q0 e0 c)).root = some q0 := rfl
        rw [em] at e2 e3 e7
        rw [er] at e4 e6 e7
        have hkq : k ≠ q := fun x => n3 (x ▸ mf.mem)
        have hkm : k ≠ minPar (.node (.node a1 q1 e1' c1) q0 e0 c) := fun x => n3 (x ▸ mf.parMem)
        rw [es]
        refine ⟨(e1 k hmemk hkq).1.trans h1, e5 k rfl, ?_, (e1 k hmemk hkq).2.trans h4, ?_, ?_⟩
        · rw [e2 k hmemk hkq hkm, h3, hroot]; rfl
        · refine ih h5 n1 hm trivial (fun n hn => e1 n (hsub n hn)) (fun n hn => e2 n (hsub n hn)) e3
            (fun n hn hnq hnr hnm => ?_) (fun k' hk' => ?_) e6 e7
          · by_cases hk : n = k
            · exact absurd (hk ▸ hn) n3
            · exact e4 n (hsub n hn) hnq (by simpa [T.root] using hk) hnm
          · have hk'' := hk'
            cases hk'
            have hmem : q0 ∈ (T.node (.node a1 q1 e1' c1) q0 e0 c).ptrs := T.root_mem hk''
            have hq0k : q0 ≠ k := fun x => n3 (x ▸ hmem)
            have hr0 := mf.rootR q0 rfl
            rw [e4 q0 (hsub _ hmem) hr0.2 (by simpa [T.root] using hq0k)
              (fun x => hr0.1 (T.root_mem x.symm))]
            exact h5.2.1
        · refine h6.congr fun n hn => ?_
          have hnk : n ≠ k := fun x => n4 (x ▸ hn)
          have hnl : n ∉ (T.node (.node a1 q1 e1' c1) q0 e0 c).ptrs := fun x => n5 n x hn
          have hnq : n ≠ q := fun x => hnl (x ▸ mf.mem)
          refine ⟨(e1 n (hsubb n hn) hnq).1, e4 n (hsubb n hn) hnq (by simpa [T.root] using hnk) ?_,
            e2 n (hsubb n hn) hnq (fun x => hnl (x ▸ mf.parMem)), (e1 n (hsubb n hn) hnq).2⟩
          intro x
          exact hnl (mf.sub _ (T.root_mem x.symm))

/-! ## The link to the pair -/

theorem replaceChild_ctx {s : St α} {c : Ctx (D α)} {p q : Nat} (hc : CRep s c (some p))
    (hn : c.ptrs.Nodup) (hp : p ∉ c.ptrs) :
    wp (replaceChild c.ptr (some p) (some q)) (fun _ s' => (c ≠ .top → CRep s' c (some q)) ∧
      s'.dat = s.dat ∧ s'.par = s.par ∧ SameHdr s s' ∧ ∀ n, n ∉ c.ptrs → SameAt s s' n) s := by
  cases c with
  | top =>
    show wp (replaceChild none (some p) (some q)) _ s
    unfold replaceChild
    rw [wp_bind, wp_when]
    refine ⟨fun h => absurd rfl h, fun _ => ?_⟩
    rw [wp_when]
    exact ⟨fun h => absurd rfl h, fun _ => ⟨fun h => absurd rfl h, rfl, rfl, .refl s, fun n _ => .refl s n⟩⟩
  | left c a da ra =>
    obtain ⟨h1, h2, h3, h4, h5, h6⟩ := hc
    simp only [Ctx.ptrs, List.nodup_cons, List.mem_append, not_or, List.mem_cons] at hn hp
    show wp (replaceChild (some a) (some p) (some q)) _ s
    unfold replaceChild
    rw [wp_bind, wp_when]
    refine ⟨fun _ => ?_, fun h => absurd (by simp) h⟩
    rw [wp_bind, wp_getLeft ⟨da, h1⟩, wp_when]
    refine ⟨fun _ => ?_, fun h => absurd h3 h⟩
    rw [wp_setLeft ⟨da, h1⟩, wp_when]
    refine ⟨fun _ => ?_, fun h => absurd (by simp) h⟩
    rw [wp_bind, wp_getRight ⟨da, by exact h1⟩, wp_when]
    refine ⟨fun h => ?_, fun _ => ?_⟩
    · exact absurd (T.root_mem (h4.symm.trans h)) hp.2.1
    · refine ⟨fun _ => ⟨h1, h2, by simp, h4, ?_, ?_⟩, rfl, rfl, ⟨rfl, rfl, rfl, rfl⟩, ?_⟩
      · exact h5.congr fun n hn' => ⟨rfl, rfl, upd_ne _ _ (fun x => hn.1.1 (x ▸ hn')), rfl⟩
      · exact h6.congr (fun n hn' => ⟨rfl, rfl, upd_ne _ _ (fun x => hn.1.2 (x ▸ hn')), rfl⟩) rfl
      · intro n hn'
        simp only [Ctx.ptrs, List.mem_cons, not_or] at hn'
        exact ⟨rfl, rfl, upd_ne _ _ hn'.1, rfl⟩
  | right c la a da =>
    obtain ⟨h1, h2, h3, h4, h5, h6⟩ := hc
    simp only [Ctx.ptrs, List.nodup_cons, List.mem_append, not_or, List.mem_cons] at hn hp
    show wp (replaceChild (some a) (some p) (some q)) _ s
    unfold replaceChild
    rw [wp_bind, wp_when]
    refine ⟨fun _ => ?_, fun h => absurd (by simp) h⟩
    rw [wp_bind, wp_getLeft ⟨da, h1⟩, wp_when]
    refine ⟨fun h => absurd (T.root_mem (h3.symm.trans h)) hp.2.1, fun _ => ?_⟩
    rw [wp_when]
    refine ⟨fun _ => ?_, fun h => absurd (by simp) h⟩
    rw [wp_bind, wp_getRight ⟨da, by exact h1⟩, wp_when]
    refine ⟨fun _ => ?_, fun h => absurd h4 h⟩
    rw [wp_setRight ⟨da, h1⟩]
    refine ⟨fun _ => ⟨h1, h2, h3, by simp, ?_, ?_⟩, rfl, rfl, ⟨rfl, rfl, rfl, rfl⟩, ?_⟩
    · exact h5.congr fun n hn' => ⟨rfl, rfl, rfl, upd_ne _ _ (fun x => hn.1.1 (x ▸ hn'))⟩
    · exact h6.congr (fun n hn' => ⟨rfl, rfl, rfl, upd_ne _ _ (fun x => hn.1.2 (x ▸ hn'))⟩) rfl
    · intro n hn'
      simp only [Ctx.ptrs, List.mem_cons, not_or] at hn'
      exact ⟨rfl, rfl, rfl, upd_ne _ _ hn'.1⟩

theorem replaceChild_left {s : St α} {m p q : Nat} (hm : Live s.dat m) (hl : s.lft m = some q)
    (hr : s.rgt m ≠ some q) :
    Returns (replaceChild (some m) (some q) (some p)) s () { s with lft := upd s.lft m (some p) } := by
  have : wp (replaceChild (some m) (some q) (some p)) (fun _ s' => s' = { s with lft := upd s.lft m (some p) }) s := by
    unfold replaceChild
    simp only [wp_bind, wp_when]
    refine ⟨fun _ => ?_, fun h => absurd (by simp) h⟩
    rw [wp_getLeft hm]
    refine ⟨fun _ => ?_, fun h => absurd hl h⟩
    rw [wp_setLeft hm]
    refine ⟨fun _ => ?_, fun h => absurd (by simp) h⟩
    obtain ⟨d, hd⟩ := hm
    rw [wp_getRight ⟨d, by exact hd⟩]
    exact ⟨fun h => absurd h hr, fun _ => rfl⟩
  obtain ⟨_, s', h, rfl⟩ := this
  exact h

/-! ## Heights and root pointer -/

theorem swapFinish_ok {s : St α} {p q : Nat} {d e : D α} (hp : s.dat p = some (some d))
    (hq : s.dat q = some (some e)) (hpq : p ≠ q) (hpar : s.par p ≠ none) :
    wp (swapFinish (some p) (some q)) (fun x s' => x = (some q, some p) ∧
      s'.dat = upd (upd s.dat p (some (some (setH d e.height)))) q (some (some (setH e d.height))) ∧
      s'.par = s.par ∧ s'.lft = s.lft ∧ s'.rgt = s.rgt ∧ s'.next = s.next ∧ s'.lost = s.lost ∧
      s'.size = s.size ∧ (s.par q = none → s'.root = some q) ∧ (s.par q ≠ none → s'.root = s.root)) s := by
  unfold swapFinish
  have h2 : upd s.dat p (some (some (setH d e.height))) q = some (some e) := by
    rw [upd_ne _ _ (Ne.symm hpq)]; exact hq
  have l2 : Live (upd (upd s.dat p (some (some (setH d e.height)))) q (some (some (setH e d.height)))) q :=
    ⟨_, upd_self _ _ _⟩
  have l1 : Live (upd (upd s.dat p (some (some (setH d e.height)))) q (some (some (setH e d.height)))) p :=
    live_upd ⟨_, upd_self _ _ _⟩
  rw [wp_bind, wp_getData hp, wp_bind, wp_getData hq, wp_bind, wp_of_returns (setHeight_ok hp _), wp_bind,
    wp_of_returns (setHeight_ok (by exact h2) _), wp_bind, wp_getParent (by exact l2), wp_bind, wp_when]
  constructor
  · intro hn
    unfold updateRoot
    rw [wp_bind, wp_modify, wp_when]
    refine ⟨fun _ => ?_, fun h => absurd (by simp) h⟩
    rw [wp_setParent (by exact l2), wp_bind, wp_getParent (by exact l1), wp_bind, wp_when]
    have hn' : s.par q = none := hn
    have hsame : upd s.par q none = s.par := by
      funext n
      by_cases h : n = q
      · rw [h, upd_self]; exact hn'.symm
      · exact upd_ne _ _ h
    simp only [hsame]
    refine ⟨fun h => absurd h hpar, fun _ => ?_⟩
    rw [wp_pure]
    exact ⟨rfl, rfl, rfl, rfl, rfl, rfl, rfl, rfl, fun _ => rfl, fun h => absurd hn' h⟩
  · intro hn
    rw [wp_bind, wp_getParent (by exact l1), wp_bind, wp_when]
    refine ⟨fun h => absurd h hpar, fun _ => ?_⟩
    rw [wp_pure]
    exact ⟨rfl, rfl, rfl, rfl, rfl, rfl, rfl, rfl, fun h => absurd h hn, fun _ => rfl⟩

/-! ## The links -/

theorem when_setParent {s : St α} {r x : Ptr} (h : ∀ k, r = some k → Live s.dat k) :
    Returns (Prog.when (r ≠ none) (setParent r x)) s () { s with par := fun n => if some n = r then x else s.par n } := by
  cases r with
  | none =>
    unfold Prog.when Returns
    rw [if_neg (by simp)]
    simp [Pure.pure, Prog.pure]
  | some k =>
    unfold Prog.when Returns
    rw [if_pos (by simp)]
    have := setParent_ok (q := x) (h k rfl)
    unfold Returns at this
    rw [this]
    have e : upd s.par k x = fun n => if some n = some k then x else s.par n := by
      funext n; simp [upd]
    rw [e]

/-- What the link part of `_swap_node` leaves behind. -/
structure SwapPost (s s' : St α) (c : Ctx (D α)) (l : Tr α) (p : Nat) (d : D α) (r : Tr α) (q : Nat) (e : D α) : Prop where
  rep : Rep s' c.ptr (.node l q e (setMin p d r))
  ctx : c ≠ .top → CRep s' c (some q)
  hdr : SameHdr s s'
  dat : s'.dat = s.dat
  out : ∀ n, n ∉ (T.node l p d r).ptrs → n ∉ c.ptrs → SameAt s s' n
  par : s'.par p ≠ none

theorem swapAdjacent_ok {s : St α} {c : Ctx (D α)} {l rr : Tr α} {p q : Nat} {d e : D α}
    (ht : Rep s c.ptr (.node l p d (.node .nil q e rr))) (hc : CRep s c (some p))
    (hn : (T.node l p d (.node .nil q e rr)).ptrs.Nodup) (hcn : c.ptrs.Nodup)
    (hd : ∀ n ∈ (T.node l p d (.node .nil q e rr)).ptrs, n ∉ c.ptrs) :
    wp (swapAdjacent (some p) (some q) c.ptr l.root (some q) none rr.root)
      (fun _ s' => SwapPost s s' c l p d (.node .nil q e rr) q e) s := by
  obtain ⟨h1, h2, h3, h4, h5, k1, k2, k3, k4, _, k6⟩ := ht
  obtain ⟨n1, n2, n3, n4, n5⟩ := nodup_node hn
  obtain ⟨_, m2, _, m4, _⟩ := nodup_node n2
  have hpq : p ≠ q := fun x => n4 (by simp [T.ptrs, x])
  have hprr : p ∉ rr.ptrs := fun x => n4 (by simp [T.ptrs, x])
  have hql : q ∉ l.ptrs := fun x => n5 q x (by simp [T.ptrs])
  have hlrr : ∀ n ∈ l.ptrs, n ∉ rr.ptrs := fun n hn x => n5 n hn (by simp [T.ptrs, x])
  have hpc : p ∉ c.ptrs := hd p (by simp [T.ptrs])
  have hqc : q ∉ c.ptrs := hd q (by simp [T.ptrs])
  have hlc : ∀ n ∈ c.ptrs, some n ≠ l.root := fun n hn x => hd n (by simp [T.ptrs, T.root_mem x.symm]) hn
  have hrc : ∀ n ∈ c.ptrs, some n ≠ rr.root := fun n hn x => hd n (by simp [T.ptrs, T.root_mem x.symm]) hn
  have lp : Live s.dat p := ⟨d, h1⟩
  have lq : Live s.dat q := ⟨e, k1⟩
  have ll : ∀ k, l.root = some k → Live s.dat k := fun k hk => h5.live (T.root_mem hk)
  have lr : ∀ k, rr.root = some k → Live s.dat k := fun k hk => k6.live (T.root_mem hk)
  have rl : ∀ n ∈ rr.ptrs, some n ≠ l.root := fun n hn x => hlrr n (T.root_mem x.symm) hn
  have lrr : ∀ n ∈ l.ptrs, some n ≠ rr.root := fun n hn x => hlrr n hn (T.root_mem x.symm)
  have pl : some p ≠ l.root := fun x => n3 (T.root_mem x.symm)
  have ql : some q ≠ l.root := fun x => hql (T.root_mem x.symm)
  have prr : some p ≠ rr.root := fun x => hprr (T.root_mem x.symm)
  have qrr : some q ≠ rr.root := fun x => m4 (T.root_mem x.symm)
  unfold swapAdjacent
  rw [wp_bind, wp_setParent lq, wp_bind, wp_getRight (by exact lp), wp_bind]
  rw [if_pos (by exact h4)]
  rw [wp_bind, wp_setLeft (by exact lq), wp_bind, wp_setRight (by exact lq),
    wp_of_returns (when_setParent (by exact ll)), wp_bind, wp_setRight (by exact lp), wp_bind,
    wp_setLeft (by exact lp), wp_bind, wp_setParent (by exact lp), wp_bind]
  refine wp_mono (replaceChild_ctx (c := c) (p := p) (q := q) (hc.congr (fun n hn => ?_) rfl) hcn hpc) ?_
  · have a1 : n ≠ p := fun x => hpc (x ▸ hn)
    have a2 : n ≠ q := fun x => hqc (x ▸ hn)
    have a3 := hlc n hn
    exact ⟨rfl, by simp [upd, a1, a2, a3], by simp [upd, a1, a2], by simp [upd, a1, a2]⟩
  rintro _ s2 ⟨hctx, edat, epar, ehdr, eout⟩
  rw [wp_bind, wp_of_returns (when_setParent (by rw [edat]; exact lr)), wp_when]
  refine ⟨fun h => absurd rfl h, fun _ => ?_⟩
  simp only at edat epar ehdr eout
  have np := eout p hpc
  have nq := eout q hqc
  refine ⟨⟨by rw [edat]; exact k1, ?_, ?_, ?_, ?_, ?_⟩, ?_, ?_, edat, ?_, ?_⟩
  · simp [epar, upd, qrr, ql, hpq.symm]
  · simp [nq.lft, upd, hpq.symm]
  · simp [nq.rgt, upd, hpq.symm, setMin, T.root]
  · refine h5.reparent n1 (fun n hn hr => ?_) fun n hr => ?_
    · have a1 : n ≠ p := fun x => n3 (x ▸ hn)
      have a2 : n ≠ q := fun x => hql (x ▸ hn)
      have a3 := lrr n hn
      have a4 := eout n (hd n (by simp [T.ptrs, hn]))
      exact ⟨by rw [edat], by simp [epar, upd, a1, a2, a3, hr], by simp [a4.lft, upd, a1, a2], by simp [a4.rgt, upd, a1, a2]⟩
    · have hn := T.root_mem hr
      have a1 : n ≠ p := fun x => n3 (x ▸ hn)
      have a2 : n ≠ q := fun x => hql (x ▸ hn)
      have a3 := lrr n hn
      have a4 := eout n (hd n (by simp [T.ptrs, hn]))
      exact ⟨by rw [edat], by simp [a4.lft, upd, a1, a2], by simp [a4.rgt, upd, a1, a2], by simp [epar, upd, a1, a3, hr]⟩
  · refine ⟨by rw [edat]; exact h1, by simp [epar, upd, prr], by simp [np.lft, upd, T.root],
      by simp [np.rgt, upd], trivial, ?_⟩
    refine k6.reparent m2 (fun n hn hr => ?_) fun n hr => ?_
    · have a1 : n ≠ p := fun x => hprr (x ▸ hn)
      have a2 : n ≠ q := fun x => m4 (x ▸ hn)
      have a3 := rl n hn
      have a4 := eout n (hd n (by simp [T.ptrs, hn]))
      exact ⟨by rw [edat], by simp [epar, upd, a1, a2, a3, hr], by simp [a4.lft, upd, a1, a2], by simp [a4.rgt, upd, a1, a2]⟩
    · have hn := T.root_mem hr
      have a1 : n ≠ p := fun x => hprr (x ▸ hn)
      have a2 : n ≠ q := fun x => m4 (x ▸ hn)
      have a4 := eout n (hd n (by simp [T.ptrs, hn]))
      exact ⟨by rw [edat], by simp [a4.lft, upd, a1, a2], by simp [a4.rgt, upd, a1, a2], by simp [hr]⟩
  · intro hct
    exact (hctx hct).congr (fun n hn => ⟨rfl, by simp [hrc n hn], rfl, rfl⟩) rfl
  · exact ⟨ehdr.next, ehdr.lost, ehdr.root, ehdr.size⟩
  · intro n hn hnc
    have a4 := eout n hnc
    simp only [T.ptrs, List.mem_append, List.mem_cons, not_or, List.not_mem_nil] at hn
    have a1 : n ≠ p := hn.2.1
    have a2 : n ≠ q := hn.2.2.2.1
    have a3 : some n ≠ l.root := fun x => hn.1 (T.root_mem x.symm)
    have a5 : some n ≠ rr.root := fun x => hn.2.2.2.2 (T.root_mem x.symm)
    exact ⟨by rw [edat], by simp [epar, upd, a1, a2, a3, a5], by simp [a4.lft, upd, a1, a2], by simp [a4.rgt, upd, a1, a2]⟩
  · simp [epar, upd, prr]

theorem swapApart_ok {s : St α} {c : Ctx (D α)} {l r : Tr α} {p q : Nat} {d e : D α}
    (ht : Rep s c.ptr (.node l p d r)) (hc : CRep s c (some p))
    (hm : minNode r = some (q, e)) (hdp : Deep r)
    (hn : (T.node l p d r).ptrs.Nodup) (hcn : c.ptrs.Nodup)
    (hd : ∀ n ∈ (T.node l p d r).ptrs, n ∉ c.ptrs) :
    wp (swapApart (some p) (some q) c.ptr l.root r.root (some (minPar r)) none (minRight r).root)
      (fun _ s' => SwapPost s s' c l p d r q e) s := by
  obtain ⟨h1, h2, h3, h4, h5, h6⟩ := ht
  obtain ⟨n1, n2, n3, n4, n5⟩ := nodup_node hn
  have mf := minFacts h6 n2 hm hdp
  have hpq : p ≠ q := fun x => n4 (x ▸ mf.mem)
  have hql : q ∉ l.ptrs := fun x => n5 q x mf.mem
  have hpm : p ≠ minPar r := fun x => n4 (x ▸ mf.parMem)
  have hml : minPar r ∉ l.ptrs := fun x => n5 _ x mf.parMem
  have hprr : p ∉ (minRight r).ptrs := fun x => n4 (mf.sub _ x)
  have hlrr : ∀ n ∈ l.ptrs, n ∉ (minRight r).ptrs := fun n hn x => n5 n hn (mf.sub _ x)
  have tr : ∀ n ∈ r.ptrs, n ∈ (T.node l p d r).ptrs := fun n hn => by simp [T.ptrs, hn]
  have hpc : p ∉ c.ptrs := hd p (by simp [T.ptrs])
  have hqc : q ∉ c.ptrs := hd q (tr _ mf.mem)
  have hmc : minPar r ∉ c.ptrs := hd _ (tr _ mf.parMem)
  have lp : Live s.dat p := ⟨d, h1⟩
  have lq : Live s.dat q := ⟨e, mf.dat⟩
  have lm : Live s.dat (minPar r) := h6.live mf.parMem
  have ll : ∀ k, l.root = some k → Live s.dat k := fun k hk => h5.live (T.root_mem hk)
  have lr : ∀ k, r.root = some k → Live s.dat k := fun k hk => h6.live (T.root_mem hk)
  have lrr : ∀ k, (minRight r).root = some k → Live s.dat k := fun k hk => mf.rep.live (T.root_mem hk)
  have pl : some p ≠ l.root := fun x => n3 (T.root_mem x.symm)
  have ql : some q ≠ l.root := fun x => hql (T.root_mem x.symm)
  have pr : some p ≠ r.root := fun x => n4 (T.root_mem x.symm)
  have qr : some q ≠ r.root := fun x => (mf.rootR q x.symm).2 rfl
  have prr : some p ≠ (minRight r).root := fun x => hprr (T.root_mem x.symm)
  have qrr : some q ≠ (minRight r).root := fun x => mf.qr (T.root_mem x.symm)
  have mrr : some (minPar r) ≠ (minRight r).root := fun x => mf.parR (T.root_mem x.symm)
  have rootr : ∀ n, some n = r.root → some n ≠ (minRight r).root :=
    fun n hn x => (mf.rootR n hn.symm).1 (T.root_mem x.symm)
  unfold swapApart
  rw [wp_bind]
  refine wp_mono (replaceChild_ctx (q := q) hc hcn hpc) ?_
  rintro _ s2 ⟨hctx, edat, epar, ehdr, eout⟩
  have np := eout p hpc
  have nq := eout q hqc
  have nm := eout _ hmc
  rw [← edat] at lp lq lm ll lr lrr
  rw [wp_bind, wp_setParent lq, wp_bind,
    wp_of_returns (replaceChild_left (by exact lm) (by exact nm.lft.trans mf.plft)
      (by show s2.rgt _ ≠ _; rw [nm.rgt]; exact mf.prgt)), wp_bind,
    wp_setParent (by exact lp), wp_bind, wp_of_returns (when_setParent (by exact ll)), wp_bind,
    wp_of_returns (when_setParent (by exact lr)), wp_bind, wp_setLeft (by exact lq), wp_bind,
    wp_setRight (by exact lq), wp_bind, wp_when]
  refine ⟨fun h => absurd rfl h, fun _ => ?_⟩
  rw [wp_bind, wp_of_returns (when_setParent (by exact lrr)), wp_bind, wp_setLeft (by exact lp),
    wp_setRight (by exact lp)]
  simp only
  refine ⟨⟨?_, ?_, ?_, ?_, ?_, ?_⟩, ?_, ?_, edat, ?_, ?_⟩
  · exact (congrFun edat q).trans mf.dat
  · simp [upd, qrr, qr, ql, hpq.symm]
  · simp [upd, hpq.symm]
  · rw [show (setMin p d r).root = r.root by
      cases r with
      | nil => cases hdp
      | node a _ _ _ => cases a with
        | nil => cases hdp
        | node _ _ _ _ => rfl]
    simp [upd, hpq.symm]
  · refine h5.reparent n1 (fun n hn hr => ?_) fun n hr => ?_
    · have a1 : n ≠ p := fun x => n3 (x ▸ hn)
      have a2 : n ≠ q := fun x => hql (x ▸ hn)
      have a5 : n ≠ minPar r := fun x => hml (x ▸ hn)
      have a3 : some n ≠ (minRight r).root := fun x => hlrr n hn (T.root_mem x.symm)
      have a6 : some n ≠ r.root := fun x => n5 n hn (T.root_mem x.symm)
      have a4 := eout n (hd n (by simp [T.ptrs, hn]))
      exact ⟨by simp [edat], by simp [epar, upd, a1, a2, a3, hr, a6], by simp [a4.lft, upd, a1, a2, a5],
        by simp [a4.rgt, upd, a1, a2]⟩
    · have hn := T.root_mem hr
      have a1 : n ≠ p := fun x => n3 (x ▸ hn)
      have a2 : n ≠ q := fun x => hql (x ▸ hn)
      have a5 : n ≠ minPar r := fun x => hml (x ▸ hn)
      have a3 : some n ≠ (minRight r).root := fun x => hlrr n hn (T.root_mem x.symm)
      have a6 : some n ≠ r.root := fun x => n5 n hn (T.root_mem x.symm)
      have a4 := eout n (hd n (by simp [T.ptrs, hn]))
      exact ⟨by simp [edat], by simp [a4.lft, upd, a1, a2, a5], by simp [a4.rgt, upd, a1, a2],
        by simp [a3, a6, hr]⟩
  · refine setMin_rep h6 n2 hm hdp (fun n hn hq => ?_) (fun n hn hq hmm => ?_) ?_ (fun n hn hq hr hrr => ?_)
      (fun k hk => ?_) (fun k hk => ?_) ⟨?_, ?_, ?_, ?_⟩
    · have a1 : n ≠ p := fun x => n4 (x ▸ hn)
      have a4 := eout n (hd n (tr n hn))
      exact ⟨by simp [edat], by simp [upd, a1, hq, a4.rgt]⟩
    · have a1 : n ≠ p := fun x => n4 (x ▸ hn)
      have a4 := eout n (hd n (tr n hn))
      simp [upd, a1, hq, hmm, a4.lft]
    · simp [upd, hpm.symm, mf.parNe]
    · have a1 : n ≠ p := fun x => n4 (x ▸ hn)
      have a3 : some n ≠ l.root := fun x => n5 n (T.root_mem x.symm) hn
      simp [upd, hrr, hr, a3, a1, hq, epar]
    · simp [rootr k hk.symm, hk]
    · simp [hk]
    · exact (congrFun edat p).trans h1
    · simp [upd, prr, pr, pl]
    · simp [upd]
    · simp [upd]
  · intro hct
    refine (hctx hct).congr (fun n hn => ?_) rfl
    have hnt : n ∉ (T.node l p d r).ptrs := fun x => hd n x hn
    simp only [T.ptrs, List.mem_append, List.mem_cons, not_or] at hnt
    have a1 : n ≠ p := hnt.2.1
    have a2 : n ≠ q := fun x => hnt.2.2 (x ▸ mf.mem)
    have a3 : some n ≠ l.root := fun x => hnt.1 (T.root_mem x.symm)
    have a5 : some n ≠ r.root := fun x => hnt.2.2 (T.root_mem x.symm)
    have a6 : some n ≠ (minRight r).root := fun x => hnt.2.2 (mf.sub _ (T.root_mem x.symm))
    have a7 : n ≠ minPar r := fun x => hnt.2.2 (x ▸ mf.parMem)
    exact ⟨rfl, by simp [upd, a1, a2, a3, a5, a6], by simp [upd, a1, a2, a7], by simp [upd, a1, a2]⟩
  · exact ⟨ehdr.next, ehdr.lost, ehdr.root, ehdr.size⟩
  · intro n hnt hnc
    have a4 := eout n hnc
    simp only [T.ptrs, List.mem_append, List.mem_cons, not_or] at hnt
    have a1 : n ≠ p := hnt.2.1
    have a2 : n ≠ q := fun x => hnt.2.2 (x ▸ mf.mem)
    have a3 : some n ≠ l.root := fun x => hnt.1 (T.root_mem x.symm)
    have a5 : some n ≠ r.root := fun x => hnt.2.2 (T.root_mem x.symm)
    have a6 : some n ≠ (minRight r).root := fun x => hnt.2.2 (mf.sub _ (T.root_mem x.symm))
    have a7 : n ≠ minPar r := fun x => hnt.2.2 (x ▸ mf.parMem)
    exact ⟨by simp [edat], by simp [upd, a1, a2, a3, a5, a6, epar], by simp [upd, a1, a2, a7, a4.lft],
      by simp [upd, a1, a2, a4.rgt]⟩
  · simp [upd, prr, pr, pl]

/-! ## All of it -/

theorem setMin_dat {s s' : St α} {pa : Ptr} {r : Tr α} {p : Nat} {d d' : D α}
    (h : Rep s pa (setMin p d r)) (hp : p ∉ r.ptrs)
    (e : ∀ n ∈ (setMin p d r).ptrs, n ≠ p → SameAt s s' n)
    (ep : p ∈ (setMin p d r).ptrs → s'.dat p = some (some d') ∧ s'.par p = s.par p ∧ s'.lft p = s.lft p ∧ s'.rgt p = s.rgt p) :
    Rep s' pa (setMin p d' r) := by
  induction r generalizing pa with
  | nil => trivial
  | node l k dk b ih _ =>
    cases l with
    | nil =>
      obtain ⟨h1, h2, h3, h4, h5, h6⟩ := h
      obtain ⟨e1, e2, e3, e4⟩ := ep (by simp [setMin, T.ptrs])
      refine ⟨e1, e2.trans h2, e3.trans h3, e4.trans h4, trivial, h6.congr fun n hn => ?_⟩
      exact e n (by simp [setMin, T.ptrs, hn]) fun x => hp (by simp [T.ptrs, ← x, hn])
    | node a q f c =>
      obtain ⟨h1, h2, h3, h4, h5, h6⟩ := h
      have hin : ∀ n ∈ (setMin p d (.node a q f c)).ptrs, n ∈ (setMin p d (.node (.node a q f c) k dk b)).ptrs := by
        intro n hn; simp only [setMin, T.ptrs] at hn ⊢; simp [hn]
      have ek := e k (by simp [setMin, T.ptrs]) fun x => hp (by simp [T.ptrs, ← x])
      have hr : ∀ f', (setMin p f' (.node a q f c)).root = if a.root = none then some p else some q := by
        intro f'; cases a <;> rfl
      refine ⟨ek.dat.trans h1, ek.par.trans h2, ?_, ek.rgt.trans h4, ?_, h6.congr fun n hn => ?_⟩
      · rw [ek.lft, h3, hr, hr]
      · refine ih h5 (fun x => hp ?_) (fun n hn => e n (hin n hn)) (fun hx => ep (hin p hx))
        have : (T.node (.node a q f c) k dk b).ptrs = (T.node a q f c).ptrs ++ k :: b.ptrs := rfl
        rw [this]; simp only [List.mem_append]; exact Or.inl x
      · exact e n (by simp [setMin, T.ptrs, hn]) fun x => hp (by simp [T.ptrs, ← x, hn])

theorem minNode_mem {r : Tr α} {q : Nat} {e : D α} (hm : minNode r = some (q, e)) :
    r.ptrs = q :: (fDelMin r).ptrs ∧ ∀ z f, (setMin z f r).ptrs = z :: (fDelMin r).ptrs := by
  obtain ⟨h1, h2⟩ := items_min hm
  refine ⟨by rw [ptrs_items, h1, ptrs_items]; rfl, fun z f => by rw [ptrs_items, h2, ptrs_items]; rfl⟩

/-- What `_swap_node` leaves behind. -/
structure Swapped (s s' : St α) (c : Ctx (D α)) (l : Tr α) (p : Nat) (d : D α) (r : Tr α) (q : Nat) (e : D α) : Prop where
  rep : Rep s' c.ptr (.node l q (setH e d.height) (setMin p (setH d e.height) r))
  ctx : CRep s' c (some q)
  next : s'.next = s.next
  lost : s'.lost = s.lost
  size : s'.size = s.size
  out : ∀ n, n ∉ (T.node l p d r).ptrs → n ∉ c.ptrs → SameAt s s' n
  val : ∀ n f, s.dat n = some (some f) → ∃ f', s'.dat n = some (some f') ∧ f'.val = f.val

theorem swapNode_ok {s : St α} {c : Ctx (D α)} {l r : Tr α} {p q : Nat} {d e : D α}
    (ht : Rep s c.ptr (.node l p d r)) (hc : CRep s c (some p))
    (hm : minNode r = some (q, e)) (hpl : (c.plug (.node l p d r)).ptrs.Nodup) :
    wp (swapNode (some p) (some q))
      (fun x s' => x = (some q, some p) ∧ Swapped s s' c l p d r q e) s := by
  obtain ⟨hn, hcn, hd⟩ := Ctx.nodup_plug.1 hpl
  have ht' := ht
  obtain ⟨h1, h2, h3, h4, h5, h6⟩ := ht
  obtain ⟨n1, n2, n3, n4, n5⟩ := nodup_node hn
  obtain ⟨em, es⟩ := minNode_mem hm
  have hqm : q ∈ r.ptrs := by rw [em]; simp
  have hpq : p ≠ q := fun x => n4 (x ▸ hqm)
  have hqt : q ∈ (T.node l p d r).ptrs := by simp [T.ptrs, hqm]
  have hcq : c.ptr ≠ some q := by
    intro x
    refine hd q hqt ?_
    cases c with
    | top => cases x
    | left c a da ra => cases x; simp [Ctx.ptrs]
    | right c la a da => cases x; simp [Ctx.ptrs]
  have hqd : s.dat q = some (some e) ∧ s.lft q = none ∧
      ((∃ rr, r = .node .nil q e rr ∧ s.par q = some p ∧ s.rgt q = rr.root) ∨
        (Deep r ∧ s.par q = some (minPar r) ∧ s.rgt q = (minRight r).root)) := by
    cases r with
    | nil => cases hm
    | node a k dk b =>
      cases a with
      | nil =>
        cases hm
        obtain ⟨k1, k2, k3, k4, k5, k6⟩ := h6
        exact ⟨k1, k3, Or.inl ⟨b, rfl, k2, k4⟩⟩
      | node _ _ _ _ =>
        have mf := minFacts h6 n2 hm trivial
        exact ⟨mf.dat, mf.lft, Or.inr ⟨trivial, mf.par, mf.rgt⟩⟩
  obtain ⟨q1, q2, q3⟩ := hqd
  have lp : Live s.dat p := ⟨d, h1⟩
  have lq : Live s.dat q := ⟨e, q1⟩
  unfold swapNode
  rw [wp_bind, wp_getParent lp, h2, if_neg hcq]
  simp only
  rw [wp_bind, wp_getParent lp, wp_bind, wp_getLeft lp, wp_bind, wp_getRight lp, wp_bind, wp_getParent lq,
    wp_bind, wp_getLeft lq, wp_bind, wp_getRight lq, wp_bind, h2, h3, h4, q2]
  have key : wp (if s.par q = some p then swapAdjacent (some p) (some q) c.ptr l.root r.root none (s.rgt q)
      else swapApart (some p) (some q) c.ptr l.root r.root (s.par q) none (s.rgt q))
      (fun _ s' => SwapPost s s' c l p d r q e) s := by
    rcases q3 with ⟨rr, rfl, e1, e2⟩ | ⟨hdp, e1, e2⟩
    · rw [if_pos e1, e2]
      exact swapAdjacent_ok ht' hc hn hcn hd
    · have hpm : p ≠ minPar r := fun x => n4 (x ▸ (minFacts h6 n2 hm hdp).parMem)
      rw [if_neg (by rw [e1]; simpa using hpm.symm), e1, e2]
      exact swapApart_ok ht' hc hm hdp hn hcn hd
  refine wp_mono key ?_
  rintro _ s1 sp
  have sq := sp.rep
  obtain ⟨g1, g2, g3, g4, g5, g6⟩ := sq
  refine wp_mono (swapFinish_ok (by rw [sp.dat]; exact h1) g1 hpq sp.par) ?_
  rintro x s2 ⟨rfl, f1, f2, f3, f4, f5, f6, f7, f8, f9⟩
  have hsame : ∀ n, n ≠ p → n ≠ q → SameAt s1 s2 n := by
    intro n a1 a2
    exact ⟨by rw [f1, upd_ne _ _ a2, upd_ne _ _ a1], by rw [f2], by rw [f3], by rw [f4]⟩
  have hqs : q ∉ (fDelMin r).ptrs := by rw [em] at n2; exact (List.nodup_cons.1 n2).1
  have hps : p ∉ (fDelMin r).ptrs := fun x => n4 (by rw [em]; simp [x])
  refine ⟨rfl, ⟨by rw [f1, upd_self], by rw [f2]; exact g2, by rw [f3]; exact g3, ?_, ?_, ?_⟩, ?_,
    f5.trans sp.hdr.next, f6.trans sp.hdr.lost, f7.trans sp.hdr.size, ?_, ?_⟩
  · rw [f4, g4]
    cases r with
    | nil => rfl
    | node a _ _ _ => cases a <;> rfl
  · refine g5.congr fun n hn => hsame n (fun x => n3 (x ▸ hn)) (fun x => n5 q (x ▸ hn) hqm)
  · refine setMin_dat g6 n4 (fun n hn hnp => ?_) fun _ => ⟨?_, by rw [f2], by rw [f3], by rw [f4]⟩
    · rw [es] at hn
      rcases List.mem_cons.1 hn with h | h
      · exact absurd h hnp
      · exact hsame n hnp fun x => hqs (x ▸ h)
    · rw [f1, upd_ne _ _ hpq, upd_self]
  · by_cases hct : c = .top
    · subst hct
      exact f8 g2
    · refine (sp.ctx hct).congr (fun n hn => ?_) (f9 ?_)
      · exact hsame n (fun x => hd p (by simp [T.ptrs]) (x ▸ hn)) (fun x => hd q hqt (x ▸ hn))
      · rw [g2]; cases c <;> simp_all [Ctx.ptr]
  · intro n hnt hnc
    refine (sp.out n hnt hnc).trans (hsame n (fun x => hnt (by simp [T.ptrs, x])) (fun x => hnt (x ▸ hqt)))
  · intro n f hf
    rw [f1]
    by_cases a1 : n = q
    · subst a1
      rw [q1] at hf; cases hf
      exact ⟨_, upd_self _ _ _, rfl⟩
    · rw [upd_ne _ _ a1]
      by_cases a2 : n = p
      · subst a2
        rw [h1] at hf; cases hf
        exact ⟨_, upd_self _ _ _, rfl⟩
      · rw [upd_ne _ _ a2, sp.dat]
        exact ⟨f, hf, rfl⟩

end Verif.AVL
