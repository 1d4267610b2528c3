import Verif.Spec.Tree

/-! # Lemmas about trees in memory -/

namespace Verif.Tree

open Prog

variable {δ β : Type}

/-! ## Elementary operations -/

/-- There is a constructed node at `n`. -/
def Live (f : Nat → Option (Option δ)) (n : Nat) : Prop := ∃ d, f n = some (some d)

theorem live_upd {f : Nat → Option (Option δ)} {n m : Nat} {d : δ} (h : Live f m) :
    Live (upd f n (some (some d))) m := by
  obtain ⟨e, he⟩ := h
  by_cases h : m = n
  · exact ⟨d, by simp [upd, h]⟩
  · exact ⟨e, by simp [upd, h, he]⟩

theorem touch_ok {s : St δ} {n : Nat} (h : Live s.dat n) : Returns (touch (some n)) s n s := by
  obtain ⟨d, h⟩ := h
  unfold Returns touch; simp [h]

theorem getParent_ok {s : St δ} {n : Nat} (h : Live s.dat n) :
    Returns (getParent (some n)) s (s.par n) s := by
  unfold getParent Returns; rw [bind_returns (touch_ok h)]; rfl

theorem getLeft_ok {s : St δ} {n : Nat} (h : Live s.dat n) :
    Returns (getLeft (some n)) s (s.lft n) s := by
  unfold getLeft Returns; rw [bind_returns (touch_ok h)]; rfl

theorem getRight_ok {s : St δ} {n : Nat} (h : Live s.dat n) :
    Returns (getRight (some n)) s (s.rgt n) s := by
  unfold getRight Returns; rw [bind_returns (touch_ok h)]; rfl

theorem setParent_ok {s : St δ} {n : Nat} {q : Ptr} (h : Live s.dat n) :
    Returns (setParent (some n) q) s () { s with par := upd s.par n q } := by
  unfold setParent Returns; rw [bind_returns (touch_ok h)]; rfl

theorem setLeft_ok {s : St δ} {n : Nat} {q : Ptr} (h : Live s.dat n) :
    Returns (setLeft (some n) q) s () { s with lft := upd s.lft n q } := by
  unfold setLeft Returns; rw [bind_returns (touch_ok h)]; rfl

theorem setRight_ok {s : St δ} {n : Nat} {q : Ptr} (h : Live s.dat n) :
    Returns (setRight (some n) q) s () { s with rgt := upd s.rgt n q } := by
  unfold setRight Returns; rw [bind_returns (touch_ok h)]; rfl

theorem setData_ok {s : St δ} {n : Nat} {d : δ} (h : Live s.dat n) :
    Returns (setData (some n) d) s () { s with dat := upd s.dat n (some (some d)) } := by
  unfold setData Returns; rw [bind_returns (touch_ok h)]; rfl

theorem getData_ok {s : St δ} {n : Nat} {d : δ} (h : s.dat n = some (some d)) :
    Returns (getData (some n)) s d s := by
  unfold getData Returns; simp [h]

/-! Weakest preconditions of the elementary operations, for symbolic execution. -/

theorem wp_getParent {s : St δ} {n : Nat} {Q} (h : Live s.dat n) :
    wp (getParent (some n)) Q s ↔ Q (s.par n) s := wp_of_returns (getParent_ok h) Q
theorem wp_getLeft {s : St δ} {n : Nat} {Q} (h : Live s.dat n) :
    wp (getLeft (some n)) Q s ↔ Q (s.lft n) s := wp_of_returns (getLeft_ok h) Q
theorem wp_getRight {s : St δ} {n : Nat} {Q} (h : Live s.dat n) :
    wp (getRight (some n)) Q s ↔ Q (s.rgt n) s := wp_of_returns (getRight_ok h) Q
theorem wp_setParent {s : St δ} {n : Nat} {q : Ptr} {Q} (h : Live s.dat n) :
    wp (setParent (some n) q) Q s ↔ Q () { s with par := upd s.par n q } :=
  wp_of_returns (setParent_ok h) Q
theorem wp_setLeft {s : St δ} {n : Nat} {q : Ptr} {Q} (h : Live s.dat n) :
    wp (setLeft (some n) q) Q s ↔ Q () { s with lft := upd s.lft n q } :=
  wp_of_returns (setLeft_ok h) Q
theorem wp_setRight {s : St δ} {n : Nat} {q : Ptr} {Q} (h : Live s.dat n) :
    wp (setRight (some n) q) Q s ↔ Q () { s with rgt := upd s.rgt n q } :=
  wp_of_returns (setRight_ok h) Q
theorem wp_setData {s : St δ} {n : Nat} {d : δ} {Q} (h : Live s.dat n) :
    wp (setData (some n) d) Q s ↔ Q () { s with dat := upd s.dat n (some (some d)) } :=
  wp_of_returns (setData_ok h) Q
theorem wp_getData {s : St δ} {n : Nat} {d : δ} {Q} (h : s.dat n = some (some d)) :
    wp (getData (some n)) Q s ↔ Q d s := wp_of_returns (getData_ok h) Q
theorem wp_getRoot {s : St δ} {Q} : wp getRoot Q s ↔ Q s.root s :=
  wp_of_returns (show Returns getRoot s s.root s from rfl) Q
theorem wp_getSize {s : St δ} {Q} : wp getSize Q s ↔ Q s.size s :=
  wp_of_returns (show Returns getSize s s.size s from rfl) Q
theorem wp_setSize {s : St δ} {n : Nat} {Q} : wp (setSize n) Q s ↔ Q () { s with size := n } :=
  wp_of_returns (show Returns (setSize n) s () { s with size := n } from rfl) Q

@[simp] theorem upd_self {γ : Type} (f : Nat → γ) (n : Nat) (v : γ) : upd f n v n = v := by simp [upd]
theorem upd_ne {γ : Type} (f : Nat → γ) {n m : Nat} (v : γ) (h : m ≠ n) : upd f n v m = f m := by
  simp [upd, h]

/-! ## Trees -/

theorem T.ptrs_eq (t : T δ) : t.ptrs = t.inorder.map (·.1) := by
  induction t with
  | nil => rfl
  | node l p d r ihl ihr => simp [ptrs, inorder, ihl, ihr]

theorem T.root_mem {t : T δ} {n : Nat} (h : t.root = some n) : n ∈ t.ptrs := by
  cases t with
  | nil => cases h
  | node l p d r => cases h; simp [ptrs]

theorem T.root_none {t : T δ} : t.root = none ↔ t = .nil := by
  cases t <;> simp [root]

theorem T.count_eq (t : T δ) : t.count = t.inorder.length := by
  induction t with
  | nil => rfl
  | node l p d r ihl ihr => simp [count, inorder, ihl, ihr]; omega

theorem T.preorder_perm (t : T δ) : t.preorder.Perm t.inorder := by
  induction t with
  | nil => exact .refl _
  | node l p d r ihl ihr =>
    exact ((ihl.append ihr).cons _).trans List.perm_middle.symm

theorem T.postorder_perm (t : T δ) : t.postorder.Perm t.inorder := by
  induction t with
  | nil => exact .refl _
  | node l p d r ihl ihr =>
    simp only [postorder, inorder, List.append_assoc]
    exact ihl.append ((ihr.append_right _).trans List.perm_append_comm)

theorem nodup_node {l r : T δ} {p : Nat} {d : δ} (h : (T.node l p d r).ptrs.Nodup) :
    l.ptrs.Nodup ∧ r.ptrs.Nodup ∧ p ∉ l.ptrs ∧ p ∉ r.ptrs ∧ (∀ n ∈ l.ptrs, n ∉ r.ptrs) := by
  simp only [T.ptrs, List.nodup_append, List.nodup_cons, List.mem_cons] at h
  obtain ⟨h1, ⟨h2, h3⟩, h4⟩ := h
  exact ⟨h1, h3, fun hp => h4 p hp p (Or.inl rfl) rfl, h2, fun n hn hr => h4 n hn n (Or.inr hr) rfl⟩

theorem nodup_node' {l r : T δ} {p : Nat} {d : δ} (h1 : l.ptrs.Nodup) (h2 : r.ptrs.Nodup)
    (h3 : p ∉ l.ptrs) (h4 : p ∉ r.ptrs) (h5 : ∀ n ∈ l.ptrs, n ∉ r.ptrs) :
    (T.node l p d r).ptrs.Nodup := by
  simp only [T.ptrs, List.nodup_append, List.nodup_cons, List.mem_cons]
  refine ⟨h1, ⟨h4, h2⟩, ?_⟩
  rintro a ha b (rfl | hb) rfl
  · exact h3 ha
  · exact h5 a ha hb

theorem Rep.live {s : St δ} {pa : Ptr} {t : T δ} (h : Rep s pa t) {n : Nat} (hn : n ∈ t.ptrs) :
    Live s.dat n := by
  induction t generalizing pa with
  | nil => simp [T.ptrs] at hn
  | node l p d r ihl ihr =>
    obtain ⟨h1, _, _, _, h2, h3⟩ := h
    simp only [T.ptrs, List.mem_append, List.mem_cons] at hn
    rcases hn with hn | rfl | hn
    · exact ihl h2 hn
    · exact ⟨d, h1⟩
    · exact ihr h3 hn

/-- The two states agree about node `n`. -/
structure SameAt (s s' : St δ) (n : Nat) : Prop where
  dat : s'.dat n = s.dat n
  par : s'.par n = s.par n
  lft : s'.lft n = s.lft n
  rgt : s'.rgt n = s.rgt n

theorem SameAt.refl (s : St δ) (n : Nat) : SameAt s s n := ⟨rfl, rfl, rfl, rfl⟩
theorem SameAt.trans {s s1 s2 : St δ} {n : Nat} (h : SameAt s s1 n) (h' : SameAt s1 s2 n) :
    SameAt s s2 n :=
  ⟨h'.dat.trans h.dat, h'.par.trans h.par, h'.lft.trans h.lft, h'.rgt.trans h.rgt⟩

theorem Rep.congr {s s' : St δ} {pa : Ptr} {t : T δ} (h : Rep s pa t)
    (e : ∀ n ∈ t.ptrs, SameAt s s' n) : Rep s' pa t := by
  induction t generalizing pa with
  | nil => trivial
  | node l p d r ihl ihr =>
    obtain ⟨h1, h2, h3, h4, h5, h6⟩ := h
    have ep := e p (by simp [T.ptrs])
    exact ⟨ep.dat.trans h1, ep.par.trans h2, ep.lft.trans h3, ep.rgt.trans h4,
      ihl h5 fun n hn => e n (by simp [T.ptrs, hn]), ihr h6 fun n hn => e n (by simp [T.ptrs, hn])⟩

/-- The tree hangs under another parent. -/
theorem Rep.reparent {s s' : St δ} {pa pa' : Ptr} {t : T δ} (h : Rep s pa t) (hn : t.ptrs.Nodup)
    (e : ∀ n ∈ t.ptrs, some n ≠ t.root → SameAt s s' n)
    (er : ∀ n, t.root = some n → s'.dat n = s.dat n ∧ s'.lft n = s.lft n ∧ s'.rgt n = s.rgt n ∧
      s'.par n = pa') : Rep s' pa' t := by
  cases t with
  | nil => trivial
  | node l p d r =>
    obtain ⟨h1, h2, h3, h4, h5, h6⟩ := h
    obtain ⟨_, _, n1, n2, _⟩ := nodup_node hn
    obtain ⟨e1, e2, e3, e4⟩ := er p rfl
    refine ⟨e1.trans h1, e4, e2.trans h3, e3.trans h4, h5.congr fun n hn => ?_, h6.congr fun n hn => ?_⟩
    · exact e n (by simp [T.ptrs, hn]) (fun x => n1 (by cases x; exact hn))
    · exact e n (by simp [T.ptrs, hn]) (fun x => n2 (by cases x; exact hn))

/-- The members of the object and the allocator state are the same. -/
structure SameHdr (s s' : St δ) : Prop where
  next : s'.next = s.next
  lost : s'.lost = s.lost
  root : s'.root = s.root
  size : s'.size = s.size

theorem SameHdr.refl (s : St δ) : SameHdr s s := ⟨rfl, rfl, rfl, rfl⟩
theorem SameHdr.trans {s s1 s2 : St δ} (h : SameHdr s s1) (h' : SameHdr s1 s2) : SameHdr s s2 :=
  ⟨h'.next.trans h.next, h'.lost.trans h.lost, h'.root.trans h.root, h'.size.trans h.size⟩

/-! ## Rotations -/

theorem leftRotate_ok {s : St δ} {pa : Ptr} {a b c : T δ} {p q : Nat} {d e : δ}
    (h : Rep s pa (.node a p d (.node b q e c)))
    (hn : (T.node a p d (.node b q e c)).ptrs.Nodup) :
    wp (leftRotate (some p)) (fun x s' => x = some q ∧
      Rep s' pa (.node (.node a p d b) q e c) ∧ SameHdr s s' ∧ s'.dat = s.dat ∧
      ∀ n, n ∉ (T.node a p d (.node b q e c)).ptrs → SameAt s s' n) s := by
  obtain ⟨n1, n2, n3, n4, n5⟩ := nodup_node hn
  obtain ⟨m1, m2, m3, m4, m5⟩ := nodup_node n2
  obtain ⟨h1, h2, h3, h4, h5, k1, k2, k3, k4, k5, k6⟩ := h
  have lp : Live s.dat p := ⟨d, h1⟩
  have lq : Live s.dat q := ⟨e, k1⟩
  have hpq : p ≠ q := fun x => n4 (by simp [T.ptrs, x])
  unfold leftRotate
  simp only [wp_bind, wp_getRight, wp_getParent, wp_setParent, wp_getLeft, wp_setRight, wp_when, lp, lq,
    h4, T.root]
  have hb : ∀ n, b.root = some n → n ∈ b.ptrs := fun n hn => T.root_mem hn
  have hpb : p ∉ b.ptrs := fun x => n4 (by simp [T.ptrs, x])
  have hpc : p ∉ c.ptrs := fun x => n4 (by simp [T.ptrs, x])
  have hqa : q ∉ a.ptrs := fun x => n5 q x (by simp [T.ptrs])
  have hab : ∀ n ∈ a.ptrs, n ∉ b.ptrs := fun n hn x => n5 n hn (by simp [T.ptrs, x])
  have hac : ∀ n ∈ a.ptrs, n ∉ c.ptrs := fun n hn x => n5 n hn (by simp [T.ptrs, x])
  have ne : ∀ {n m : Nat} {l : List Nat}, n ∈ l → m ∉ l → n ≠ m := fun h1 h2 h => h2 (h ▸ h1)
  constructor
  · intro hbn
    obtain ⟨m, hm⟩ : ∃ m, b.root = some m := by
      rw [← k3]; exact Option.ne_none_iff_exists'.1 hbn
    have hmb := hb m hm
    have lm : Live s.dat m := k5.live hmb
    simp only [k3, hm, wp_setParent, wp_setLeft, wp_pure, lm, lp, lq]
    refine ⟨by trivial, ⟨k1, ?_, ?_, ?_, ⟨h1, ?_, ?_, ?_, ?_, ?_⟩, ?_⟩, ⟨rfl, rfl, rfl, rfl⟩, by trivial, ?_⟩
    · simp [upd, Ne.symm hpq, h2, (ne hmb m3).symm]
    · simp [T.root]
    · simp [upd, Ne.symm hpq, k4]
    · simp
    · simp [upd, hpq, h3]
    · simp [hm]
    · refine h5.congr fun n hn => ⟨rfl, ?_, ?_, ?_⟩ <;>
        simp [upd, ne hn n3, ne hn hqa, ne hn (fun x => hab m x hmb)]
    · refine k5.reparent m1 (fun n hn hr => ⟨rfl, ?_, ?_, ?_⟩) fun n hr => ?_
      · rw [hm] at hr
        simp only [upd]
        rw [if_neg (ne hn hpb), if_neg (by simpa using hr), if_neg (ne hn m3)]
      · simp [upd, ne hn m3]
      · simp [upd, ne hn hpb]
      · rw [hm] at hr; cases hr
        exact ⟨rfl, by simp [upd, ne hmb m3], by simp [upd, ne hmb hpb], by simp [upd, ne hmb hpb]⟩
    · refine k6.congr fun n hn => ⟨rfl, ?_, ?_, ?_⟩ <;>
        simp [upd, ne hn hpc, ne hn m4, ne hn (fun x => m5 m hmb x)]
    · intro n hn
      simp only [T.ptrs, List.mem_append, List.mem_cons, not_or] at hn
      obtain ⟨_, x1, x2, x3, x4⟩ := hn
      have : n ≠ m := fun x => x2 (x ▸ hmb)
      refine ⟨rfl, ?_, ?_, ?_⟩ <;> simp [upd, *]
  · intro hbn
    have hb0 : b.root = none := by rw [← k3]; exact Classical.not_not.1 hbn
    have hb1 := T.root_none.1 hb0
    subst hb1
    simp only [wp_setParent, wp_setLeft, wp_pure, lp, lq]
    refine ⟨by trivial, ⟨k1, ?_, ?_, ?_, ⟨h1, ?_, ?_, ?_, ?_, trivial⟩, ?_⟩, ⟨rfl, rfl, rfl, rfl⟩, by trivial, ?_⟩
    · simp [upd, Ne.symm hpq, h2]
    · simp [T.root]
    · simp [upd, Ne.symm hpq, k4]
    · simp
    · simp [upd, hpq, h3]
    · simp [k3]
    · refine h5.congr fun n hn => ⟨rfl, ?_, ?_, ?_⟩ <;>
        simp [upd, ne hn n3, ne hn hqa]
    · refine k6.congr fun n hn => ⟨rfl, ?_, ?_, ?_⟩ <;>
        simp [upd, ne hn hpc, ne hn m4]
    · intro n hn
      simp only [T.ptrs, List.mem_append, List.mem_cons, not_or] at hn
      obtain ⟨_, x1, x2, x3, x4⟩ := hn
      refine ⟨rfl, ?_, ?_, ?_⟩ <;> simp [upd, *]

theorem rightRotate_ok {s : St δ} {pa : Ptr} {a b c : T δ} {p q : Nat} {d e : δ}
    (h : Rep s pa (.node (.node a q e b) p d c))
    (hn : (T.node (.node a q e b) p d c).ptrs.Nodup) :
    wp (rightRotate (some p)) (fun x s' => x = some q ∧
      Rep s' pa (.node a q e (.node b p d c)) ∧ SameHdr s s' ∧ s'.dat = s.dat ∧
      ∀ n, n ∉ (T.node (.node a q e b) p d c).ptrs → SameAt s s' n) s := by
  obtain ⟨n1, n2, n3, n4, n5⟩ := nodup_node hn
  obtain ⟨m1, m2, m3, m4, m5⟩ := nodup_node n1
  obtain ⟨h1, h2, h3, h4, ⟨k1, k2, k3, k4, k5, k6⟩, h6⟩ := h
  have lp : Live s.dat p := ⟨d, h1⟩
  have lq : Live s.dat q := ⟨e, k1⟩
  have hpq : p ≠ q := fun x => n3 (by simp [T.ptrs, x])
  unfold rightRotate
  simp only [wp_bind, wp_getRight, wp_getParent, wp_setParent, wp_getLeft, wp_setLeft, wp_when, lp, lq,
    h3, T.root]
  have hpa : p ∉ a.ptrs := fun x => n3 (by simp [T.ptrs, x])
  have hpb : p ∉ b.ptrs := fun x => n3 (by simp [T.ptrs, x])
  have hqc : q ∉ c.ptrs := fun x => n5 q (by simp [T.ptrs]) x
  have hbc : ∀ n ∈ b.ptrs, n ∉ c.ptrs := fun n hn x => n5 n (by simp [T.ptrs, hn]) x
  have ne : ∀ {n m : Nat} {l : List Nat}, n ∈ l → m ∉ l → n ≠ m := fun h1 h2 h => h2 (h ▸ h1)
  constructor
  · intro hbn
    obtain ⟨m, hm⟩ : ∃ m, b.root = some m := by
      rw [← k4]; exact Option.ne_none_iff_exists'.1 hbn
    have hmb := T.root_mem hm
    have lm : Live s.dat m := k6.live hmb
    simp only [k4, hm, wp_setParent, wp_setRight, wp_pure, lm, lp, lq]
    refine ⟨by trivial, ⟨k1, ?_, ?_, ?_, ?_, ⟨h1, ?_, ?_, ?_, ?_, ?_⟩⟩, ⟨rfl, rfl, rfl, rfl⟩, by trivial, ?_⟩
    · simp [upd, Ne.symm hpq, h2, (ne hmb m4).symm]
    · simp [upd, Ne.symm hpq, k3]
    · simp [T.root]
    · refine k5.congr fun n hn => ⟨rfl, ?_, ?_, ?_⟩ <;>
        simp [upd, ne hn hpa, ne hn m3, ne hn (fun x => m5 m x hmb)]
    · simp
    · simp [hm]
    · simp [upd, hpq, h4]
    · refine k6.reparent m2 (fun n hn hr => ⟨rfl, ?_, ?_, ?_⟩) fun n hr => ?_
      · rw [hm] at hr
        simp only [upd]
        rw [if_neg (ne hn hpb), if_neg (by simpa using hr), if_neg (ne hn m4)]
      · simp [upd, ne hn hpb]
      · simp [upd, ne hn m4]
      · rw [hm] at hr; cases hr
        exact ⟨rfl, by simp [upd, ne hmb hpb], by simp [upd, ne hmb m4], by simp [upd, ne hmb hpb]⟩
    · refine h6.congr fun n hn => ⟨rfl, ?_, ?_, ?_⟩ <;>
        simp [upd, ne hn n4, ne hn hqc, ne hn (fun x => hbc m hmb x)]
    · intro n hn
      simp only [T.ptrs, List.mem_append, List.mem_cons, not_or] at hn
      obtain ⟨⟨_, x1, x2⟩, x3, x4⟩ := hn
      have : n ≠ m := fun x => x2 (x ▸ hmb)
      refine ⟨rfl, ?_, ?_, ?_⟩ <;> simp [upd, *]
  · intro hbn
    have hb0 : b.root = none := by rw [← k4]; exact Classical.not_not.1 hbn
    have hb1 := T.root_none.1 hb0
    subst hb1
    simp only [wp_setParent, wp_setRight, wp_pure, lp, lq]
    refine ⟨by trivial, ⟨k1, ?_, ?_, ?_, ?_, ⟨h1, ?_, ?_, ?_, trivial, ?_⟩⟩, ⟨rfl, rfl, rfl, rfl⟩, by trivial, ?_⟩
    · simp [upd, Ne.symm hpq, h2]
    · simp [upd, Ne.symm hpq, k3]
    · simp [T.root]
    · refine k5.congr fun n hn => ⟨rfl, ?_, ?_, ?_⟩ <;> simp [upd, ne hn hpa, ne hn m3]
    · simp
    · simp [k4]
    · simp [upd, hpq, h4]
    · refine h6.congr fun n hn => ⟨rfl, ?_, ?_, ?_⟩ <;> simp [upd, ne hn n4, ne hn hqc]
    · intro n hn
      simp only [T.ptrs, List.mem_append, List.mem_cons, not_or] at hn
      obtain ⟨⟨_, x1, x2⟩, x3, x4⟩ := hn
      refine ⟨rfl, ?_, ?_, ?_⟩ <;> simp [upd, *]

end Verif.Tree
