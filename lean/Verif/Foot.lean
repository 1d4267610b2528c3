import Verif.AVLErase

/-! # Which nodes an operation on a tree uses -/

namespace Verif.Tree

open Prog

variable {δ β γ : Type}

/-- The two states agree on the members of the tree object, on the next address and on the
fields of the nodes `P`. -/
structure Agree (P : List Nat) (s s' : St δ) : Prop where
  hdr : SameHdr s s'
  same : ∀ n ∈ P, SameAt s s' n

/-- `p` returns from `s` with a result that satisfies `Q`; it does the same from every state that
agrees with `s` on the nodes `P`, and changes no other nodes. -/
def Foot (P : List Nat) (p : Prog (St δ) β) (Q : β → St δ → Prop) (s : St δ) : Prop :=
  ∃ b s1, Q b s1 ∧ Returns p s b s1 ∧ (∀ n, n ∉ P → SameAt s s1 n) ∧
    ∀ s', Agree P s s' → ∃ s1', Returns p s' b s1' ∧ Agree P s1 s1' ∧ ∀ n, n ∉ P → SameAt s' s1' n

theorem foot_pure {P : List Nat} {b : β} {Q : β → St δ → Prop} {s : St δ} (h : Q b s) : Foot P (pure b) Q s :=
  ⟨b, s, h, rfl, fun n _ => .refl s n, fun s' hs => ⟨s', rfl, hs, fun n _ => .refl s' n⟩⟩

theorem foot_bind {P : List Nat} {p : Prog (St δ) β} {f : β → Prog (St δ) γ} {Q : γ → St δ → Prop} {s : St δ}
    (h : Foot P p (fun b s1 => Foot P (f b) Q s1) s) : Foot P (p >>= f) Q s := by
  obtain ⟨b, s1, ⟨c, s2, hq, r2, o2, g2⟩, r1, o1, g1⟩ := h
  refine ⟨c, s2, hq, ?_, fun n hn => (o1 n hn).trans (o2 n hn), fun s' hs => ?_⟩
  · unfold Returns; rw [bind_returns r1]; exact r2
  · obtain ⟨s1', e1, a1, b1⟩ := g1 s' hs
    obtain ⟨s2', e2, a2, b2⟩ := g2 s1' a1
    refine ⟨s2', ?_, a2, fun n hn => (b1 n hn).trans (b2 n hn)⟩
    unfold Returns; rw [bind_returns e1]; exact e2

theorem Foot.imp {P : List Nat} {p : Prog (St δ) β} {Q R : β → St δ → Prop} {s : St δ} (h : Foot P p Q s)
    (hq : ∀ b s1, Q b s1 → R b s1) : Foot P p R s := by
  obtain ⟨b, s1, h1, h2⟩ := h
  exact ⟨b, s1, hq _ _ h1, h2⟩

theorem Foot.with_wp {P : List Nat} {p : Prog (St δ) β} {Q R : β → St δ → Prop} {s : St δ} (h : Foot P p Q s)
    (hw : wp p R s) : Foot P p (fun b s1 => Q b s1 ∧ R b s1) s := by
  obtain ⟨b, s1, h1, h2, h3⟩ := h
  exact ⟨b, s1, ⟨h1, by rw [wp_of_returns h2] at hw; exact hw⟩, h2, h3⟩

theorem Foot.weaken {P P' : List Nat} {p : Prog (St δ) β} {Q : β → St δ → Prop} {s : St δ} (h : Foot P p Q s)
    (hp : ∀ n ∈ P, n ∈ P') : Foot P' p Q s := by
  obtain ⟨b, s1, h1, h2, h3, h4⟩ := h
  refine ⟨b, s1, h1, h2, fun n hn => h3 n fun x => hn (hp n x), fun s' hs => ?_⟩
  obtain ⟨s1', e1, a1, b1⟩ := h4 s' ⟨hs.hdr, fun n hn => hs.same n (hp n hn)⟩
  refine ⟨s1', e1, ⟨a1.hdr, fun n hn => ?_⟩, fun n hn => b1 n fun x => hn (hp n x)⟩
  by_cases c : n ∈ P
  · exact a1.same n c
  · have i := h3 n c
    have j := b1 n c
    have k := hs.same n hn
    exact ⟨j.dat.trans (k.dat.trans i.dat.symm), j.par.trans (k.par.trans i.par.symm),
      j.lft.trans (k.lft.trans i.lft.symm), j.rgt.trans (k.rgt.trans i.rgt.symm)⟩

theorem Foot.of_returns {P : List Nat} {p : Prog (St δ) β} {Q R : β → St δ → Prop} {s s1 : St δ} {b : β} (h : Foot P p R s)
    (hr : Returns p s b s1) (hq : Q b s1) : Foot P p Q s := by
  obtain ⟨b', s1', h1, h2, h3⟩ := h
  obtain ⟨rfl, rfl⟩ := h2.det hr
  exact ⟨b', s1', hq, h2, h3⟩

/-- Sequencing with what is known about the first part. -/
theorem foot_seq {P P' : List Nat} {p : Prog (St δ) β} {f : β → Prog (St δ) γ} {Q : γ → St δ → Prop} {R : β → St δ → Prop}
    {s : St δ} (h : Foot P' p (fun _ _ => True) s) (hp : ∀ n ∈ P', n ∈ P) (hw : wp p R s)
    (hf : ∀ b s1, R b s1 → Foot P (f b) Q s1) : Foot P (p >>= f) Q s :=
  foot_bind (((h.weaken hp).with_wp hw).imp fun b s1 h => hf b s1 h.2)

/-- A step that only reads. -/
theorem foot_read {P : List Nat} {p : Prog (St δ) β} {b : β} {s : St δ} {Q : β → St δ → Prop} (hq : Q b s)
    (h : ∀ s', Agree P s s' → Returns p s' b s') : Foot P p Q s :=
  ⟨b, s, hq, h s ⟨.refl s, fun n _ => .refl s n⟩, fun n _ => .refl s n,
    fun s' hs => ⟨s', h s' hs, hs, fun n _ => .refl s' n⟩⟩

theorem Agree.live {P : List Nat} {s s' : St δ} (h : Agree P s s') {n : Nat} (hn : n ∈ P) (hl : Live s.dat n) :
    Live s'.dat n := by
  obtain ⟨d, hd⟩ := hl
  exact ⟨d, (h.same n hn).dat.trans hd⟩

variable {P : List Nat} {s : St δ} {n : Nat} {Q : β → St δ → Prop}

theorem foot_getLeft {f : Ptr → Prog (St δ) β} (hl : Live s.dat n) (hn : n ∈ P) (h : Foot P (f (s.lft n)) Q s) :
    Foot P (getLeft (some n) >>= f) Q s := by
  refine foot_bind (foot_read h fun s' hs => ?_)
  rw [← (hs.same n hn).lft]; exact getLeft_ok (hs.live hn hl)

theorem foot_getRight {f : Ptr → Prog (St δ) β} (hl : Live s.dat n) (hn : n ∈ P) (h : Foot P (f (s.rgt n)) Q s) :
    Foot P (getRight (some n) >>= f) Q s := by
  refine foot_bind (foot_read h fun s' hs => ?_)
  rw [← (hs.same n hn).rgt]; exact getRight_ok (hs.live hn hl)

theorem foot_getParent {f : Ptr → Prog (St δ) β} (hl : Live s.dat n) (hn : n ∈ P) (h : Foot P (f (s.par n)) Q s) :
    Foot P (getParent (some n) >>= f) Q s := by
  refine foot_bind (foot_read h fun s' hs => ?_)
  rw [← (hs.same n hn).par]; exact getParent_ok (hs.live hn hl)

theorem foot_getData {f : δ → Prog (St δ) β} {d : δ} (hl : s.dat n = some (some d)) (hn : n ∈ P) (h : Foot P (f d) Q s) :
    Foot P (getData (some n) >>= f) Q s :=
  foot_bind (foot_read h fun _ hs => getData_ok ((hs.same n hn).dat.trans hl))

theorem foot_getRoot {f : Ptr → Prog (St δ) β} (h : Foot P (f s.root) Q s) : Foot P (getRoot >>= f) Q s :=
  foot_bind (foot_read h fun _ hs => by rw [← hs.hdr.root]; rfl)

theorem foot_getSize {f : Nat → Prog (St δ) β} (h : Foot P (f s.size) Q s) : Foot P (getSize >>= f) Q s :=
  foot_bind (foot_read h fun _ hs => by rw [← hs.hdr.size]; rfl)

/-- Two functions that agree at a point still do after the same change. -/
theorem upd_agree {γ : Type} {f g : Nat → γ} {m n : Nat} {v : γ} (h : g m = f m) : upd g n v m = upd f n v m := by
  unfold upd; split
  · rfl
  · exact h

theorem foot_setLeft {Q : Unit → St δ → Prop} {q : Ptr} (hl : Live s.dat n) (hn : n ∈ P)
    (h : Q () { s with lft := upd s.lft n q }) : Foot P (setLeft (some n) q) Q s := by
  refine ⟨(), _, h, setLeft_ok hl, fun m hm => ⟨rfl, rfl, upd_ne _ _ fun e => hm (e ▸ hn), rfl⟩, fun s' hs =>
    ⟨_, setLeft_ok (hs.live hn hl), ⟨⟨hs.hdr.next, hs.hdr.lost, hs.hdr.root, hs.hdr.size⟩, fun m hm => ?_⟩,
      fun m hm => ⟨rfl, rfl, upd_ne _ _ fun e => hm (e ▸ hn), rfl⟩⟩⟩
  have := hs.same m hm
  exact ⟨this.dat, this.par, upd_agree this.lft, this.rgt⟩

theorem foot_setRight {Q : Unit → St δ → Prop} {q : Ptr} (hl : Live s.dat n) (hn : n ∈ P)
    (h : Q () { s with rgt := upd s.rgt n q }) : Foot P (setRight (some n) q) Q s := by
  refine ⟨(), _, h, setRight_ok hl, fun m hm => ⟨rfl, rfl, rfl, upd_ne _ _ fun e => hm (e ▸ hn)⟩, fun s' hs =>
    ⟨_, setRight_ok (hs.live hn hl), ⟨⟨hs.hdr.next, hs.hdr.lost, hs.hdr.root, hs.hdr.size⟩, fun m hm => ?_⟩,
      fun m hm => ⟨rfl, rfl, rfl, upd_ne _ _ fun e => hm (e ▸ hn)⟩⟩⟩
  have := hs.same m hm
  exact ⟨this.dat, this.par, this.lft, upd_agree this.rgt⟩

theorem foot_setParent {Q : Unit → St δ → Prop} {q : Ptr} (hl : Live s.dat n) (hn : n ∈ P)
    (h : Q () { s with par := upd s.par n q }) : Foot P (setParent (some n) q) Q s := by
  refine ⟨(), _, h, setParent_ok hl, fun m hm => ⟨rfl, upd_ne _ _ fun e => hm (e ▸ hn), rfl, rfl⟩, fun s' hs =>
    ⟨_, setParent_ok (hs.live hn hl), ⟨⟨hs.hdr.next, hs.hdr.lost, hs.hdr.root, hs.hdr.size⟩, fun m hm => ?_⟩,
      fun m hm => ⟨rfl, upd_ne _ _ fun e => hm (e ▸ hn), rfl, rfl⟩⟩⟩
  have := hs.same m hm
  exact ⟨this.dat, upd_agree this.par, this.lft, this.rgt⟩

theorem foot_setData {Q : Unit → St δ → Prop} {d : δ} (hl : Live s.dat n) (hn : n ∈ P)
    (h : Q () { s with dat := upd s.dat n (some (some d)) }) : Foot P (setData (some n) d) Q s := by
  refine ⟨(), _, h, setData_ok hl, fun m hm => ⟨upd_ne _ _ fun e => hm (e ▸ hn), rfl, rfl, rfl⟩, fun s' hs =>
    ⟨_, setData_ok (hs.live hn hl), ⟨⟨hs.hdr.next, hs.hdr.lost, hs.hdr.root, hs.hdr.size⟩, fun m hm => ?_⟩,
      fun m hm => ⟨upd_ne _ _ fun e => hm (e ▸ hn), rfl, rfl, rfl⟩⟩⟩
  have := hs.same m hm
  exact ⟨upd_agree this.dat, this.par, this.lft, this.rgt⟩

theorem foot_setSize {Q : Unit → St δ → Prop} {k : Nat} (h : Q () { s with size := k }) : Foot P (setSize k) Q s :=
  ⟨(), _, h, rfl, fun _ _ => ⟨rfl, rfl, rfl, rfl⟩, fun _ hs => ⟨_, rfl,
    ⟨⟨hs.hdr.next, hs.hdr.lost, hs.hdr.root, rfl⟩, fun m hm => have := hs.same m hm; ⟨this.dat, this.par, this.lft, this.rgt⟩⟩,
    fun _ _ => ⟨rfl, rfl, rfl, rfl⟩⟩⟩

theorem foot_setRoot {Q : Unit → St δ → Prop} {k : Ptr} (h : Q () { s with root := k }) :
    Foot P (modify fun s => { s with root := k }) Q s :=
  ⟨(), _, h, rfl, fun _ _ => ⟨rfl, rfl, rfl, rfl⟩, fun _ hs => ⟨_, rfl,
    ⟨⟨hs.hdr.next, hs.hdr.lost, rfl, hs.hdr.size⟩, fun m hm => have := hs.same m hm; ⟨this.dat, this.par, this.lft, this.rgt⟩⟩,
    fun _ _ => ⟨rfl, rfl, rfl, rfl⟩⟩⟩

theorem foot_when {Q : Unit → St δ → Prop} {c : Prop} [Decidable c] {p : Prog (St δ) Unit} (h1 : c → Foot P p Q s)
    (h2 : ¬ c → Q () s) : Foot P (Prog.when c p) Q s := by
  unfold Prog.when
  split
  · exact h1 ‹_›
  · exact foot_pure (h2 ‹_›)

theorem foot_updateRoot {Q : Unit → St δ → Prop} {r : Ptr} (hl : ∀ k, r = some k → Live s.dat k ∧ k ∈ P)
    (h : ∀ s', s'.dat = s.dat → Q () s') : Foot P (updateRoot r) Q s := by
  unfold updateRoot
  refine foot_bind (foot_setRoot (foot_when (fun hr => ?_) fun _ => h _ rfl))
  cases r with
  | none => exact absurd rfl hr
  | some k => exact foot_setParent (hl k rfl).1 (hl k rfl).2 (h _ rfl)

theorem foot_allocNode {Q : Nat → St δ → Prop} (hn : s.next ∈ P)
    (h : Q s.next { s with dat := upd s.dat s.next (some none), next := s.next + 1 }) : Foot P allocNode Q s := by
  refine ⟨_, _, h, rfl, fun m hm => ⟨upd_ne _ _ fun e => hm (e ▸ hn), rfl, rfl, rfl⟩, fun s' hs => ?_⟩
  refine ⟨{ s' with dat := upd s'.dat s'.next (some none), next := s'.next + 1 }, ?_, ?_, ?_⟩
  · rw [← hs.hdr.next]; rfl
  · refine ⟨⟨by rw [hs.hdr.next], hs.hdr.lost, hs.hdr.root, hs.hdr.size⟩, fun m hm => ?_⟩
    have := hs.same m hm
    refine ⟨?_, this.par, this.lft, this.rgt⟩
    simp only [hs.hdr.next]
    exact upd_agree this.dat
  · intro m hm
    exact ⟨upd_ne _ _ fun e => hm (by rw [e, hs.hdr.next]; exact hn), rfl, rfl, rfl⟩

theorem foot_constructNode {Q : Unit → St δ → Prop} {d : δ} (hl : s.dat n = some none) (hn : n ∈ P)
    (h : Q () { s with
      dat := upd s.dat n (some (some d)), par := upd s.par n none, lft := upd s.lft n none, rgt := upd s.rgt n none }) :
    Foot P (constructNode n d) Q s := by
  have hc : ∀ s' : St δ, s'.dat n = some none → Returns (constructNode n d) s' () { s' with
      dat := upd s'.dat n (some (some d)), par := upd s'.par n none, lft := upd s'.lft n none,
      rgt := upd s'.rgt n none } := by
    intro s' h'
    unfold constructNode Returns; simp [h']
  refine ⟨(), _, h, hc s hl, fun m hm => ?_, fun s' hs => ⟨_, hc s' ((hs.same n hn).dat.trans hl), ?_, fun m hm => ?_⟩⟩
  · have e : m ≠ n := fun e => hm (e ▸ hn)
    exact ⟨upd_ne _ _ e, upd_ne _ _ e, upd_ne _ _ e, upd_ne _ _ e⟩
  · refine ⟨⟨hs.hdr.next, hs.hdr.lost, hs.hdr.root, hs.hdr.size⟩, fun m hm => ?_⟩
    have := hs.same m hm
    exact ⟨upd_agree this.dat, upd_agree this.par, upd_agree this.lft, upd_agree this.rgt⟩
  · have e : m ≠ n := fun e => hm (e ▸ hn)
    exact ⟨upd_ne _ _ e, upd_ne _ _ e, upd_ne _ _ e, upd_ne _ _ e⟩

/-- The nodes of the first `k` levels of a tree. -/
def top : Nat → T δ → List Nat
  | 0, _ => []
  | _, .nil => []
  | k + 1, .node l p _ r => p :: (top k l ++ top k r)

theorem length_top (k : Nat) (t : T δ) : (top k t).length + 1 ≤ 2 ^ k := by
  induction k generalizing t with
  | zero => simp [top]
  | succ k ih =>
    cases t with
    | nil => have := Nat.one_le_two_pow (n := k + 1); simp only [top, List.length_nil]; omega
    | node l p d r =>
      have h1 := ih l
      have h2 := ih r
      simp only [top, List.length_cons, List.length_append, Nat.pow_succ]
      omega

theorem top_succ (k : Nat) (t : T δ) : ∀ n ∈ top k t, n ∈ top (k + 1) t := by
  induction k generalizing t with
  | zero => simp [top]
  | succ k ih =>
    cases t with
    | nil => simp [top]
    | node l p d r =>
      intro n hn
      rw [top, List.mem_cons, List.mem_append] at hn ⊢
      exact hn.imp_right (Or.imp (ih l n) (ih r n))

theorem top_mem (k : Nat) (t : T δ) : ∀ n ∈ top k t, n ∈ t.ptrs := by
  induction k generalizing t with
  | zero => simp [top]
  | succ k ih =>
    cases t with
    | nil => simp [top]
    | node l p d r =>
      intro n hn
      rw [top, List.mem_cons, List.mem_append] at hn
      simp only [T.ptrs, List.mem_append, List.mem_cons]
      rcases hn with rfl | hn | hn
      · exact Or.inr (Or.inl rfl)
      · exact Or.inl (ih l n hn)
      · exact Or.inr (Or.inr (ih r n hn))

/-- `left_rotate` uses the two nodes and the root of the subtree that moves. -/
theorem leftRotate_foot {pa : Ptr} {a b c : T δ} {p q : Nat} {d e : δ} (h : Rep s pa (.node a p d (.node b q e c)))
    (hp : p ∈ P) (hq : q ∈ P) (hb : ∀ n ∈ top 1 b, n ∈ P) : Foot P (leftRotate (some p)) (fun _ _ => True) s := by
  obtain ⟨h1, h2, h3, h4, h5, k1, k2, k3, k4, k5, k6⟩ := h
  simp only [T.root] at h4
  have lp : Live s.dat p := ⟨d, h1⟩
  have lq : Live s.dat q := ⟨e, k1⟩
  unfold leftRotate
  refine foot_getRight lp hp (foot_getParent lp hp ?_)
  rw [h4]
  refine foot_bind (foot_setParent lq hq (foot_getLeft lq hq (foot_bind (foot_setRight lp hp (foot_getLeft lq hq
    (foot_bind (foot_when ?_ ?_)))))))
  · intro hne
    simp only [k3] at hne ⊢
    cases b with
    | nil => exact absurd rfl hne
    | node b1 m f b2 =>
      exact foot_setParent ⟨f, k5.1⟩ (hb m (by simp [top])) (foot_bind (foot_setParent lp hp (foot_bind
        (foot_setLeft lq hq (foot_pure trivial)))))
  · intro _
    exact foot_bind (foot_setParent lp hp (foot_bind (foot_setLeft lq hq (foot_pure trivial))))

theorem rightRotate_foot {pa : Ptr} {a b c : T δ} {p q : Nat} {d e : δ} (h : Rep s pa (.node (.node a q e b) p d c))
    (hp : p ∈ P) (hq : q ∈ P) (hb : ∀ n ∈ top 1 b, n ∈ P) : Foot P (rightRotate (some p)) (fun _ _ => True) s := by
  obtain ⟨h1, h2, h3, h4, ⟨k1, k2, k3, k4, k5, k6⟩, h6⟩ := h
  simp only [T.root] at h3
  have lp : Live s.dat p := ⟨d, h1⟩
  have lq : Live s.dat q := ⟨e, k1⟩
  unfold rightRotate
  refine foot_getLeft lp hp (foot_getParent lp hp ?_)
  rw [h3]
  refine foot_bind (foot_setParent lq hq (foot_getRight lq hq (foot_bind (foot_setLeft lp hp (foot_getRight lq hq
    (foot_bind (foot_when ?_ ?_)))))))
  · intro hne
    simp only [k4] at hne ⊢
    cases b with
    | nil => exact absurd rfl hne
    | node b1 m f b2 =>
      exact foot_setParent ⟨f, k6.1⟩ (hb m (by simp [top])) (foot_bind (foot_setParent lp hp (foot_bind
        (foot_setRight lq hq (foot_pure trivial)))))
  · intro _
    exact foot_bind (foot_setParent lp hp (foot_bind (foot_setRight lq hq (foot_pure trivial))))

end Verif.Tree
