import Verif.HeapLemmas

/-! Helper lemmas: the heap operations. -/

namespace Verif.Heap

open Prog Vec

variable {α : Type}

/-- `v` is a heap object with sentinel `z` and the elements `hs` in slot order. -/
structure HRep (R : α → α → Prop) (m : Mem α) (v : Vec) (z : α) (hs : List α) : Prop where
  rep : Rep m v (z :: hs)
  ord : Ord R (z :: hs) 1 0

theorem HRep.nil {R : α → α → Prop} {m : Mem α} {v : Vec} {z : α} (h : Rep m v [z]) :
    HRep R m v z [] := by
  refine ⟨h, ?_⟩
  intro i x y hi _ _ _ hy
  rw [List.getElem?_eq_none (by simp; omega)] at hy; cases hy

theorem HRep.mono {R : α → α → Prop} {m m' : Mem α} {v : Vec} {z : α} {hs : List α}
    (h : HRep R m v z hs) (hb : m'.blk v.c = m.blk v.c) (hn : m.next ≤ m'.next) : HRep R m' v z hs :=
  ⟨h.rep.mono hb hn, h.ord⟩

theorem HRep.ne {R : α → α → Prop} {m : Mem α} {v : Vec} {z : α} {hs : List α}
    (h : HRep R m v z hs) : v.c ≠ 0 := fun h0 => by
  have := (h.rep.null h0).2; cases this

theorem Sift.tail {m m' : Mem α} {v : Vec} {z : α} {l : List α} {l' : List α}
    (h : Sift m v (z :: l) m' l') : ∃ t, l' = z :: t ∧ t.Perm l := by
  have h0 := h.zero
  rcases l' with _ | ⟨a, t⟩
  · simp at h0
  · simp only [List.getElem?_cons_zero, Option.some.injEq] at h0
    subst h0
    exact ⟨t, rfl, (List.perm_cons _).1 h.perm⟩

theorem top_ok {R : α → α → Prop} {cmp : α → α → Bool} (hc : Order R cmp) {m : Mem α} {v : Vec}
    {z x : α} {t : List α} (h : HRep R m v z (x :: t)) (hlen : t.length + 2 < 2 ^ 31) :
    Returns (top v) m x m ∧ ∀ y ∈ x :: t, R x y := by
  constructor
  · exact (index_ok h.rep (by simpa using hlen) 1 (by simp)).1
  · intro y hy
    obtain ⟨i, hi, rfl⟩ := List.getElem_of_mem hy
    exact root_le hc.refl hc.trans h.ord (x := x) (by simp) (i + 1) _ (by omega) (by simp)

theorem push_ok {R : α → α → Prop} {cmp : α → α → Bool} (hc : Order R cmp) {triv : Bool} {m : Mem α}
    {v : Vec} {z x : α} {hs : List α} {e : Arg α} (hw : m.WF) (h : HRep R m v z hs)
    (hlen : hs.length + 2 < 2 ^ 31) (hx : Returns e.get m x m)
    (hx' : hs.length + 1 = v.cap → e = .val x ∨ ∃ b i, e = .ref b i ∧ b ≠ v.c ∧ b < m.next) :
    wp (push triv cmp v e) (fun v' m' => ∃ hs', HRep R m' v' z hs' ∧ hs'.Perm (x :: hs) ∧
      Frame m m' v v' ∧ m'.WF) m := by
  unfold push
  rw [wp_bind]
  refine wp_mono (pushBack_ok hw h.rep hx (by simpa using hx')) ?_
  rintro v1 m1 ⟨r1, c1, f1, w1⟩
  have hsz : v1.sz = hs.length + 2 := by rw [r1.size]; simp
  have hcast : Int.bmod ((v1.sz : Int) - 1) (2 ^ 32) = ((hs.length + 1 : Nat) : Int) := by
    rw [bmod32 _ (by omega) (by omega)]; omega
  rw [wp_bind]
  unfold adjustUp
  rw [hcast]
  refine wp_mono (adjustUpLoop_ok hc (hs.length + 1) w1 r1 (by simp; omega) (by simp) (by omega) ?_ ?_) ?_
  · intro i a b hi hik ha hb
    have hlt := (List.getElem?_eq_some_iff.1 hb).1
    simp at hlt
    rw [List.getElem?_append_left (by simp; omega)] at ha hb
    exact h.ord i a b hi (by omega) (by omega) ha hb
  · intro c a b hcp _ _ _ hb
    have hlt := (List.getElem?_eq_some_iff.1 hb).1
    simp at hlt; omega
  · rintro _ m2 ⟨l2, s2, o2⟩
    rw [wp_pure]
    obtain ⟨t, rfl, ht⟩ := Sift.tail (z := z) (l := hs ++ [x]) s2
    refine ⟨t, ⟨s2.rep, o2⟩, ht.trans List.perm_append_comm, f1.trans hw s2.frame s2.wf.null, s2.wf⟩

theorem pop_ok {R : α → α → Prop} {cmp : α → α → Bool} (hc : Order R cmp) {triv : Bool} {m : Mem α}
    {v : Vec} {z x : α} {t : List α} (hw : m.WF) (h : HRep R m v z (x :: t))
    (hlen : t.length < 2 ^ 30) :
    wp (pop triv cmp v) (fun v' m' => ∃ hs', HRep R m' v' z hs' ∧ hs'.Perm t ∧
      Frame m m' v v' ∧ m'.WF) m := by
  unfold pop
  rw [wp_bind, wp_of_returns (back_ok h.rep (by simp)), wp_bind]
  refine wp_mono (setIndex_ok hw h.rep (by simp; omega) 1 1 (by simp) (Or.inl rfl)) ?_
  rintro _ m1 ⟨r1, f1, w1⟩
  rw [wp_bind]
  refine wp_mono (popBack_ok w1 r1 (by simp)) ?_
  rintro v2 m2 ⟨r2, c2, f2, w2⟩
  -- the list after the two steps
  have key : ∃ s, ((z :: x :: t).set 1 ((z :: x :: t).getLast (by simp))).dropLast = z :: s ∧
      s.Perm t ∧ (∀ i, 2 ≤ i → ∀ y, (z :: s)[i]? = some y → (z :: x :: t)[i]? = some y) := by
    rcases List.eq_nil_or_concat t with rfl | ⟨t', y, rfl⟩
    · exact ⟨[], by simp, List.Perm.refl _, fun i hi y hy => by
        rw [List.getElem?_eq_none (by simp; omega)] at hy; cases hy⟩
    · refine ⟨y :: t', ?_, ?_, ?_⟩
      · have : (z :: x :: t'.concat y).getLast (by simp) = y := by
          simp only [List.concat_eq_append, ← List.cons_append, List.getLast_concat]
        rw [this]
        simp only [List.concat_eq_append, List.set_cons_succ, List.set_cons_zero]
        simp only [← List.cons_append, List.dropLast_concat]
      · simpa using (List.perm_append_comm (l₁ := [y]) (l₂ := t'))
      · intro i hi w hw
        obtain ⟨j, rfl⟩ : ∃ j, i = j + 2 := ⟨i - 2, by omega⟩
        simp only [List.getElem?_cons_succ] at hw ⊢
        have hlt := (List.getElem?_eq_some_iff.1 hw).1
        rw [List.concat_eq_append, List.getElem?_append_left hlt]; exact hw
  obtain ⟨s, e1, e2, e3⟩ := key
  rw [e1] at r2
  have hsl : s.length = t.length := e2.length_eq
  have hsz : v2.sz = s.length + 1 := by rw [r2.size]; simp
  rw [wp_bind]
  unfold adjustDown
  have hcast : Int.bmod (v2.sz : Int) (2 ^ 32) = ((z :: s).length : Nat) := by
    rw [bmod32 _ (by omega) (by omega), hsz]; simp
  rw [hcast, show (1 : Int) = ((1 : Nat) : Int) from rfl]
  refine wp_mono (adjustDownLoop_ok hc (lo := 1) (z :: s).length 1 w2 r2 (by simp; omega) (by simp) ?_
    Nat.le.refl (Or.inl (by omega)) Nat.le.refl ?_ ?_) ?_
  · have : (z :: s).length = s.length + 1 := rfl
    omega
  · intro i a b hi h1 h2 ha hb
    exact h.ord i a b hi h1 (by omega) (e3 _ (by omega) _ ha) (e3 _ hi _ hb)
  · intro c a b hcp h2; omega
  · rintro _ m3 ⟨l3, s3, o3⟩
    rw [wp_pure]
    obtain ⟨t', rfl, ht'⟩ := s3.tail
    exact ⟨t', ⟨s3.rep, o3⟩, ht'.trans e2,
      (f1.trans hw f2 w2.null).trans hw s3.frame s3.wf.null, s3.wf⟩

theorem ctor_ok {R : α → α → Prop} {triv : Bool} {m : Mem α} (hw : m.WF) (z : α) :
    wp (ctor triv z) (fun v' m' => HRep R m' v' z [] ∧ Frame m m' Vec.empty v' ∧ m'.WF) m := by
  refine wp_mono (ctorFill_ok hw 1 (by simp) z) ?_
  rintro v' m' ⟨h1, _, h3, h4⟩
  exact ⟨HRep.nil (by simpa using h1), h3, h4⟩

/-- The copying loop of the range constructor. -/
theorem copyLoop_ok {triv : Bool} {m : Mem α} (hw : m.WF) {z : α} (xs : List α) (src : Nat → Arg α)
    (hsrc : ∀ i, (hi : i < xs.length) → Returns (src i).get m xs[i] m)
    (hst : ∀ i, (hi : i < xs.length) → src i = .val xs[i] ∨ ∃ b j, src i = .ref b j ∧ b < m.next)
    {v2 : Vec} {m2 : Mem α} (r2 : Rep m2 v2 [z]) (c2 : v2.cap = xs.length + 1)
    (f2 : Frame m m2 Vec.empty v2) (w2 : m2.WF) :
    wp (forRange xs.length 0 v2 fun i v => pushBack triv v (src i))
      (fun v' m' => Rep m' v' (z :: xs) ∧ Frame m m' Vec.empty v' ∧ m'.WF) m2 := by
  have hloop := wp_forRange (σ := Mem α)
    (I := fun i v' m' => Rep m' v' (z :: xs.take i) ∧ v'.cap = xs.length + 1 ∧
      Frame m m' Vec.empty v' ∧ m'.WF)
    (f := fun i v => pushBack triv v (src i)) xs.length 0 v2 m2
    ⟨by simpa using r2, c2, f2, w2⟩ ?_
  · refine wp_mono hloop ?_
    rintro v3 m3 ⟨r3, _, f3, w3⟩
    simp only [Nat.zero_add, List.take_length] at r3
    exact ⟨r3, f3, w3⟩
  · rintro i v' m' _ hi ⟨r', c', f', w'⟩
    have hi' : i < xs.length := by omega
    have hs : src i = .val xs[i] ∨ ∃ b j, src i = .ref b j ∧ b ≠ Vec.empty.c ∧ b < m.next := by
      rcases hst i hi' with h | ⟨b, j, h, h'⟩
      · exact Or.inl h
      · refine Or.inr ⟨b, j, h, ?_, h'⟩
        rintro rfl
        have := hsrc i hi'
        rw [h] at this
        simp [Returns, Arg.get, Vec.read, access, Prog.bind_apply, Vec.empty] at this
    have hx := get_frame (hsrc i hi') hs f'
    refine wp_mono (pushBack_ok w' r' hx ?_) ?_
    · intro hfull; simp at hfull; omega
    · rintro v4 m4 ⟨r4, c4, f4, w4⟩
      refine ⟨?_, ?_, f'.trans hw f4 w4.null, w4⟩
      · rw [List.take_succ_eq_append_getElem hi']; simpa using r4
      · rw [c4, c', growCap]; simp; omega

theorem ctorRange_ok {R : α → α → Prop} {cmp : α → α → Bool} (hc : Order R cmp) {triv : Bool}
    {m : Mem α} (hw : m.WF) (z : α) (xs : List α) (src : Nat → Arg α)
    (hlen : xs.length + 1 ≤ 2 ^ 30)
    (hsrc : ∀ i, (hi : i < xs.length) → Returns (src i).get m xs[i] m)
    (hst : ∀ i, (hi : i < xs.length) → src i = .val xs[i] ∨ ∃ b j, src i = .ref b j ∧ b < m.next) :
    wp (ctorRange triv cmp z xs.length src) (fun v' m' => ∃ hs, HRep R m' v' z hs ∧ hs.Perm xs ∧
      Frame m m' Vec.empty v' ∧ m'.WF) m := by
  unfold ctorRange
  rw [wp_bind]
  refine wp_mono (ctor_ok (R := R) hw z) ?_
  rintro v1 m1 ⟨h1, f1, w1⟩
  rw [wp_bind]
  refine wp_mono (resize_ok w1 h1.rep (xs.length + 1)) ?_
  rintro v2 m2 ⟨r2, c2, f2, w2, _⟩
  rw [List.take_of_length_le (by simp)] at r2
  rw [wp_bind]
  refine wp_mono (copyLoop_ok hw xs src hsrc hst (by simpa using r2) c2 (f1.trans hw f2 w2.null) w2) ?_
  rintro v3 m3 ⟨r3, f3, w3⟩
  have hsz : v3.sz = xs.length + 1 := by rw [r3.size]; simp
  simp only [hsz, Nat.add_sub_cancel]
  rw [wp_bind]
  -- bottom-up construction
  have hb := wp_forRange (σ := Mem α)
    (I := fun i _ m' => ∃ l', Sift m3 v3 (z :: xs) m' l' ∧ Ord R l' (xs.length / 2 - i + 1) 0)
    (f := fun i _ => adjustDown cmp v3 ((xs.length / 2 - i : Nat) : Int)) (xs.length / 2) 0 () m3
    ⟨_, ⟨r3, Frame.refl _ _, w3, List.Perm.refl _, rfl⟩, ?_⟩ ?_
  · refine wp_mono hb ?_
    rintro _ m4 ⟨l4, s4, o4⟩
    rw [wp_pure]
    obtain ⟨t, rfl, ht⟩ := s4.tail
    refine ⟨t, ⟨s4.rep, ?_⟩, ht, f3.trans hw s4.frame s4.wf.null, s4.wf⟩
    rwa [show xs.length / 2 - (0 + xs.length / 2) + 1 = 1 by omega] at o4
  · intro i a b hi h1 _ _ hb'
    have := (List.getElem?_eq_some_iff.1 hb').1
    simp at this; omega
  · rintro i _ m4 _ hi ⟨l4, s4, o4⟩
    have hl4 : l4.length = xs.length + 1 := by rw [s4.perm.length_eq]; simp
    unfold adjustDown
    have hcast : Int.bmod (v3.sz : Int) (2 ^ 32) = (l4.length : Nat) := by
      rw [bmod32 _ (by omega) (by omega), hsz, hl4]
    rw [hcast]
    refine wp_mono (adjustDownLoop_ok hc (lo := xs.length / 2 - i) l4.length (xs.length / 2 - i)
      s4.wf s4.rep (by omega) (by omega) (by omega) (by omega) (by omega) Nat.le.refl ?_ ?_) ?_
    · intro j a b hj h1 h2 ha hb'
      exact o4 j a b hj (by omega) (by omega) ha hb'
    · intro c a b hcp h2 h3; omega
    · rintro _ m5 ⟨l5, s5, o5⟩
      refine ⟨l5, ⟨s5.rep, s4.frame.trans w3 s5.frame s5.wf.null, s5.wf, s5.perm.trans s4.perm,
        s5.zero.trans s4.zero⟩, ?_⟩
      rwa [show xs.length / 2 - (i + 1) + 1 = xs.length / 2 - i by omega]

theorem moveSelf_ok {R : α → α → Prop} {triv : Bool} {m : Mem α} {v : Vec} {z : α} {hs : List α}
    (hw : m.WF) (hv : HRep R m v z hs) :
    wp (resizeFill triv v 1 (.ref v.c 0)) (fun v' m' => HRep R m' v' z [] ∧ Frame m m' v v' ∧ m'.WF) m := by
  have hsz : v.sz = hs.length + 1 := by rw [hv.rep.size]; simp
  rw [resizeFill_eq _ _ _ _ (by simp) (fun h => (hv.rep.buf h).1), wp_bind]
  refine wp_mono (resize_ok hw hv.rep 1) ?_
  rintro v' m' ⟨r1, c1, f1, w1, _⟩
  rw [hsz, show 1 - (hs.length + 1) = 0 by omega]
  simp only [forRange, pure_bind]
  rw [wp_pure]
  have hv' : ({ sz := 1, cap := 1, c := v'.c } : Vec) = v' := by
    have := r1.size
    simp at this
    cases v'; simp_all
  rw [hv']
  exact ⟨HRep.nil (by simpa using r1), f1, w1⟩

theorem iterate_ok {m : Mem α} {v : Vec} {z : α} {hs : List α} (h : Rep m v (z :: hs)) :
    Returns (iterate v) m hs m := by
  have hsz : v.sz - 1 = hs.length := by rw [h.size]; simp
  have := wp_forRange (σ := Mem α) (I := fun i acc m' => m' = m ∧ acc = hs.take (i - 1))
    (f := fun i acc => do
      let x ← Vec.read v.c i
      pure (acc ++ [x])) hs.length 1 [] m ⟨rfl, by simp⟩ ?_
  · obtain ⟨a, s', e, h1, h2⟩ := this
    unfold iterate Returns
    rw [hsz, e, h1, h2]; simp
  · rintro i acc m' hi hi2 ⟨rfl, rfl⟩
    have hr := h.read_ok i (by simp; omega)
    rw [wp_bind, wp_of_returns hr, wp_pure]
    refine ⟨rfl, ?_⟩
    obtain ⟨j, rfl⟩ : ∃ j, i = j + 1 := ⟨i - 1, by omega⟩
    simp only [Nat.add_sub_cancel, List.getElem_cons_succ]
    rw [List.take_succ_eq_append_getElem (by omega)]

end Verif.Heap
