import Verif.HeapSort
import Verif.VectorWorld

/-! Helper lemmas: histories over a world of heaps. -/

namespace Verif.Heap

open Prog Vec

variable {α : Type}

/-- The heap held by a vector of the specification world. -/
structure Holds (R : α → α → Prop) (t : SVec α) (s : Multiset α) : Prop where
  ex : ∃ z hs, t.data = z :: hs ∧ (hs : Multiset α) = s ∧ Ord R (z :: hs) 1 0
  len : s.card ≤ 2 ^ 30

structure Abs (R : α → α → Prop) (vw : SWorld α) (sw : Spec α) : Prop where
  dead : ∀ k, sw k = none → vw k = none
  alive : ∀ k s, sw k = some s → ∃ t, vw k = some t ∧ Holds R t s

theorem Abs.put {R : α → α → Prop} {vw : SWorld α} {sw : Spec α} (h : Abs R vw sw) (k : Nat)
    {t : SVec α} {s : Multiset α} (ht : Holds R t s) : Abs R (vw.put k (some t)) (sw.put k (some s)) := by
  constructor
  · intro j hj
    simp only [SWorld.put, Spec.put] at hj ⊢
    split at hj
    · cases hj
    · rename_i hjk; rw [if_neg hjk]; exact h.dead j hj
  · intro j s' hj
    simp only [SWorld.put, Spec.put] at hj ⊢
    split at hj
    · rename_i hjk; cases hj; rw [if_pos hjk]; exact ⟨t, rfl, ht⟩
    · rename_i hjk; rw [if_neg hjk]; exact h.alive j s' hj

theorem Abs.drop {R : α → α → Prop} {vw : SWorld α} {sw : Spec α} (h : Abs R vw sw) (k : Nat) :
    Abs R (vw.put k none) (sw.put k none) := by
  constructor
  · intro j hj
    simp only [SWorld.put, Spec.put] at hj ⊢
    split
    · rfl
    · rename_i hjk; rw [if_neg hjk] at hj; exact h.dead j hj
  · intro j s' hj
    simp only [SWorld.put, Spec.put] at hj ⊢
    split at hj
    · cases hj
    · rename_i hjk; rw [if_neg hjk]; exact h.alive j s' hj

theorem Holds.nil {R : α → α → Prop} (z : α) (c : Nat) : Holds R ⟨[z], c⟩ 0 := by
  refine ⟨⟨z, [], rfl, rfl, ?_⟩, by simp⟩
  intro i x y hi _ _ _ hy
  rw [List.getElem?_eq_none (by simp; omega)] at hy; cases hy

/-- A live heap. -/
theorem Abs.get {R : α → α → Prop} {vw : SWorld α} {sw : Spec α} {w : World α} (hi : WInv w vw)
    (h : Abs R vw sw) {k : Nat} {s : Multiset α} (hk : sw k = some s) :
    ∃ v z hs cap, w.obj k = some v ∧ vw k = some ⟨z :: hs, cap⟩ ∧ v.cap = cap ∧ HRep R w.mem v z hs ∧
      (hs : Multiset α) = s ∧ hs.length ≤ 2 ^ 30 := by
  obtain ⟨t, h1, h2⟩ := h.alive k s hk
  obtain ⟨z, hs, e1, e2, e3⟩ := h2.ex
  obtain ⟨v, g1, g2, g3⟩ := hi.alive k t h1
  refine ⟨v, z, hs, t.cap, g1, ?_, g3, ⟨by rw [← e1]; exact g2, e3⟩, e2, ?_⟩
  · rw [h1, ← e1]
  · have := h2.len
    rw [← e2] at this; simpa using this

theorem put_self (sw : Spec α) (k : Nat) : sw.put k (sw k) = sw := by
  funext j; simp only [Spec.put]; split
  · rename_i h; rw [h]
  · rfl

theorem new_ok {triv : Bool} {w : World α} {vw : SWorld α} {k : Nat} (hi : WInv w vw)
    (hk : vw k = none) :
    wp (Vec.step triv (.new k)) (fun _ w' => WInv w' (vw.put k (some ⟨[], 0⟩))) w :=
  step_ok hi (by simp [Vec.specStep, hk]) trivial

/-- Moving from a live heap into a live object (a heap, or a new object). -/
theorem moveHeap_ok {R : α → α → Prop} {triv : Bool} {w : World α} {vw : SWorld α}
    {d s : Nat} {td : SVec α} {z : α} {hs : List α} {cap : Nat} (hi : WInv w vw)
    (hd : vw d = some td) (hs' : vw s = some ⟨z :: hs, cap⟩) (ho : Ord R (z :: hs) 1 0)
    (hlen : hs.length ≤ 2 ^ 30) :
    wp (moveHeap triv d s) (fun _ w' => ∃ cap', WInv w' ((vw.put d (some ⟨z :: hs, cap⟩)).put s
      (some ⟨[z], cap'⟩))) w := by
  unfold moveHeap
  rw [wp_bind]
  by_cases hds : d = s
  · subst hds
    refine wp_mono (step_ok (op := .move d d) (sw' := vw) hi (by simp [Vec.specStep, hd]) trivial) ?_
    rintro _ w1 i1
    obtain ⟨v, g1, g2, g3⟩ := i1.alive d _ hs'
    have hsz : v.sz = hs.length + 1 := by rw [g2.size]; simp
    rw [wp_bind, wp_getObj g1, wp_bind, wp_dassert]
    refine ⟨by rw [bmod32 _ (by omega) (by omega)]; omega, ?_⟩
    rw [wp_bind, wp_getObj g1, wp_bind, wp_lift]
    refine wp_mono (moveSelf_ok (R := R) i1.wf ⟨g2, ho⟩) ?_
    rintro v' m' ⟨r1, f1, w1'⟩
    rw [wp_putObj]
    have := i1.update (Or.inl g1) r1.rep rfl f1 w1'
    refine ⟨v'.cap, ?_⟩
    have e : ∀ a b : Option (SVec α), (vw.put d a).put d b = vw.put d b := by
      intro a b; funext j; simp only [SWorld.put]; split <;> rfl
    rw [e]
    exact this
  · refine wp_mono (step_ok (op := .move d s) hi (by simp [Vec.specStep, hd, hs', hds]; rfl) trivial) ?_
    rintro _ w1 i1
    obtain ⟨v, g1, g2, g3⟩ := i1.alive d ⟨z :: hs, cap⟩ (by simp [SWorld.put, hds])
    obtain ⟨u, u1, u2, u3⟩ := i1.alive s ⟨[], 0⟩ (by simp [SWorld.put])
    have hsz : v.sz = hs.length + 1 := by rw [g2.size]; simp
    rw [wp_bind, wp_getObj g1, wp_bind, wp_dassert]
    refine ⟨by rw [bmod32 _ (by omega) (by omega)]; omega, ?_⟩
    rw [wp_bind, wp_getObj u1, wp_bind, wp_lift]
    have hv0 : v.c ≠ 0 := fun h => by have := (g2.null h).2; cases this
    refine wp_mono (resizeFill_arg_ok i1.wf u2 1 (x := z) (g2.read_ok 0 (by simp))
      (Or.inr ⟨_, _, rfl, i1.sep d s v u hds g1 u1 hv0, g2.fresh⟩)) ?_
    rintro v' m' ⟨r1, c1, f1, w1'⟩
    rw [wp_putObj]
    have := i1.update (Or.inl u1) r1 c1 f1 w1'
    refine ⟨1, ?_⟩
    have e : ∀ (x : SWorld α) (a b : Option (SVec α)), (x.put s a).put s b = x.put s b := by
      intro x a b; funext j; simp only [SWorld.put]; split <;> rfl
    rw [e] at this
    simpa using this

theorem step_refines {R : α → α → Prop} {cmp : α → α → Bool} (hc : Order R cmp) {triv : Bool}
    {op : Op α} {w : World α} {vw : SWorld α} {sw : Spec α}
    (hi : WInv w vw) (habs : Abs R vw sw) (hp : Pre op sw) (ha : Avoids triv op) :
    wp (step triv cmp op) (fun _ w' => ∃ vw' sw', WInv w' vw' ∧ Abs R vw' sw' ∧
      specStep R op sw sw') w := by
  cases op with
  | new k z =>
    have hk : w.obj k = none := hi.dead k (habs.dead k hp)
    rw [step, wp_bind, wp_lift]
    refine wp_mono (ctor_ok (R := R) hi.wf z) ?_
    rintro v' m' ⟨h1, h2, h3⟩
    rw [wp_putObj]
    exact ⟨_, _, hi.update (Or.inr ⟨hk, rfl⟩) h1.rep rfl h2 h3, habs.put k (Holds.nil z _), rfl⟩
  | newRange k z xs =>
    have hk : w.obj k = none := hi.dead k (habs.dead k hp.1)
    rw [step, wp_bind, wp_lift]
    refine wp_mono (ctorRange_ok hc hi.wf z xs (fun i => .val (xs.getD i z)) hp.2 ?_ ?_) ?_
    · intro i hi'
      have : xs.getD i z = xs[i] := by simp [hi']
      rw [← this]; exact val_get _ _
    · intro i hi'
      left; simp [hi']
    · rintro v' m' ⟨hs, h1, h2, h3, h4⟩
      rw [wp_putObj]
      refine ⟨_, _, hi.update (Or.inr ⟨hk, rfl⟩) h1.rep rfl h3 h4,
        habs.put k (s := (xs : Multiset α)) ⟨⟨z, hs, rfl, Multiset.coe_eq_coe.2 h2, h1.ord⟩, ?_⟩, rfl⟩
      have := hp.2; simp; omega
  | push k x =>
    obtain ⟨s, hs, hlen⟩ := hp
    obtain ⟨v, z, hl, cap, g1, g2, g3, g4, g5, g6⟩ := habs.get hi hs
    have hcard : hl.length = s.card := by rw [← g5]; simp
    rw [step, wp_bind, wp_getObj g1, wp_bind, wp_lift]
    refine wp_mono (push_ok hc hi.wf g4 (by omega) (val_get x _) (fun _ => Or.inl rfl)) ?_
    rintro v' m' ⟨hs', h1, h2, h3, h4⟩
    rw [wp_putObj]
    refine ⟨_, _, hi.update (Or.inl g1) h1.rep rfl h3 h4,
      habs.put k (s := x ::ₘ s) ⟨⟨z, hs', rfl, ?_, h1.ord⟩, ?_⟩, ⟨s, hs, rfl⟩⟩
    · rw [← g5, Multiset.cons_coe]; exact Multiset.coe_eq_coe.2 h2
    · simp; omega
  | pop k =>
    obtain ⟨s, hs, hne⟩ := hp
    obtain ⟨v, z, hl, cap, g1, g2, g3, g4, g5, g6⟩ := habs.get hi hs
    rcases hl with _ | ⟨x, t⟩
    · exact absurd g5.symm hne
    · simp only [List.length_cons] at g6
      rw [step, wp_bind, wp_getObj g1, wp_bind, wp_lift]
      refine wp_mono (pop_ok hc hi.wf g4 (by omega)) ?_
      rintro v' m' ⟨hs', h1, h2, h3, h4⟩
      rw [wp_putObj]
      have hx := (top_ok hc g4 (by omega)).2
      refine ⟨_, _, hi.update (Or.inl g1) h1.rep rfl h3 h4,
        habs.put k (s := (t : Multiset α)) ⟨⟨z, hs', rfl, Multiset.coe_eq_coe.2 h2, h1.ord⟩, ?_⟩,
        ⟨x, t, ?_, ?_, rfl⟩⟩
      · simp; omega
      · rw [hs, ← g5]; rfl
      · intro y hy
        exact hx y (List.mem_cons_of_mem _ (by simpa using hy))
  | newCopy k s =>
    obtain ⟨hk, hs⟩ := hp
    rcases hs' : sw s with _ | t
    · exact absurd hs' hs
    obtain ⟨r, h1, h2⟩ := habs.alive s t hs'
    have hks : s ≠ k := by rintro rfl; rw [hk] at hs'; cases hs'
    rw [step, wp_bind]
    refine wp_mono (new_ok hi (habs.dead k hk)) ?_
    rintro _ w1 i1
    refine wp_mono (step_ok (op := .copy k s) (triv := triv) i1
      (by simp [Vec.specStep, SWorld.put, hks, h1]; rfl) (Or.inr (Or.inl ha))) ?_
    rintro _ w2 i2
    refine ⟨_, _, i2, ?_, rfl⟩
    rw [hs']
    have e : ((vw.put k (some ⟨[], 0⟩)).put k (some r)) = vw.put k (some r) := by
      funext j; simp only [SWorld.put]; split <;> rfl
    have := habs.put k h2
    rw [← e] at this
    exact this
  | copy d s =>
    obtain ⟨hd, hs⟩ := hp
    rcases hs' : sw s with _ | t
    · exact absurd hs' hs
    rcases hd' : sw d with _ | t'
    · exact absurd hd' hd
    obtain ⟨r, h1, h2⟩ := habs.alive s t hs'
    obtain ⟨r', h1', h2'⟩ := habs.alive d t' hd'
    refine wp_mono (step_ok (op := .copy d s) (triv := triv) hi (by simp [Vec.specStep, h1, h1']; rfl) ?_) ?_
    · rcases ha with ha | ha
      · exact Or.inl ha
      · exact Or.inr (Or.inl ha)
    · rintro _ w2 i2
      refine ⟨_, _, i2, ?_, rfl⟩
      rw [hs']
      exact habs.put d h2
  | newMove k s =>
    obtain ⟨hk, hs⟩ := hp
    rcases hs' : sw s with _ | t
    · exact absurd hs' hs
    have hks : s ≠ k := by rintro rfl; rw [hk] at hs'; cases hs'
    obtain ⟨v, z, hl, cap, g1, g2, g3, g4, g5, g6⟩ := habs.get hi hs'
    obtain ⟨r, h1, h2⟩ := habs.alive s t hs'
    rw [g2] at h1; cases h1
    rw [step, wp_bind]
    refine wp_mono (new_ok hi (habs.dead k hk)) ?_
    rintro _ w1 i1
    refine wp_mono (moveHeap_ok (R := R) (triv := triv) (d := k) (s := s) i1 (by simp [SWorld.put]; rfl)
      (by simp [SWorld.put, hks, g2]; rfl) g4.ord g6) ?_
    rintro _ w2 ⟨cap', i2⟩
    refine ⟨_, _, i2, ?_, rfl⟩
    rw [hs']
    have e : ((vw.put k (some ⟨[], 0⟩)).put k (some ⟨z :: hl, cap⟩)) = vw.put k (some ⟨z :: hl, cap⟩) := by
      funext j; simp only [SWorld.put]; split <;> rfl
    rw [e]
    exact (habs.put k h2).put s (Holds.nil z cap')
  | move d s =>
    obtain ⟨hd, hs⟩ := hp
    rcases hs' : sw s with _ | t
    · exact absurd hs' hs
    rcases hd' : sw d with _ | t'
    · exact absurd hd' hd
    obtain ⟨r', h1', h2'⟩ := habs.alive d t' hd'
    obtain ⟨v, z, hl, cap, g1, g2, g3, g4, g5, g6⟩ := habs.get hi hs'
    obtain ⟨r, h1, h2⟩ := habs.alive s t hs'
    rw [g2] at h1; cases h1
    refine wp_mono (moveHeap_ok (R := R) (triv := triv) hi h1' g2 g4.ord g6) ?_
    rintro _ w2 ⟨cap', i2⟩
    refine ⟨_, _, i2, ?_, rfl⟩
    rw [hs']
    exact (habs.put d h2).put s (Holds.nil z cap')
  | drop k =>
    rcases hk : sw k with _ | t
    · exact absurd hk hp
    obtain ⟨r, h1, h2⟩ := habs.alive k t hk
    refine wp_mono (step_ok (op := .drop k) (triv := triv) hi (by simp [Vec.specStep, h1]; rfl) trivial) ?_
    rintro _ w2 i2
    exact ⟨_, _, i2, habs.drop k, rfl⟩

theorem run_refines {R : α → α → Prop} {cmp : α → α → Bool} (hc : Order R cmp) {triv : Bool}
    {ops : List (Op α)} {w : World α} {vw : SWorld α} {sw : Spec α}
    (hi : WInv w vw) (habs : Abs R vw sw) (hp : Legal R ops sw) (ha : ∀ op ∈ ops, Avoids triv op) :
    wp (run triv cmp ops) (fun _ w' => ∃ vw' sw', WInv w' vw' ∧ Abs R vw' sw' ∧
      specRun R ops sw sw') w := by
  induction ops generalizing w vw sw with
  | nil => exact (wp_pure _ _ _).2 ⟨vw, sw, hi, habs, rfl⟩
  | cons op ops ih =>
    show wp (do step triv cmp op; run triv cmp ops) _ w
    rw [wp_bind]
    refine wp_mono (step_refines hc hi habs hp.1 (ha op (List.mem_cons_self ..))) ?_
    rintro _ w1 ⟨vw1, sw1, i1, a1, s1⟩
    refine wp_mono (ih i1 a1 (hp.2 sw1 s1) (fun o ho => ha o (List.mem_cons_of_mem _ ho))) ?_
    rintro _ w2 ⟨vw2, sw2, i2, a2, s2⟩
    exact ⟨vw2, sw2, i2, a2, sw1, s1, s2⟩

theorem Abs.shows {R : α → α → Prop} {cmp : α → α → Bool} (hc : Order R cmp) {vw : SWorld α}
    {sw : Spec α} {w : World α} (hi : WInv w vw) (h : Abs R vw sw) : Shows R w sw := by
  intro k
  refine ⟨fun hk => hi.dead k (h.dead k hk), ?_⟩
  intro s hk
  obtain ⟨v, z, hs, cap, g1, g2, g3, g4, g5, g6⟩ := h.get hi hk
  have hsz : v.sz = hs.length + 1 := by rw [g4.rep.size]; simp
  refine ⟨v, hs, g1, ?_, ?_, iterate_ok g4.rep, g5, ?_⟩
  · rw [hsz, ← g5]; simp
  · rw [hsz, ← g5]; simp
  · intro hne
    rcases hs with _ | ⟨x, t⟩
    · exact absurd g5.symm hne
    · simp only [List.length_cons] at g6
      obtain ⟨e1, e2⟩ := top_ok hc g4 (by omega)
      refine ⟨x, e1, ?_, ?_⟩
      · rw [← g5]; simp
      · intro y hy; rw [← g5] at hy; exact e2 y (by simpa using hy)

theorem Abs.init (R : α → α → Prop) : Abs R (fun _ => none) (fun _ => none) :=
  ⟨fun _ _ => rfl, fun _ _ h => by cases h⟩

end Verif.Heap
