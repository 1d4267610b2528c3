import Verif.HeapPoolSim
import Verif.Props.VectorPool
import Verif.Spec.HeapPool

/-! Helper lemmas: worlds of heaps in the static pool. -/

namespace Verif.HPool

open Prog Vec Pool

variable {α : Type} {c : Sma.Cfg} {K : Elem α} {F : Rest}

/-- Moving from a live object into a live object. -/
theorem moveHeap_sim (hc : Sma.Legal c) (hM : 2 * c.M + 8 < 2 ^ 31) (hK : 2 * K.size + 8 < 2 ^ 31)
    {f : Nat → Nat} {w w' : World α} {sw : SWorld α} {pw : PWorld} {d t : Nat} {sd st : SVec α}
    (hI : Vec.WInv w sw) (h : WR c K F f w pw) (hd : sw d = some sd) (ht : sw t = some st)
    (hr : Returns (Heap.moveHeap K.triv d t) w () w') :
    StepSim c K F (∃ pw1, Returns (Pool.step .port c K (.move d t)) pw () pw1 ∧ Short c K pw1.pool 1) f pw w'
      (moveHeap .port c K d t) := by
  obtain ⟨_, w1, r1, r2⟩ := returns_bind hr
  obtain ⟨sw1, hsw1⟩ : ∃ sw1, Vec.specStep (.move d t) sw = some sw1 := by
    by_cases hdt : d = t <;> simp [Vec.specStep, hd, ht, hdt]
  obtain ⟨_, w1', r1', hI1⟩ := step_ok (triv := K.triv) hI hsw1 trivial
  obtain ⟨_, rfl⟩ := r1.det r1'
  rcases step_pool hc hM hK hI h (show Pool.Sized K.size (.move d t : Vec.Op α) from trivial) r1 with
    ⟨hf, _⟩ | ⟨pw1, f1, e1, e2⟩
  · exact hf.elim
  obtain ⟨v, hv, r3⟩ := getObj_bind r2
  obtain ⟨_, w2, r4, r5⟩ := returns_bind r3
  obtain ⟨hpos, rfl⟩ := returns_check r4
  obtain ⟨u, hu, r6⟩ := getObj_bind r5
  have ho := WInv.old hI1
  have hfit : Fit K 1 := by unfold Fit; omega
  have key := store_sim e2 ho (resizeFill_sim hc e2.mem u (ho t u hu) 1 hfit (.ref v.c 0) (ho d v hv)) r6
  have kv : pw1.obj d = some (vmap f1 v) := by rw [e2.obj d, hv]; rfl
  have ku : pw1.obj t = some (vmap f1 u) := by rw [e2.obj t, hu]; rfl
  have eq : moveHeap .port c K d t pw = (lift (resizeFill (poolOps .port c K) (vmap f1 u) 1
      (argMap f1 (.ref v.c 0))) >>= fun v => Pool.putObj t (some v)) pw1 := by
    unfold moveHeap
    rw [bind_returns e1, bind_returns (getObj_returns kv),
      bind_returns (show Returns (dassert (0 < Int.bmod (vmap f1 v).sz (2 ^ 32))) pw1 () pw1 from check_ok pw1 hpos),
      bind_returns (getObj_returns ku)]
    rfl
  unfold StepSim Faults Returns at *
  rw [eq]
  rcases key with ⟨k1, k2⟩ | k
  · exact Or.inl ⟨⟨pw1, e1, k1⟩, k2⟩
  · exact Or.inr k

/-- Moving into a new object does not touch the pool. -/
theorem move_empty {pw : PWorld} {d t : Nat} (hd : pw.obj d = some Vec.empty) {pw1 : PWorld}
    (h : Returns (Pool.step .port c K (.move d t)) pw () pw1) : pw1.pool = pw.pool := by
  have get : ∀ {k : Nat} {u : Vec} {w1 : PWorld}, Returns (Pool.getObj k) pw u w1 →
      pw.obj k = some u ∧ w1 = pw := by
    intro k u w1 r1
    unfold Returns Pool.getObj at r1
    split at r1
    · cases r1
    · rename_i x hx; cases r1; exact ⟨hx, rfl⟩
  obtain ⟨v, w0, r0, h⟩ := returns_bind h
  obtain ⟨hv, rfl⟩ := get r0
  rw [hd] at hv; cases hv
  obtain ⟨u, w1, r1, r2⟩ := returns_bind h
  obtain ⟨_, rfl⟩ := get r1
  split at r2
  · obtain ⟨_, rfl⟩ := returns_pure r2; rfl
  · cases r2; rfl

/-- What must be missing for an operation to stop. -/
def Lacks (c : Sma.Cfg) (K : Elem α) (s : Sma.St) (w : World α) : Heap.Op α → Prop
  | .new _ _ => Short c K s 1
  | .newMove _ _ => Short c K s 1
  | .push k _ => ∃ v, w.obj k = some v ∧ v.cap < v.sz + 1 ∧ Short c K s (max 2 (2 * v.sz))
  | .pop k => ∃ v, w.obj k = some v ∧ v.sz - 1 < v.cap / 3
  | .drop _ => False
  | _ => True

theorem step_sim {R : α → α → Prop} (hc : Sma.Legal c) (hM : 2 * c.M + 8 < 2 ^ 31)
    (hK : 2 * K.size + 8 < 2 ^ 31)
    {cmp : α → α → Bool} {op : Heap.Op α} {f : Nat → Nat} {w w' : World α} {vw : SWorld α} {sw : Heap.Spec α}
    {pw : PWorld} (hI : Vec.WInv w vw) (habs : Heap.Abs R vw sw) (h : WR c K F f w pw) (hp : Heap.Pre op sw)
    (hz : Sized K.size op) (hr : Returns (Heap.step K.triv cmp op) w () w') :
    StepSim c K F (Lacks c K pw.pool w op) f pw w' (step .port c K cmp op) := by
  have ho := WInv.old hI
  have hfit : Fit K 1 := by unfold Fit; omega
  cases op with
  | new k x => exact store_sim h ho (ctor_sim hc h.mem x hfit) hr
  | newRange k x xs =>
    exact store_sim h ho ((ctorRange_sim hc h.mem cmp x xs.length (fun i => .val (xs.getD i x))
      (fun _ => trivial) hfit hz.1).mono id (fun _ _ _ _ _ h => h.1)) hr
  | push k x =>
    obtain ⟨v, hv, hr⟩ := getObj_bind hr
    obtain ⟨t, ht, h2, h3⟩ := WInv.fresh hI hv
    obtain ⟨c1, c2⟩ := cap_pool hc h.mem h2
    refine StepSim.getObj h hv ((store_sim h ho (push_sim hc h.mem cmp v (ho k v hv) (fun _ => ?_)
      (.val x) trivial) hr).mono (fun g => ⟨v, hv, g⟩))
    rw [h2.size]; exact fit_push hM hK (mul_le_of_le c1 c2)
  | pop k =>
    obtain ⟨v, hv, hr⟩ := getObj_bind hr
    obtain ⟨t, ht, h2, h3⟩ := WInv.fresh hI hv
    obtain ⟨c1, c2⟩ := cap_pool hc h.mem h2
    have c3 := mul_le_of_le c1 (Nat.div_le_self v.cap 2)
    refine StepSim.getObj h hv ((store_sim h ho (pop_sim hc h.mem cmp v (ho k v hv) ?_) hr).mono
      (fun g => ⟨v, hv, g.1⟩))
    unfold Fit; omega
  | newCopy k t =>
    obtain ⟨_, w1, r1, r2⟩ := returns_bind hr
    have hk : vw k = none := habs.dead k hp.1
    obtain ⟨_, w1', r1', hI1⟩ := Heap.new_ok (triv := K.triv) hI hk
    obtain ⟨_, rfl⟩ := r1.det r1'
    rcases step_pool hc hM hK hI h (show Pool.Sized K.size (.new k : Vec.Op α) from trivial) r1 with
      ⟨hf, _⟩ | ⟨pw1, f1, e1, e2⟩
    · exact hf.elim
    have := step_pool hc hM hK hI1 e2 (show Pool.Sized K.size (.copy k t : Vec.Op α) from trivial) r2
    have eq : step .port c K cmp (.newCopy k t) pw = Pool.step .port c K (.copy k t) pw1 := bind_returns e1
    unfold StepSim Faults Returns at *
    rw [eq]
    rcases this with ⟨_, g⟩ | g
    · exact Or.inl ⟨trivial, g⟩
    · exact Or.inr g
  | copy d t =>
    exact (step_pool hc hM hK hI h (show Pool.Sized K.size (.copy d t : Vec.Op α) from trivial) hr).mono
      (fun _ => trivial)
  | newMove k t =>
    obtain ⟨_, w1, r1, r2⟩ := returns_bind hr
    have hk : vw k = none := habs.dead k hp.1
    obtain ⟨_, w1', r1', hI1⟩ := Heap.new_ok (triv := K.triv) hI hk
    obtain ⟨_, rfl⟩ := r1.det r1'
    rcases step_pool hc hM hK hI h (show Pool.Sized K.size (.new k : Vec.Op α) from trivial) r1 with
      ⟨hf, _⟩ | ⟨pw1, f1, e1, e2⟩
    · exact hf.elim
    rcases hs : sw t with _ | s'
    · exact absurd hs hp.2
    obtain ⟨st, hst, _⟩ := habs.alive t s' hs
    have htk : t ≠ k := by rintro rfl; rw [hk] at hst; cases hst
    have := moveHeap_sim hc hM hK hI1 e2 (d := k) (t := t) (sd := ⟨[], 0⟩) (st := st)
      (by simp [SWorld.put]) (by simp [SWorld.put, htk, hst]) r2
    have eq : step .port c K cmp (.newMove k t) pw = moveHeap .port c K k t pw1 := bind_returns e1
    unfold StepSim Faults Returns at *
    rw [eq]
    rcases this with ⟨⟨pw2, g1, g2⟩, g⟩ | g
    · refine Or.inl ⟨?_, g⟩
      have hobj : pw1.obj k = some Vec.empty := by cases e1; simp
      have hpool : pw1.pool = pw.pool := by cases e1; rfl
      rw [move_empty hobj g1, hpool] at g2
      exact g2
    · exact Or.inr g
  | move d t =>
    rcases hs : sw t with _ | s'
    · exact absurd hs hp.2
    rcases hd : sw d with _ | d'
    · exact absurd hd hp.1
    obtain ⟨st, hst, _⟩ := habs.alive t s' hs
    obtain ⟨sd, hsd, _⟩ := habs.alive d d' hd
    exact (moveHeap_sim hc hM hK hI h hsd hst hr).mono (fun _ => trivial)
  | drop k =>
    exact (step_pool hc hM hK hI h (show Pool.Sized K.size (.drop k : Vec.Op α) from trivial) hr).mono id

/-- What is allowed meets the bounds of `Heap.Pre`: the pool is too small for larger heaps. -/
theorem pre_of_allowed {R : α → α → Prop} (hc : Sma.Legal c) (hM : 2 * c.M + 8 < 2 ^ 31)
    {op : Heap.Op α} {f : Nat → Nat} {w : World α} {vw : SWorld α} {sw : Heap.Spec α}
    {pw : PWorld} (hI : Vec.WInv w vw) (habs : Heap.Abs R vw sw) (h : WR c K F f w pw) (hp : Allowed op sw)
    (hz : Sized K.size op) : Heap.Pre op sw := by
  have hpos := K.pos
  cases op with
  | newRange k x xs =>
    exact ⟨hp, hz.2⟩
  | push k x =>
    rcases hk : sw k with _ | s
    · exact absurd hk hp
    obtain ⟨v, z, hs, cap, g1, g2, g3, g4, g5, g6⟩ := habs.get hI hk
    obtain ⟨c1, c2⟩ := cap_pool hc h.mem g4.rep
    refine ⟨s, hk, ?_⟩
    have := Nat.le_mul_of_pos_left v.cap hpos
    have e : s.card = hs.length := by rw [← g5]; simp
    simp only [List.length_cons] at c2
    omega
  | new => exact hp
  | pop => exact hp
  | newCopy => exact hp
  | copy => exact hp
  | newMove => exact hp
  | move => exact hp
  | drop => exact hp

theorem finite_step {R : α → α → Prop} {sw sw' : Heap.Spec α} {op : Heap.Op α}
    (h : ∃ ks : List Nat, ks.Nodup ∧ ∀ k, k ∈ ks ↔ sw k ≠ none) (hs : Heap.specStep R op sw sw') :
    ∃ ks : List Nat, ks.Nodup ∧ ∀ k, k ∈ ks ↔ sw' k ≠ none := by
  have put : ∀ {w : Heap.Spec α} (k : Nat) (v : Option (Multiset α)),
      (∃ ks : List Nat, ks.Nodup ∧ ∀ k, k ∈ ks ↔ w k ≠ none) →
      ∃ ks : List Nat, ks.Nodup ∧ ∀ j, j ∈ ks ↔ (w.put k v) j ≠ none := by
    rintro w k v ⟨ks, h1, h2⟩
    have hmem : ∀ x, x ∈ ks.erase k ↔ x ≠ k ∧ x ∈ ks := fun x => h1.mem_erase_iff
    cases v with
    | none =>
      refine ⟨ks.erase k, h1.erase k, fun x => ?_⟩
      rw [hmem, h2]
      unfold Heap.Spec.put
      by_cases hx : x = k <;> simp [hx]
    | some v =>
      refine ⟨k :: ks.erase k, List.nodup_cons.2 ⟨fun h => ((hmem k).1 h).1 rfl, h1.erase k⟩, fun x => ?_⟩
      rw [List.mem_cons, hmem, h2]
      unfold Heap.Spec.put
      by_cases hx : x = k <;> simp [hx]
  cases op with
  | new k x => subst hs; exact put _ _ h
  | newRange k x xs => subst hs; exact put _ _ h
  | push k x => obtain ⟨_, _, rfl⟩ := hs; exact put _ _ h
  | pop k => obtain ⟨_, _, _, _, rfl⟩ := hs; exact put _ _ h
  | newCopy k s => subst hs; exact put _ _ h
  | copy k s => subst hs; exact put _ _ h
  | newMove k s => subst hs; exact put _ _ (put _ _ h)
  | move k s => subst hs; exact put _ _ (put _ _ h)
  | drop k => subst hs; exact put _ _ h

/-- A state of the pool that heaps have brought about. -/
structure St (c : Sma.Cfg) (K : Elem α) (F : Rest) (R : α → α → Prop) (pw : PWorld) (sw : Heap.Spec α) : Prop where
  ex : ∃ f w vw, Vec.WInv w vw ∧ Heap.Abs R vw sw ∧ WR c K F f w pw
  fin : ∃ ks : List Nat, ks.Nodup ∧ ∀ k, k ∈ ks ↔ sw k ≠ none

theorem run_pool {R : α → α → Prop} {cmp : α → α → Bool} (hc : Sma.Legal c) (hM : 2 * c.M + 8 < 2 ^ 31)
    (hK : 2 * K.size + 8 < 2 ^ 31) (ho : Heap.Order R cmp) (ops : List (Heap.Op α)) {pw : PWorld}
    {sw : Heap.Spec α} (h : St c K F R pw sw) (hl : Legal R ops sw) (ha : ∀ op ∈ ops, Heap.Avoids K.triv op)
    (hz : ∀ op ∈ ops, Sized K.size op) :
    Faults (run .port c K cmp ops) pw .crash ∨ ∃ pw' sw', Returns (run .port c K cmp ops) pw () pw' ∧
      Heap.specRun R ops sw sw' ∧ St c K F R pw' sw' := by
  induction ops generalizing pw sw with
  | nil => exact Or.inr ⟨pw, sw, rfl, rfl, h⟩
  | cons op ops ih =>
    obtain ⟨⟨f, w, vw, hI, habs, hW⟩, hfin⟩ := h
    have hpre := pre_of_allowed hc hM hI habs hW hl.1 (hz op List.mem_cons_self)
    obtain ⟨_, w1, r1, vw1, sw1, hI1, ha1, hs1⟩ :=
      Heap.step_refines ho (triv := K.triv) hI habs hpre (ha op List.mem_cons_self)
    rcases step_sim hc hM hK hI habs hW hpre (hz op List.mem_cons_self) r1 with ⟨_, hf⟩ | ⟨pw1, f1, e1, e2⟩
    · exact Or.inl (bind_faults hf)
    · have er : run .port c K cmp (op :: ops) pw = run .port c K cmp ops pw1 := bind_returns e1
      have := ih ⟨⟨f1, w1, vw1, hI1, ha1, e2⟩, finite_step hfin hs1⟩ (hl.2 sw1 hs1)
        (fun o ho => ha o (List.mem_cons_of_mem _ ho)) (fun o ho => hz o (List.mem_cons_of_mem _ ho))
      unfold Faults Returns at *
      rw [er]
      rcases this with g | ⟨pw', sw', g1, g2, g3⟩
      · exact Or.inl g
      · exact Or.inr ⟨pw', sw', g1, ⟨sw1, hs1, g2⟩, g3⟩

theorem St.init {R : α → α → Prop} {s0 s : Sma.St} (h : Returns (Sma.construct c) s0 () s) :
    St c K .nil R ⟨s, fun _ => none⟩ (fun _ => none) :=
  ⟨⟨id, World.init, fun _ => none, Vec.WInv.init, Heap.Abs.init R, WR.init h⟩, [], List.nodup_nil, by simp⟩

section
variable {R : α → α → Prop} {cmp : α → α → Bool} {pw : PWorld} {sw : Heap.Spec α}

theorem St.shows {md : Sma.Mode} (hc : Sma.Legal c) (ho : Heap.Order R cmp) (h : St c K F R pw sw) :
    Shows md c K R pw sw := by
  obtain ⟨⟨f, w, vw, hI, habs, hW⟩, _⟩ := h
  intro k
  obtain ⟨h1, h2⟩ := habs.shows ho hI k
  refine ⟨fun hk => by rw [hW.obj k, h1 hk]; rfl, ?_⟩
  intro s hs
  obtain ⟨v, l, g1, g2, g3, g4, g5, g6⟩ := h2 s hs
  refine ⟨vmap f v, l, by rw [hW.obj k, g1]; rfl, g2, g3, iterate_pool hc hW.mem g4, g5, ?_⟩
  intro hne
  obtain ⟨x, e1, e2⟩ := g6 hne
  exact ⟨x, top_pool hc hW.mem e1, e2⟩

/-- The vector of a heap alive. -/
theorem St.vec {f : Nat → Nat} {w : World α} {vw : SWorld α} (hI : Vec.WInv w vw) (habs : Heap.Abs R vw sw)
    (hW : WR c K F f w pw) {k : Nat} {v : Vec} (hv : pw.obj k = some v) :
    ∃ s t, sw k = some s ∧ vw k = some t ∧ t.cap = v.cap ∧ t.cap ≠ 0 := by
  rcases hs : sw k with _ | s
  · rw [hW.obj k, hI.dead k (habs.dead k hs)] at hv; cases hv
  · obtain ⟨t, h1, h2⟩ := habs.alive k s hs
    obtain ⟨u, g1, g2, g3⟩ := hI.alive k t h1
    rw [hW.obj k, g1] at hv
    cases hv
    refine ⟨s, t, rfl, h1, g3.symm, ?_⟩
    obtain ⟨z, hs', e, _⟩ := h2.ex
    have := hI.cap_le h1
    rw [e] at this
    simp only [List.length_cons] at this
    omega

theorem St.placed (hc : Sma.Legal c) (h : St c K F R pw sw) : Placed c K pw := by
  obtain ⟨⟨f, w, vw, hI, habs, hW⟩, _⟩ := h
  intro k v hv
  obtain ⟨s, t, _, ht, e1, e2⟩ := St.vec hI habs hW hv
  obtain ⟨g1, g2, g3⟩ := hW.placed hc hI k v t hv ht e2
  unfold storageBytes at g1 g2 g3
  rw [e1] at g1 g2 g3
  refine ⟨g1, ?_, g3⟩
  intro j u hj hu
  obtain ⟨s', t', _, ht', e1', e2'⟩ := St.vec hI habs hW hu
  have := g2 j u t' hj hu ht' e2'
  rw [e1'] at this
  exact this

theorem St.accounted (hc : Sma.Legal c) (h : St c K .nil R pw sw) : Accounted c K pw sw := by
  obtain ⟨⟨f, w, vw, hI, habs, hW⟩, ks, h1, h2⟩ := h
  have hvw : ∀ k, k ∈ ks ↔ vw k ≠ none := by
    intro k
    rw [h2]
    rcases hs : sw k with _ | s
    · simp [habs.dead k hs]
    · obtain ⟨t, g, _⟩ := habs.alive k s hs
      simp [g]
  refine ⟨ks, h1, h2, ?_⟩
  have := hW.free hc hI ks h1 hvw
  have e : ∀ l : List Nat, (∀ k ∈ l, vw k ≠ none) → storageSum K.size vw l = storage K.size pw l := by
    intro l
    induction l with
    | nil => intro _; rfl
    | cons k l ih =>
      intro hl
      have ih := ih (fun k hk => hl k (List.mem_cons_of_mem _ hk))
      rcases hk : vw k with _ | t
      · exact absurd hk (hl k List.mem_cons_self)
      · obtain ⟨v, g1, g2, g3⟩ := hI.alive k t hk
        have : pw.obj k = some (vmap f v) := by rw [hW.obj k, g1]; rfl
        simp only [storageSum, storage, hk, this, ih, storageBytes, block]
        rw [← g3]; rfl
  rw [e ks (fun k hk => (hvw k).1 hk)] at this
  exact this

end

end Verif.HPool
