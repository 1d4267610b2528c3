import Verif.HeapPoolWorld

/-!
# Heaps in the static pool (C105)

Vocabulary: `Verif.Spec.HeapPool`.  `HPool.run` works on the bytes of the static allocator; the meaning
of a history is `Heap.specRun`, which knows only multisets.
-/

namespace Verif.HPool

open Prog Vec Pool

variable {α : Type} {c : Sma.Cfg} {K : Elem α} {R : α → α → Prop} {cmp : α → α → Bool}

/-- **C105.**  Every legal history of operations on any number of heaps in a fresh pool – heaps of any
size – stops for lack of memory or returns; in the latter case every heap shows what the specification
of priority queues says, its storage lies in the pool, apart from that of the others and from the free
blocks, and `free_mem_size()` is the pool size minus the storage of the heaps alive. -/
theorem heap_pool (hc : Sma.Legal c) (hM : 2 * c.M + 8 < 2 ^ 31) (hK : 2 * K.size + 8 < 2 ^ 31)
    (ho : Heap.Order R cmp) {s0 s : Sma.St} (h0 : Returns (Sma.construct c) s0 () s)
    (ops : List (Heap.Op α)) (hl : Legal R ops (fun _ => none)) (ha : ∀ op ∈ ops, Heap.Avoids K.triv op)
    (hz : ∀ op ∈ ops, Sized K.size op) :
    Faults (run .port c K cmp ops) ⟨s, fun _ => none⟩ .crash ∨
    ∃ w sw, Returns (run .port c K cmp ops) ⟨s, fun _ => none⟩ () w ∧
      Heap.specRun R ops (fun _ => none) sw ∧ Shows .port c K R w sw ∧ Placed c K w ∧ Accounted c K w sw := by
  rcases run_pool hc hM hK ho ops (St.init h0) hl ha hz with h | ⟨w, sw, h1, h2, h3⟩
  · exact Or.inl h
  · exact Or.inr ⟨w, sw, h1, h2, h3.shows hc ho, h3.placed hc, h3.accounted hc⟩

/-- **C105** (nothing leaks).  When no heap is alive any more, all memory of the pool is free. -/
theorem heap_pool_returned (hc : Sma.Legal c) (hM : 2 * c.M + 8 < 2 ^ 31) (hK : 2 * K.size + 8 < 2 ^ 31)
    (ho : Heap.Order R cmp) {s0 s : Sma.St} (h0 : Returns (Sma.construct c) s0 () s)
    (ops : List (Heap.Op α)) (hl : Legal R ops (fun _ => none)) (ha : ∀ op ∈ ops, Heap.Avoids K.triv op)
    (hz : ∀ op ∈ ops, Sized K.size op) {w : PWorld}
    (hr : Returns (run .port c K cmp ops) ⟨s, fun _ => none⟩ () w) (hend : ∀ k, w.obj k = none) :
    Returns Sma.freeMemSize w.pool (c.M : Int) w.pool := by
  rcases heap_pool hc hM hK ho h0 ops hl ha hz with h | ⟨w', sw, h1, _, h3, _, ks, h4, h5, h6⟩
  · unfold Faults Returns at *; rw [h] at hr; cases hr
  · obtain ⟨_, rfl⟩ := hr.det h1
    have : ks = [] := by
      refine List.eq_nil_iff_forall_not_mem.2 fun k hk => ?_
      rcases hs : sw k with _ | t
      · exact (h5 k).1 hk hs
      · obtain ⟨v, _, g, _⟩ := (h3 k).2 t hs
        rw [hend k] at g; cases g
    subst this
    simpa [storage] using h6

/-- **C105** (when the program stops).  Where there is room in the heap's storage, adding an element
does not stop the program; otherwise it stops exactly if no free block can hold twice as many elements,
even after merging.  Constructing a heap, and moving a heap into a new one, stops the program exactly
if there is no room for the sentinel of the additional heap.  Destroying a heap never stops it, and
removing an element only if the storage shrinks. -/
theorem heap_pool_stops (hc : Sma.Legal c) (hM : 2 * c.M + 8 < 2 ^ 31) (hK : 2 * K.size + 8 < 2 ^ 31)
    (ho : Heap.Order R cmp) {s0 s : Sma.St} (h0 : Returns (Sma.construct c) s0 () s)
    (ops : List (Heap.Op α)) (hl : Legal R ops (fun _ => none)) (ha : ∀ op ∈ ops, Heap.Avoids K.triv op)
    (hz : ∀ op ∈ ops, Sized K.size op) {w : PWorld}
    (hr : Returns (run .port c K cmp ops) ⟨s, fun _ => none⟩ () w) :
    (∀ k v x, w.obj k = some v → (Faults (step .port c K cmp (.push k x)) w .crash ↔
      v.sz = v.cap ∧ Full c w.pool (taken8 K.size (2 * v.sz)))) ∧
    (∀ k x, w.obj k = none → (Faults (step .port c K cmp (.new k x)) w .crash ↔ Full c w.pool (taken8 K.size 1))) ∧
    (∀ k t, w.obj k = none → w.obj t ≠ none →
      (Faults (step .port c K cmp (.newMove k t)) w .crash ↔ Full c w.pool (taken8 K.size 1))) ∧
    (∀ k v, w.obj k = some v → 1 < v.sz → Faults (step .port c K cmp (.pop k)) w .crash →
      v.sz - 1 < v.cap / 3) ∧
    (∀ k, w.obj k ≠ none → ∃ w', Returns (step .port c K cmp (.drop k)) w () w') := by
  rcases run_pool hc hM hK ho ops (St.init h0) hl ha hz with h | ⟨w', sw, h1, h2, h3⟩
  · unfold Faults Returns at *; rw [h] at hr; cases hr
  obtain ⟨_, rfl⟩ := hr.det h1
  have hSt := h3
  obtain ⟨⟨f, aw, vw, hI, habs, hW⟩, _⟩ := h3
  have hex : ∀ op, Allowed op sw → Sized K.size op → Heap.Avoids K.triv op →
      ∃ aw', StepSim c K .nil (Lacks c K w.pool aw op) f w aw' (step .port c K cmp op) := by
    intro op hop hsz hav
    have hpre := pre_of_allowed hc hM hI habs hW hop hsz
    obtain ⟨_, w1, r1, _⟩ := Heap.step_refines ho (triv := K.triv) hI habs hpre hav
    exact ⟨w1, step_sim hc hM hK hI habs hW hpre hsz r1⟩
  have hlack : ∀ op, Allowed op sw → Sized K.size op → Heap.Avoids K.triv op →
      Faults (step .port c K cmp op) w .crash → Lacks c K w.pool aw op := by
    intro op h1 h2 h3 hf
    obtain ⟨_, h⟩ := hex op h1 h2 h3
    rcases h with ⟨hl, _⟩ | ⟨pw', _, e, _⟩
    · exact hl
    · unfold Faults Returns at *; rw [hf] at e; cases e
  have hnone : ∀ k, w.obj k = none → sw k = none := by
    intro k hk
    rcases hs : sw k with _ | t
    · rfl
    · obtain ⟨v, _, g, _⟩ := (hSt.shows (md := .port) hc ho k).2 t hs
      rw [hk] at g; cases g
  have hsome : ∀ k, w.obj k ≠ none → sw k ≠ none := fun k hk hs =>
    hk ((hSt.shows (md := .port) hc ho k).1 hs)
  have hfit : Fit K 1 := by unfold Fit; omega
  have hone : ∀ t : Sma.St, Short c K t 1 ↔ Full c t (taken8 K.size 1) := by
    intro t
    unfold Short
    rw [full_iff]
    simp
  refine ⟨?_, ?_, ?_, ?_, ?_⟩
  · intro k v x hv
    obtain ⟨av, hav, rfl⟩ : ∃ av, aw.obj k = some av ∧ v = vmap f av := by
      rw [hW.obj k] at hv
      rcases hk : aw.obj k with _ | u
      · rw [hk] at hv; cases hv
      · rw [hk] at hv; cases hv; exact ⟨u, rfl, rfl⟩
    obtain ⟨t, ht, g2, g3⟩ := WInv.fresh hI hav
    have hsw : sw k ≠ none := hsome k (by rw [hv]; simp)
    rcases hs : sw k with _ | st
    · exact absurd hs hsw
    obtain ⟨v', z, hs', cap, q1, q2, q3, q4, q5, q6⟩ := habs.get hI hs
    rw [hav] at q1; cases q1
    have hpos : 0 < av.sz := by rw [q4.rep.size]; simp
    obtain ⟨c1, c2⟩ := cap_pool hc hW.mem g2
    have hszle : av.sz ≤ av.cap := by rw [g2.size]; exact c2
    have emax : max 2 (2 * av.sz) = 2 * av.sz := by omega
    show _ ↔ av.sz = av.cap ∧ Full c w.pool (taken8 K.size (2 * av.sz))
    constructor
    · intro hf
      obtain ⟨u, hu, l1, l2⟩ := hlack (.push k x) hsw trivial trivial hf
      rw [hav] at hu; cases hu
      rw [emax] at l2
      exact ⟨by omega, (full_iff _ _).1 l2.2⟩
    · rintro ⟨l1, l2⟩
      have hal := alloc_faults hc hW.mem (n := 2 * av.sz) (by omega)
        (by
          have := fit_push hM hK (K := K) (c := c) (n := av.sz) (mul_le_of_le c1 hszle)
          rwa [emax] at this) ((full_iff _ _).2 l2)
      refine (bind_returns (getObj_returns hv)).trans (bind_faults (lift_faults ?_))
      unfold push
      refine bind_faults ?_
      unfold Pool.pushBack
      rw [if_pos (c := (vmap f av).sz + 1 > (vmap f av).cap) (show av.sz + 1 > av.cap by omega),
        if_pos (c := (vmap f av).sz ≠ 0) (show av.sz ≠ 0 by omega)]
      apply bind_faults
      unfold Pool.resize
      rw [if_neg (c := 2 * (vmap f av).sz = 0) (show ¬ 2 * av.sz = 0 by omega)]
      exact bind_faults hal
  · intro k x hk
    rw [← hone]
    constructor
    · exact fun hf => hlack (.new k x) (hnone k hk) trivial trivial hf
    · intro hsh
      refine bind_faults (lift_faults ?_)
      unfold ctor Pool.ctorFill
      rw [dassert_pos (by simp), pure_bind]
      apply bind_faults
      unfold Pool.resize
      rw [if_neg (by simp)]
      exact bind_faults (alloc_faults hc hW.mem (by simp) hfit hsh.2)
  · intro k t hk ht
    rw [← hone]
    constructor
    · exact fun hf => hlack (.newMove k t) ⟨hnone k hk, hsome t ht⟩ trivial trivial hf
    · intro hsh
      have hkt : t ≠ k := by rintro rfl; exact ht hk
      rcases hst : w.obj t with _ | u
      · exact absurd hst ht
      rcases hs : sw t with _ | st
      · exact absurd hs (hsome t ht)
      obtain ⟨v', z, hs', cap, q1, q2, q3, q4, q5, q6⟩ := habs.get hI hs
      have hu : u = vmap f v' := by
        rw [hW.obj t, q1] at hst; cases hst; rfl
      subst hu
      refine (bind_returns (show Returns (Pool.step .port c K (.new k)) w ()
        { w with obj := fun x => if x = k then some Vec.empty else w.obj x } from rfl)).trans ?_
      have hm : Returns (Pool.step .port c K (.move k t))
          { w with obj := fun x => if x = k then some Vec.empty else w.obj x } ()
          { w with obj := fun x => if x = t then some Vec.empty else
            if x = k then some (vmap f v') else if x = k then some Vec.empty else w.obj x } := by
        refine (bind_returns (getObj_returns (v := Vec.empty) (by simp))).trans ?_
        refine (bind_returns (getObj_returns (v := vmap f v') (by simp [hkt, hst]))).trans ?_
        rw [if_neg (Ne.symm hkt)]
        rfl
      refine (bind_returns hm).trans ?_
      refine (bind_returns (getObj_returns (v := vmap f v') (by simp [Ne.symm hkt]))).trans ?_
      have hsz : v'.sz = hs'.length + 1 := by rw [q4.rep.size]; simp
      refine (bind_returns (check_ok _ (show 0 < Int.bmod (vmap f v').sz (2 ^ 32) by
        show 0 < Int.bmod v'.sz (2 ^ 32)
        rw [bmod32 _ (by omega) (by omega)]; omega))).trans ?_
      refine (bind_returns (getObj_returns (v := Vec.empty) (by simp))).trans ?_
      refine bind_faults (lift_faults ?_)
      unfold Pool.resizeFill
      rw [if_neg (by simp)]
      exact bind_faults (alloc_faults hc hW.mem (by simp) hfit hsh.2)
  · intro k v hv hlt hf
    obtain ⟨av, hav, rfl⟩ : ∃ av, aw.obj k = some av ∧ v = vmap f av := by
      rw [hW.obj k] at hv
      rcases hk : aw.obj k with _ | u
      · rw [hk] at hv; cases hv
      · rw [hk] at hv; cases hv; exact ⟨u, rfl, rfl⟩
    rcases hs : sw k with _ | st
    · exact absurd hs (hsome k (by rw [hv]; simp))
    have hne : st ≠ 0 := by
      obtain ⟨v', _, g1, _, g3, _⟩ := (hSt.shows (md := .port) hc ho k).2 st hs
      rw [hv] at g1; cases g1
      intro e
      have := g3.2 e
      omega
    obtain ⟨u, hu, l1⟩ := hlack (.pop k) ⟨st, hs, hne⟩ trivial trivial hf
    rw [hav] at hu; cases hu
    exact l1
  · intro k hk
    obtain ⟨_, h⟩ := hex (.drop k) (hsome k hk) trivial trivial
    rcases h with ⟨hl, _⟩ | ⟨pw', _, e, _⟩
    · exact hl.elim
    · exact ⟨pw', e⟩

/-- **C105** (`Heap::sort`).  Sorting a vector of the pool – the temporary heap is in the pool, too –
stops for lack of memory or puts the elements of the vector into order; all other vectors, the storage
of all vectors and the amount of free memory are as before. -/
theorem heap_pool_sort (hc : Sma.Legal c) (hM : 2 * c.M + 8 < 2 ^ 31) (hK : 2 * K.size + 8 < 2 ^ 31)
    (ho : Heap.Order R cmp) {s0 s : Sma.St} (h0 : Returns (Sma.construct c) s0 () s)
    (ops : List (Vec.Op α)) {sw : SWorld α} (hs : Vec.specRun ops (fun _ => none) = some sw)
    (ha : AvoidsAll K.triv ops (fun _ => none)) (hz : ∀ op ∈ ops, Pool.Sized K.size op)
    {w : PWorld} (hr : Returns (Pool.run .port c K ops) ⟨s, fun _ => none⟩ () w)
    {k : Nat} {v : SVec α} (hk : sw k = some v) (hne : v.data ≠ []) (x : α) :
    Faults (sortVec .port c K cmp x k) w .crash ∨
    ∃ w' out, Returns (sortVec .port c K cmp x k) w () w' ∧ out.Perm v.data ∧ out.Pairwise R ∧
      w'.obj = w.obj ∧ Pool.Shows .port c K w' (sw.put k (some ⟨out, v.cap⟩)) ∧
      (∀ n, Returns Sma.freeMemSize w.pool n w.pool ↔ Returns Sma.freeMemSize w'.pool n w'.pool) := by
  rcases Pool.run_pool hc hM hK ops Vec.WInv.init (WR.init h0) finite_empty hs ha hz with
    h | ⟨pw, f, aw, h1, hI, hW, hfin⟩
  · unfold Faults Returns at *; rw [h] at hr; cases hr
  obtain ⟨_, rfl⟩ := hr.det h1
  obtain ⟨u, hu, g2, g3⟩ := hI.alive k v hk
  have hobj : w.obj k = some (vmap f u) := by rw [hW.obj k, hu]; rfl
  have hu0 : u.c ≠ 0 := fun e => hne (g2.null e).2
  obtain ⟨b0, b1, g, hb, hg⟩ := g2.buf hu0
  obtain ⟨c1, c2⟩ := cap_pool hc hW.mem g2
  have hcw := mul_le_of_le c1 c2
  have hfit1 : Fit K 1 := by unfold Fit; omega
  have hfit : Fit K (v.data.length + 1) := by
    unfold Fit
    rw [Nat.mul_add]
    omega
  have hlen : v.data.length + 1 ≤ 2 ^ 30 := by
    have := Nat.le_mul_of_pos_left v.data.length K.pos
    omega
  have hslot : ∀ i, (hi : i < v.data.length) → g (0 + i) = some v.data[i] := by
    intro i hi
    rw [Nat.zero_add, hg, List.getElem?_eq_getElem hi]
  obtain ⟨_, m', r1, out, p1, p2, p3, p4, p5, p6⟩ :=
    Heap.sort_ok ho (triv := K.triv) hI.wf x (lo := 0) (k := ⟨u.cap, g⟩) (xs := v.data) hu0 hb (by simpa using b1)
      hslot hlen
  have hold := WInv.old hI k u hu
  rcases sort_sim hc hW.mem cmp x u.c 0 v.data.length hold hfit1 hfit _ _ r1 with
    ⟨_, hf⟩ | ⟨_, s', f', e1, e2, e3, _⟩
  · refine Or.inl ((bind_returns (getObj_returns hobj)).trans (lift_faults ?_))
    rw [← g2.size] at hf
    exact hf
  · have hrep : Rep m' u out := by
      have hlo : out.length = v.data.length := p1.length_eq
      refine ⟨fun e => absurd e hu0, fun _ => ⟨b0, by rw [hlo]; exact b1, _, p3, ?_⟩, by rw [g2.size, hlo],
        Nat.lt_of_lt_of_le g2.fresh e2.next⟩
      intro j
      simp only [Nat.zero_le, true_and, Nat.zero_add, Nat.sub_zero]
      by_cases hj : j < out.length
      · rw [if_pos hj]
      · rw [if_neg hj, List.getElem?_eq_none (by omega), hg, List.getElem?_eq_none (by omega)]
    have hfr : Frame aw.mem m' u u :=
      ⟨fun b h1 _ => p4 b h1, fun h => absurd rfl h, Or.inl rfl, e2.next, p5⟩
    have hI' := hI.update (k := k) (v := u) (v' := u) (Or.inl hu) hrep g3 hfr p6
    have haw : ({ mem := m', obj := fun x => if x = k then some u else aw.obj x } : World α) =
        { aw with mem := m' } := by
      have : (fun x => if x = k then some u else aw.obj x) = aw.obj := by
        funext j; by_cases hj : j = k
        · rw [if_pos hj, hj, hu]
        · rw [if_neg hj]
      rw [this]
    rw [haw] at hI'
    have hW' := hW.ext (WInv.old hI) e2 e3
    rw [← g2.size] at e1
    refine Or.inr ⟨{ w with pool := s' }, out, (bind_returns (getObj_returns hobj)).trans (lift_returns e1), p1, p2,
      rfl, hW'.shows hc hI', ?_⟩
    obtain ⟨ks, k1, k2⟩ := hfin
    have hks' : ∀ j, j ∈ ks ↔ (sw.put k (some ⟨out, v.cap⟩)) j ≠ none := by
      intro j
      rw [k2]
      unfold SWorld.put
      by_cases hj : j = k <;> simp [hj, hk]
    have q1 := hW.free hc hI ks k1 k2
    have q2 := hW'.free hc hI' ks k1 hks'
    have esum : ∀ l : List Nat, storageSum K.size (sw.put k (some ⟨out, v.cap⟩)) l = storageSum K.size sw l := by
      intro l
      induction l with
      | nil => rfl
      | cons j l ih =>
        simp only [storageSum, ih]
        unfold SWorld.put
        by_cases hj : j = k <;> simp [hj, hk, storageBytes]
    rw [esum] at q2
    intro n
    constructor
    · intro h
      obtain ⟨rfl, _⟩ := q1.det h
      exact q2
    · intro h
      obtain ⟨rfl, _⟩ := q2.det h
      exact q1

/-! ### The hypotheses are met -/

/-- A history with pushes, a pop, a copy and a move. -/
example : Legal (fun a b : BitVec 32 => a.toInt ≤ b.toInt) [.new 0 9, .push 0 5, .push 0 3, .pop 0, .newCopy 1 0, .newMove 2 0, .drop 1]
      (fun _ => none) ∧
    (∀ op ∈ ([.new 0 9, .push 0 5, .push 0 3, .pop 0, .newCopy 1 0, .newMove 2 0, .drop 1] : List (Heap.Op (BitVec 32))),
      Heap.Avoids intElem.triv op ∧ Sized intElem.size op) := by
  constructor
  · refine ⟨rfl, ?_⟩
    rintro _ rfl
    refine ⟨by simp [Allowed, Heap.Spec.put], ?_⟩
    rintro _ ⟨_, h, rfl⟩
    cases h
    refine ⟨by simp [Allowed, Heap.Spec.put], ?_⟩
    rintro _ ⟨_, h, rfl⟩
    cases h
    refine ⟨⟨_, rfl, by simp⟩, ?_⟩
    rintro _ ⟨x, s, h, _, rfl⟩
    refine ⟨⟨rfl, by simp [Heap.Spec.put]⟩, ?_⟩
    rintro _ rfl
    refine ⟨⟨rfl, by simp [Heap.Spec.put]⟩, ?_⟩
    rintro _ rfl
    exact ⟨by simp [Allowed, Heap.Spec.put], fun _ _ => trivial⟩
  · intro op h
    simp only [List.mem_cons, List.not_mem_nil, or_false] at h
    rcases h with rfl | rfl | rfl | rfl | rfl | rfl | rfl
    all_goals exact ⟨by first | trivial | rfl, trivial⟩

/-- `<` on `int`, with its order. -/
theorem intOrder : Heap.Order (fun a b : BitVec 32 => a.toInt ≤ b.toInt) (fun a b => decide (a.toInt < b.toInt)) :=
  ⟨fun a => Int.le_refl _, fun _ _ _ => Int.le_trans, fun _ _ h => by simp at h; omega,
    fun _ _ h => by simp at h; omega⟩

/-- In a fresh pool a heap can be constructed; it takes 8 bytes. -/
example {s0 s : Sma.St} (h0 : Returns (Sma.construct (Sma.defaultSMA 4096)) s0 () s) :
    ∃ w, Returns (run .port (Sma.defaultSMA 4096) intElem (fun a b => decide (a.toInt < b.toInt)) [.new 0 9])
      ⟨s, fun _ => none⟩ () w := by
  have hl : Legal (fun a b : BitVec 32 => a.toInt ≤ b.toInt) [.new 0 9] (fun _ => none) := ⟨rfl, fun _ _ => trivial⟩
  rcases heap_pool Sma.defaultSMA_legal (by decide) (by decide) intOrder h0 (K := intElem) _ hl
    (by simp [Heap.Avoids]) (by simp [Sized]) with h | ⟨w, _, r, _⟩
  · exfalso
    have := (heap_pool_stops Sma.defaultSMA_legal (by decide) (by decide) intOrder h0 (K := intElem) [] trivial
      (by simp) (by simp) (w := ⟨s, fun _ => none⟩) rfl).2.1 0 9 rfl
    refine fresh_room Sma.defaultSMA_legal h0 (by decide) (this.1 ?_)
    have e : run .port (Sma.defaultSMA 4096) intElem (fun a b => decide (a.toInt < b.toInt)) [.new 0 9] ⟨s, fun _ => none⟩ =
      (step .port (Sma.defaultSMA 4096) intElem (fun a b => decide (a.toInt < b.toInt)) (.new 0 9) >>= fun _ => Pure.pure ())
        ⟨s, fun _ => none⟩ := rfl
    unfold Faults at h ⊢
    rw [e, Prog.bind_apply] at h
    split at h
    · cases h
    · rename_i e he; cases h; exact he
    · cases h
  · exact ⟨w, r⟩

/-- A vector to sort: three elements, constructed in a fresh pool (it is constructed, see the example
in `Verif.Props.VectorPool`). -/
example : Vec.specRun [.newFill 0 3 7, .set 0 1 2] (fun _ => none : SWorld (BitVec 32)) =
      some (SWorld.put (SWorld.put (fun _ => none) 0 (some ⟨[7, 7, 7], 3⟩)) 0 (some ⟨[7, 2, 7], 3⟩)) ∧
    ([7, 2, 7] : List (BitVec 32)) ≠ [] := ⟨rfl, by simp⟩

end Verif.HPool
