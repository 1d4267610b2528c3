import Verif.VectorDirectWorld
import Verif.Props.VectorPool

/-!
# Vectors that use the static allocator directly (C99)

`dstruct-static.hpp` gives the containers an allocator that hands out the result of
`StaticMemoryAllocator::allocate` as it is: no merging, no null check.  Vocabulary:
`Verif.Spec.VectorPool` and `Verif.Spec.VectorDirect`.
-/

namespace Verif.Pool

open Prog Vec

variable {α : Type} {c : Sma.Cfg} {K : Elem α} {F : Rest}

/-! ## Helpers of this file -/

theorem noFree_iff (s : Sma.St) (n : Nat) : NoBlock c s (bytes K n) ↔ NoFree c s (taken8 K.size n) := by
  unfold NoBlock NoFree taken8
  rw [up8_bytes]
  exact ⟨fun h b hb => Nat.lt_of_not_le fun hle => h ⟨b, hb, hle⟩,
    fun h ⟨b, hb, hle⟩ => absurd (h b hb) (by omega)⟩

theorem capFit_empty : CapFit K (fun _ => none : SWorld α) := fun _ _ h => by cases h

theorem reached (hc : Sma.Legal c) (hM : 2 * c.M + 8 < 2 ^ 31)
    (hK : 2 * K.size + 8 < 2 ^ 31) {s0 s : Sma.St} (h0 : Returns (Sma.construct c) s0 () s)
    (ops : List (Op α)) {sw : SWorld α} (hs : specRun ops (fun _ => none) = some sw)
    (ha : AvoidsAll K.triv ops (fun _ => none)) (hz : ∀ op ∈ ops, Sized K.size op)
    {w : PWorld} (hr : Returns (run .direct c K ops) ⟨s, fun _ => none⟩ () w) :
    ∃ f aw, WInvO aw sw ∧ CapFit K sw ∧ WR c K .nil f aw w := by
  rcases run_direct hc hM hK ops WInvO.init capFit_empty (WR.init h0) finite_empty hs ha hz with
    h | ⟨pw, f, aw, h1, h2, h3, h4, _⟩
  · unfold Faults Returns at *; rw [h] at hr; cases hr
  · obtain ⟨_, rfl⟩ := hr.det h1
    exact ⟨f, aw, h2, h3, h4⟩

theorem no_both {σ β : Type} {p : Prog σ β} {s s' : σ} {a : β} {e : Fault} (h : Faults p s e)
    (h' : Returns p s a s') : False := by
  unfold Faults Returns at *; rw [h] at h'; cases h'

/-- The exact condition for a stop, in any state in relation. -/
theorem stops_direct (hc : Sma.Legal c) (hM : 2 * c.M + 8 < 2 ^ 31) (hK : 2 * K.size + 8 < 2 ^ 31)
    {op : Op α} {f : Nat → Nat} {aw : World α} {sw sw' : SWorld α} {w : PWorld}
    (hI : WInvO aw sw) (hF : CapFit K sw) (hW : WR c K F f aw w) (hsz : Sized K.size op)
    (hop : specStep op sw = some sw') (hav : Avoids K.triv op sw) (hfirst : RequestsFirst op) :
    Faults (step .direct c K op) w .crash ↔ Stops c K.size w sw op := by
  obtain ⟨y, hy, hsim⟩ := step_direct hc hM hK hI hF hW hsz
  have hy := hy hfirst
  -- the vector objects of the two worlds
  have hobj : ∀ k v, aw.obj k = some v → w.obj k = some (vmap f v) := fun k v hv => by
    rw [hW.obj k, hv]; rfl
  have hollow : ∀ k v u, aw.obj k = some v → w.obj k = some u → u.c = 0 → v.c = 0 := by
    intro k v u hv hu h
    rw [hobj k v hv] at hu; cases hu
    exact (hW.mem.zero v.c).1 h
  have hollow' : ∀ k v, aw.obj k = some v → v.c = 0 → (vmap f v).c = 0 := fun k v _ h =>
    (hW.mem.zero v.c).2 h
  have fault : Faults (Vec.stepWith (may y) K.triv op) aw .crash → Faults (step .direct c K op) w .crash :=
    hsim.2
  have nofault : wp (Vec.stepWith (may y) K.triv op) (fun _ _ => True) aw →
      ¬ Faults (step .direct c K op) w .crash := by
    rintro ⟨_, w1, r1, _⟩ hf
    obtain ⟨_, _, e, _⟩ := hsim.1 w1 r1
    exact no_both hf e
  -- a push onto a vector whose storage has been refused
  have hpush : ∀ k s v, sw k = some s → aw.obj k = some v → v.c = 0 → s.cap ≠ 0 →
      ((∃ x, op = .push k x) ∨ ∃ j i, op = .pushElem k j i) →
      Faults (step .direct c K op) w .crash := by
    intro k s v hk hv h0 hcap hcase
    obtain ⟨v', hv', g2, g3⟩ := hI.alive k s hk
    rw [hv] at hv'; cases hv'
    have hh := (g2.null h0).1
    have hv0 : v.cap ≠ 0 := by rw [g3]; exact hcap
    refine fault ?_
    rcases hcase with ⟨x, rfl⟩ | ⟨j, i, rfl⟩
    · rw [stepWith]
      exact faults_bind_of_wp ((wp_getObj hv _).2 (bind_faults (faults_lift (pushBack_hollow hh hv0))))
    · rcases hj : sw j with _ | t
      · simp [specStep, hk, hj] at hop
      rcases hi : t.data[i]? with _ | x
      · simp [specStep, hk, hj, hi] at hop
      obtain ⟨u, u1, u2, u3⟩ := hI.alive j t hj
      obtain ⟨hil, hix⟩ := List.getElem?_eq_some_iff.1 hi
      rw [stepWith]
      refine faults_bind_of_wp ((wp_getObj hv _).2 (faults_bind_of_wp ((wp_getObj u1 _).2
        (faults_bind_of_wp ((wp_dassert _ _ _).2 ⟨by rw [u2.size]; exact hil, ?_⟩)))))
      exact bind_faults (faults_lift (pushBack_hollow hh hv0))
  by_cases hyt : y = true
  · subst hyt
    have hroom := hy.1 rfl
    -- is it a push onto a hollow vector?
    by_cases hbad : ∃ k s v, sw k = some s ∧ aw.obj k = some v ∧ v.c = 0 ∧ s.cap ≠ 0 ∧
        ((∃ x, op = .push k x) ∨ ∃ j i, op = .pushElem k j i)
    · obtain ⟨k, s, v, h1, h2, h3, h4, h5⟩ := hbad
      refine ⟨fun _ => ?_, fun _ => hpush k s v h1 h2 h3 h4 h5⟩
      rcases h5 with ⟨x, rfl⟩ | ⟨j, i, rfl⟩
      · exact ⟨s, h1, Or.inr ⟨h4, _, hobj k v h2, hollow' k v h2 h3⟩⟩
      · exact ⟨s, h1, Or.inr ⟨h4, _, hobj k v h2, hollow' k v h2 h3⟩⟩
    · have hret := granted_returns (triv := K.triv) hI hop hav (by rintro k rfl; exact hfirst)
        (by rintro d s rfl; exact hfirst) (fun k hcase v hv h0 => by
          obtain ⟨s, hs, _, hcap⟩ := WInvO.fresh hI hv
          by_cases h : s.cap = 0
          · rw [hcap]; exact h
          · exact absurd ⟨k, s, v, hs, hv, h0, h, hcase⟩ hbad)
      refine ⟨fun hf => absurd hf (nofault hret), fun hst => absurd hst ?_⟩
      rw [noFree_iff] at hroom
      cases op with
      | newFill k n x => rintro ⟨h1, h2⟩; exact hroom.elim h1 (fun h => h h2)
      | resize k n => rintro ⟨h1, h2, _⟩; exact hroom.elim h1 (fun h => h h2)
      | resizeFill k n x => rintro ⟨h1, h2⟩; exact hroom.elim h1 (fun h => h h2)
      | push k x =>
        rintro ⟨s, hs, ⟨h1, h2⟩ | ⟨h1, u, hu, h2⟩⟩
        · simp only [request, hs] at hroom
          rw [if_neg (by omega)] at hroom
          exact hroom.elim (by omega) (fun h => h h2)
        · obtain ⟨v, hv, _⟩ := hI.alive k s hs
          exact hbad ⟨k, s, v, hs, hv, hollow k v u hv hu h2, h1, Or.inl ⟨x, rfl⟩⟩
      | pushElem k j i =>
        rintro ⟨s, hs, ⟨h1, h2⟩ | ⟨h1, u, hu, h2⟩⟩
        · simp only [request, hs] at hroom
          rw [if_neg (by omega)] at hroom
          exact hroom.elim (by omega) (fun h => h h2)
        · obtain ⟨v, hv, _⟩ := hI.alive k s hs
          exact hbad ⟨k, s, v, hs, hv, hollow k v u hv hu h2, h1, Or.inr ⟨j, i, rfl⟩⟩
      | new k => exact id
      | set k i x => exact id
      | clear k => exact id
      | move d s => exact id
      | drop k => exact id
      | pop k => exact hfirst.elim
      | copy d s => exact hfirst.elim
  · have hno : request op sw ≠ 0 ∧ NoFree c w.pool (taken8 K.size (request op sw)) := by
      constructor
      · intro h; exact hyt (hy.2 (Or.inl h))
      · exact Classical.byContradiction fun h => hyt (hy.2 (Or.inr (fun h' => h ((noFree_iff _ _).1 h'))))
    have hyf : ¬ (fun _ : Nat => y) aw.mem.next = true := hyt
    obtain ⟨d1, d2, d3, d4, _⟩ := denied_stops (g := fun _ => y) (triv := K.triv) hI hyf
    cases op with
    | newFill k n x =>
      simp only [specStep] at hop
      split at hop
      · rename_i hk
        exact ⟨fun _ => hno, fun _ => fault (d1 k n x (by simpa using hk.1) hno.1)⟩
      · cases hop
    | resize k n =>
      rcases hk : sw k with _ | s
      · simp [specStep, hk] at hop
      by_cases hl : s.data = []
      · obtain ⟨w1, v, r1, _⟩ := denied_unnoticed (g := fun _ => y) (triv := K.triv) hI hyf k n hno.1 s hk hl
        refine ⟨fun hf => absurd hf (nofault ⟨(), w1, r1, trivial⟩), ?_⟩
        rintro ⟨_, _, t, ht, hne⟩
        rw [hk] at ht; cases ht
        exact absurd hl hne
      · exact ⟨fun _ => ⟨hno.1, hno.2, s, hk, hl⟩, fun _ => fault (d4 k s n hk hno.1 hl)⟩
    | resizeFill k n x =>
      rcases hk : sw k with _ | s
      · simp [specStep, hk] at hop
      exact ⟨fun _ => hno, fun _ => fault (d3 k s n x hk hno.1)⟩
    | push k x =>
      rcases hk : sw k with _ | s
      · simp [specStep, hk] at hop
      simp only [request, hk] at hno
      by_cases hl : s.data.length < s.cap
      · rw [if_pos hl] at hno; exact absurd rfl hno.1
      rw [if_neg hl] at hno
      obtain ⟨v, h1, h2, h3⟩ := hI.alive k s hk
      have hle := h2.le
      have hfull : s.data.length = s.cap := by omega
      exact ⟨fun _ => ⟨s, hk, Or.inl ⟨hfull, hno.2⟩⟩, fun _ => fault (d2 k s x hk hfull)⟩
    | pushElem k j i =>
      rcases hk : sw k with _ | s
      · simp [specStep, hk] at hop
      rcases hj : sw j with _ | t
      · simp [specStep, hk, hj] at hop
      rcases hi : t.data[i]? with _ | x
      · simp [specStep, hk, hj, hi] at hop
      simp only [request, hk] at hno
      by_cases hl : s.data.length < s.cap
      · rw [if_pos hl] at hno; exact absurd rfl hno.1
      rw [if_neg hl] at hno
      obtain ⟨v, h1, h2, h3⟩ := hI.alive k s hk
      obtain ⟨u, u1, u2, u3⟩ := hI.alive j t hj
      obtain ⟨hil, hix⟩ := List.getElem?_eq_some_iff.1 hi
      have hle := h2.le
      have hfull : s.data.length = s.cap := by omega
      refine ⟨fun _ => ⟨s, hk, Or.inl ⟨hfull, hno.2⟩⟩, fun _ => fault ?_⟩
      rw [stepWith]
      refine faults_bind_of_wp ((wp_getObj h1 _).2 (faults_bind_of_wp ((wp_getObj u1 _).2
        (faults_bind_of_wp ((wp_dassert _ _ _).2 ⟨by rw [u2.size]; exact hil, ?_⟩)))))
      exact bind_faults (faults_lift (pushBack_denied (g := fun _ => y) hI.wf h2 (by rw [h3]; exact hfull) hyf))
    | new k => exact absurd rfl hno.1
    | set k i x => exact absurd rfl hno.1
    | clear k => exact absurd rfl hno.1
    | move d s => exact absurd rfl hno.1
    | drop k => exact absurd rfl hno.1
    | pop k => exact hfirst.elim
    | copy d s => exact hfirst.elim

/-- A block that fills the pool leaves no free block. -/
theorem noFree_full (hc : Sma.Legal c) {f : Nat → Nat} {m : Mem α} {s : Sma.St} (hR : R c K F f m s)
    {b : Nat} {k : Blk α} (hk : m.blk b = some k) (hfull : taken8 K.size k.len = c.M) (n : Nat) :
    NoFree c s n := by
  intro d hd
  obtain ⟨L, hm, _, h3⟩ := hR.live hk
  obtain ⟨_, _, g3, g4, _⟩ := Sma.sma_blocks_partial hc h3
  have e1 := g3 (f b, bytes K k.len) hm d hd
  obtain ⟨⟨e2, e3⟩, e4⟩ := g4 d hd
  obtain ⟨i1, i2, _, _⟩ := hR.inPool hc hk
  rw [up8_bytes] at e1
  unfold taken8 at hfull
  unfold Sma.Disj at e1
  simp only at e1
  omega

theorem run_snoc {md : Sma.Mode} {op : Op α} {ops : List (Op α)} {w w1 : PWorld}
    (h : Returns (run md c K ops) w () w1) : run md c K (ops ++ [op]) w = step md c K op w1 := by
  induction ops generalizing w with
  | nil =>
    cases h
    show (step md c K op >>= fun _ => Pure.pure ()) w1 = _
    rw [Prog.bind_apply]
    rcases step md c K op w1 with _ | _ | ⟨_, _⟩ <;> rfl
  | cons o ops ih =>
    obtain ⟨_, w2, r1, r2⟩ := returns_bind h
    exact (bind_returns r1).trans (ih r2)

theorem heldSum_zero {words : Nat} {w : PWorld} (h : ∀ k v, w.obj k = some v → v.c = 0) (ks : List Nat) :
    heldSum words w ks = 0 := by
  induction ks with
  | nil => rfl
  | cons k ks ih =>
    unfold heldSum
    rw [ih]
    rcases hv : w.obj k with _ | v
    · rfl
    · simp [h k v hv]

/-- In a fresh pool there is a block for any request that fits. -/
theorem fresh_free (hc : Sma.Legal c) {s0 s : Sma.St} (h0 : Returns (Sma.construct c) s0 () s) {n : Nat} :
    NoFree c s n ↔ c.M < n := by
  have hw := Sma.winv_init hc h0
  constructor
  · intro h
    exact h (c.base, c.M) (hw.1.freeBlock.2 ((Sma.flat_init c).mem_iff.2 (List.mem_singleton.2 rfl)))
  · intro h b hb
    have := List.mem_singleton.1 ((Sma.flat_init c).mem_iff.1 (hw.1.freeBlock.1 hb))
    rw [this]; exact h

/-! ## C99 -/

/-- **C99.**  Every history of operations on any number of vectors in a fresh pool, legal by the
specification of vectors as lists, returns or stops at a null pointer; in the former case every
vector shows exactly the elements it should, the storage of the vectors lies in the pool, apart from
each other and from the free blocks, only vectors without elements can be without storage, and
`free_mem_size()` is the pool size minus the storage that the vectors hold.  Nothing else goes wrong,
although the allocator hands out null pointers without a check.  Missing for the full statement: the
two situations in which vectors go wrong with any allocator (`AvoidsAll`, C04 and C07), and byte
counts beyond `int`, which need a request of that size or a pool or an element of about a gigabyte
(C08). -/
theorem vector_direct_partial (hc : Sma.Legal c) (hM : 2 * c.M + 8 < 2 ^ 31)
    (hK : 2 * K.size + 8 < 2 ^ 31) {s0 s : Sma.St} (h0 : Returns (Sma.construct c) s0 () s)
    (ops : List (Op α)) {sw : SWorld α} (hs : specRun ops (fun _ => none) = some sw)
    (ha : AvoidsAll K.triv ops (fun _ => none)) (hz : ∀ op ∈ ops, Sized K.size op) :
    Faults (run .direct c K ops) ⟨s, fun _ => none⟩ .crash ∨
    ∃ w, Returns (run .direct c K ops) ⟨s, fun _ => none⟩ () w ∧
      Shows .direct c K w sw ∧ Stored c K.size w sw ∧ Balanced c K.size w sw := by
  rcases run_direct hc hM hK ops WInvO.init capFit_empty (WR.init h0) finite_empty hs ha hz with
    h | ⟨pw, f, aw, h1, h2, h3, h4, ks, k1, k2⟩
  · exact Or.inl h
  · exact Or.inr ⟨pw, h1, h4.showsO hc h2, h4.placedO hc h2, ks, k1, k2, h4.freeO hc h2 ks k1 k2⟩

/-- **C99** (nothing leaks).  When no vector is alive any more, all memory of the pool is free –
also after requests have been refused. -/
theorem vector_direct_returned_partial (hc : Sma.Legal c) (hM : 2 * c.M + 8 < 2 ^ 31)
    (hK : 2 * K.size + 8 < 2 ^ 31) {s0 s : Sma.St} (h0 : Returns (Sma.construct c) s0 () s)
    (ops : List (Op α)) {sw : SWorld α} (hs : specRun ops (fun _ => none) = some sw)
    (ha : AvoidsAll K.triv ops (fun _ => none)) (hz : ∀ op ∈ ops, Sized K.size op)
    (hend : ∀ k, sw k = none) {w : PWorld} (hr : Returns (run .direct c K ops) ⟨s, fun _ => none⟩ () w) :
    Returns Sma.freeMemSize w.pool (c.M : Int) w.pool := by
  rcases vector_direct_partial hc hM hK h0 ops hs ha hz with h | ⟨w', h1, _, _, ks, h4, h5, h6⟩
  · exact (no_both h hr).elim
  · obtain ⟨_, rfl⟩ := hr.det h1
    have : ks = [] := List.eq_nil_iff_forall_not_mem.2 fun k hk => (h5 k).1 hk (hend k)
    subst this
    simpa [heldSum] using h6

/-- **C99** (when the program stops).  In a state that vectors have brought about, a legal operation
that begins with its request for storage stops exactly if the request is refused – no free block is
large enough as it stands – and there is something to put into the storage, or if it appends to a
vector whose storage was refused earlier. -/
theorem vector_direct_stops_partial (hc : Sma.Legal c) (hM : 2 * c.M + 8 < 2 ^ 31)
    (hK : 2 * K.size + 8 < 2 ^ 31) {s0 s : Sma.St} (h0 : Returns (Sma.construct c) s0 () s)
    (ops : List (Op α)) {sw sw' : SWorld α} (hs : specRun ops (fun _ => none) = some sw)
    (ha : AvoidsAll K.triv ops (fun _ => none)) (hz : ∀ op ∈ ops, Sized K.size op)
    {w : PWorld} (hr : Returns (run .direct c K ops) ⟨s, fun _ => none⟩ () w)
    {op : Op α} (hop : specStep op sw = some sw') (hav : Avoids K.triv op sw) (hsz : Sized K.size op)
    (hfirst : RequestsFirst op) :
    Faults (step .direct c K op) w .crash ↔ Stops c K.size w sw op := by
  obtain ⟨f, aw, h2, h3, h4⟩ := reached hc hM hK h0 ops hs ha hz hr
  exact stops_direct hc hM hK h2 h3 h4 hsz hop hav hfirst

/-- **C99 fails when an element is removed.**  `pop_back` obtains the smaller storage before it gives
back the larger one.  If the vector fills the pool, the request is refused.  Removing the only element
then goes unnoticed: the vector reports half of its capacity, has no storage at all, and the next
`push_back` stops the program.  With more elements the removal itself stops the program. -/
theorem vector_direct_pop_full (hc : Sma.Legal c) (hM : 2 * c.M + 8 < 2 ^ 31)
    (hK : 2 * K.size + 8 < 2 ^ 31) {s0 s : Sma.St} (h0 : Returns (Sma.construct c) s0 () s)
    (ops : List (Op α)) {sw : SWorld α} (hs : specRun ops (fun _ => none) = some sw)
    (ha : AvoidsAll K.triv ops (fun _ => none)) (hz : ∀ op ∈ ops, Sized K.size op)
    {w : PWorld} (hr : Returns (run .direct c K ops) ⟨s, fun _ => none⟩ () w)
    {k : Nat} {v : SVec α} (hk : sw k = some v) (hne : v.data ≠ [])
    (hshrink : v.data.length - 1 < v.cap / 3) (hfull : storageBytes K.size v = c.M) :
    (2 ≤ v.data.length → Faults (step .direct c K (.pop k)) w .crash) ∧
    (v.data.length = 1 → ∃ w' u, Returns (step .direct c K (.pop k)) w () w' ∧
      w'.obj k = some u ∧ u.cap = v.cap / 2 ∧ u.c = 0 ∧
      ∀ x, Faults (step .direct c K (.push k x)) w' .crash) := by
  obtain ⟨f, aw, hI, hF, hW⟩ := reached hc hM hK h0 ops hs ha hz hr
  obtain ⟨u, hu, g2, g3⟩ := hI.alive k v hk
  have g2 := g2.ne hne
  have hobj : w.obj k = some (vmap f u) := by rw [hW.obj k, hu]; rfl
  have hlen : 0 < v.data.length := List.length_pos_iff.2 hne
  have hu0 : u.c ≠ 0 := fun e => hne (g2.null e).2
  obtain ⟨b0, b1, g, hb, hg⟩ := g2.buf hu0
  have hlt : v.data.length - 1 < u.cap := by omega
  have hsome : (g (v.data.length - 1)).isSome := by
    rw [hg, List.getElem?_eq_getElem (by omega)]; rfl
  have hd := Vec.destroy_ok (triv := K.triv) hu0 hb hlt (Or.inr hsome)
  rcases destroy_sim (md := .direct) (P := False) hc hW.mem u.c _ _ _ hd with ⟨h, _⟩ | ⟨_, s1, f1, e1, e2, e3, _⟩
  · exact h.elim
  have hsz : u.sz - 1 = v.data.length - 1 := by rw [g2.size]
  have hcap : u.cap / 2 ≠ 0 := by rw [g3]; omega
  have hlt3 : u.sz - 1 < u.cap / 3 := by rw [hsz, g3]; exact hshrink
  have hfresh : u.c < aw.mem.next := g2.fresh
  -- the vector after the destructor of its last element
  have hrep : RepO (aw.mem.put u.c ⟨u.cap, g⟩ (v.data.length - 1) none) ⟨u.sz - 1, u.cap, u.c⟩ v.data.dropLast := by
    left
    refine ⟨fun h => absurd h hu0, fun _ => ⟨b0, ?_, ?_⟩, ?_, ?_⟩
    · simp only [List.length_dropLast]; omega
    · refine ⟨(fun y => if y = v.data.length - 1 then none else g y), by simp, ?_⟩
      intro i
      simp only [hg, List.getElem?_dropLast]
      grind
    · simp [hsz]
    · rw [put_next]; exact hfresh
  have hfit : Fit K (u.cap / 2) := fit_mono (hF k v hk) (by rw [← g3]; exact Nat.div_le_self _ _)
  obtain ⟨y, hy, hsim⟩ := resize_simD hc e3 ⟨u.sz - 1, u.cap, u.c⟩ (by rw [put_next]; exact hfresh) _ hfit
  have hyf : y = false := by
    cases y with
    | false => rfl
    | true =>
      rcases hy.1 rfl with h | h
      · exact absurd h hcap
      · refine absurd ((noFree_iff _ _).2 (noFree_full hc e3 (b := u.c) (by rw [put_blk, if_pos rfl]) ?_ _)) h
        simp only
        rw [g3]
        exact hfull
  subst hyf
  have hvm : vmap f1 ⟨u.sz - 1, u.cap, u.c⟩ = (⟨u.sz - 1, u.cap, f u.c⟩ : Vec) := by
    show (⟨u.sz - 1, u.cap, f1 u.c⟩ : Vec) = _
    rw [e2.same u.c hfresh]
  rw [hvm] at hsim
  have hpop : popBack (poolOps .direct c K) (vmap f u) w.pool =
      resize (poolOps .direct c K) ⟨u.sz - 1, u.cap, f u.c⟩ (u.cap / 2) s1 := by
    unfold popBack
    rw [dassert_pos (c := (vmap f u).sz > 0) (show u.sz > 0 by rw [g2.size]; exact hlen), pure_bind]
    refine (bind_returns (show Returns ((poolOps .direct c K).destroy (f u.c) ((u.sz - 1 : Nat) : Int)) w.pool () s1 by
      rw [hsz]; exact e1)).trans ?_
    show (if u.sz - 1 < u.cap / 3 then resize (poolOps .direct c K) ⟨u.sz - 1, u.cap, f u.c⟩ (u.cap / 2)
      else Pure.pure ⟨u.sz - 1, u.cap, f u.c⟩) s1 = _
    rw [if_pos hlt3]
  have hng : ¬ (fun _ : Nat => false) (aw.mem.put u.c ⟨u.cap, g⟩ (v.data.length - 1) none).next = true := by simp
  constructor
  · intro h2
    refine (bind_returns (getObj_returns hobj)).trans (bind_faults (lift_faults ?_))
    unfold Faults
    rw [hpop]
    refine hsim.2 ?_
    rcases resize_denied (g := fun _ => false) (triv := K.triv) e3.wf hrep hcap hng with ⟨_, _, _, e, _⟩ | e
    · exfalso
      have := congrArg List.length e
      simp at this
      omega
    · exact e
  · intro h1
    have hnil : v.data.dropLast = [] := by
      rw [← List.length_eq_zero_iff]; simp [h1]
    rw [hnil] at hrep
    obtain ⟨u', m', r1, r2, r3⟩ := resize_denied_empty (g := fun _ => false) (triv := K.triv) e3.wf hrep hcap hng
    obtain ⟨a, s', f2, q1, q2, q3, rfl, q4⟩ := hsim.1 u' m' r1
    have q1' : Returns (popBack (poolOps .direct c K) (vmap f u)) w.pool (vmap f2 u') s' := hpop.trans q1
    have hz0 : (vmap f2 u').c = 0 := (q3.zero u'.c).2 r2.1
    refine ⟨_, vmap f2 u', (bind_returns (getObj_returns hobj)).trans ((bind_returns (lift_returns q1')).trans rfl),
      by simp, by rw [← g3]; exact r3, hz0, fun x => ?_⟩
    refine (bind_returns (getObj_returns (v := vmap f2 u') (by simp))).trans (bind_faults (lift_faults ?_))
    unfold pushBack
    rw [if_neg (c := (vmap f2 u').sz + 1 > (vmap f2 u').cap)
      (show ¬ u'.sz + 1 > u'.cap by have := r2.2; omega)]
    rw [pure_bind]
    refine bind_faults ?_
    rw [show (vmap f2 u').c = 0 from hz0, show (vmap f2 u').sz = 0 from r2.2]
    exact bind_faults (check_bad _ (by simp [addr]))

/-- The situation of `vector_direct_pop_full` arises in every pool that a whole number of elements, at
least three, fills: reserve all of it, add an element and remove it again.  The program goes on with
all of the pool free and a vector with a capacity, and stops at the next `push_back`. -/
theorem vector_direct_pop_unnoticed (hc : Sma.Legal c) (hM : 2 * c.M + 8 < 2 ^ 31)
    (hK : 2 * K.size + 8 < 2 ^ 31) {s0 s : Sma.St} (h0 : Returns (Sma.construct c) s0 () s) {n : Nat}
    (hn : 3 ≤ n) (hfill : taken8 K.size n = c.M) (x : α) :
    ∃ w v, Returns (run .direct c K [.new 0, .resize 0 n, .push 0 x, .pop 0]) ⟨s, fun _ => none⟩ () w ∧
      w.obj 0 = some v ∧ v.cap = n / 2 ∧ v.c = 0 ∧ Returns Sma.freeMemSize w.pool (c.M : Int) w.pool ∧
      ∀ y, Faults (step .direct c K (.push 0 y)) w .crash := by
  have hMint := hc.Mint
  have hz2 : Sized K.size (.resize 0 n : Op α) := by 
    show K.size * n + 8 < _; unfold taken8 at hfill; omega
  let sw1 : SWorld α := SWorld.put (fun _ => none) 0 (some ⟨[], 0⟩)
  let sw2 : SWorld α := sw1.put 0 (some ⟨[], n⟩)
  let sw3 : SWorld α := sw2.put 0 (some ⟨[x], n⟩)
  have e1 : sw1 0 = some ⟨[], 0⟩ := by simp [sw1, SWorld.put]
  have e2 : sw2 0 = some ⟨[], n⟩ := by simp [sw2, SWorld.put]
  have e3 : sw3 0 = some ⟨[x], n⟩ := by simp [sw3, SWorld.put]
  have hcap3 : capAfterPush 0 n = n := by unfold capAfterPush; rw [if_pos (by omega)]
  have step1 : specStep (.new 0) (fun _ => none : SWorld α) = some sw1 := rfl
  have step2 : specStep (.resize 0 n) sw1 = some sw2 := by simp [specStep, e1, sw2]
  have step3 : specStep (.push 0 x) sw2 = some sw3 := by simp [specStep, e2, sw3, hcap3]
  have spec1 : specRun [.new 0] (fun _ => none : SWorld α) = some sw1 := rfl
  have spec2 : specRun [.new 0, .resize 0 n] (fun _ => none : SWorld α) = some sw2 := by
    simp [specRun, step1, step2]
  have spec3 : specRun [.new 0, .resize 0 n, .push 0 x] (fun _ => none : SWorld α) = some sw3 := by
    simp [specRun, step1, step2, step3]
  have hav : ∀ ops : List (Op α), ops <+: [.new 0, .resize 0 n, .push 0 x, .pop 0] →
      (AvoidsAll K.triv ops (fun _ => none) ∧ ∀ op ∈ ops, Sized K.size op) := by
    have hall : AvoidsAll K.triv [.new 0, .resize 0 n, .push 0 x, .pop 0] (fun _ => none : SWorld α) :=
      ⟨trivial, fun _ _ => ⟨trivial, fun _ _ => ⟨trivial, fun _ _ => ⟨trivial, fun _ _ => trivial⟩⟩⟩⟩
    have hsub : ∀ (l ops : List (Op α)) (sw : SWorld α), ops <+: l → AvoidsAll K.triv l sw → AvoidsAll K.triv ops sw := by
      intro l
      induction l with
      | nil => intro ops sw h _; rw [List.prefix_nil.1 h]; trivial
      | cons a l ih =>
        intro ops sw h ha
        cases ops with
        | nil => trivial
        | cons b ops =>
          obtain ⟨rfl, h'⟩ := List.cons_prefix_cons.1 h
          exact ⟨ha.1, fun w' hw' => ih ops w' h' (ha.2 w' hw')⟩
    intro ops h
    refine ⟨hsub _ _ _ h hall, fun op ho => ?_⟩
    have := h.subset ho
    simp only [List.mem_cons, List.not_mem_nil, or_false] at this
    rcases this with rfl | rfl | rfl | rfl
    · trivial
    · exact hz2
    · trivial
    · trivial
  have hr1 : Returns (run .direct c K [.new 0]) ⟨s, fun _ => none⟩ ()
      ⟨s, fun y => if y = 0 then some Vec.empty else none⟩ := rfl
  obtain ⟨a1, z1⟩ := hav [.new 0] ⟨_, rfl⟩
  obtain ⟨a2, z2⟩ := hav [.new 0, .resize 0 n] ⟨_, rfl⟩
  obtain ⟨a3, z3⟩ := hav [.new 0, .resize 0 n, .push 0 x] ⟨_, rfl⟩
  obtain ⟨a4, z4⟩ := hav [.new 0, .resize 0 n, .push 0 x, .pop 0] ⟨_, rfl⟩
  -- reserve
  obtain ⟨w2, r2, st2⟩ : ∃ w2, Returns (run .direct c K [.new 0, .resize 0 n]) ⟨s, fun _ => none⟩ () w2 ∧
      ∀ v, w2.obj 0 = some v → v.c ≠ 0 := by
    rcases vector_direct_partial hc hM hK h0 _ spec2 a2 z2 with h | ⟨w2, r2, h2, h3, ks, k1, k2, k3⟩
    · exfalso
      have hf : Faults (step .direct c K (.resize 0 n : Op α)) _ .crash :=
        (run_snoc (op := .resize 0 n) hr1).symm.trans h
      obtain ⟨_, _, t, ht, hne⟩ := (vector_direct_stops_partial hc hM hK h0 [.new 0] spec1 a1 z1 hr1 step2
        trivial hz2 trivial).1 hf
      rw [e1] at ht; cases ht
      exact hne rfl
    · refine ⟨w2, r2, fun v hv hv0 => ?_⟩
      -- the request was granted: a fresh pool has room
      obtain ⟨f, aw, hI, hF, hW⟩ := reached hc hM hK h0 [.new 0] spec1 a1 z1 hr1
      obtain ⟨y, hy, hsim⟩ := step_direct hc hM hK hI hF hW hz2
      have hyt : y = true := (hy trivial).2 (Or.inr fun h => by
        have := (fresh_free hc h0).1 ((noFree_iff _ _).1 h)
        simp only [request] at this
        omega)
      subst hyt
      obtain ⟨u, hu, g2, g3⟩ := hI.alive 0 _ e1
      have hu0 : Rep aw.mem u [] := by
        rcases g2 with g2 | ⟨⟨q1, q2⟩, _⟩
        · exact g2
        · have : u = Vec.empty := by
            cases u with
            | mk sz cap cc => simp only at q1 q2 g3; simp [Vec.empty, q1, q2, g3]
          rw [this]; exact Rep.empty hI.wf
      obtain ⟨u', m', t1, t2, t3, _⟩ := resize_ok (triv := K.triv) hI.wf hu0 n
      have t1' : Returns (Vec.resizeWith (may true) K.triv u n) aw.mem u' m' := by
        unfold may; rw [allocOr_all]; exact t1
      have hstep : Returns (Vec.stepWith (may true) K.triv (.resize 0 n)) aw ()
          { mem := m', obj := fun x => if x = 0 then some u' else aw.obj x } := by
        rw [stepWith]
        obtain ⟨v1, w1, q1, q2, q4⟩ := (wp_getObj hu (fun v' w1 => v' = u ∧ w1 = aw)).2 ⟨rfl, rfl⟩
        rw [q2, q4] at q1
        refine (bind_returns q1).trans ?_
        have q3 : Returns (Vec.lift (Vec.resizeWith (may true) K.triv u n)) aw u' { aw with mem := m' } := by
          unfold Returns Vec.lift; rw [show Vec.resizeWith (may true) K.triv u n aw.mem = _ from t1']
        exact (bind_returns q3).trans rfl
      obtain ⟨pw', f', p1, p2⟩ := hsim.1 _ hstep
      have hpw : pw' = w2 := (Returns.det (show Returns (run .direct c K [.new 0, .resize 0 n]) _ () pw' from
        (run_snoc (op := .resize 0 n) hr1).trans p1) r2).2
      subst hpw
      rw [p2.obj 0] at hv
      simp only [if_true, Option.map_some, Option.some.injEq] at hv
      subst hv
      have hu'0 := (p2.mem.zero u'.c).1 hv0
      have := (t2.null hu'0).1
      rw [this] at t3
      simp [Vec.empty] at t3
      omega
  -- append
  obtain ⟨w3, r3⟩ : ∃ w3, Returns (run .direct c K [.new 0, .resize 0 n, .push 0 x]) ⟨s, fun _ => none⟩ () w3 := by
    rcases vector_direct_partial hc hM hK h0 _ spec3 a3 z3 with h | ⟨w3, r3, _⟩
    · exfalso
      have hf : Faults (step .direct c K (.push 0 x : Op α)) w2 .crash :=
        (run_snoc (op := .push 0 x) r2).symm.trans h
      obtain ⟨t, ht, ⟨h1, _⟩ | ⟨_, v, hv, h1⟩⟩ := (vector_direct_stops_partial hc hM hK h0 _ spec2 a2 z2 r2 step3
        trivial trivial trivial).1 hf
      · rw [e2] at ht; cases ht
        simp at h1; omega
      · exact st2 v hv h1
    · exact ⟨w3, r3⟩
  -- remove
  obtain ⟨w4, v, p1, p2, p3, p4, p5⟩ := (vector_direct_pop_full hc hM hK h0 _ spec3 a3 z3 r3 e3 (by simp)
    (by simp only [List.length_singleton]; omega) hfill).2 rfl
  have r4 : Returns (run .direct c K [.new 0, .resize 0 n, .push 0 x, .pop 0]) ⟨s, fun _ => none⟩ () w4 :=
    (run_snoc (op := .pop 0) r3).trans p1
  refine ⟨w4, v, r4, p2, p3, p4, ?_, p5⟩
  have step4 : specStep (.pop 0) sw3 = some (sw3.put 0 (some ⟨[], capAfterPop 1 n⟩)) := by
    simp [specStep, e3]
  have spec4 : specRun [.new 0, .resize 0 n, .push 0 x, .pop 0] (fun _ => none : SWorld α) =
      some (sw3.put 0 (some ⟨[], capAfterPop 1 n⟩)) := by
    simp [specRun, step1, step2, step3, step4]
  rcases vector_direct_partial hc hM hK h0 _ spec4 a4 z4 with h | ⟨w', r', g1, _, ks, _, _, k3⟩
  · exact (no_both h r4).elim
  · obtain ⟨_, rfl⟩ := r4.det r'
    rw [heldSum_zero] at k3
    · simpa using k3
    · intro k u hu
      by_cases hk : k = 0
      · subst hk; rw [p2] at hu; cases hu; exact p4
      · have := (g1 k).1 (by simp [sw3, sw2, sw1, SWorld.put, hk])
        rw [this] at hu; cases hu

/-- **C99 fails when storage is reserved.**  `resize(n)` of a vector without elements goes unnoticed
when the request is refused: the vector reports the capacity, has no storage, and the next `push_back`
stops the program. -/
theorem vector_direct_resize_unnoticed (hc : Sma.Legal c) (hM : 2 * c.M + 8 < 2 ^ 31)
    (hK : 2 * K.size + 8 < 2 ^ 31) {s0 s : Sma.St} (h0 : Returns (Sma.construct c) s0 () s)
    (ops : List (Op α)) {sw : SWorld α} (hs : specRun ops (fun _ => none) = some sw)
    (ha : AvoidsAll K.triv ops (fun _ => none)) (hz : ∀ op ∈ ops, Sized K.size op)
    {w : PWorld} (hr : Returns (run .direct c K ops) ⟨s, fun _ => none⟩ () w)
    {k n : Nat} {v : SVec α} (hk : sw k = some v) (hnil : v.data = []) (hn : n ≠ 0)
    (hint : K.size * n + 8 < 2 ^ 31) (hno : NoFree c w.pool (taken8 K.size n)) :
    ∃ w' u, Returns (step .direct c K (.resize k n : Op α)) w () w' ∧
      w'.obj k = some u ∧ u.cap = n ∧ u.c = 0 ∧
      ∀ x : α, Faults (step .direct c K (.push k x)) w' .crash := by
  obtain ⟨f, aw, hI, hF, hW⟩ := reached hc hM hK h0 ops hs ha hz hr
  obtain ⟨y, hy, hsim⟩ := step_direct (op := (.resize k n : Op α)) hc hM hK hI hF hW hint
  have hyf : y = false := by
    cases y with
    | false => rfl
    | true =>
      rcases (hy trivial).1 rfl with h | h
      · exact absurd h hn
      · exact absurd ((noFree_iff _ _).2 hno) h
  subst hyf
  obtain ⟨w1, u, r1, r2, r3, r4, _⟩ := denied_unnoticed (g := fun _ => false) (triv := K.triv) hI (by simp) k n hn v hk hnil
  obtain ⟨w', f', p1, p2⟩ := hsim.1 w1 r1
  have hop : specStep (.resize k n) sw = some (sw.put k (some ⟨v.data.take n, n⟩)) := by
    simp [specStep, hk]
  have hI' : WInvO w1 (sw.put k (some ⟨v.data.take n, n⟩)) := by
    rcases stepWith_ok (g := fun _ => false) (triv := K.triv) hI hop trivial with ⟨_, w2, q1, q2⟩ | hf
    · obtain ⟨_, rfl⟩ := Returns.det r1 q1; exact q2
    · exact (no_both hf r1).elim
  have hobj : w'.obj k = some (vmap f' u) := by rw [p2.obj k, r2]; rfl
  have hc0 : (vmap f' u).c = 0 := (p2.mem.zero u.c).2 r4
  refine ⟨w', vmap f' u, p1, hobj, r3, hc0, fun x => ?_⟩
  have hks : sw.put k (some ⟨v.data.take n, n⟩) k = some ⟨v.data.take n, n⟩ := by simp [SWorld.put]
  refine (stops_direct hc hM hK hI' (CapFit.step (op := (.resize k n : Op α)) hc hM hK hF hI hW.mem hint hop) p2 (op := .push k x) trivial
    (sw' := _) (by simp [specStep, hks]; rfl) trivial trivial).2 ?_
  exact ⟨_, hks, Or.inr ⟨hn, _, hobj, hc0⟩⟩

/-! ## The hypotheses can be met -/

/-- A history with a vector of three pairs.  It returns and shows the right elements; nothing is
assumed about the pool but that it was constructed. -/
example {s0 s : Sma.St} (h0 : Returns (Sma.construct (Sma.defaultSMA 4096)) s0 () s) :
    ∃ w v, Returns (run .direct (Sma.defaultSMA 4096) pairElem [.newFill 0 3 (7, 8)]) ⟨s, fun _ => none⟩ () w ∧
      w.obj 0 = some v ∧
      Returns (iterate (poolOps .direct (Sma.defaultSMA 4096) pairElem) v) w.pool [(7, 8), (7, 8), (7, 8)] w.pool := by
  have hz : Sized pairElem.size (.newFill 0 3 (7, 8) : Op (Byte × Byte)) := by
    show 3 * 3 + 8 < 2 ^ 31; decide
  have hz' : ∀ op ∈ ([.newFill 0 3 (7, 8)] : List (Op (Byte × Byte))), Sized pairElem.size op := by
    intro op ho; rw [List.mem_singleton.1 ho]; exact hz
  have hs : specRun [.newFill 0 3 (7, 8)] (fun _ => none : SWorld (Byte × Byte)) =
      some (SWorld.put (fun _ => none) 0 (some ⟨[(7, 8), (7, 8), (7, 8)], 3⟩)) := rfl
  rcases vector_direct_partial Sma.defaultSMA_legal (by decide) (by decide) h0 _ hs
    ⟨trivial, fun _ _ => trivial⟩ hz' with h | ⟨w, r, hsh, _⟩
  · exfalso
    have hr0 : Returns (run .direct (Sma.defaultSMA 4096) pairElem []) ⟨s, fun _ => none⟩ () ⟨s, fun _ => none⟩ := rfl
    have := (vector_direct_stops_partial Sma.defaultSMA_legal (by decide) (by decide) h0 []
      (K := pairElem) (sw := fun _ => none) rfl trivial (by simp) hr0
      (op := .newFill 0 3 (7, 8)) (sw' := SWorld.put (fun _ => none) 0 (some ⟨[(7, 8), (7, 8), (7, 8)], 3⟩))
      rfl trivial hz trivial).1 ((run_snoc hr0).symm.trans h)
    have := (fresh_free Sma.defaultSMA_legal h0).1 this.2
    revert this
    decide
  · obtain ⟨v, g1, _, _, g4, _⟩ := (hsh 0).2 _ rfl
    exact ⟨w, v, r, g1, g4⟩

/-- `vector_direct_pop_unnoticed` in a pool of 1024 bytes. -/
example {s0 s : Sma.St} (h0 : Returns (Sma.construct Sma.smallSMA) s0 () s) :
    ∃ w v, Returns (run .direct Sma.smallSMA intElem [.new 0, .resize 0 256, .push 0 5, .pop 0])
        ⟨s, fun _ => none⟩ () w ∧ w.obj 0 = some v ∧ v.cap = 128 ∧ v.c = 0 ∧
      Returns Sma.freeMemSize w.pool 1024 w.pool ∧
      Faults (step .direct Sma.smallSMA intElem (.push 0 6)) w .crash := by
  obtain ⟨w, v, h1, h2, h3, h4, h5, h6⟩ := vector_direct_pop_unnoticed (K := intElem) Sma.smallSMA_legal
    (by decide) (by decide) h0 (n := 256) (by decide) (by decide) 5
  exact ⟨w, v, h1, h2, h3, h4, h5, h6 6⟩

/-- `vector_direct_resize_unnoticed` in the same pool. -/
example {s0 s : Sma.St} (h0 : Returns (Sma.construct Sma.smallSMA) s0 () s) :
    ∃ w v, Returns (run .direct Sma.smallSMA intElem [.new 0, .resize 0 257]) ⟨s, fun _ => none⟩ () w ∧
      w.obj 0 = some v ∧ v.cap = 257 ∧ v.c = 0 ∧
      Faults (step .direct Sma.smallSMA intElem (.push 0 6)) w .crash := by
  have hr1 : Returns (run .direct Sma.smallSMA intElem [.new 0]) ⟨s, fun _ => none⟩ ()
      ⟨s, fun y => if y = 0 then some Vec.empty else none⟩ := rfl
  obtain ⟨w, v, h1, h2, h3, h4, h5⟩ := vector_direct_resize_unnoticed (K := intElem) Sma.smallSMA_legal
    (by decide) (by decide) h0 [.new 0] (sw := SWorld.put (fun _ => none) 0 (some ⟨[], 0⟩)) rfl
    ⟨trivial, fun _ _ => trivial⟩ (by intro op ho; rw [List.mem_singleton.1 ho]; trivial) hr1 (k := 0) (n := 257)
    (v := ⟨[], 0⟩) rfl rfl (by decide) (by decide) ((fresh_free Sma.smallSMA_legal h0).2 (by decide))
  exact ⟨w, v, (run_snoc hr1).trans h1, h2, h3, h4, h5 6⟩

end Verif.Pool
