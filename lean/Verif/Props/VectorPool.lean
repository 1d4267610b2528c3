import Verif.VectorPoolWorld

/-!
# Vectors in the static pool (C94)

Vocabulary: `Verif.Spec.VectorPool`.  `Pool.run` works on the bytes of the static allocator; the
meaning of a history is `Vec.specRun`, which knows only lists.
-/

namespace Verif.Pool

open Prog Vec

variable {α : Type} {c : Sma.Cfg} {K : Elem α} {F : Rest}

/-! ## Helpers of this file -/

theorem full_iff (s : Sma.St) (n : Nat) : NoRoom c s (bytes K n) ↔ Full c s (taken8 K.size n) := by
  unfold NoRoom Full taken8
  rw [up8_bytes]
  constructor
  · rintro ⟨t, h1, h2⟩
    exact ⟨t, h1, fun b hb => Nat.lt_of_not_le fun h => h2 ⟨b, hb, h⟩⟩
  · rintro ⟨t, h1, h2⟩
    refine ⟨t, h1, ?_⟩
    rintro ⟨b, hb, h⟩
    have := h2 b hb
    omega

/-- The states that vectors can bring about. -/
theorem run_pool (hc : Sma.Legal c) (hM : 2 * c.M + 8 < 2 ^ 31) (hK : 2 * K.size + 8 < 2 ^ 31)
    (ops : List (Op α)) {f : Nat → Nat} {w : World α} {pw : PWorld} {sw sw' : SWorld α}
    (hI : Vec.WInv w sw) (h : WR c K F f w pw) (hfin : Finite sw) (hs : specRun ops sw = some sw')
    (ha : AvoidsAll K.triv ops sw) (hz : ∀ op ∈ ops, Sized K.size op) :
    Faults (run .port c K ops) pw .crash ∨ ∃ pw' f' w', Returns (run .port c K ops) pw () pw' ∧
      Vec.WInv w' sw' ∧ WR c K F f' w' pw' ∧ Finite sw' := by
  induction ops generalizing f w pw sw with
  | nil => cases hs; exact Or.inr ⟨pw, f, w, rfl, hI, h, hfin⟩
  | cons op ops ih =>
    obtain ⟨sw1, hs1, hs2⟩ := Option.bind_eq_some_iff.1 hs
    obtain ⟨_, w1, r1, hI1⟩ := step_ok hI hs1 ha.1
    rcases step_pool hc hM hK hI h (hz op List.mem_cons_self) r1 with ⟨_, hf⟩ | ⟨pw1, f1, e1, e2⟩
    · exact Or.inl (bind_faults hf)
    · have := ih hI1 e2 (hfin.step hs1) hs2 (ha.2 sw1 hs1) (fun o ho => hz o (List.mem_cons_of_mem _ ho))
      have er : run .port c K (op :: ops) pw = run .port c K ops pw1 := bind_returns e1
      unfold Faults Returns at *
      rw [er]
      exact this

theorem finite_empty : Finite (fun _ => none : SWorld α) := ⟨[], List.nodup_nil, by simp⟩

/-! ## C94 -/

/-- **C94.**  Every history of operations on any number of vectors in a fresh pool, legal by the
specification of vectors as lists, stops for lack of memory or returns; in the latter case every
vector shows exactly the elements it should, the storage of the vectors lies in the pool, apart from
each other and from the free blocks, and `free_mem_size()` is the pool size minus the storage of the
vectors alive.  Nothing else goes wrong.  Missing for the full statement: the two situations in which
vectors go wrong with any allocator (`AvoidsAll`, C04 and C07), and byte counts beyond `int`, which
need a request of that size or a pool or an element of about a gigabyte (C08). -/
theorem vector_pool_partial (hc : Sma.Legal c) (hM : 2 * c.M + 8 < 2 ^ 31)
    (hK : 2 * K.size + 8 < 2 ^ 31) {s0 s : Sma.St} (h0 : Returns (Sma.construct c) s0 () s)
    (ops : List (Op α)) {sw : SWorld α} (hs : specRun ops (fun _ => none) = some sw)
    (ha : AvoidsAll K.triv ops (fun _ => none)) (hz : ∀ op ∈ ops, Sized K.size op) :
    Faults (run .port c K ops) ⟨s, fun _ => none⟩ .crash ∨
    ∃ w, Returns (run .port c K ops) ⟨s, fun _ => none⟩ () w ∧
      Shows .port c K w sw ∧ Placed c K w sw ∧ Accounted c K w sw := by
  rcases run_pool hc hM hK ops Vec.WInv.init (WR.init h0) finite_empty hs ha hz with
    h | ⟨pw, f, w, h1, h2, h3, ks, h4, h5⟩
  · exact Or.inl h
  · exact Or.inr ⟨pw, h1, h3.shows hc h2, h3.placed hc h2, ks, h4, h5, h3.free hc h2 ks h4 h5⟩

/-- **C94** (nothing leaks).  When no vector is alive any more, all memory of the pool is free. -/
theorem vector_pool_returned_partial (hc : Sma.Legal c) (hM : 2 * c.M + 8 < 2 ^ 31)
    (hK : 2 * K.size + 8 < 2 ^ 31) {s0 s : Sma.St} (h0 : Returns (Sma.construct c) s0 () s)
    (ops : List (Op α)) {sw : SWorld α} (hs : specRun ops (fun _ => none) = some sw)
    (ha : AvoidsAll K.triv ops (fun _ => none)) (hz : ∀ op ∈ ops, Sized K.size op)
    (hend : ∀ k, sw k = none) {w : PWorld} (hr : Returns (run .port c K ops) ⟨s, fun _ => none⟩ () w) :
    Returns Sma.freeMemSize w.pool (c.M : Int) w.pool := by
  rcases vector_pool_partial hc hM hK h0 ops hs ha hz with h | ⟨w', h1, _, _, ks, h4, h5, h6⟩
  · unfold Faults Returns at *; rw [h] at hr; cases hr
  · obtain ⟨_, rfl⟩ := hr.det h1
    have : ks = [] := List.eq_nil_iff_forall_not_mem.2 fun k hk => (h5 k).1 hk (hend k)
    subst this
    simpa [storageSum] using h6

/-- **C94** (when the program stops).  In a state that vectors have brought about, a legal operation
stops for lack of memory only if it requests storage; and an operation that begins with the request
stops exactly if there is one and no free block is large enough even after merging. -/
theorem vector_pool_stops_partial (hc : Sma.Legal c) (hM : 2 * c.M + 8 < 2 ^ 31)
    (hK : 2 * K.size + 8 < 2 ^ 31) {s0 s : Sma.St} (h0 : Returns (Sma.construct c) s0 () s)
    (ops : List (Op α)) {sw sw' : SWorld α} (hs : specRun ops (fun _ => none) = some sw)
    (ha : AvoidsAll K.triv ops (fun _ => none)) (hz : ∀ op ∈ ops, Sized K.size op)
    {w : PWorld} (hr : Returns (run .port c K ops) ⟨s, fun _ => none⟩ () w)
    {op : Op α} (hop : specStep op sw = some sw') (hav : Avoids K.triv op sw) (hsz : Sized K.size op) :
    (Faults (step .port c K op) w .crash → request op sw ≠ 0) ∧
    (RequestsFirst op → (Faults (step .port c K op) w .crash ↔
      request op sw ≠ 0 ∧ Full c w.pool (taken8 K.size (request op sw)))) := by
  rcases run_pool hc hM hK ops Vec.WInv.init (WR.init h0) finite_empty hs ha hz with
    h | ⟨pw, f, aw, h1, hI, hW, _⟩
  · unfold Faults Returns at *; rw [h] at hr; cases hr
  obtain ⟨_, rfl⟩ := hr.det h1
  obtain ⟨_, w1, r1, _⟩ := step_ok hI hop hav
  have hsim := step_pool hc hM hK hI hW hsz r1
  have hfwd : Faults (step .port c K op) w .crash → Lacks c K w.pool sw op := by
    intro hf
    rcases hsim with ⟨hl, _⟩ | ⟨pw', _, e, _⟩
    · exact hl
    · unfold Faults Returns at *; rw [hf] at e; cases e
  have hobj : ∀ k v, aw.obj k = some v → w.obj k = some (vmap f v) := fun k v hv => by
    rw [hW.obj k, hv]; rfl
  have hpush : ∀ k v e, sw k = some v → ¬ v.data.length < v.cap →
      Short c K w.pool (max 2 (2 * v.data.length)) → ∀ u, aw.obj k = some u →
      Faults (pushBack (poolOps .port c K) (vmap f u) e) w.pool .crash := by
    intro k v e hk hl hsh u hu
    obtain ⟨v', hv', h2, h3⟩ := WInv.fresh hI hu
    rw [hk] at hv'; cases hv'
    obtain ⟨c1, c2⟩ := cap_pool hc hW.mem h2
    have hfit := fit_push hM hK (mul_le_of_le c1 c2)
    have hal := alloc_faults hc hW.mem hsh.1 hfit hsh.2
    unfold pushBack
    rw [if_pos (c := (vmap f u).sz + 1 > (vmap f u).cap) (show u.sz + 1 > u.cap by rw [h2.size, h3]; omega)]
    apply bind_faults
    by_cases hz0 : u.sz ≠ 0
    · rw [if_pos (c := (vmap f u).sz ≠ 0) hz0]
      have e : max 2 (2 * v.data.length) = 2 * u.sz := by rw [h2.size] at hz0 ⊢; omega
      rw [e] at hal
      unfold resize
      rw [if_neg (c := 2 * (vmap f u).sz = 0) (show ¬ 2 * u.sz = 0 by omega)]
      exact bind_faults hal
    · rw [if_neg (c := (vmap f u).sz ≠ 0) hz0]
      have e : max 2 (2 * v.data.length) = 2 := by rw [h2.size] at hz0; omega
      rw [e] at hal
      unfold resize
      rw [if_neg (by omega)]
      exact bind_faults hal
  constructor
  · intro hf
    have hl := hfwd hf
    cases op <;> simp only [Lacks] at hl <;> simp only [request]
    case newFill => exact hl.1
    case resize => exact hl.1
    case resizeFill => exact hl.1
    case push => obtain ⟨v, h1, h2, h3⟩ := hl; rw [h1]; simp only; rw [if_neg (by omega)]; exact h3.1
    case pushElem => obtain ⟨v, h1, h2, h3⟩ := hl; rw [h1]; simp only; rw [if_neg (by omega)]; exact h3.1
    case pop => obtain ⟨v, h1, h2, h3⟩ := hl; rw [h1]; simp only; rw [if_pos h2]; exact h3
    case copy => obtain ⟨h1, v, h2, h3⟩ := hl; rw [h2]; simp only; rw [if_neg h1]; exact h3
  · intro hfirst
    constructor
    · intro hf
      have hl := hfwd hf
      cases op <;> simp only [Lacks] at hl <;> simp only [request]
      case newFill => exact ⟨hl.1, (full_iff _ _).1 hl.2⟩
      case resize => exact ⟨hl.1, (full_iff _ _).1 hl.2⟩
      case resizeFill => exact ⟨hl.1, (full_iff _ _).1 hl.2⟩
      case push =>
        obtain ⟨v, h1, h2, h3⟩ := hl; rw [h1]; simp only; rw [if_neg (by omega)]
        exact ⟨h3.1, (full_iff _ _).1 h3.2⟩
      case pushElem =>
        obtain ⟨v, h1, h2, h3⟩ := hl; rw [h1]; simp only; rw [if_neg (by omega)]
        exact ⟨h3.1, (full_iff _ _).1 h3.2⟩
      case pop => exact hfirst.elim
      case copy => exact hfirst.elim
    · rintro ⟨g1, g2⟩
      have g2 := (full_iff _ _).2 g2
      cases op with
      | newFill k n x =>
        simp only [request] at g1 g2
        refine bind_faults (lift_faults ?_)
        unfold ctorFill
        rw [dassert_pos g1, pure_bind]
        unfold resize
        apply bind_faults
        rw [if_neg g1]
        exact bind_faults (alloc_faults hc hW.mem g1 hsz g2)
      | resize k n =>
        simp only [request] at g1 g2
        obtain ⟨v, hv, _⟩ := getObj_bind r1
        refine (bind_returns (getObj_returns (hobj k v hv))).trans (bind_faults (lift_faults ?_))
        unfold resize
        rw [if_neg g1]
        exact bind_faults (alloc_faults hc hW.mem g1 hsz g2)
      | resizeFill k n x =>
        simp only [request] at g1 g2
        obtain ⟨v, hv, _⟩ := getObj_bind r1
        refine (bind_returns (getObj_returns (hobj k v hv))).trans (bind_faults (lift_faults ?_))
        unfold resizeFill
        rw [if_neg g1]
        exact bind_faults (alloc_faults hc hW.mem g1 hsz g2)
      | push k x =>
        simp only [request] at g1 g2
        obtain ⟨v, hv, _⟩ := getObj_bind r1
        refine (bind_returns (getObj_returns (hobj k v hv))).trans (bind_faults (lift_faults ?_))
        rcases hk : sw k with _ | t
        · rw [hk] at g1; exact absurd rfl g1
        · rw [hk] at g1 g2
          simp only at g1 g2
          by_cases hl : t.data.length < t.cap
          · rw [if_pos hl] at g1; exact absurd rfl g1
          · rw [if_neg hl] at g1 g2
            exact hpush k t _ hk hl ⟨g1, g2⟩ v hv
      | pushElem k j i =>
        simp only [request] at g1 g2
        obtain ⟨v, hv, r1⟩ := getObj_bind r1
        refine (bind_returns (getObj_returns (hobj k v hv))).trans ?_
        obtain ⟨u, hu, r1⟩ := getObj_bind r1
        refine (bind_returns (getObj_returns (hobj j u hu))).trans ?_
        obtain ⟨_, w2, r2, _⟩ := returns_bind r1
        obtain ⟨hi, _⟩ := returns_check r2
        refine (bind_returns (show Returns (dassert (i < (vmap f u).sz)) w () w from check_ok w hi)).trans
          (bind_faults (lift_faults ?_))
        rcases hk : sw k with _ | t
        · rw [hk] at g1; exact absurd rfl g1
        · rw [hk] at g1 g2
          simp only at g1 g2
          by_cases hl : t.data.length < t.cap
          · rw [if_pos hl] at g1; exact absurd rfl g1
          · rw [if_neg hl] at g1 g2
            exact hpush k t _ hk hl ⟨g1, g2⟩ v hv
      | new k => exact absurd rfl g1
      | set k i x => exact absurd rfl g1
      | clear k => exact absurd rfl g1
      | move d s => exact absurd rfl g1
      | drop k => exact absurd rfl g1
      | pop k => exact hfirst.elim
      | copy d s => exact hfirst.elim

/-- A block that fills the pool leaves no room. -/
theorem noRoom_full (hc : Sma.Legal c) {f : Nat → Nat} {m : Mem α} {s : Sma.St} (hR : R c K F f m s)
    {b : Nat} {k : Blk α} (hk : m.blk b = some k) (hfull : taken8 K.size k.len = c.M) {n : Nat}
    (hn : n ≠ 0) : NoRoom c s (bytes K n) := by
  obtain ⟨L, hm, _, h3⟩ := hR.live hk
  obtain ⟨t, ht, _⟩ := Sma.sma_merge hc h3
  refine ⟨t, ht, ?_⟩
  rintro ⟨d, hd, hle⟩
  have hrt := Sma.reach_merge h3 ht
  obtain ⟨_, _, g3, g4, _⟩ := Sma.sma_blocks_partial hc hrt
  have e1 := g3 (f b, bytes K k.len) hm d hd
  obtain ⟨⟨e2, e3⟩, e4⟩ := g4 d hd
  obtain ⟨i1, i2, _, _⟩ := hR.inPool hc hk
  rw [up8_bytes] at e1
  unfold taken8 at hfull
  unfold Sma.Disj at e1
  simp only at e1
  omega

/-- **C94 fails for operations that need no memory.**  Removing an element can stop the program:
`pop_back` obtains the smaller storage before it gives back the larger one, so a vector that fills the
pool cannot shrink. -/
theorem vector_pool_pop_full (hc : Sma.Legal c) (hM : 2 * c.M + 8 < 2 ^ 31)
    (hK : 2 * K.size + 8 < 2 ^ 31) {s0 s : Sma.St} (h0 : Returns (Sma.construct c) s0 () s)
    (ops : List (Op α)) {sw : SWorld α} (hs : specRun ops (fun _ => none) = some sw)
    (ha : AvoidsAll K.triv ops (fun _ => none)) (hz : ∀ op ∈ ops, Sized K.size op)
    {w : PWorld} (hr : Returns (run .port c K ops) ⟨s, fun _ => none⟩ () w)
    {k : Nat} {v : SVec α} (hk : sw k = some v) (hne : v.data ≠ [])
    (hshrink : v.data.length - 1 < v.cap / 3) (hfull : storageBytes K.size v = c.M) :
    (specStep (.pop k) sw).isSome ∧ Faults (step .port c K (.pop k)) w .crash := by
  refine ⟨by simp [specStep, hk, hne], ?_⟩
  rcases run_pool hc hM hK ops Vec.WInv.init (WR.init h0) finite_empty hs ha hz with
    h | ⟨pw, f, aw, h1, hI, hW, _⟩
  · unfold Faults Returns at *; rw [h] at hr; cases hr
  obtain ⟨_, rfl⟩ := hr.det h1
  have hop : specStep (.pop k) sw =
      some (sw.put k (some ⟨v.data.dropLast, capAfterPop v.data.length v.cap⟩)) := by
    simp [specStep, hk, hne]
  obtain ⟨_, w1, r1, _⟩ := step_ok (triv := K.triv) hI hop trivial
  obtain ⟨u, hu, r2⟩ := getObj_bind r1
  obtain ⟨v', hv', g2, g3⟩ := WInv.fresh hI hu
  rw [hk] at hv'; cases hv'
  have hobj : w.obj k = some (vmap f u) := by rw [hW.obj k, hu]; rfl
  refine (bind_returns (getObj_returns hobj)).trans (bind_faults (lift_faults ?_))
  have hlen : 0 < v.data.length := List.length_pos_iff.2 hne
  have hu0 : u.c ≠ 0 := fun e => hne (g2.null e).2
  obtain ⟨b0, b1, g, hb, hg⟩ := g2.buf hu0
  -- the destructor of the last element
  have hlt : v.data.length - 1 < u.cap := by omega
  have hsome : (g (v.data.length - 1)).isSome := by
    rw [hg, List.getElem?_eq_getElem (by omega)]; rfl
  have hd := Vec.destroy_ok (triv := K.triv) hu0 hb hlt (Or.inr hsome)
  rcases destroy_sim (P := False) hc hW.mem u.c _ _ _ hd with ⟨h, _⟩ | ⟨_, s1, f1, e1, e2, e3, _⟩
  · exact h.elim
  unfold popBack
  rw [dassert_pos (c := (vmap f u).sz > 0) (show u.sz > 0 by rw [g2.size]; exact hlen), pure_bind]
  have hsz : u.sz - 1 = v.data.length - 1 := by rw [g2.size]
  refine (bind_returns (show Returns ((poolOps .port c K).destroy (f u.c) ((u.sz - 1 : Nat) : Int)) w.pool () s1 by
    rw [hsz]; exact e1)).trans ?_
  have hlt3 : u.sz - 1 < u.cap / 3 := by rw [hsz, g3]; exact hshrink
  show Faults (if u.sz - 1 < u.cap / 3 then resize (poolOps .port c K) ⟨u.sz - 1, u.cap, f u.c⟩ (u.cap / 2)
    else Pure.pure ⟨u.sz - 1, u.cap, f u.c⟩) s1 .crash
  rw [if_pos hlt3]
  have hcap : u.cap / 2 ≠ 0 := by rw [g3]; omega
  unfold resize
  rw [if_neg hcap]
  refine bind_faults (alloc_faults hc e3 hcap ?_ (noRoom_full hc e3 (b := u.c) (by
    rw [put_blk, if_pos rfl]) ?_ hcap))
  · have c3 := mul_le_of_le (cap_pool hc hW.mem g2).1 (Nat.div_le_self u.cap 2)
    unfold Fit
    omega
  · simp only
    rw [g3]
    exact hfull

/-- A fresh pool can serve any request that fits into it. -/
theorem fresh_room (hc : Sma.Legal c) {s0 s : Sma.St} (h0 : Returns (Sma.construct c) s0 () s) {n : Nat}
    (hn : n ≤ c.M) : ¬ Full c s n := by
  rintro ⟨t, ht, hno⟩
  have hw := Sma.winv_init hc h0
  have hf : Sma.FreeBlock c s (c.base, c.M) :=
    hw.1.freeBlock.2 ((Sma.flat_init c).mem_iff.2 (List.mem_singleton.2 rfl))
  obtain ⟨t', ht', _, _, h3, _⟩ := Sma.sma_merge hc (.init h0)
  obtain ⟨_, rfl⟩ := ht.det ht'
  obtain ⟨b, hb, h4, h5⟩ := h3 _ hf
  have := hno b hb
  simp only at h4 h5
  omega

/-- The situation of `vector_pool_pop_full` arises in every pool that a whole number of elements, at
least three, fills: reserve all of it, add an element and remove it again. -/
theorem vector_pool_pop_stops (hc : Sma.Legal c) (hM : 2 * c.M + 8 < 2 ^ 31)
    (hK : 2 * K.size + 8 < 2 ^ 31) {s0 s : Sma.St} (h0 : Returns (Sma.construct c) s0 () s) {n : Nat}
    (hn : 3 ≤ n) (hfill : taken8 K.size n = c.M) (x : α) :
    ∃ w, Returns (run .port c K [.new 0, .resize 0 n, .push 0 x]) ⟨s, fun _ => none⟩ () w ∧
      Faults (step .port c K (.pop 0)) w .crash ∧
      (specRun [.new 0, .resize 0 n, .push 0 x, .pop 0] (fun _ => none : SWorld α)).isSome := by
  have hMint := hc.Mint
  have hz2 : Sized K.size (.resize 0 n : Op α) := by
    show K.size * n + 8 < _; unfold taken8 at hfill; omega
  have spec1 : specRun [.new 0] (fun _ => none : SWorld α) =
      some (SWorld.put (fun _ => none) 0 (some ⟨[], 0⟩)) := rfl
  have hr1 : Returns (run .port c K [.new 0]) ⟨s, fun _ => none⟩ ()
      ⟨s, fun y => if y = 0 then some Vec.empty else none⟩ := rfl
  have e0 : (SWorld.put (fun _ => none) 0 (some ⟨[], 0⟩) : SWorld α) 0 = some ⟨[], 0⟩ := by
    simp [SWorld.put]
  let sw2 : SWorld α := (SWorld.put (fun _ => none) 0 (some ⟨[], 0⟩) : SWorld α).put 0 (some ⟨[], n⟩)
  have spec2 : specRun [.new 0, .resize 0 n] (fun _ => none : SWorld α) = some sw2 := by
    simp [specRun, specStep, sw2, SWorld.put]
  have a2 : AvoidsAll K.triv [.new 0, .resize 0 n] (fun _ => none : SWorld α) :=
    ⟨trivial, fun _ _ => ⟨trivial, fun _ _ => trivial⟩⟩
  have z2 : ∀ op ∈ ([.new 0, .resize 0 n] : List (Op α)), Sized K.size op := by
    intro op ho
    rcases List.mem_cons.1 ho with rfl | ho
    · trivial
    · rw [List.mem_singleton.1 ho]; exact hz2
  have nofault2 : ¬ Faults (run .port c K [.new 0, .resize 0 n]) ⟨s, fun _ => none⟩ .crash := by
    intro hf
    have hf' : Faults (step .port c K (.resize 0 n : Op α)) ⟨s, fun y => if y = 0 then some Vec.empty else none⟩ .crash := by
      have : run .port c K [.new 0, .resize 0 n] ⟨s, fun _ => none⟩ =
          (step .port c K (.resize 0 n) >>= fun _ => Pure.pure ()) ⟨s, fun y => if y = 0 then some Vec.empty else none⟩ := rfl
      unfold Faults at hf ⊢
      rw [this, Prog.bind_apply] at hf
      split at hf
      · cases hf
      · rename_i e he; cases hf; exact he
      · cases hf
    have := (vector_pool_stops_partial hc hM hK h0 [.new 0] spec1 ⟨trivial, fun _ _ => trivial⟩
      (by intro op ho; rw [List.mem_singleton.1 ho]; trivial) hr1 (op := .resize 0 n)
      (sw' := sw2) (by simp [specStep, e0, sw2]) trivial hz2).2 trivial
    exact fresh_room hc h0 (Nat.le_of_eq hfill) (this.1 hf').2
  have spec3 : specRun [.new 0, .resize 0 n, .push 0 x] (fun _ => none : SWorld α) =
      some (sw2.put 0 (some ⟨[x], n⟩)) := by
    have hc3 : capAfterPush 0 n = n := by unfold capAfterPush; rw [if_pos (by omega)]
    simp [specRun, specStep, sw2, SWorld.put, hc3]
  have a3 : AvoidsAll K.triv [.new 0, .resize 0 n, .push 0 x] (fun _ => none : SWorld α) :=
    ⟨trivial, fun _ _ => ⟨trivial, fun _ _ => ⟨trivial, fun _ _ => trivial⟩⟩⟩
  have z3 : ∀ op ∈ ([.new 0, .resize 0 n, .push 0 x] : List (Op α)), Sized K.size op := by
    intro op ho
    simp only [List.mem_cons, List.not_mem_nil, or_false] at ho
    rcases ho with rfl | rfl | rfl
    · trivial
    · exact hz2
    · trivial
  have ret3 : ∃ w, Returns (run .port c K [.new 0, .resize 0 n, .push 0 x]) ⟨s, fun _ => none⟩ () w := by
    rcases vector_pool_partial hc hM hK h0 _ spec2 a2 z2 with h | ⟨w2, r2, _⟩
    · exact absurd h nofault2
    rcases vector_pool_partial hc hM hK h0 _ spec3 a3 z3 with h | ⟨w3, r3, _⟩
    · exfalso
      have hstep := (vector_pool_stops_partial hc hM hK h0 _ spec2 a2 z2 r2 (op := .push 0 x)
        (sw' := sw2.put 0 (some ⟨[x], capAfterPush 0 n⟩)) (by simp [specStep, sw2, SWorld.put]) trivial trivial).1
      have hreq : request (.push 0 x) sw2 = 0 := by
        simp only [request, sw2, SWorld.put, if_true, List.length_nil]
        rw [if_pos (by omega)]
      apply hstep _ hreq
      obtain ⟨_, u1, q1, q2⟩ := returns_bind r2
      obtain ⟨_, u2, q3, q4⟩ := returns_bind q2
      obtain ⟨_, rfl⟩ := returns_pure q4
      have : run .port c K [.new 0, .resize 0 n, .push 0 x] ⟨s, fun _ => none⟩ =
          (step .port c K (.push 0 x) >>= fun _ => Pure.pure ()) w2 :=
        (bind_returns q1).trans (bind_returns q3)
      unfold Faults at h ⊢
      rw [this, Prog.bind_apply] at h
      split at h
      · cases h
      · rename_i e he; cases h; exact he
      · cases h
    · exact ⟨w3, r3⟩
  obtain ⟨w, hw⟩ := ret3
  obtain ⟨p1, p2⟩ := vector_pool_pop_full hc hM hK h0 _ spec3 a3 z3 hw (k := 0) (v := ⟨[x], n⟩)
    (by simp [SWorld.put]) (by simp) (by simp only [List.length_singleton]; omega) hfill
  refine ⟨w, hw, p2, ?_⟩
  obtain ⟨sw4, h4⟩ := Option.isSome_iff_exists.1 p1
  have : specRun [.new 0, .resize 0 n, .push 0 x, .pop 0] (fun _ => none : SWorld α) =
      (specRun [.new 0, .resize 0 n, .push 0 x] (fun _ => none : SWorld α)).bind (specRun [.pop 0]) := by
    simp only [specRun, Option.bind_assoc, Option.bind_some]
  rw [this, spec3, Option.bind_some]
  simp [specRun, h4]

/-! ## The hypotheses can be met -/

/-- Numbers, eight bytes each, as the data of nodes. -/
def natLayout : Layout Nat where
  words := 1
  triv := true
  enc x _ := .raw x
  dec g := match g 0 with
    | .raw x => some x
    | _ => none
  fin g := g
  pos := Nat.one_pos
  dec_enc x g h := by rw [h 0 Nat.one_pos]

/-- `char`. -/
def charElem : Elem Byte where
  size := 1
  triv := true
  enc x _ := x
  dec g := some (g 0)
  fin g := g
  pos := Nat.one_pos
  dec_enc x g h := by rw [h 0 Nat.one_pos]

/-- `int`, four bytes with the lowest first. -/
def intElem : Elem (BitVec 32) where
  size := 4
  triv := true
  enc x j := Fin.ofNat 256 (x.toNat / 256 ^ j)
  dec g := some (BitVec.ofNat 32 (byteSum g 4))
  fin g := g
  pos := by decide
  dec_enc x g h := by
    have h0 := congrArg Fin.val (h 0 (by decide))
    have h1 := congrArg Fin.val (h 1 (by decide))
    have h2 := congrArg Fin.val (h 2 (by decide))
    have h3 := congrArg Fin.val (h 3 (by decide))
    have hx := x.isLt
    simp only [Fin.ofNat] at h0 h1 h2 h3
    congr 1
    apply BitVec.eq_of_toNat_eq
    simp only [BitVec.toNat_ofNat, byteSum]
    omega

/-- A structure of three bytes with a destructor that overwrites the first, as a type with resources
might. -/
def pairElem : Elem (Byte × Byte) where
  size := 3
  triv := false
  enc x j := if j = 0 then 1 else if j = 1 then x.1 else x.2
  dec g := if g 0 = 1 then some (g 1, g 2) else none
  fin g j := if j = 0 then 0 else g j
  pos := by decide
  dec_enc x g h := by
    rw [h 0 (by decide), h 1 (by decide), h 2 (by decide)]; rfl

/-- The configuration of the port with these element types. -/
example : Sma.Legal (Sma.defaultSMA 4096) ∧ 2 * (Sma.defaultSMA 4096).M + 8 < 2 ^ 31 ∧
    2 * charElem.size + 8 < 2 ^ 31 ∧ 2 * intElem.size + 8 < 2 ^ 31 ∧ 2 * pairElem.size + 8 < 2 ^ 31 :=
  ⟨Sma.defaultSMA_legal, by decide, by decide, by decide, by decide⟩

/-- A history with a vector of three pairs: fill, remove, append, assign.  It returns and shows the
right elements; nothing is assumed about the pool but that it was constructed. -/
example {s0 s : Sma.St} (h0 : Returns (Sma.construct (Sma.defaultSMA 4096)) s0 () s) :
    ∃ w v, Returns (run .port (Sma.defaultSMA 4096) pairElem [.newFill 0 3 (7, 8)]) ⟨s, fun _ => none⟩ () w ∧
      w.obj 0 = some v ∧
      Returns (iterate (poolOps .port (Sma.defaultSMA 4096) pairElem) v) w.pool [(7, 8), (7, 8), (7, 8)] w.pool ∧
      Returns Sma.freeMemSize w.pool (1048576 - 16) w.pool := by
  have hz : Sized pairElem.size (.newFill 0 3 (7, 8) : Op (Byte × Byte)) := by
    show 3 * 3 + 8 < 2 ^ 31; decide
  have hz' : ∀ op ∈ ([.newFill 0 3 (7, 8)] : List (Op (Byte × Byte))), Sized pairElem.size op := by
    intro op ho; rw [List.mem_singleton.1 ho]; exact hz
  have hs : specRun [.newFill 0 3 (7, 8)] (fun _ => none : SWorld (Byte × Byte)) =
      some (SWorld.put (fun _ => none) 0 (some ⟨[(7, 8), (7, 8), (7, 8)], 3⟩)) := rfl
  rcases vector_pool_partial Sma.defaultSMA_legal (by decide) (by decide) h0 _ hs
    ⟨trivial, fun _ _ => trivial⟩ hz' with h | ⟨w, r, hsh, _, ks, k1, k2, k3⟩
  · exfalso
    have := (vector_pool_stops_partial Sma.defaultSMA_legal (by decide) (by decide) h0 []
      (K := pairElem) (sw := fun _ => none) rfl trivial (by simp) (w := ⟨s, fun _ => none⟩) rfl
      (op := .newFill 0 3 (7, 8)) (sw' := SWorld.put (fun _ => none) 0 (some ⟨[(7, 8), (7, 8), (7, 8)], 3⟩))
      rfl trivial hz).2 trivial
    refine fresh_room Sma.defaultSMA_legal h0 (by decide) (this.1 ?_).2
    have e : run .port (Sma.defaultSMA 4096) pairElem [.newFill 0 3 (7, 8)] ⟨s, fun _ => none⟩ =
      (step .port (Sma.defaultSMA 4096) pairElem (.newFill 0 3 (7, 8)) >>= fun _ => Pure.pure ())
        ⟨s, fun _ => none⟩ := rfl
    unfold Faults at h ⊢
    rw [e, Prog.bind_apply] at h
    split at h
    · cases h
    · rename_i e he; cases h; exact he
    · cases h
  · obtain ⟨v, g1, _, _, g4, _⟩ := (hsh 0).2 _ rfl
    refine ⟨w, v, r, g1, g4, ?_⟩
    have hks : ks = [0] := by
      have h0 : 0 ∈ ks := (k2 0).2 (by simp [SWorld.put])
      have hall : ∀ k ∈ ks, k = 0 := by
        intro k hk
        have := (k2 k).1 hk
        by_cases e : k = 0
        · exact e
        · simp [SWorld.put, e] at this
      cases ks with
      | nil => cases h0
      | cons a l =>
        have ha := hall a List.mem_cons_self
        subst ha
        cases l with
        | nil => rfl
        | cons b l =>
          have hb := hall b (by simp)
          subst hb
          simp at k1
    subst hks
    exact k3

/-- `vector_pool_pop_stops` in a pool of 1024 bytes. -/
example {s0 s : Sma.St} (h0 : Returns (Sma.construct Sma.smallSMA) s0 () s) :
    ∃ w, Returns (run .port Sma.smallSMA intElem [.new 0, .resize 0 256, .push 0 5]) ⟨s, fun _ => none⟩ () w ∧
      Faults (step .port Sma.smallSMA intElem (.pop 0)) w .crash := by
  obtain ⟨w, h1, h2, _⟩ := vector_pool_pop_stops (K := intElem) Sma.smallSMA_legal (by decide)
    (by decide) h0 (n := 256) (by decide) (by decide) 5
  exact ⟨w, h1, h2⟩

end Verif.Pool
