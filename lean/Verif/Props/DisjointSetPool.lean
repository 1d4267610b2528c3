import Verif.DisjointSetPoolWorld

/-!
# Disjoint sets in the static pool (C108)

Vocabulary: `Verif.Spec.DisjointSetPool` and `Verif.Spec.DisjointSet`.  `DSUPool.wrun` works on the bytes of
the static allocator; the meaning of a history is `DSU.Legal`, which knows only numbers of elements and
lists of connected pairs.
-/

namespace Verif.DSUPool

open Prog Vec Pool
open DSU (Op WOp SObj Legal Conn)

variable {c : Sma.Cfg}

/-- **C108.**  Every legal history of operations on any number of disjoint sets in a fresh pool stops for
lack of memory or returns; in the latter case every object shows its own size, number of classes and
connections, the arrays lie in the pool, apart from each other and from the free blocks, and
`free_mem_size()` is the pool size minus the arrays of the objects alive.  Missing for the full
statement: histories that `connect` connected elements (`DSU.Legal`, see `dsu_pool_hangs`), and arrays
whose number of bytes exceeds an `int` (`Small`). -/
theorem dsu_pool_partial (hc : Sma.Legal c) (hM : 2 * c.M + 8 < 2 ^ 31) {s0 s : Sma.St}
    (h0 : Returns (Sma.construct c) s0 () s) (ops : List WOp) {sw : DSU.SWorld}
    (hl : Legal ops (fun _ => none) sw) (hz : Small ops) :
    Faults (wrun .port c ops) ⟨s, fun _ => none⟩ .crash ∨
    ∃ w, Returns (wrun .port c ops) ⟨s, fun _ => none⟩ () w ∧ Shows .port c w sw ∧
      XPool.Placed c 4 w.pool w.obj ∧ XPool.Accounted c 4 w.pool w.obj (fun k => sw k ≠ none) := by
  rcases wrun_pool hc hM ops hl hz (PSt.init h0) with h | ⟨w, h1, h2⟩
  · exact Or.inl h
  · exact Or.inr ⟨w, h1, h2.shows hc, h2.placed hc, h2.accounted hc⟩

/-- **C108** (nothing leaks).  When no object is alive any more, all memory of the pool is free. -/
theorem dsu_pool_returned_partial (hc : Sma.Legal c) (hM : 2 * c.M + 8 < 2 ^ 31) {s0 s : Sma.St}
    (h0 : Returns (Sma.construct c) s0 () s) (ops : List WOp) {sw : DSU.SWorld}
    (hl : Legal ops (fun _ => none) sw) (hz : Small ops) (hend : ∀ k, sw k = none) {w : PWorld}
    (hr : Returns (wrun .port c ops) ⟨s, fun _ => none⟩ () w) :
    Returns Sma.freeMemSize w.pool (c.M : Int) w.pool := by
  rcases dsu_pool_partial hc hM h0 ops hl hz with h | ⟨w', h1, _, _, ks, h4, h5, h6⟩
  · unfold Faults Returns at *; rw [h] at hr; cases hr
  · obtain ⟨_, rfl⟩ := hr.det h1
    have : ks = [] := List.eq_nil_iff_forall_not_mem.2 fun k hk => (h5 k).1 hk (hend k)
    subst this
    simpa [XPool.storage] using h6

/-- **C108** (when the program stops).  Constructing a set of `n` elements stops the program exactly if no
free block can hold `n` `int`s, even after merging; constructing a copy, exactly if none can hold
the array of its source; assigning a copy stops it only if the source has an array.  `find`, `connected`,
`connect`, moving and destroying never stop it. -/
theorem dsu_pool_stops_partial (hc : Sma.Legal c) (hM : 2 * c.M + 8 < 2 ^ 31) {s0 s : Sma.St}
    (h0 : Returns (Sma.construct c) s0 () s) (ops : List WOp) {sw : DSU.SWorld}
    (hl : Legal ops (fun _ => none) sw) (hz : Small ops) {w : PWorld}
    (hr : Returns (wrun .port c ops) ⟨s, fun _ => none⟩ () w) {op : WOp} {sw' : DSU.SWorld}
    (hop : Legal [op] sw sw') (hsm : Small [op]) :
    match op with
    | .new _ n => Faults (wstep .port c op) w .crash ↔ Full c w.pool (taken8 4 n)
    | .newCopy _ j => Faults (wstep .port c op) w .crash ↔
        ∃ u, w.obj j = some u ∧ u.cap ≠ 0 ∧ Full c w.pool (taken8 4 u.cap)
    | .copy d j => Faults (wstep .port c op) w .crash → d ≠ j ∧ ∃ u, w.obj j = some u ∧ u.cap ≠ 0
    | _ => ∃ w', Returns (wstep .port c op) w () w' := by
  rcases wrun_pool hc hM ops hl hz (PSt.init h0) with h | ⟨w', h1, h2⟩
  · unfold Faults Returns at *; rw [h] at hr; cases hr
  obtain ⟨_, rfl⟩ := hr.det h1
  have hst := wstep_pool hc hM hop hsm h2
  have hno : Faults (wstep .port c op) w .crash → DLacks c w op := by
    intro hf
    rcases hst with h | ⟨w', h, _⟩
    · exact h.1
    · unfold Faults Returns at *; rw [hf] at h; cases h
  obtain ⟨⟨f, wI, vw, wB, hI, hB, hW⟩, _⟩ := h2
  have hsize : intElem.size = 4 := rfl
  cases op with
  | new k n =>
    constructor
    · intro hf
      have := (full_iff _ _).1 (hno hf).2
      rwa [hsize] at this
    · intro hfull
      have hn : n ≠ 0 := by cases hop; omega
      have hal := alloc_faults hc hW.mem hn (K := intElem) (by have := hsm k n (by simp); unfold Fit; rw [hsize]; omega)
        ((full_iff _ _).2 (by rw [hsize]; exact hfull))
      rw [new_eq]
      refine bind_faults (Pool.lift_faults ?_)
      refine (bind_returns (check_ok w.pool hn)).trans (bind_faults ?_)
      unfold Pool.resize
      rw [if_neg hn]
      exact bind_faults hal
  | newCopy d j =>
    constructor
    · intro hf
      obtain ⟨u, h1, h2⟩ := hno hf
      have := (full_iff _ _).1 h2.2
      rw [hsize] at this
      exact ⟨u, h1, h2.1, this⟩
    · rintro ⟨u, hu, hu0, hfull⟩
      have hds : d ≠ j := by rintro rfl; cases hop with | newCopy h1 h2 => rw [h1] at h2; cases h2
      obtain ⟨uB, huB, rfl⟩ : ∃ uB, wB.obj j = some uB ∧ u = vmap f uB := by
        rw [hW.obj j] at hu
        rcases hk : wB.obj j with _ | x
        · rw [hk] at hu; cases hu
        · rw [hk] at hu; cases hu; exact ⟨x, rfl, rfl⟩
      obtain ⟨t', ht', q2, q3⟩ := WInv.fresh hB huB
      obtain ⟨c1, c2⟩ := cap_pool hc hW.mem q2
      have hal := alloc_faults hc hW.mem (n := uB.cap) hu0 (K := intElem) (by unfold Fit; omega)
        ((full_iff _ _).2 (by rw [hsize]; exact hfull))
      have e1 : Returns (Pool.step .port c intElem (.new d)) w ()
        { w with obj := fun x => if x = d then some Vec.empty else w.obj x } := rfl
      refine (bind_returns e1).trans ?_
      refine (bind_returns (Pool.getObj_returns (v := Vec.empty) (by simp))).trans ?_
      refine (bind_returns (Pool.getObj_returns (v := vmap f uB) (by simpa [Ne.symm hds] using hu))).trans ?_
      rw [if_neg hds]
      refine bind_faults (Pool.lift_faults ?_)
      show Faults (Pool.resize (poolOps .port c intElem) Vec.empty uB.cap >>= fun d => _) w.pool .crash
      refine bind_faults ?_
      unfold Pool.resize
      rw [if_neg (show uB.cap ≠ 0 from hu0)]
      exact bind_faults hal
  | copy d j => exact hno
  | _ =>
    rcases hst with ⟨h, _⟩ | ⟨w', h, _⟩
    · exact h.elim
    · exact ⟨w', h⟩

/-- **C108, failing case.**  In the pool, too, `connect` of two connected elements returns, and from then
on `find` never returns on any element of their class. -/
theorem dsu_pool_hangs (hc : Sma.Legal c) (hM : 2 * c.M + 8 < 2 ^ 31) {s0 s : Sma.St}
    (h0 : Returns (Sma.construct c) s0 () s) (ops : List WOp) {sw : DSU.SWorld}
    (hl : Legal ops (fun _ => none) sw) (hz : Small ops) {w : PWorld}
    (hr : Returns (wrun .port c ops) ⟨s, fun _ => none⟩ () w) {k a b : Nat} {o : SObj} (ho : sw k = some o)
    (ha : a < o.n) (hb : b < o.n) (hab : Conn o.ps a b) :
    ∃ w', Returns (wstep .port c (.op k (.connect a b))) w () w' ∧
      ∀ i, i < o.n → Conn o.ps a i → Diverges (wstep .port c (.op k (.find i))) w' := by
  rcases wrun_pool hc hM ops hl hz (PSt.init h0) with h | ⟨w', h1, h2⟩
  · unfold Faults Returns at *; rw [h] at hr; cases hr
  obtain ⟨_, rfl⟩ := hr.det h1
  obtain ⟨⟨f, wI, vw, wB, hI, hB, hW⟩, _⟩ := h2
  obtain ⟨v, vB, g1, g2, g3, g4, ⟨ρ, g5⟩, g6, _⟩ := obj_st hI hB hW ho
  obtain ⟨_, m', r1, A, r2, r3, r4⟩ := DSU.connect_loop g5 ha hb hab
  obtain ⟨_, s', e1, e2, _⟩ := step_sim (md := .port) hc hB.wf g6 (p := .connect a b) ⟨ha, hb⟩ wI.mem w.pool g4 _ m' r1
  refine ⟨{ w with pool := s' }, (bind_returns (Pool.getObj_returns g3)).trans (Pool.lift_returns e1), ?_⟩
  intro i hi hai
  have hd := find_hangs (md := .port) hc (.val (i : Int)) s' ⟨m', .val (i : Int), A, i, e2,
    Or.inl ⟨i, rfl, rfl, by omega, by omega⟩, r2, by omega, Or.inl rfl, r4 i hi hai⟩
  show Diverges (Pool.getObj k >>= fun v => Pool.lift (step (ints .port c) v (.find i))) _
  unfold Diverges
  rw [bind_returns (Pool.getObj_returns (pw := { w with pool := s' }) (v := vmap f vB) g3)]
  have : Diverges (step (ints .port c) (vmap f vB) (.find i)) s' := bind_diverges (bind_diverges hd)
  unfold Diverges at this
  unfold Pool.lift
  simp only
  rw [this]

/-! ### The hypotheses are met -/

/-- A copy made between two connects, a move and a destruction. -/
def history : List WOp :=
  [.new 0 3, .op 0 (.connect 0 1), .newCopy 1 0, .op 0 (.connect 1 2), .newMove 2 0, .copy 0 1, .drop 1]

theorem conn_colour (f : Nat → Nat) (ps : List (Nat × Nat)) (hp : ∀ p ∈ ps, f p.1 = f p.2) {a b : Nat}
    (h : Conn ps a b) : f a = f b := by
  induction h with
  | refl => rfl
  | pair h => exact hp _ h
  | symm _ ih => exact ih.symm
  | trans _ _ ih1 ih2 => exact ih1.trans ih2

example : ∃ sw, Legal history (fun _ => none) sw ∧ Small history ∧ sw 0 = some ⟨3, [(0, 1)]⟩ ∧ sw 1 = none ∧
    sw 2 = some ⟨3, [(0, 1), (1, 2)]⟩ := by
  refine ⟨_, .new rfl (by omega) (by omega) (.op rfl ⟨by decide, by decide⟩ ?_ (.newCopy rfl rfl
    (.op rfl ⟨by decide, by decide⟩ ?_ (.newMove rfl rfl (.copy rfl rfl (.drop rfl (.nil _))))))), ?_, ?_, ?_, ?_⟩
  · intro hc
    have := conn_colour id [] (by simp) hc
    simp at this
  · intro hc
    have := conn_colour (fun x => x / 2) [(0, 1)] (by simp) hc
    simp at this
  · intro k n hm
    simp [history] at hm
    omega
  · rfl
  · rfl
  · rfl

/-- In a fresh default pool, which has 1 MiB, a set of 262143 elements can be constructed. -/
example {s0 s : Sma.St} (h0 : Returns (Sma.construct (Sma.defaultSMA 4096)) s0 () s) :
    ¬ Faults (wstep .port (Sma.defaultSMA 4096) (.new 0 262143)) ⟨s, fun _ => none⟩ .crash := by
  have key := dsu_pool_stops_partial (op := .new 0 262143) Sma.defaultSMA_legal (by decide) h0 [] (.nil _)
    (by intro k n h; simp at h) (w := ⟨s, fun _ => none⟩) rfl (.new rfl (by omega) (by omega) (.nil _))
    (by intro k m h; simp at h; omega)
  intro hf
  exact fresh_room Sma.defaultSMA_legal h0 (by decide) (key.1 hf)

end Verif.DSUPool
