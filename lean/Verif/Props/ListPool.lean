import Verif.ListPoolWorld
import Verif.Props.VectorPool

/-!
# Linked lists in the static pool (C97)

Vocabulary: `Verif.Spec.ListPool`.  `D.run` and `S.run` over `poolNodes` work on the bytes of the
static allocator, reached in either way (`Sma.Mode`); the meaning of a history is `DL.specRun` and `SL.specRun`, which know only
sequences.
-/

namespace Verif.LPool

open Prog Verif.LL

variable {α : Type} {md : Sma.Mode} {c : Sma.Cfg} {K : Pool.Layout α} {E : PtrRep}

/-! ## C97 -/

/-- **C97** (doubly linked lists).  Run in a fresh pool, every history of operations on any number of
lists that is legal for sequences and does not move from an empty list (C26) returns if after each
operation the lists together have no more elements than nodes fit into the pool.  Every list then
shows exactly the elements it should, and `free_mem_size()` is the pool size minus one node per
element. -/
theorem dlist_pool (hc : Sma.Legal c) (hfit : 8 * nodeWords .doubly K + 8 < 2 ^ 31) {s0 s : Sma.St}
    (h0 : Returns (Sma.construct c) s0 () s) (dflt : Option α) (ops : List (DL.Op α)) {sw : DL.SWorld α}
    (hs : DL.specRun ops (fun _ => none) = some sw) (ha : DL.AvoidsAll ops (fun _ => none))
    (hroom : D.FitsAll (c.M / (8 * nodeWords .doubly K)) ops (fun _ => none)) :
    ∃ w, Returns (D.run (poolNodes md c .doubly K E) dflt ops) (PMem.init s) () w ∧
      D.Shows md c K E w sw ∧ Accounted c K .doubly w sw := by
  rcases dRun_pool hc trivial hfit dflt ops DL.Holds.init (R.init h0 fun _ => 0) finite_empty hs ha with
    ⟨h, _⟩ | ⟨_, w, f, m, h1, h2, h3, h4⟩
  · exact absurd hroom h
  · refine ⟨w, h1, dShows_pool hc h2 h3, ?_⟩
    obtain ⟨g, hW, rfl⟩ := h2
    obtain ⟨n, t1, _, t2, t3⟩ := R.total hc trivial h3 hW h4
    exact ⟨n, t1, t2, t3⟩

/-- **C97** (doubly linked lists, no room).  Otherwise the history stops for lack of memory, and in no
other way. -/
theorem dlist_pool_full (hc : Sma.Legal c) (hfit : 8 * nodeWords .doubly K + 8 < 2 ^ 31) {s0 s : Sma.St}
    (h0 : Returns (Sma.construct c) s0 () s) (dflt : Option α) (ops : List (DL.Op α)) {sw : DL.SWorld α}
    (hs : DL.specRun ops (fun _ => none) = some sw) (ha : DL.AvoidsAll ops (fun _ => none))
    (hroom : ¬ D.FitsAll (c.M / (8 * nodeWords .doubly K)) ops (fun _ => none)) :
    Faults (D.run (poolNodes md c .doubly K E) dflt ops) (PMem.init s) .crash := by
  rcases dRun_pool hc trivial hfit dflt ops DL.Holds.init (R.init h0 fun _ => 0) finite_empty hs ha with
    ⟨_, h⟩ | ⟨h, _⟩
  · exact h
  · exact absurd h hroom

/-- **C97** (singly linked lists).  The same for histories that avoid the four situations in which
singly linked lists go wrong with any allocator (`SL.AvoidsAll`, C28 to C30). -/
theorem slist_pool (hc : Sma.Legal c) (hfit : 8 * nodeWords .singly K + 8 < 2 ^ 31) {s0 s : Sma.St}
    (h0 : Returns (Sma.construct c) s0 () s) (dflt : Option α) (ops : List (SL.Op α)) {sw : DL.SWorld α}
    (hs : SL.specRun ops (fun _ => none) = some sw) (ha : SL.AvoidsAll ops (fun _ => none))
    (hroom : S.FitsAll (c.M / (8 * nodeWords .singly K)) ops (fun _ => none)) :
    ∃ w, Returns (S.run (poolNodes md c .singly K E) dflt ops) (PMem.init s) () w ∧
      S.Shows md c K E w sw ∧ Accounted c K .singly w sw := by
  rcases sRun_pool hc trivial hfit dflt ops SL.Holds.init (R.init h0 fun _ => 0) finite_empty hs ha with
    ⟨h, _⟩ | ⟨_, w, f, m, h1, h2, h3, h4⟩
  · exact absurd hroom h
  · refine ⟨w, h1, sShows_pool hc h2 h3, ?_⟩
    obtain ⟨g, hW, _, rfl⟩ := h2
    obtain ⟨n, t1, _, t2, t3⟩ := R.total hc trivial h3 hW h4
    exact ⟨n, t1, t2, t3⟩

/-- **C97** (singly linked lists, no room). -/
theorem slist_pool_full (hc : Sma.Legal c) (hfit : 8 * nodeWords .singly K + 8 < 2 ^ 31) {s0 s : Sma.St}
    (h0 : Returns (Sma.construct c) s0 () s) (dflt : Option α) (ops : List (SL.Op α)) {sw : DL.SWorld α}
    (hs : SL.specRun ops (fun _ => none) = some sw) (ha : SL.AvoidsAll ops (fun _ => none))
    (hroom : ¬ S.FitsAll (c.M / (8 * nodeWords .singly K)) ops (fun _ => none)) :
    Faults (S.run (poolNodes md c .singly K E) dflt ops) (PMem.init s) .crash := by
  rcases sRun_pool hc trivial hfit dflt ops SL.Holds.init (R.init h0 fun _ => 0) finite_empty hs ha with
    ⟨_, h⟩ | ⟨h, _⟩
  · exact h
  · exact absurd h hroom

/-- **C97** (nothing leaks).  When no list has elements any more, all memory of the pool is free. -/
theorem list_pool_returned {kd : Kind} {w : PMem α} {sw : DL.SWorld α} (h : Accounted c K kd w sw)
    (hempty : ∀ k l, sw k = some l → l = []) : Returns Sma.freeMemSize w.pool (c.M : Int) w.pool := by
  obtain ⟨n, ⟨ks, h3, h4, rfl⟩, h1, h2⟩ := h
  have : (ks.map fun k => ((sw k).getD []).length).sum = 0 := by
    clear h1 h2 h3 h4
    induction ks with
    | nil => rfl
    | cons k ks ih =>
      simp only [List.map_cons, List.sum_cons]
      rcases e : sw k with _ | l
      · simpa using ih
      · rw [hempty k l e]; simpa using ih
  rw [this, Nat.zero_mul, Nat.sub_zero] at h1
  exact h1

/-! ## The hypotheses can be met -/

/-- A representation of pointers. -/
def demoRep : PtrRep where
  enc
    | .null => .raw 0
    | .node a => .raw (2 * a + 1)
    | .head k => .raw (2 * k + 2)
  dec
    | .raw 0 => some .null
    | .raw (n + 1) => some (if n % 2 = 0 then .node (n / 2) else .head (n / 2))
    | _ => none
  dec_enc p := by
    cases p with
    | null => rfl
    | node a => simp
    | head k =>
      show some (if (2 * k + 1) % 2 = 0 then Ptr.node ((2 * k + 1) / 2) else .head ((2 * k + 1) / 2)) = _
      rw [if_neg (by omega), show (2 * k + 1) / 2 = k by omega]

theorem total_one (k : Nat) (l : List α) :
    Total (DL.SWorld.put (fun _ => none) k (some l)) l.length :=
  ⟨[k], by simp, fun x => by by_cases h : x = k <;> simp [DL.SWorld.put, h], by simp [DL.SWorld.put]⟩

/-- A history that fits into a small pool: the theorem applies. -/
example : ∃ s w, Returns (Sma.construct Sma.smallSMA) ⟨fun _ => .raw 0, 0⟩ () s ∧
    Returns (D.run (poolNodes md Sma.smallSMA .doubly Pool.natLayout demoRep) none
      [.new 0, .pushBack 0 7, .pushFront 0 5, .popBack 0]) (PMem.init s) () w ∧
    Returns (iterate (poolNodes md Sma.smallSMA .doubly Pool.natLayout demoRep) 0) w [5] w := by
  obtain ⟨s, h0⟩ := Sma.sma_construct Sma.smallSMA_legal ⟨fun _ => .raw 0, 0⟩
  have e : ∀ l l' : List Nat, DL.SWorld.put (DL.SWorld.put (fun _ => none) 0 (some l)) 0 (some l') =
      DL.SWorld.put (fun _ => none) 0 (some l') := fun l l' => DL.SWorld.put_put ..
  have e0 : ∀ l : List Nat, (DL.SWorld.put (fun _ => none) 0 (some l) : DL.SWorld Nat) 0 = some l := fun _ => rfl
  obtain ⟨w, h1, h2, _⟩ := dlist_pool (E := demoRep) (K := Pool.natLayout) Sma.smallSMA_legal (by decide)
    h0 none [.new 0, .pushBack 0 7, .pushFront 0 5, .popBack 0]
    (sw := DL.SWorld.put (fun _ => none) 0 (some [5])) (by simp [DL.specRun, DL.specStep, e, e0])
    (by simp [DL.AvoidsAll, DL.Avoids])
    (by
      simp only [D.FitsAll, DL.specStep, e0, e, Option.isNone_none, if_true, Option.some.injEq, Option.bind_some,
        forall_eq', and_true, List.nil_append, reduceCtorEq, if_false]
      exact ⟨⟨0, total_one 0 [], by decide⟩, ⟨1, total_one 0 [7], by decide⟩, ⟨2, total_one 0 [5, 7], by decide⟩,
        ⟨1, total_one 0 [5], by decide⟩⟩)
  exact ⟨s, w, h0, h1, ((h2 0).2 [5] rfl).1⟩

/-- A list of forty-two numbers fits into the small pool, one of forty-three does not. -/
example : Sma.smallSMA.M / (8 * nodeWords .doubly Pool.natLayout) = 42 ∧
    D.FitsAll 42 [.newFill 0 42 1] (fun _ => none : DL.SWorld Nat) ∧
    ¬ D.FitsAll 42 [.newFill 0 43 1] (fun _ => none : DL.SWorld Nat) := by
  refine ⟨by decide, ?_, ?_⟩
  · intro w' hw
    cases hw
    exact ⟨⟨42, by simpa using total_one 0 (List.replicate 42 1), Nat.le_refl _⟩, trivial⟩
  · intro h
    obtain ⟨⟨n, h1, h2⟩, _⟩ := h _ rfl
    have : Total (DL.SWorld.put (fun _ => none) 0 (some (List.replicate 43 1))) 43 := by
      simpa using total_one 0 (List.replicate 43 1)
    have := h1.det this
    omega

/-- The same for singly linked lists, whose nodes are smaller. -/
example : Sma.smallSMA.M / (8 * nodeWords .singly Pool.natLayout) = 64 ∧
    S.FitsAll 64 [.newFill 0 64 1, .pop 0, .pushFront 0 5] (fun _ => none : DL.SWorld Nat) ∧
    SL.AvoidsAll [.newFill 0 64 1, .pop 0, .pushFront 0 5] (fun _ => none : DL.SWorld Nat) ∧
    (SL.specRun [.newFill 0 64 1, .pop 0, .pushFront 0 5] (fun _ => none : DL.SWorld Nat)).isSome := by
  have e : ∀ l l' : List Nat, DL.SWorld.put (DL.SWorld.put (fun _ => none) 0 (some l)) 0 (some l') =
      DL.SWorld.put (fun _ => none) 0 (some l') := fun l l' => DL.SWorld.put_put ..
  have e0 : ∀ l : List Nat, (DL.SWorld.put (fun _ => none) 0 (some l) : DL.SWorld Nat) 0 = some l := fun _ => rfl
  have t : ∀ n, Total (DL.SWorld.put (fun _ => none) 0 (some (List.replicate n 1))) n := fun n => by
    simpa using total_one 0 (List.replicate n 1)
  have hp : SL.specStep (.pop 0) (DL.SWorld.put (fun _ => none) 0 (some (List.replicate 64 1))) =
      some (DL.SWorld.put (fun _ => none) 0 (some (List.replicate 63 1))) := by
    simp only [SL.specStep, e0, Option.bind_some, e]
    rw [if_neg (by simp)]
    simp
  have hn : SL.specStep (.newFill 0 64 1) (fun _ => none : DL.SWorld Nat) =
      some (DL.SWorld.put (fun _ => none) 0 (some (List.replicate 64 1))) := rfl
  have hq : SL.specStep (.pushFront 0 5) (DL.SWorld.put (fun _ => none) 0 (some (List.replicate 63 1))) =
      some (DL.SWorld.put (fun _ => none) 0 (some (5 :: List.replicate 63 1))) := by
    simp only [SL.specStep, e0, Option.bind_some, e]
  refine ⟨by decide, ?_, ?_, ?_⟩
  · simp only [S.FitsAll, hn, hp, hq, Option.some.injEq, forall_eq', and_true]
    exact ⟨⟨64, t 64, by decide⟩, ⟨63, t 63, by decide⟩, ⟨64, by simpa using total_one 0 (5 :: List.replicate 63 1),
      by decide⟩⟩
  · simp only [SL.AvoidsAll, SL.Avoids, hn, hp, hq, Option.some.injEq, forall_eq', and_true, true_and, e0]
    intro x h
    have := congrArg List.length (Option.some.inj h)
    simp at this
  · simp only [SL.specRun, hn, hp, hq, Option.bind_some]; rfl

end Verif.LPool
