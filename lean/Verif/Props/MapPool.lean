import Verif.MapPoolRun
import Verif.Props.TreePool
import Verif.Props.Map

/-!
# Maps in the static pool (C103)

Vocabulary: `Verif.Spec.MapPool`.  `M.run` over `poolTree` works on the bytes of the static allocator,
reached in either way (`Sma.Mode`).
-/

namespace Verif.TPool

open Prog Verif.Tree
open Verif.AVL (StrictWeak natLt natLt_strictWeak)
open Verif.LPool (Total)

variable {K V : Type} {md : Sma.Mode} {c : Sma.Cfg} {L : Pool.Layout (AVL.D (K × V))} {E : PtrRep} {lt : K → K → Bool} {dflt : V}

/-- **C103.**  A program over any number of maps that meets its preconditions and contains no defective
use returns in a fresh pool if after each statement the maps together have no more keys than nodes fit
into the pool.  Its results are as specified, every map then shows exactly the pairs it should, and
`free_mem_size()` is the pool size minus one node per key. -/
theorem map_pool (hc : Sma.Legal c) (hfit : 8 * nodeWords L + 8 < 2 ^ 31) (hw : StrictWeak lt) {s0 s : Sma.St}
    (h0 : Returns (Sma.construct c) s0 () s) {ops : List (Map.Op K V)} {sw : Map.SWorld K V}
    (hs : Map.specRun lt dflt ops (fun _ => none) = some sw) (hsafe : Map.SafeAll lt dflt ops (fun _ => none))
    (hroom : M.KeysFit lt dflt (c.M / (8 * nodeWords L)) ops (fun _ => none)) :
    ∃ pw, Returns (M.run (poolTree md c L E) lt dflt ops) (World.init s) (Map.specOuts lt dflt ops (fun _ => none)) pw ∧
      M.Shows md c L E lt dflt pw sw ∧ ∃ n, Total sw n ∧ FreeWithout c L n pw := by
  rcases M.run_pool (md := md) hc trivial hfit hw ops ⟨Tree.Holds.init, fun _ => rfl⟩ LPool.finite_empty
    (WR.init (E := E) h0 fun _ => 0) hs hsafe with ⟨h, _⟩ | ⟨_, pw, f, w, g, h1, h2, h3, h4, _⟩
  · exact absurd hroom h
  · obtain ⟨bs, b1, b2, _, b3⟩ := h3.count hc trivial
    exact ⟨pw, h1, M.shows_pool hc hw h2 h3, bs.length, M.total h2 h4 ⟨bs, b1, b2, rfl⟩, b3⟩

/-- **C103** (no room).  Otherwise the program stops for lack of memory, and in no other way. -/
theorem map_pool_full (hc : Sma.Legal c) (hfit : 8 * nodeWords L + 8 < 2 ^ 31) (hw : StrictWeak lt) {s0 s : Sma.St}
    (h0 : Returns (Sma.construct c) s0 () s) {ops : List (Map.Op K V)} {sw : Map.SWorld K V}
    (hs : Map.specRun lt dflt ops (fun _ => none) = some sw) (hsafe : Map.SafeAll lt dflt ops (fun _ => none))
    (hroom : ¬ M.KeysFit lt dflt (c.M / (8 * nodeWords L)) ops (fun _ => none)) :
    Faults (M.run (poolTree md c L E) lt dflt ops) (World.init s) .crash := by
  rcases M.run_pool (md := md) hc trivial hfit hw ops ⟨Tree.Holds.init, fun _ => rfl⟩ LPool.finite_empty
    (WR.init (E := E) h0 fun _ => 0) hs hsafe with ⟨_, h⟩ | ⟨h, _⟩
  · exact h
  · exact absurd h hroom

theorem M.keysFit_append {cap : Nat} (a b : List (Map.Op K V)) {sw sw' : Map.SWorld K V} (h : M.KeysFit lt dflt cap (a ++ b) sw)
    (hs : Map.specRun lt dflt a sw = some sw') : M.KeysFit lt dflt cap a sw ∧ M.KeysFit lt dflt cap b sw' := by
  induction a generalizing sw with
  | nil => cases hs; exact ⟨trivial, h⟩
  | cons op a ih =>
    simp only [Map.specRun, Option.bind_eq_some_iff] at hs
    obtain ⟨sw1, h1, hs⟩ := hs
    obtain ⟨h2, h3⟩ := h sw1 h1
    obtain ⟨h4, h5⟩ := ih h3 hs
    exact ⟨fun s e => by rw [h1] at e; cases e; exact ⟨h2, h4⟩, h5⟩

/-- **C103** (references).  The value of a key has one address as long as the key is there: after the
program `ops`, `m[key]` refers to some place of the pool; after further statements, on this or other maps,
that do not remove the key, what is read there is the current value of the key, and what is written there
is its new value and changes nothing else. -/
theorem map_pool_reference (hc : Sma.Legal c) (hfit : 8 * nodeWords L + 8 < 2 ^ 31) (hw : StrictWeak lt) {s0 s : Sma.St}
    (h0 : Returns (Sma.construct c) s0 () s) {ops more : List (Map.Op K V)} {sw sw' : Map.SWorld K V} {k : Nat} {key : K}
    {l l' : List (K × V)} (hs : Map.specRun lt dflt ops (fun _ => none) = some sw)
    (hsafe : Map.SafeAll lt dflt ops (fun _ => none)) (hk : sw k = some l)
    (hs' : Map.specRun lt dflt more (sw.put k (some (Map.touch lt dflt l key))) = some sw')
    (hsafe' : Map.SafeAll lt dflt more (sw.put k (some (Map.touch lt dflt l key))))
    (hkeep : ∀ op ∈ more, Map.Keeps lt k key op) (hk' : sw' k = some l')
    (hroom : M.KeysFit lt dflt (c.M / (8 * nodeWords L)) (ops ++ .get k key :: more) (fun _ => none)) :
    ∃ outs outs' a pw pw1 pw2, Returns (M.run (poolTree md c L E) lt dflt ops) (World.init s) outs pw ∧
      Returns (on k (M.index (poolTree md c L E) lt dflt key)) pw (some a) pw1 ∧
      Returns (M.run (poolTree md c L E) lt dflt more) pw1 outs' pw2 ∧
      (∃ v, Map.value lt l' key = some v ∧ Returns (on k (M.readVal (poolTree md c L E) (some a))) pw2 v pw2) ∧
      ∀ v, ∃ pw3, Returns (on k (M.writeVal (poolTree md c L E) (some a) v)) pw2 () pw3 ∧
        M.Shows md c L E lt dflt pw3 (sw'.put k (some (Map.write lt l' key v))) := by
  obtain ⟨r1, r2⟩ := M.keysFit_append ops _ hroom hs
  obtain ⟨⟨m, t1, t2⟩, r3⟩ := r2 _ (show Map.specStep lt dflt (.get k key) sw =
    some (sw.put k (some (Map.touch lt dflt l key))) by simp [Map.specStep, hk])
  rcases M.run_pool (md := md) hc trivial hfit hw ops ⟨Tree.Holds.init, fun _ => rfl⟩ LPool.finite_empty
    (WR.init (E := E) h0 fun _ => 0) hs hsafe with ⟨h, _⟩ | ⟨_, pw, f, w, g, h1, h2, h3, h4, _⟩
  · exact absurd r1 h
  obtain ⟨w1, g1, n, i1, i2, i3, _, i5⟩ := M.index_pool (md := md) (dflt := dflt) hc hfit hw h2 h3 hk key
  rcases i5 with ⟨it, _⟩ | ⟨f1, pw1, j1, j2, j3⟩
  · obtain ⟨m', t1', t2'⟩ := it trivial h4
    have := LPool.Total.det t1 t1'
    omega
  have h4' : LPool.Finite (sw.put k (some (Map.touch lt dflt l key))) := h4.put _ _
  rcases M.run_pool (md := md) hc trivial hfit hw more i2 h4' j2 hs' hsafe' with ⟨h, _⟩ | ⟨_, pw2, f2, w2, g2, e1, e2, e3, _, e4⟩
  · exact absurd r3 h
  obtain ⟨a1, a2⟩ := e4 k key n i3 hkeep
  have hl := M.AtKey.live e2 a1
  refine ⟨_, _, f1 n, pw, pw1, pw2, h1, j1, e1, ?_, fun v => ?_⟩
  · have hp : Map.value lt l' key ≠ none := by
      rw [Ne, Map.value_none]
      obtain ⟨t, e, q1, q2, q3⟩ := a1
      have := e2.val k
      rw [hk', q1] at this
      cases this
      have : Map.has lt (AVL.vals t) key = true := by
        unfold Map.has
        rw [List.any_eq_true, AVL.vals_eq]
        exact ⟨e, List.mem_map.2 ⟨_, q2, rfl⟩, Map.same_iff.2 q3⟩
      rw [this]; simp
    obtain ⟨v, hv⟩ := Option.ne_none_iff_exists'.1 hp
    have hr := Map.readVal_ok hw e2 hk' a1 dflt
    rw [hv] at hr
    have := M.readVal_pool (md := md) hc e3 hl hr
    rw [a2] at this
    exact ⟨v, hv, this⟩
  · obtain ⟨w3, g3, b1, b2, _⟩ := Map.writeVal_ok hw e2 hk' a1 v
    obtain ⟨pw3, n1, n2⟩ := M.writeVal_pool (md := md) hc e3 hl b2 b1
    rw [a2] at n1
    exact ⟨pw3, n1, M.shows_pool hc hw b2 n2⟩

/-! ## The hypotheses can be met -/

/-- A representation of the data of a map node: height, key and value. -/
def mapLayout : Pool.Layout (AVL.D (Nat × Nat)) where
  words := 3
  triv := true
  enc d j := if j = 0 then .raw (match d.height with | .ofNat n => 2 * n | .negSucc n => 2 * n + 1)
    else if j = 1 then .raw d.val.1 else .raw d.val.2
  dec g := match g 0, g 1, g 2 with
    | .raw h, .raw k, .raw v => some ⟨if h % 2 = 0 then .ofNat (h / 2) else .negSucc (h / 2), (k, v)⟩
    | _, _, _ => none
  fin g := g
  pos := by omega
  dec_enc x g h := by
    rw [h 0 (by omega), h 1 (by omega), h 2 (by omega)]
    obtain ⟨ht, k, v⟩ := x
    cases ht with
    | ofNat n => simp
    | negSucc n =>
      have : (2 * n + 1) / 2 = n := by omega
      simp [this]

/-- One map with these pairs. -/
def oneMap (l : List (Nat × Nat)) : Map.SWorld Nat Nat := Map.SWorld.put (fun _ => none) 0 (some l)

theorem oneMap_put (l l' : List (Nat × Nat)) : (oneMap l).put 0 (some l') = oneMap l' := by
  funext j; by_cases h : j = 0 <;> simp [oneMap, Map.SWorld.put, h]

theorem oneMap_new : Map.specStep natLt 0 (.new 0) (fun _ => none) = some (oneMap []) := rfl

theorem oneMap_set (l : List (Nat × Nat)) (key v : Nat) : Map.specStep natLt 0 (.set 0 key v) (oneMap l) =
    some (oneMap (Map.write natLt (Map.touch natLt 0 l key) key v)) := congrArg some (oneMap_put l _)

theorem oneMap_get (l : List (Nat × Nat)) (key : Nat) : Map.specStep natLt 0 (.get 0 key) (oneMap l) =
    some (oneMap (Map.touch natLt 0 l key)) := congrArg some (oneMap_put l _)

theorem oneMap_pop (l : List (Nat × Nat)) (key : Nat) : Map.specStep natLt 0 (.pop 0 key) (oneMap l) =
    some (oneMap (Map.without natLt l key)) := congrArg some (oneMap_put l _)

theorem oneMap_fit {cap : Nat} {op : Map.Op Nat Nat} {ops : List (Map.Op Nat Nat)} {sw : Map.SWorld Nat Nat}
    {l : List (Nat × Nat)} (h : Map.specStep natLt 0 op sw = some (oneMap l)) :
    M.KeysFit natLt 0 cap (op :: ops) sw ↔ l.length ≤ cap ∧ M.KeysFit natLt 0 cap ops (oneMap l) := by
  have ht : Total (oneMap l) l.length := LPool.total_one 0 l
  constructor
  · intro hf
    obtain ⟨⟨n, h1, h2⟩, h3⟩ := hf _ h
    rw [h1.det ht] at h2
    exact ⟨h2, h3⟩
  · rintro ⟨h1, h2⟩ sw' e
    rw [h] at e; cases e
    exact ⟨⟨_, ht, h1⟩, h2⟩

/-- A program over a map in a small pool: the theorem applies. -/
example : ∃ s pw, Returns (Sma.construct Sma.smallSMA) ⟨fun _ => .raw 0, 0⟩ () s ∧
    Returns (M.run (poolTree md Sma.smallSMA mapLayout demoRep) natLt 0
      [.new 0, .set 0 5 50, .set 0 2 20, .set 0 8 80, .get 0 3, .set 0 5 51, .pop 0 2, .get 0 5]) (World.init s)
      [none, none, none, none, some 0, none, none, some 51] pw ∧
    Returns (on 0 (A.elements (poolTree md Sma.smallSMA mapLayout demoRep))) pw [(3, 0), (5, 51), (8, 80)] pw := by
  obtain ⟨s, h0⟩ := Sma.sma_construct Sma.smallSMA_legal ⟨fun _ => .raw 0, 0⟩
  obtain ⟨pw, h1, h2, _⟩ := map_pool (md := md) (L := mapLayout) (E := demoRep) (lt := natLt) (dflt := 0) (sw := oneMap [(3, 0), (5, 51), (8, 80)])
    (ops := [.new 0, .set 0 5 50, .set 0 2 20, .set 0 8 80, .get 0 3, .set 0 5 51, .pop 0 2, .get 0 5])
    Sma.smallSMA_legal (by decide) natLt_strictWeak h0
    (by simp only [Map.specRun, oneMap_new, oneMap_set, oneMap_get, oneMap_pop, Option.bind_some]; rfl)
    (by
      simp only [Map.SafeAll, oneMap_new, oneMap_set, oneMap_get, oneMap_pop, Option.some.injEq, forall_eq', and_true]
      refine ⟨trivial, trivial, trivial, trivial, trivial, trivial, ?_, trivial⟩
      intro l hl
      cases hl
      exact Or.inr (by decide))
    (by
      rw [oneMap_fit oneMap_new, oneMap_fit (oneMap_set ..), oneMap_fit (oneMap_set ..), oneMap_fit (oneMap_set ..),
        oneMap_fit (oneMap_get ..), oneMap_fit (oneMap_set ..), oneMap_fit (oneMap_pop ..), oneMap_fit (oneMap_get ..)]
      refine ⟨?_, ?_, ?_, ?_, ?_, ?_, ?_, ?_, trivial⟩ <;> decide)
  refine ⟨s, pw, h0, ?_, ((h2 0).2 _ rfl).2.2.2.1 (by simp)⟩
  have : Map.specOuts natLt 0 [.new 0, .set 0 5 50, .set 0 2 20, .set 0 8 80, .get 0 3, .set 0 5 51, .pop 0 2, .get 0 5]
      (fun _ => none) = [none, none, none, none, some 0, none, none, some 51] := by
    simp only [Map.specOuts, oneMap_new, oneMap_set, oneMap_get, oneMap_pop, Option.getD_some]; rfl
  rw [this] at h1
  exact h1

/-- The hypotheses of `map_pool_reference` can be met: the reference `m[5]` survives an insertion, a
removal and a change of the value. -/
example : ∃ sw sw' : Map.SWorld Nat Nat, Map.specRun natLt 0 [.new 0, .set 0 5 50, .set 0 2 20] (fun _ => none) = some sw ∧
    sw 0 = some [(2, 20), (5, 50)] ∧ Map.specRun natLt 0 [.set 0 8 80, .pop 0 2, .set 0 5 51] sw = some sw' ∧
    sw.put 0 (some (Map.touch natLt 0 [(2, 20), (5, 50)] 5)) = sw ∧
    (∀ op ∈ [Map.Op.set 0 8 80, .pop 0 2, .set 0 5 51], Map.Keeps natLt 0 5 op) ∧ sw' 0 = some [(5, 51), (8, 80)] ∧
    M.KeysFit natLt 0 (Sma.smallSMA.M / (8 * nodeWords mapLayout))
      ([.new 0, .set 0 5 50, .set 0 2 20] ++ .get 0 5 :: [.set 0 8 80, .pop 0 2, .set 0 5 51]) (fun _ => none) := by
  refine ⟨oneMap [(2, 20), (5, 50)], oneMap [(5, 51), (8, 80)], ?_, rfl, ?_, oneMap_put _ _, ?_, rfl, ?_⟩
  · simp only [Map.specRun, oneMap_new, oneMap_set, Option.bind_some]; rfl
  · simp only [Map.specRun, oneMap_set, oneMap_pop, Option.bind_some]; rfl
  · simp [Map.Keeps, Map.same, natLt]
  · show M.KeysFit natLt 0 _ [.new 0, .set 0 5 50, .set 0 2 20, .get 0 5, .set 0 8 80, .pop 0 2, .set 0 5 51] _
    rw [oneMap_fit oneMap_new, oneMap_fit (oneMap_set ..), oneMap_fit (oneMap_set ..), oneMap_fit (oneMap_get ..),
      oneMap_fit (oneMap_set ..), oneMap_fit (oneMap_pop ..), oneMap_fit (oneMap_set ..)]
    refine ⟨?_, ?_, ?_, ?_, ?_, ?_, ?_, trivial⟩ <;> decide

/-- Twenty-one keys fit into the small pool, twenty-two do not. -/
example : Sma.smallSMA.M / (8 * nodeWords mapLayout) = 21 ∧
    M.KeysFit natLt 0 21 (.new 0 :: (List.range 21).map fun i => .set 0 i i) (fun _ => none) ∧
    ¬ M.KeysFit natLt 0 21 (.new 0 :: (List.range 22).map fun i => .set 0 i i) (fun _ => none) := by
  have h : ∀ (ks : List Nat) l, M.KeysFit natLt 0 21 (ks.map fun i => .set 0 i i) (oneMap l) ↔
      (ks.foldl (fun (a : Bool × List (Nat × Nat)) i =>
        let l' := Map.write natLt (Map.touch natLt 0 a.2 i) i i
        (a.1 && decide (l'.length ≤ 21), l')) (true, l)).1 = true := by
    have gen : ∀ (ks : List Nat) l b, (ks.foldl (fun (a : Bool × List (Nat × Nat)) i =>
        let l' := Map.write natLt (Map.touch natLt 0 a.2 i) i i
        (a.1 && decide (l'.length ≤ 21), l')) (b, l)).1 = true ↔
        b = true ∧ M.KeysFit natLt 0 21 (ks.map fun i => .set 0 i i) (oneMap l) := by
      intro ks
      induction ks with
      | nil => intro l b; simp [M.KeysFit]
      | cons k ks ih =>
        intro l b
        rw [List.foldl_cons, ih, List.map_cons, oneMap_fit (oneMap_set ..)]
        simp [and_assoc]
    intro ks l
    rw [gen]; simp
  refine ⟨by decide, ?_, ?_⟩
  · rw [oneMap_fit oneMap_new, h]; decide
  · rw [oneMap_fit oneMap_new, h]; decide

end Verif.TPool
