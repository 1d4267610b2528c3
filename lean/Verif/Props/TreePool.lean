import Verif.TreePoolRun
import Verif.Props.ListPool

/-!
# Trees in the static pool (C101)

Vocabulary: `Verif.Spec.TreePool`.  `B.run` and `A.run` over `poolTree` work on the bytes of the static
allocator, reached in either way (`Sma.Mode`).
-/

namespace Verif.TPool

open Prog Verif.Tree
open Verif.AVL (StrictWeak)
open Verif.LPool (Total)

variable {α : Type} {md : Sma.Mode} {c : Sma.Cfg} {E : PtrRep}

/-! ## C101: binary search trees -/

section
variable {K : Pool.Layout α} {lt : α → α → Bool}

/-- **C101** (binary search trees, any program).  Take any program over any number of trees that returns if
every tree has memory of its own, even one whose removals leave trees unordered (C46).  In a fresh pool it returns,
with the same results, if after each statement no more nodes are allocated than fit into the pool.  Every
observer then shows the same, and `free_mem_size()` is the pool size minus the nodes. -/
theorem bst_pool (hc : Sma.Legal c) (hfit : 8 * nodeWords K + 8 < 2 ^ 31) (hirr : ∀ a, lt a a = false) {s0 s : Sma.St}
    (h0 : Returns (Sma.construct c) s0 () s) {ops : List (BST.Op α)} {outs : List (Option α)} {w : BST.World α}
    (hr : BST.Runs lt Tree.World.init ops outs w)
    (hroom : B.FitsAll lt (c.M / (8 * nodeWords K)) ops Tree.World.init) :
    ∃ pw, Returns (B.run (poolTree md c K E) lt ops) (World.init s) outs pw ∧ B.Same md c K E lt pw w ∧
      ∃ n, Nodes w n ∧ FreeWithout c K n pw := by
  rcases B.runs_pool (md := md) hc trivial hfit hirr hr (BST.Ran.init.holds hirr) (WR.init (E := E) h0 fun _ => 0) with
    ⟨h, _⟩ | ⟨_, pw, f, h1, _, h3⟩
  · exact absurd hroom h
  · obtain ⟨bs, b1, b2, _, b3⟩ := h3.count hc trivial
    exact ⟨pw, h1, B.same_pool hc h3, bs.length, ⟨bs, b1, b2, rfl⟩, b3⟩

/-- **C101** (binary search trees, no room).  Otherwise the program stops for lack of memory, and in no other
way. -/
theorem bst_pool_full (hc : Sma.Legal c) (hfit : 8 * nodeWords K + 8 < 2 ^ 31) (hirr : ∀ a, lt a a = false) {s0 s : Sma.St}
    (h0 : Returns (Sma.construct c) s0 () s) {ops : List (BST.Op α)} {outs : List (Option α)} {w : BST.World α}
    (hr : BST.Runs lt Tree.World.init ops outs w)
    (hroom : ¬ B.FitsAll lt (c.M / (8 * nodeWords K)) ops Tree.World.init) :
    Faults (B.run (poolTree md c K E) lt ops) (World.init s) .crash := by
  rcases B.runs_pool (md := md) hc trivial hfit hirr hr (BST.Ran.init.holds hirr) (WR.init (E := E) h0 fun _ => 0) with
    ⟨_, h⟩ | ⟨h, _⟩
  · exact h
  · exact absurd h hroom

/-- **C101** (binary search trees as sets).  A program that meets its preconditions and contains no defective
use returns in a fresh pool if after each statement the sets together have no more elements than nodes fit
into the pool.  Its results are as specified, every tree then shows exactly the elements it should, and
`free_mem_size()` is the pool size minus one node per element. -/
theorem bst_pool_sets (hc : Sma.Legal c) (hfit : 8 * nodeWords K + 8 < 2 ^ 31) (hw : StrictWeak lt) {s0 s : Sma.St}
    (h0 : Returns (Sma.construct c) s0 () s) {ops : List (BST.Op α)} {w : BST.World α} {sw : BST.SWorld α}
    (hs : BST.Steps lt Tree.World.init (fun _ => none) ops w sw)
    (hroom : B.SetsFit lt (c.M / (8 * nodeWords K)) ops (fun _ => none)) :
    ∃ pw, Returns (B.run (poolTree md c K E) lt ops) (World.init s) (BST.specOuts lt ops (fun _ => none)) pw ∧
      B.Shows md c K E lt pw sw ∧ ∃ n, Total sw.sets n ∧ FreeWithout c K n pw := by
  obtain ⟨h1, h2, h3, _⟩ := B.steps_runs hw hs BST.HoldsSet.init LPool.finite_empty
  obtain ⟨pw, g1, g2, n, g3, g4⟩ := bst_pool (md := md) (E := E) hc hfit hw.irrefl h0 h1
    (B.sets_fits hw hs BST.HoldsSet.init LPool.finite_empty hroom)
  exact ⟨pw, g1, .of_same g2 (h2.shows hw), n, B.total h2 h3 g3, g4⟩

/-- **C101** (binary search trees as sets, no room). -/
theorem bst_pool_sets_full (hc : Sma.Legal c) (hfit : 8 * nodeWords K + 8 < 2 ^ 31) (hw : StrictWeak lt) {s0 s : Sma.St}
    (h0 : Returns (Sma.construct c) s0 () s) {ops : List (BST.Op α)} {w : BST.World α} {sw : BST.SWorld α}
    (hs : BST.Steps lt Tree.World.init (fun _ => none) ops w sw)
    (hroom : ¬ B.SetsFit lt (c.M / (8 * nodeWords K)) ops (fun _ => none)) :
    Faults (B.run (poolTree md c K E) lt ops) (World.init s) .crash := by
  obtain ⟨h1, _, _, h4⟩ := B.steps_runs hw hs BST.HoldsSet.init LPool.finite_empty
  exact bst_pool_full hc hfit hw.irrefl h0 h1 fun h => hroom (h4 _ h)

end

/-! ## C101: AVL trees -/

section
variable {K : Pool.Layout (AVL.D α)} {lt : α → α → Bool}

/-- **C101** (AVL trees).  The same for AVL trees. -/
theorem avl_pool (hc : Sma.Legal c) (hfit : 8 * nodeWords K + 8 < 2 ^ 31) (hw : StrictWeak lt) {s0 s : Sma.St}
    (h0 : Returns (Sma.construct c) s0 () s) {ops : List (AVL.Op α)} {w : AVL.World α} {sw : AVL.SWorld α}
    (hs : AVL.Steps lt Tree.World.init (fun _ => none) ops w sw)
    (hroom : A.SetsFit lt (c.M / (8 * nodeWords K)) ops (fun _ => none)) :
    ∃ pw, Returns (A.run (poolTree md c K E) lt ops) (World.init s) (AVL.specOuts lt ops (fun _ => none)) pw ∧
      A.Shows md c K E lt pw sw ∧ ∃ n, Total sw n ∧ FreeWithout c K n pw := by
  rcases A.run_pool (md := md) hc trivial hfit hw hs AVL.HoldsSet.init LPool.finite_empty (WR.init (E := E) h0 fun _ => 0) with
    ⟨h, _⟩ | ⟨_, pw, f, h1, h2, h3, h4⟩
  · exact absurd hroom h
  · obtain ⟨bs, b1, b2, _, b3⟩ := h3.count hc trivial
    exact ⟨pw, h1, A.shows_pool hc hw h2 h3, bs.length, A.total h2 h4 ⟨bs, b1, b2, rfl⟩, b3⟩

/-- **C101** (AVL trees, no room). -/
theorem avl_pool_full (hc : Sma.Legal c) (hfit : 8 * nodeWords K + 8 < 2 ^ 31) (hw : StrictWeak lt) {s0 s : Sma.St}
    (h0 : Returns (Sma.construct c) s0 () s) {ops : List (AVL.Op α)} {w : AVL.World α} {sw : AVL.SWorld α}
    (hs : AVL.Steps lt Tree.World.init (fun _ => none) ops w sw)
    (hroom : ¬ A.SetsFit lt (c.M / (8 * nodeWords K)) ops (fun _ => none)) :
    Faults (A.run (poolTree md c K E) lt ops) (World.init s) .crash := by
  rcases A.run_pool (md := md) hc trivial hfit hw hs AVL.HoldsSet.init LPool.finite_empty (WR.init (E := E) h0 fun _ => 0) with
    ⟨_, h⟩ | ⟨h, _⟩
  · exact h
  · exact absurd h hroom

end

/-- **C101** (nothing leaks).  When the trees have no elements any more, all memory of the pool is free. -/
theorem tree_pool_returned {δ : Type} {K : Pool.Layout δ} {pw : World} {sw : Nat → Option (List α)} {n : Nat}
    (hn : Total sw n) (h : FreeWithout c K n pw) (hempty : ∀ k l, sw k = some l → l = []) :
    Returns Sma.freeMemSize pw.pool (c.M : Int) pw.pool := by
  obtain ⟨ks, h3, h4, rfl⟩ := hn
  obtain ⟨h1, h2⟩ := h
  have : (ks.map fun k => ((sw k).getD []).length).sum = 0 := by
    clear h1 h2 h3 h4
    induction ks with
    | nil => rfl
    | cons k ks ih =>
      simp only [List.map_cons, List.sum_cons]
      rcases e : sw k with _ | l
      · simpa using ih
      · rw [hempty k l e]; simpa using ih
  rw [this, Nat.zero_mul, Nat.sub_zero] at h1
  exact h1

/-! ## The hypotheses can be met -/

/-- A representation of pointers. -/
def demoRep : PtrRep where
  enc
    | none => .raw 0
    | some a => .raw (a + 1)
  dec
    | .raw 0 => some none
    | .raw (n + 1) => some (some n)
    | _ => none
  dec_enc p := by cases p <;> rfl

/-- A representation of the data of an AVL tree node: height and value. -/
def avlLayout : Pool.Layout (AVL.D Nat) where
  words := 2
  triv := true
  enc d j := if j = 0 then .raw (match d.height with | .ofNat n => 2 * n | .negSucc n => 2 * n + 1) else .raw d.val
  dec g := match g 0, g 1 with
    | .raw h, .raw v => some ⟨if h % 2 = 0 then .ofNat (h / 2) else .negSucc (h / 2), v⟩
    | _, _ => none
  fin g := g
  pos := by omega
  dec_enc x g h := by
    rw [h 0 (by omega), h 1 (by omega)]
    obtain ⟨ht, v⟩ := x
    cases ht with
    | ofNat n => simp
    | negSucc n =>
      have : (2 * n + 1) / 2 = n := by omega
      simp [this]

/-- Programs that have a meaning and contain no defective use. -/
theorem bst_steps_exist {lt : α → α → Bool} (hw : StrictWeak lt) (ops : List (BST.Op α)) {w : BST.World α}
    {sw sw' : BST.SWorld α} (h : BST.Reach lt w sw)
    (hs : BST.specRun lt ops sw = some sw') (hsafe : BST.SafeAll lt ops sw) : ∃ w', BST.Steps lt w sw ops w' sw' := by
  induction ops generalizing w sw with
  | nil => cases hs; exact ⟨w, .nil⟩
  | cons op ops ih =>
    simp only [BST.specRun, Option.bind_eq_some_iff] at hs
    obtain ⟨sw1, hs1, hs⟩ := hs
    have hsf := hsafe.1.safe hw h
    obtain ⟨w1, r1, r2, _⟩ := BST.bst_runs_partial hw h op hs1 hsf
    obtain ⟨w', r3⟩ := ih r2 hs (hsafe.2 _ hs1)
    exact ⟨w', .cons hs1 hsf r1 r3⟩

/-- A program over binary search trees in a small pool: the theorem applies. -/
example : ∃ s pw, Returns (Sma.construct Sma.smallSMA) ⟨fun _ => .raw 0, 0⟩ () s ∧
    Returns (B.run (poolTree md Sma.smallSMA Pool.natLayout demoRep) AVL.natLt
      [.newFrom 0 [5, 2, 8], .push 0 2, .push 0 7]) (World.init s) [none, none, none] pw ∧
    Returns (on 0 (B.elements (poolTree md Sma.smallSMA Pool.natLayout demoRep) .ino)) pw [2, 5, 7, 8] pw ∧
    Returns (on 0 (poolTree md Sma.smallSMA Pool.natLayout demoRep).getSize) pw 5 pw := by
  obtain ⟨s, h0⟩ := Sma.sma_construct Sma.smallSMA_legal ⟨fun _ => .raw 0, 0⟩
  obtain ⟨w, hst⟩ := bst_steps_exist AVL.natLt_strictWeak [.newFrom 0 [5, 2, 8], .push 0 2, .push 0 7] .init
    (sw' := BST.SWorld.put (BST.SWorld.put (BST.SWorld.put (fun _ => none) 0 (some ([2, 5, 8], 0)))
      0 (some ([2, 5, 8], 1))) 0 (some ([2, 5, 7, 8], 1))) (by rfl)
    ⟨trivial, fun w' e => ⟨trivial, fun w' e => ⟨trivial, fun w' e => trivial⟩⟩⟩
  have tot : ∀ (sw : BST.SWorld Nat) (l : List Nat), (∀ k, sw.sets k = DL.SWorld.put (fun _ => none) 0 (some l) k) →
      Total sw.sets l.length := fun sw l h => by rw [show sw.sets = _ from funext h]; exact LPool.total_one 0 l
  obtain ⟨pw, h1, h2, _⟩ := bst_pool_sets (md := md) (K := Pool.natLayout) (E := demoRep) Sma.smallSMA_legal (by decide)
    AVL.natLt_strictWeak h0 hst (by
      intro w1 e1; cases e1
      refine ⟨⟨3, tot _ [2, 5, 8] fun k => ?_, by decide⟩, ?_⟩
      · by_cases hk : k = 0 <;> simp [BST.SWorld.sets, BST.SWorld.put, DL.SWorld.put, hk]; rfl
      intro w1 e1; cases e1
      refine ⟨⟨3, tot _ [2, 5, 8] fun k => ?_, by decide⟩, ?_⟩
      · by_cases hk : k = 0 <;> simp [BST.SWorld.sets, BST.SWorld.put, DL.SWorld.put, hk]; rfl
      intro w1 e1; cases e1
      refine ⟨⟨4, tot _ [2, 5, 7, 8] fun k => ?_, by decide⟩, trivial⟩
      by_cases hk : k = 0 <;> simp [BST.SWorld.sets, BST.SWorld.put, DL.SWorld.put, hk]; rfl)
  obtain ⟨_, g2, _, g3, _⟩ := (h2 0).2 [2, 5, 7, 8] 1 rfl
  exact ⟨s, pw, h0, h1, g3 (by simp), g2⟩

/-- A program over AVL trees: rotations, a removal. -/
example : ∃ s pw, Returns (Sma.construct Sma.smallSMA) ⟨fun _ => .raw 0, 0⟩ () s ∧
    Returns (A.run (poolTree md Sma.smallSMA avlLayout demoRep) AVL.natLt
      [.new 0, .push 0 5, .push 0 7, .push 0 9, .erase 0 7]) (World.init s) [none, none, none, none, some 9] pw ∧
    Returns (on 0 (A.elements (poolTree md Sma.smallSMA avlLayout demoRep))) pw [5, 9] pw := by
  obtain ⟨s, h0⟩ := Sma.sma_construct Sma.smallSMA_legal ⟨fun _ => .raw 0, 0⟩
  have e : ∀ l l' : List Nat, AVL.SWorld.put (AVL.SWorld.put (fun _ => none) 0 (some l)) 0 (some l') =
      AVL.SWorld.put (fun _ => none) 0 (some l') := fun l l' => by
    funext j; by_cases h : j = 0 <;> simp [AVL.SWorld.put, h]
  have s1 : AVL.specStep AVL.natLt (.new 0) (fun _ => none) = some (AVL.SWorld.put (fun _ => none) 0 (some [])) := rfl
  have s2 : AVL.specStep AVL.natLt (.push 0 5) (AVL.SWorld.put (fun _ => none) 0 (some [])) =
      some (AVL.SWorld.put (fun _ => none) 0 (some [5])) := by rw [← e [] [5]]; rfl
  have s3 : AVL.specStep AVL.natLt (.push 0 7) (AVL.SWorld.put (fun _ => none) 0 (some [5])) =
      some (AVL.SWorld.put (fun _ => none) 0 (some [5, 7])) := by rw [← e [5] [5, 7]]; rfl
  have s4 : AVL.specStep AVL.natLt (.push 0 9) (AVL.SWorld.put (fun _ => none) 0 (some [5, 7])) =
      some (AVL.SWorld.put (fun _ => none) 0 (some [5, 7, 9])) := by rw [← e [5, 7] [5, 7, 9]]; rfl
  have s5 : AVL.specStep AVL.natLt (.erase 0 7) (AVL.SWorld.put (fun _ => none) 0 (some [5, 7, 9])) =
      some (AVL.SWorld.put (fun _ => none) 0 (some [5, 9])) := by rw [← e [5, 7, 9] [5, 9]]; rfl
  obtain ⟨w, hst⟩ := AVL.steps_exist AVL.natLt_strictWeak [.new 0, .push 0 5, .push 0 7, .push 0 9, .erase 0 7] .init
    (sw' := AVL.SWorld.put (fun _ => none) 0 (some [5, 9]))
    (by simp only [AVL.specRun, s1, s2, s3, s4, s5, Option.bind_some])
    (by
      simp only [AVL.SafeAll, s1, s2, s3, s4, s5, Option.some.injEq, forall_eq', and_true]
      refine ⟨trivial, trivial, trivial, trivial, ?_⟩
      intro l hl
      cases hl
      exact Or.inl (by decide))
  obtain ⟨pw, h1, h2, _⟩ := avl_pool (md := md) (K := avlLayout) (E := demoRep) Sma.smallSMA_legal (by decide)
    AVL.natLt_strictWeak h0 hst (by
      simp only [A.SetsFit, s1, s2, s3, s4, s5, Option.some.injEq, forall_eq', and_true]
      exact ⟨⟨0, LPool.total_one 0 [], by decide⟩, ⟨1, LPool.total_one 0 [5], by decide⟩,
        ⟨2, LPool.total_one 0 [5, 7], by decide⟩, ⟨3, LPool.total_one 0 [5, 7, 9], by decide⟩,
        ⟨2, LPool.total_one 0 [5, 9], by decide⟩⟩)
  refine ⟨s, pw, h0, ?_, ((h2 0).2 [5, 9] rfl).2.2.2.1 (by simp)⟩
  have : AVL.specOuts AVL.natLt [.new 0, .push 0 5, .push 0 7, .push 0 9, .erase 0 7] (fun _ => none) =
      [none, none, none, none, some 9] := by
    simp only [AVL.specOuts, s1, s2, s3, s4, Option.getD_some]
    rfl
  rw [this] at h1
  exact h1

/-- Thirty-two numbers fit into the small pool, thirty-three do not. -/
example : Sma.smallSMA.M / (8 * nodeWords Pool.natLayout) = 32 ∧
    B.SetsFit AVL.natLt 32 [.newFrom 0 (List.range 32)] (fun _ => none) ∧
    ¬ B.SetsFit AVL.natLt 32 [.newFrom 0 (List.range 33)] (fun _ => none) := by
  have tot : ∀ xs, Total (BST.SWorld.put (fun _ => none) 0 (some (List.foldl (BST.add AVL.natLt) ([], 0) xs))).sets
      (List.foldl (BST.add AVL.natLt) ([], 0) xs).1.length := fun xs => by
    have : (BST.SWorld.put (fun _ => none) 0 (some (List.foldl (BST.add AVL.natLt) ([], 0) xs))).sets =
        DL.SWorld.put (fun _ => none) 0 (some (List.foldl (BST.add AVL.natLt) ([], 0) xs).1) := by
      funext k
      by_cases hk : k = 0 <;> simp [BST.SWorld.sets, BST.SWorld.put, DL.SWorld.put, hk]
    rw [this]
    exact LPool.total_one 0 _
  refine ⟨by decide, ?_, ?_⟩
  · intro w' hw
    cases hw
    exact ⟨⟨_, tot _, by decide⟩, trivial⟩
  · intro h
    obtain ⟨⟨n, h1, h2⟩, _⟩ := h _ rfl
    have := h1.det (tot _)
    have e : (List.foldl (BST.add AVL.natLt) ([], 0) (List.range 33)).1.length = 33 := by decide
    omega

end Verif.TPool
