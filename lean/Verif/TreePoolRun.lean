import Verif.TreePoolBstRun
import Verif.Spec.TreePool
import Verif.ListPoolWorld
import Verif.Props.AVLRefs
import Verif.Props.BST

/-! Helper lemmas: whole programs over trees in the static pool. -/

namespace Verif.TPool

open Prog
open Verif.Tree (Ptr Order St MemoryOk Below Allocated HoldsSized IsTree Holds T)
open Verif.Pool (returns_bind returns_pure)
open Verif.LPool (Total Finite)

/-! ## Counting -/

section
variable {δ α : Type} {P : T δ → Prop}

/-- The nodes of the trees `ks`. -/
def nodesOf (g : Nat → Option (T δ)) : List Nat → List Nat
  | [] => []
  | k :: ks => ((g k).map T.ptrs).getD [] ++ nodesOf g ks

theorem mem_nodesOf {g : Nat → Option (T δ)} {ks : List Nat} {n : Nat} :
    n ∈ nodesOf g ks ↔ ∃ k ∈ ks, ∃ t, g k = some t ∧ n ∈ t.ptrs := by
  induction ks with
  | nil => simp [nodesOf]
  | cons k ks ih =>
    simp only [nodesOf, List.mem_append, ih, List.mem_cons]
    have : (n ∈ ((g k).map T.ptrs).getD []) ↔ ∃ t, g k = some t ∧ n ∈ t.ptrs := by
      rcases g k with _ | t <;> simp
    rw [this]
    constructor
    · rintro (h | ⟨j, hj, h⟩)
      · exact ⟨k, Or.inl rfl, h⟩
      · exact ⟨j, Or.inr hj, h⟩
    · rintro ⟨j, rfl | hj, h⟩
      · exact Or.inl h
      · exact Or.inr ⟨j, hj, h⟩

theorem nodup_nodesOf {w : Tree.World δ} {g : Nat → Option (T δ)} (h : Holds P w g) {ks : List Nat}
    (hks : ks.Nodup) : (nodesOf g ks).Nodup := by
  induction ks with
  | nil => exact List.nodup_nil
  | cons k ks ih =>
    rw [List.nodup_cons] at hks
    unfold nodesOf
    rcases e : g k with _ | t
    · simpa using ih hks.2
    · refine List.nodup_append.2 ⟨h.nodup k t e, ih hks.2, ?_⟩
      intro a ha b hb hab
      subst hab
      obtain ⟨j, hj, u, g1, g2⟩ := mem_nodesOf.1 hb
      exact h.disj k j t u e g1 (fun e => hks.1 (e ▸ hj)) a ha g2

theorem length_nodesOf {g : Nat → Option (T δ)} {v : T δ → List α} (hv : ∀ t, (v t).length = t.ptrs.length)
    {ks : List Nat} : (nodesOf g ks).length = (ks.map fun k => (((g k).map v).getD []).length).sum := by
  induction ks with
  | nil => rfl
  | cons k ks ih =>
    unfold nodesOf
    rw [List.length_append, ih, List.map_cons, List.sum_cons]
    congr 1
    rcases g k with _ | t <;> simp [hv]

/-- The number of allocated nodes is the number of elements. -/
theorem nodes_total {w : Tree.World δ} {g : Nat → Option (T δ)} (h : Holds P w g) {v : T δ → List α}
    (hv : ∀ t, (v t).length = t.ptrs.length) (hf : Finite fun k => (g k).map v) {n : Nat} (hn : Nodes w n) :
    Total (fun k => (g k).map v) n := by
  obtain ⟨ks, h1, h2⟩ := hf
  obtain ⟨bs, b1, b2, rfl⟩ := hn
  refine ⟨ks, h1, h2, ?_⟩
  rw [← length_nodesOf hv]
  refine ((List.perm_ext_iff_of_nodup b1 (nodup_nodesOf h h1)).2 fun n => ?_).length_eq
  rw [b2, h.allocated, mem_nodesOf]
  constructor
  · rintro ⟨k, t, e1, e2⟩
    exact ⟨k, (h2 k).2 (by simp [e1]), t, e1, e2⟩
  · rintro ⟨k, _, t, e1, e2⟩
    exact ⟨k, t, e1, e2⟩

/-- One set with one more element. -/
theorem total_add {sw : Nat → Option (List α)} {k n : Nat} {l l' : List α} (hk : sw k = some l)
    (hl : l'.length = l.length + 1) (h : Total sw n) : Total (fun j => if j = k then some l' else sw j) (n + 1) := by
  obtain ⟨ks, h1, h2, rfl⟩ := h
  refine ⟨ks, h1, fun j => ?_, ?_⟩
  · rw [h2]
    by_cases e : j = k
    · subst e; simp [hk]
    · simp [e]
  · have hin : k ∈ ks := (h2 k).2 (by simp [hk])
    clear h2
    induction ks with
    | nil => cases hin
    | cons j ks ih =>
      rw [List.nodup_cons] at h1
      rw [List.map_cons, List.map_cons, List.sum_cons, List.sum_cons]
      by_cases e : j = k
      · subst e
        have : ks.map (fun x => ((if x = j then some l' else sw x).getD []).length) =
            ks.map fun x => ((sw x).getD []).length := List.map_congr_left fun x hx => by
          have : x ≠ j := fun e => h1.1 (e ▸ hx)
          simp [this]
        rw [this]
        simp [hk, hl]; omega
      · have := ih h1.2 ((List.mem_cons.1 hin).resolve_left fun x => e x.symm)
        rw [← this]
        simp [e]; omega

end

/-! ## AVL trees -/

namespace A

open Verif.AVL (StrictWeak HoldsSet same)

variable {α : Type} {md : Sma.Mode} {c : Sma.Cfg} {G : Slots.Env} {K : Pool.Layout (AVL.D α)} {E : PtrRep} {f : Nat → Nat}
  {S : Nat → Prop} {lt : α → α → Bool}

theorem finite_step {sw sw' : AVL.SWorld α} (h : Finite sw) {op : AVL.Op α}
    (hs : AVL.specStep lt op sw = some sw') : Finite sw' := by
  have put : ∀ k v, Finite (sw.put k v) := fun k v => h.put k v
  cases op <;> simp only [AVL.specStep, Option.bind_eq_some_iff] at hs
  case new => split at hs <;> cases hs; exact put _ _
  case push => obtain ⟨_, _, hs⟩ := hs; split at hs <;> cases hs; exact put _ _
  case pop => obtain ⟨_, _, hs⟩ := hs; cases hs; exact put _ _
  case popAt => obtain ⟨_, _, _, _, hs⟩ := hs; split at hs <;> cases hs; exact put _ _
  case erase => obtain ⟨_, _, hs⟩ := hs; cases hs; exact put _ _
  case clear => obtain ⟨_, _, hs⟩ := hs; cases hs; exact put _ _
  case copy => obtain ⟨_, _, _, _, hs⟩ := hs; cases hs; exact put _ _
  case copyNew => split at hs <;> simp only [Option.bind_eq_some_iff, reduceCtorEq] at hs; obtain ⟨_, _, hs⟩ := hs; cases hs; exact put _ _
  case drop => obtain ⟨_, _, hs⟩ := hs; cases hs; exact put _ _

theorem vals_len (t : AVL.Tr α) : (AVL.vals t).length = t.ptrs.length := by
  rw [AVL.vals_eq, List.length_map, ← AVL.count_items, AVL.count_ptrs]

theorem total {w : Tree.World (AVL.D α)} {sw : AVL.SWorld α} (h : HoldsSet lt w sw) (hf : Finite sw) {n : Nat}
    (hn : Nodes w n) : Total sw n := by
  obtain ⟨g, h1, h2⟩ := h
  have e : sw = fun k => (g k).map AVL.vals := funext h2
  rw [e] at hf ⊢
  exact nodes_total h1 vals_len hf hn

theorem memory {w : Tree.World (AVL.D α)} {sw : AVL.SWorld α} (h : HoldsSet lt w sw) : MemoryOk w := by
  obtain ⟨g, h1, _⟩ := h
  exact h1.memory

/-- Statements that ask for no node. -/
theorem step_sim (hc : Sma.Legal c) (hfit : 8 * nodeWords K + 8 < 2 ^ 31) (hi : Inj f S) (op : AVL.Op α)
    (hop : ∀ k x, op ≠ .push k x) : WSim c G K E f S (AVL.step lt op) (step (poolTree md c K E) lt op) Eq := by
  cases op with
  | new k => exact WSim.bind (newObj_sim k) fun _ _ _ => WSim.pure rfl
  | push k x => exact absurd rfl (hop k x)
  | pop k x => exact WSim.bind (on_sim hi k (pop_sim hc hi hfit (o := .val x) (o' := .val x) rfl)) fun _ _ _ => WSim.pure rfl
  | popAt k j x =>
    refine WSim.bind (on_sim hi j (find_sim hc hi x)) fun p p' hp => ?_
    exact WSim.bind (on_sim hi k (pop_sim hc hi hfit (o := .ref p) (o' := .ref p') hp)) fun _ _ _ => WSim.pure rfl
  | erase k x =>
    refine on_sim hi k (Sim.bind (find_sim hc hi x) fun p p' hp => ?_)
    exact Sim.bind (erase_sim hc hi hfit hp) fun q q' hq => readIt_sim hc hi hq
  | clear k => exact WSim.bind (on_sim hi k (clear_sim hc hi hfit)) fun _ _ _ => WSim.pure rfl
  | copy d s => exact WSim.bind (copyObj_sim d s) fun _ _ _ => WSim.pure rfl
  | copyNew d s => exact WSim.bind (copyObj_sim d s) fun _ _ _ => WSim.pure rfl
  | drop k => exact WSim.bind (dropObj_sim hc hi hfit k) fun _ _ _ => WSim.pure rfl

/-- For lack of memory only `push` stops, and only if there is no room. -/
def mayStop (c : Sma.Cfg) (N : Nat) (s : Sma.St) : AVL.Op α → Prop
  | .push _ _ => Pool.NoRoom c s (Slots.size N)
  | _ => False

theorem step_any (hc : Sma.Legal c) (hfit : 8 * nodeWords K + 8 < 2 ^ 31) (hw : StrictWeak lt)
    {w w' : Tree.World (AVL.D α)} {sw sw' : AVL.SWorld α} {pw : World} {f : Nat → Nat} (h : HoldsSet lt w sw)
    (hR : WR c G K E f (live w) w pw) (op : AVL.Op α) (hs : AVL.specStep lt op sw = some sw') (hsafe : AVL.Safe lt op w sw)
    {out : Option α} (hr : Returns (AVL.step lt op) w out w') :
    HoldsSet lt w' sw' ∧ out = AVL.specOut lt op sw ∧
    ((((G.solo → Finite sw → ∃ n, Total sw' n ∧ c.M / (8 * nodeWords K) < n) ∧
        (md = .port → mayStop c (nodeWords K) pw.pool op)) ∧ Faults (step (poolTree md c K E) lt op) pw .crash) ∨
      ∃ f' pw', Returns (step (poolTree md c K E) lt op) pw out pw' ∧ WR c G K E f' (live w') w' pw') := by
  obtain ⟨w2, r1, hH⟩ := AVL.step_ok hw h hs hsafe
  obtain ⟨e, rfl⟩ := hr.det r1
  refine ⟨hH, e, ?_⟩
  have hm := memory hH
  have hi := hR.inj hc
  have noNode (hop : ∀ k x, op ≠ .push k x) :
      ∃ f' pw', Returns (step (poolTree md c K E) lt op) pw out pw' ∧ WR c G K E f' (live w') w' pw' := by
    obtain ⟨a', pw', h1, h2, rfl⟩ := step_sim (md := md) (lt := lt) hc hfit hi op hop w pw hR out w' hr
    exact ⟨f, pw', h1, h2.restart hm⟩
  cases op with
  | push k x =>
    obtain ⟨_, w1, q1, q2⟩ := returns_bind hr
    obtain ⟨rfl, rfl⟩ := returns_pure q2
    rcases on_simX hR k (push_sim (md := md) (lt := lt) hc hi hfit x) q1 with ⟨h1, h2⟩ | ⟨f', S', a', pw', h1, h2, _⟩
    · refine Or.inl ⟨⟨fun hG hf => ?_, h1.2⟩, faults_bind h2⟩
      obtain ⟨bs, b1, b2, b3⟩ := h1.1 hG
      have ht := total h hf (n := bs.length) ⟨bs, b1, b2, rfl⟩
      simp only [AVL.specStep, Option.bind_eq_some_iff] at hs
      obtain ⟨l, hl, hs⟩ := hs
      split at hs
      · cases hs
      · rename_i ha
        cases hs
        refine ⟨bs.length + 1, total_add hl (AVL.length_with hw ?_) ht, by omega⟩
        exact AVL.not_any.2 (by simpa using ha)
    · refine Or.inr ⟨f', pw', ?_, h2.restart hm⟩
      show (do on k (push (poolTree md c K E) lt x); pure none : Prog World (Option α)) pw = _
      rw [bind_returns h1]; rfl
  | new k => exact Or.inr (noNode nofun)
  | pop k x => exact Or.inr (noNode nofun)
  | popAt k j x => exact Or.inr (noNode nofun)
  | erase k x => exact Or.inr (noNode nofun)
  | clear k => exact Or.inr (noNode nofun)
  | copy d s => exact Or.inr (noNode nofun)
  | copyNew d s => exact Or.inr (noNode nofun)
  | drop k => exact Or.inr (noNode nofun)

theorem step_pool (hc : Sma.Legal c) (hG : G.solo) (hfit : 8 * nodeWords K + 8 < 2 ^ 31) (hw : StrictWeak lt)
    {w w' : Tree.World (AVL.D α)} {sw sw' : AVL.SWorld α} {pw : World} {f : Nat → Nat} (h : HoldsSet lt w sw) (hf : Finite sw)
    (hR : WR c G K E f (live w) w pw) (op : AVL.Op α) (hs : AVL.specStep lt op sw = some sw') (hsafe : AVL.Safe lt op w sw)
    {out : Option α} (hr : Returns (AVL.step lt op) w out w') :
    HoldsSet lt w' sw' ∧ Finite sw' ∧ out = AVL.specOut lt op sw ∧
    (((∃ n, Total sw' n ∧ c.M / (8 * nodeWords K) < n) ∧ Faults (step (poolTree md c K E) lt op) pw .crash) ∨
     ((∃ n, Total sw' n ∧ n ≤ c.M / (8 * nodeWords K)) ∧
      ∃ f' pw', Returns (step (poolTree md c K E) lt op) pw out pw' ∧ WR c G K E f' (live w') w' pw')) := by
  obtain ⟨hH, e, h1⟩ := step_any (md := md) hc hfit hw h hR op hs hsafe hr
  have hf' := finite_step hf hs
  refine ⟨hH, hf', e, ?_⟩
  rcases h1 with ⟨⟨h2, _⟩, h3⟩ | ⟨f', pw', h2, h3⟩
  · exact Or.inl ⟨h2 hG hf, h3⟩
  · obtain ⟨bs, b1, b2, b3, _⟩ := h3.count hc hG
    exact Or.inr ⟨⟨_, total hH hf' ⟨bs, b1, b2, rfl⟩, b3⟩, f', pw', h2, h3⟩

theorem run_pool (hc : Sma.Legal c) (hG : G.solo) (hfit : 8 * nodeWords K + 8 < 2 ^ 31) (hw : StrictWeak lt)
    {ops : List (AVL.Op α)} {w w' : Tree.World (AVL.D α)} {sw sw' : AVL.SWorld α} (hst : AVL.Steps lt w sw ops w' sw')
    {pw : World} {f : Nat → Nat} (h : HoldsSet lt w sw) (hf : Finite sw) (hR : WR c G K E f (live w) w pw) :
    (¬ SetsFit lt (c.M / (8 * nodeWords K)) ops sw ∧ Faults (run (poolTree md c K E) lt ops) pw .crash) ∨
    (SetsFit lt (c.M / (8 * nodeWords K)) ops sw ∧
      ∃ pw' f', Returns (run (poolTree md c K E) lt ops) pw (AVL.specOuts lt ops sw) pw' ∧
        HoldsSet lt w' sw' ∧ WR c G K E f' (live w') w' pw' ∧ Finite sw') := by
  induction hst generalizing pw f with
  | nil => exact Or.inr ⟨trivial, pw, f, rfl, h, hR, hf⟩
  | @cons op ops w w1 w2 sw sw1 sw2 out hs hsafe hr _ ih =>
    obtain ⟨h1, hf1, rfl, h2⟩ := step_pool (md := md) hc hG hfit hw h hf hR op hs hsafe hr
    rcases h2 with ⟨⟨n, t1, t2⟩, h2⟩ | ⟨hfits, f', pw', h2, h3⟩
    · refine Or.inl ⟨fun hfit => ?_, faults_bind h2⟩
      obtain ⟨⟨n', t1', t2'⟩, _⟩ := hfit _ hs
      have := LPool.Total.det t1 t1'
      omega
    · rcases ih h1 hf1 h3 with ⟨g1, g2⟩ | ⟨g1, pw2, f2, g2, g3⟩
      · exact Or.inl ⟨fun hfit => g1 (hfit _ hs).2, Faults.bind_after h2 (faults_bind g2)⟩
      · refine Or.inr ⟨fun sw' e => ?_, pw2, f2, ?_, g3⟩
        · rw [hs] at e; cases e
          exact ⟨hfits, g1⟩
        · show (do let out ← step (poolTree md c K E) lt op; let outs ← run (poolTree md c K E) lt ops; pure (out :: outs) :
            Prog World (List (Option α))) pw = _
          rw [bind_returns h2, bind_returns g2]
          show some (Except.ok ((_ :: _), pw2)) = some (Except.ok (AVL.specOuts lt (op :: ops) sw, pw2))
          rw [AVL.specOuts, hs]
          rfl

theorem count_lt {δ : Type} (t : T δ) : t.count < 2 ^ t.height := by
  induction t with
  | nil => exact Nat.one_pos
  | node l p d r ihl ihr =>
    simp only [T.count, T.height]
    have h1 : 2 ^ l.height ≤ 2 ^ max l.height r.height := Nat.pow_le_pow_right (by omega) (Nat.le_max_left _ _)
    have h2 : 2 ^ r.height ≤ 2 ^ max l.height r.height := Nat.pow_le_pow_right (by omega) (Nat.le_max_right _ _)
    rw [Nat.pow_succ]; omega

theorem shows_pool (hc : Sma.Legal c) (hw : StrictWeak lt) {w : Tree.World (AVL.D α)} {sw : AVL.SWorld α} {pw : World}
    (h : HoldsSet lt w sw) (hR : WR c G K E f (live w) w pw) : Shows md c K E lt pw sw := by
  have hi := hR.inj hc
  intro k
  obtain ⟨h1, h2⟩ := h.shows hw k
  refine ⟨fun hk => by rw [hR.obj k, h1 hk]; rfl, fun l hl => ?_⟩
  obtain ⟨g1, g2, g3, g4, g5⟩ := h2 l hl
  refine ⟨g1, on_observe hR k getSize_sim g2, on_observe hR k (empty_sim hc hi) g3,
    fun hne => on_observe hR k (elements_sim hc hi) (g4 hne), ?_, fun x => on_observe hR k ?_ (g5 x)⟩
  · obtain ⟨g, h, hg⟩ := h
    obtain ⟨t, ht, rfl⟩ := HoldsSet.get hg hl
    have hb := AVL.avl_balanced_of (h.good k t ht).1
    have hl : (AVL.vals t).length = t.count := by rw [AVL.vals_eq, List.length_map, ← AVL.count_items]
    refine ⟨t.height, on_observe hR k (height_sim hc hi)
      (Tree.on_observes (h.obj k t ht) (AVL.height_ok (h.load ht) (h.good k t ht).1)), ?_, ?_⟩
    · rw [hl]; exact count_lt t
    · rw [hl]; exact AVL.fib_count hb
  exact Sim.bind (find_sim hc hi x) fun p p' hp => readIt_sim hc hi hp

end A

/-! ## Binary search trees -/

namespace B

open Verif.AVL (StrictWeak same)
open Verif.BST (HoldsSet HoldsTrees)

variable {α : Type} {md : Sma.Mode} {c : Sma.Cfg} {G : Slots.Env} {K : Pool.Layout α} {E : PtrRep} {f : Nat → Nat}
  {S : Nat → Prop} {lt : α → α → Bool}

theorem holds_step (hirr : ∀ a, lt a a = false) {w w' : Tree.World α} (h : HoldsTrees w) {op : BST.Op α} (ha : BST.Alive op w)
    {out : Option α} (hr : Returns (BST.step lt op) w out w') : HoldsTrees w' := by
  rcases BST.step_any hirr h ha with ⟨y, w2, h1, h2⟩ | h1
  · obtain ⟨_, rfl⟩ := h1.det hr
    exact h2
  · exact absurd (h1.symm.trans hr) (by simp)

theorem runs_pool (hc : Sma.Legal c) (hG : G.solo) (hfit : 8 * nodeWords K + 8 < 2 ^ 31) (hirr : ∀ a, lt a a = false)
    {ops : List (BST.Op α)} {w w' : Tree.World α} {outs : List (Option α)} (hst : BST.Runs lt w ops outs w')
    {pw : World} {f : Nat → Nat} (h : HoldsTrees w) (hR : WR c G K E f (live w) w pw) :
    (¬ FitsAll lt (c.M / (8 * nodeWords K)) ops w ∧ Faults (run (poolTree md c K E) lt ops) pw .crash) ∨
    (FitsAll lt (c.M / (8 * nodeWords K)) ops w ∧
      ∃ pw' f', Returns (run (poolTree md c K E) lt ops) pw outs pw' ∧ HoldsTrees w' ∧ WR c G K E f' (live w') w' pw') := by
  induction hst generalizing pw f with
  | nil => exact Or.inr ⟨trivial, pw, f, rfl, h, hR⟩
  | @cons op ops out outs w w1 w2 ha hr _ ih =>
    have h1 := holds_step hirr h ha hr
    rcases step_pool (md := md) hc hfit hirr h hR op ha hr with ⟨⟨h4, _⟩, h2⟩ | ⟨f', pw', h2, h3⟩
    · refine Or.inl ⟨fun hfit => ?_, faults_bind h2⟩
      obtain ⟨bs, b1, b2, b3⟩ := h4 hG
      obtain ⟨⟨n, ⟨cs, c1, c2, rfl⟩, c3⟩, _⟩ := hfit _ _ hr
      have := List.Nodup.length_le_of_subset b1 (l₂ := cs) fun n hn => (c2 n).2 (b2 n hn)
      omega
    · rcases ih h1 h3 with ⟨g1, g2⟩ | ⟨g1, pw2, f2, g2, g3⟩
      · exact Or.inl ⟨fun hfit => g1 (hfit _ _ hr).2, Faults.bind_after h2 (faults_bind g2)⟩
      · refine Or.inr ⟨fun out' w' e => ?_, pw2, f2, ?_, g3⟩
        · obtain ⟨_, rfl⟩ := hr.det e
          obtain ⟨bs, b1, b2, b3, _⟩ := h3.count hc hG
          exact ⟨⟨_, ⟨bs, b1, b2, rfl⟩, b3⟩, g1⟩
        · show (do let out ← step (poolTree md c K E) lt op; let outs ← run (poolTree md c K E) lt ops; pure (out :: outs) :
            Prog World (List (Option α))) pw = _
          rw [bind_returns h2, bind_returns g2]
          rfl

theorem same_pool (hc : Sma.Legal c) {w : Tree.World α} {pw : World} (hR : WR c G K E f (live w) w pw) :
    Same md c K E lt pw w := by
  have hi := hR.inj hc
  intro k
  refine ⟨by rw [hR.obj k]; simp, fun n h => on_observe hR k getSize_sim h, fun b h => on_observe hR k (empty_sim hc hi) h,
    fun o l h => on_observe hR k (elements_sim hc hi o) h, fun x v h => on_observe hR k ?_ h⟩
  exact Sim.bind (find_sim hc hi x) fun p p' hp => readIt_sim hc hi hp

theorem Shows.of_same {w : Tree.World α} {pw : World} {sw : BST.SWorld α} (h : Same md c K E lt pw w)
    (hs : BST.Shows lt w sw) : Shows md c K E lt pw sw := by
  intro k
  obtain ⟨h1, h2, h3, h4, h5⟩ := h k
  obtain ⟨g1, g2⟩ := hs k
  refine ⟨fun e => h1.2 (g1 e), fun l n e => ?_⟩
  obtain ⟨e1, e2, e3, e4, e5⟩ := g2 l n e
  exact ⟨e1, h2 _ e2, h3 _ e3, fun hne => h4 _ _ (e4 hne), fun x => h5 _ _ (e5 x)⟩

theorem finite_put {sw : BST.SWorld α} (h : Finite sw.sets) (k : Nat) (v : Option (List α × Nat)) :
    Finite (sw.put k v).sets := by
  have : (sw.put k v).sets = DL.SWorld.put sw.sets k (v.map Prod.fst) := by
    funext j
    unfold BST.SWorld.sets BST.SWorld.put DL.SWorld.put
    by_cases e : j = k <;> simp [e]
  rw [this]; exact h.put _ _

theorem finite_step {sw sw' : BST.SWorld α} (h : Finite sw.sets) {op : BST.Op α}
    (hs : BST.specStep lt op sw = some sw') : Finite sw'.sets := by
  have put : ∀ k v, Finite (sw.put k v).sets := finite_put h
  cases op <;> simp only [BST.specStep, Option.bind_eq_some_iff] at hs
  case new => split at hs <;> cases hs; exact put _ _
  case newFrom => split at hs <;> cases hs; exact put _ _
  case push => obtain ⟨_, _, hs⟩ := hs; cases hs; exact put _ _
  case pushAt => obtain ⟨_, _, _, _, _, _, hs⟩ := hs; cases hs; exact put _ _
  case pop => obtain ⟨_, _, hs⟩ := hs; cases hs; exact put _ _
  case popAt => obtain ⟨_, _, _, _, hs⟩ := hs; split at hs <;> cases hs; exact put _ _
  case erase => obtain ⟨_, _, hs⟩ := hs; cases hs; exact put _ _
  case clear => obtain ⟨_, _, hs⟩ := hs; cases hs; exact put _ _
  case move =>
    obtain ⟨_, _, _, _, hs⟩ := hs
    split at hs <;> cases hs
    · exact h
    · exact finite_put (put _ _) _ _
  case moveNew =>
    split at hs <;> simp only [Option.bind_eq_some_iff, reduceCtorEq] at hs
    obtain ⟨_, _, hs⟩ := hs
    cases hs
    exact finite_put (put _ _) _ _
  case drop => obtain ⟨_, _, hs⟩ := hs; cases hs; exact put _ _

theorem vals_len (t : T α) : (BST.vals t).length = t.ptrs.length := by
  unfold BST.vals
  rw [List.length_map, T.ptrs_eq, List.length_map]

theorem total {w : Tree.World α} {sw : BST.SWorld α} (h : HoldsSet lt w sw) (hf : Finite sw.sets) {n : Nat}
    (hn : Nodes w n) : Total sw.sets n := by
  obtain ⟨g, cc, h1, h2⟩ := h
  have e : sw.sets = fun k => (g k).map BST.vals := by
    funext k
    unfold BST.SWorld.sets
    rcases h2 k with ⟨e1, e2⟩ | ⟨t, m, e1, e2, _⟩ <;> rw [e1, e2] <;> rfl
  rw [e] at hf ⊢
  exact nodes_total h1.base vals_len hf hn

/-- The statements that have a meaning are about objects that are alive. -/
theorem alive_of_spec {w : Tree.World α} {sw sw' : BST.SWorld α} (h : HoldsSet lt w sw) {op : BST.Op α}
    (hs : BST.specStep lt op sw = some sw') : BST.Alive op w := by
  obtain ⟨g, c, hh, hl⟩ := h
  have some_ : ∀ {k o}, sw k = some o → w.obj k ≠ none := by
    intro k o hk
    obtain ⟨t, ht, _⟩ := hl.get hk
    rw [hh.live ht]; simp
  have none_ : ∀ {k}, (sw k).isNone = true → w.obj k = none := by
    intro k hk
    rw [hh.obj k, hl.none (Option.isNone_iff_eq_none.1 hk)]; rfl
  cases op <;> simp only [BST.specStep, Option.bind_eq_some_iff] at hs
  case new => split at hs <;> cases hs; exact none_ ‹_›
  case newFrom => split at hs <;> cases hs; exact none_ ‹_›
  case push => obtain ⟨_, h1, hs⟩ := hs; exact some_ h1
  case pushAt => obtain ⟨_, h1, _, h2, _⟩ := hs; exact ⟨some_ h1, some_ h2⟩
  case pop => obtain ⟨_, h1, hs⟩ := hs; exact some_ h1
  case popAt => obtain ⟨_, h1, _, h2, _⟩ := hs; exact ⟨some_ h1, some_ h2⟩
  case erase => obtain ⟨_, h1, hs⟩ := hs; exact some_ h1
  case clear => obtain ⟨_, h1, hs⟩ := hs; exact some_ h1
  case move => obtain ⟨_, h1, _, h2, _⟩ := hs; exact ⟨some_ h1, some_ h2⟩
  case moveNew =>
    split at hs <;> simp only [Option.bind_eq_some_iff, reduceCtorEq] at hs
    obtain ⟨_, h2, hs⟩ := hs
    exact ⟨none_ ‹_›, some_ h2⟩
  case drop => obtain ⟨_, h1, hs⟩ := hs; exact some_ h1

/-- Programs that have a meaning run, with the specified results; the nodes are the elements. -/
theorem steps_runs (hw : StrictWeak lt) {ops : List (BST.Op α)} {w w' : Tree.World α} {sw sw' : BST.SWorld α}
    (hst : BST.Steps lt w sw ops w' sw') (h : HoldsSet lt w sw) (hf : Finite sw.sets) :
    BST.Runs lt w ops (BST.specOuts lt ops sw) w' ∧ HoldsSet lt w' sw' ∧ Finite sw'.sets ∧
      ∀ cap, FitsAll lt cap ops w → SetsFit lt cap ops sw := by
  induction hst with
  | nil => exact ⟨.nil, h, hf, fun _ _ => trivial⟩
  | @cons op ops w w1 w2 sw sw1 sw2 out hs hsafe hr _ ih =>
    obtain ⟨w3, r1, hH⟩ := BST.step_ok hw h hs hsafe
    obtain ⟨rfl, rfl⟩ := hr.det r1
    have hf1 := finite_step hf hs
    obtain ⟨g1, g2, g3, g4⟩ := ih hH hf1
    refine ⟨?_, g2, g3, fun cap hfit sw' e => ?_⟩
    · have : BST.specOuts lt (op :: ops) sw = BST.specOut lt op sw :: BST.specOuts lt ops sw1 := by
        rw [BST.specOuts, hs]; rfl
      rw [this]
      exact .cons (alive_of_spec h hs) hr g1
    · rw [hs] at e; cases e
      obtain ⟨⟨n, n1, n2⟩, n3⟩ := hfit _ _ hr
      exact ⟨⟨n, total hH hf1 n1, n2⟩, g4 cap n3⟩

/-- The converse for the pool. -/
theorem sets_fits (hw : StrictWeak lt) {ops : List (BST.Op α)} {w w' : Tree.World α} {sw sw' : BST.SWorld α}
    (hst : BST.Steps lt w sw ops w' sw') (h : HoldsSet lt w sw) (hf : Finite sw.sets) {cap : Nat}
    (hfit : SetsFit lt cap ops sw) : FitsAll lt cap ops w := by
  induction hst with
  | nil => trivial
  | @cons op ops w w1 w2 sw sw1 sw2 out hs hsafe hr _ ih =>
    obtain ⟨w3, r1, hH⟩ := BST.step_ok hw h hs hsafe
    obtain ⟨rfl, rfl⟩ := hr.det r1
    have hf1 := finite_step hf hs
    obtain ⟨⟨n, n1, n2⟩, n3⟩ := hfit _ hs
    intro out w' e
    obtain ⟨_, rfl⟩ := hr.det e
    refine ⟨?_, ih hH hf1 n3⟩
    obtain ⟨g, cc, h1, h2⟩ := hH
    obtain ⟨ks, k1, k2⟩ := hf1
    have e : sw1.sets = fun k => (g k).map BST.vals := by
      funext k
      unfold BST.SWorld.sets
      rcases h2 k with ⟨e1, e2⟩ | ⟨t, m, e1, e2, _⟩ <;> rw [e1, e2] <;> rfl
    have hN : Nodes w1 (nodesOf g ks).length := by
      refine ⟨_, nodup_nodesOf h1.base k1, fun x => ?_, rfl⟩
      rw [show Allocated w1.mem x ↔ ∃ k t, g k = some t ∧ x ∈ t.ptrs from h1.base.allocated, mem_nodesOf]
      constructor
      · rintro ⟨k, _, t, e1, e2⟩
        exact ⟨k, t, e1, e2⟩
      · rintro ⟨k, t, e1, e2⟩
        exact ⟨k, (k2 k).2 (by rw [e]; simp [e1]), t, e1, e2⟩
    refine ⟨_, hN, ?_⟩
    have := total (lt := lt) (sw := sw1) ⟨g, cc, h1, h2⟩ ⟨ks, k1, k2⟩ hN
    rw [LPool.Total.det this n1]; exact n2

end B

end Verif.TPool
