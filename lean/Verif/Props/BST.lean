import Verif.BSTTwo
import Verif.Props.AVLTree

/-!
# Properties of `BinarySearchTree` (C42, C43, C45, C46, C64)

Those with a suffix `_partial` are about the states a program reaches by statements that meet their
preconditions and are not one of the defective uses named in `Safe`; the defective uses have their
own theorems.
-/

namespace Verif.BST

open Prog Verif.Tree
open Verif.AVL (StrictWeak Ascending Equiv same with_ without same_iff not_any any_iff mem_with length_with mem_without
  length_without natLt natLt_strictWeak)

variable {α : Type} {lt : α → α → Bool}

/-! ## Programs run -/

/-- A statement that meets its precondition and is not a defective use runs without fault, has
the specified result and leads to a state that shows what the program means. -/
theorem bst_runs_partial (hw : StrictWeak lt) {w : World α} {sw sw' : SWorld α} (h : Reach lt w sw) (op : Op α)
    (hs : specStep lt op sw = some sw') (hsafe : Safe lt op w sw) :
    ∃ w', Returns (step lt op) w (specOut lt op sw) w' ∧ Reach lt w' sw' ∧ Shows lt w' sw' := by
  obtain ⟨w', h1, h2⟩ := step_ok hw (h.holds hw) hs hsafe
  exact ⟨w', h1, h.step hs hsafe h1, h2.shows hw⟩

/-- In a tree of at most two elements no node has two children. -/
theorem oneChild_of_two (hw : StrictWeak lt) {w : World α} {sw : SWorld α} (h : Reach lt w sw) {k : Nat} {o : List α × Nat}
    (hk : sw k = some o) (hl : o.1.length ≤ 2) (x : α) : OneChild lt w k x := by
  obtain ⟨g, c, h, hg⟩ := h.holds hw
  obtain ⟨t, ht, hv, _⟩ := hg.get hk
  intro r c' n d ho hb hd _
  rw [h.live ht] at ho
  cases ho
  have hrep : Rep w.mem none t := h.base.rep k t ht
  have hn := (below_root hrep).1 hb
  have hm := item_dat hrep hn hd
  obtain ⟨xs, ys, e⟩ := List.append_of_mem hm
  obtain ⟨ctx, l, r, e1, _, _⟩ := split_in .top e
  simp only [Ctx.plug] at e1
  have hat := (h.load ht)
  rw [e1] at hat
  have hlft : w.mem.lft n = l.root := hat.at.lft
  have hrgt : w.mem.rgt n = r.root := hat.at.rgt
  rw [hlft, hrgt, T.root_none, T.root_none]
  rw [← hv, e1, vals_plug, vals_node] at hl
  cases l with
  | nil => exact Or.inl rfl
  | node a q e b =>
    right
    cases r with
    | nil => rfl
    | node a' q' e' b' => simp only [vals_node, List.length_append, List.length_cons] at hl; omega

theorem SafeIn.safe (hw : StrictWeak lt) {w : World α} {sw : SWorld α} (h : Reach lt w sw) {op : Op α}
    (hsafe : SafeIn lt op sw) : Safe lt op w sw := by
  cases op with
  | pop k x => exact fun o ho => (hsafe o ho).imp id fun a => ⟨a.1, oneChild_of_two hw h ho a.2 x⟩
  | popAt k j x => exact fun o ho => (hsafe o ho).imp id fun a => ⟨a.1, oneChild_of_two hw h ho a.2 x⟩
  | erase k x => exact fun o ho => ⟨(hsafe o ho).1, oneChild_of_two hw h ho (hsafe o ho).2 x⟩
  | _ => trivial

/-- A whole program: one that meets the preconditions and contains no defective use runs without
fault to a state that shows what it means. -/
theorem bst_history_partial (hw : StrictWeak lt) (ops : List (Op α)) {w : World α} {sw sw' : SWorld α}
    (h : Reach lt w sw) (hs : specRun lt ops sw = some sw') (hsafe : SafeAll lt ops sw) :
    ∃ w', Returns (run lt ops) w () w' ∧ Reach lt w' sw' ∧ Shows lt w' sw' := by
  induction ops generalizing w sw with
  | nil =>
    cases hs
    exact ⟨w, rfl, h, (h.holds hw).shows hw⟩
  | cons op ops ih =>
    simp only [specRun, Option.bind_eq_some_iff] at hs
    obtain ⟨sw1, h1, h2⟩ := hs
    obtain ⟨w1, r1, r2, _⟩ := bst_runs_partial hw h op h1 (hsafe.1.safe hw h)
    obtain ⟨w2, r3, r4⟩ := ih r2 h2 (hsafe.2 _ h1)
    refine ⟨w2, ?_, r4⟩
    unfold Returns
    show (step lt op >>= fun _ => run lt ops) w = _
    rw [bind_returns r1]; exact r3

/-! The examples below use the order of the natural numbers and this program. -/

def exOps : List (Op Nat) :=
  [.newFrom 0 [5, 2, 8, 7, 9], .push 0 8, .new 1, .push 1 3, .popAt 1 1 3, .pop 1 4, .push 1 6, .pushAt 1 0 7,
    .erase 1 6, .moveNew 2 1, .pushAt 1 0 2, .push 1 1, .move 1 1, .pop 1 2]

theorem exOps_meaning : ∃ sw, specRun natLt exOps (fun _ => none) = some sw ∧ sw 0 = some ([2, 5, 7, 8, 9], 1) ∧
    sw 1 = some ([1], 0) ∧ sw 2 = some ([7], 0) ∧ SafeAll natLt exOps (fun _ => none) := by
  refine ⟨_, rfl, rfl, rfl, rfl, ?_⟩
  repeat' first
    | (refine ⟨?_, fun w' e => ?_⟩; rotate_left; have e : some _ = some w' := e; cases e)
    | trivial
    | (intro o ho; have ho : some _ = some o := ho; cases ho; decide)

/-- A reachable state with three objects. -/
theorem exReach : ∃ (w : World Nat) (sw : SWorld Nat), Reach natLt w sw ∧ sw 0 = some ([2, 5, 7, 8, 9], 1) ∧
    sw 1 = some ([1], 0) ∧ sw 2 = some ([7], 0) := by
  obtain ⟨sw, h1, h2, h3, h4, h5⟩ := exOps_meaning
  obtain ⟨w, _, h6, _⟩ := bst_history_partial natLt_strictWeak exOps .init h1 h5
  exact ⟨w, sw, h6, h2, h3, h4⟩

theorem unit_of_step {p : Prog (World α) Unit} {w w' : World α} {o : Option α}
    (h : Returns (do p; pure (none : Option α)) w o w') : Returns p w () w' := by
  obtain ⟨_, w1, h1, h2⟩ := (wp_bind p (fun _ => pure (none : Option α)) (fun _ s => s = w') w).1 ⟨_, _, h, rfl⟩
  rw [wp_pure] at h2
  exact h2 ▸ h1

/-! ## C45: push and find -/

/-- **C45, the part that holds.**  In every reachable state `push(x)` of an absent element adds it
and nothing else, also when `x` is a reference to an element of another tree; the tree stays
ordered and `size()` grows by one.  Missing for C45: `push` of an element that is present, see
`bst_push_dup_wrong`. -/
theorem bst_push_partial (hw : StrictWeak lt) {w : World α} {sw : SWorld α} (h : Reach lt w sw) {k n : Nat} {l : List α}
    (hk : sw k = some (l, n)) (x : α) (hx : ∀ v ∈ l, ¬ Equiv lt x v) :
    ∃ l', (∀ v, v ∈ l' ↔ v = x ∨ v ∈ l) ∧ l'.length = l.length + 1 ∧
      (∃ w', Returns (on k (push lt (.val x))) w () w' ∧
        Reach lt w' (sw.put k (some (l', n))) ∧ Shows lt w' (sw.put k (some (l', n)))) ∧
      ∀ j l2 m, sw j = some (l2, m) → x ∈ l2 → ∃ w', Returns (step lt (.pushAt k j x)) w none w' ∧
        Reach lt w' (sw.put k (some (l', n))) ∧ Shows lt w' (sw.put k (some (l', n))) := by
  have ha : add lt (l, n) x = (with_ lt l x, n) := by simp only [add, not_any.1 hx]; rfl
  refine ⟨with_ lt l x, mem_with hw hx, length_with hw hx, ?_, fun j l2 m hj hx2 => ?_⟩
  · have hs : specStep lt (.push k x) sw = some (sw.put k (some (with_ lt l x, n))) := by
      simp only [specStep, hk, Option.bind_some, ha]
    obtain ⟨w', h1, h2, h3⟩ := bst_runs_partial hw h _ hs trivial
    exact ⟨w', unit_of_step h1, h2, h3⟩
  · have hasc : Ascending lt l2 := (((h.holds hw).shows hw j).2 l2 m hj).1
    have hf : l2.find? (same lt x) = some x := by
      obtain ⟨xs, ys, rfl⟩ := List.append_of_mem hx2
      exact (Verif.AVL.split_spec hw hasc ⟨hw.irrefl x, hw.irrefl x⟩).2.2.1
    have hs : specStep lt (.pushAt k j x) sw = some (sw.put k (some (with_ lt l x, n))) := by
      simp only [specStep, hk, hj, Option.bind_some, hf, ha]
    obtain ⟨w', h1, h2, h3⟩ := bst_runs_partial hw h _ hs trivial
    exact ⟨w', h1, h2, h3⟩

example : ∃ (w : World Nat) (sw : SWorld Nat) (l : List Nat) (n : Nat), Reach natLt w sw ∧ sw 2 = some (l, n) ∧
    (∀ v ∈ l, ¬ Equiv natLt 8 v) ∧ ∃ l2 m, sw 0 = some (l2, m) ∧ 8 ∈ l2 := by
  obtain ⟨w, sw, h, h0, _, h2⟩ := exReach
  exact ⟨w, sw, _, _, h, h2, not_any.2 (by decide), _, _, h0, by decide⟩

/-- **C45, failing case.**  In every reachable state `push(x)` of an element that is present leaves
the elements alone but makes `size()` one greater: afterwards, and until `clear()`, it is not the
number of elements. -/
theorem bst_push_dup_wrong (hw : StrictWeak lt) {w : World α} {sw : SWorld α} (h : Reach lt w sw) {k n : Nat} {l : List α}
    (hk : sw k = some (l, n)) (x : α) (hx : ∃ v ∈ l, Equiv lt x v) :
    ∃ w', Returns (on k (push lt (.val x))) w () w' ∧ Returns (on k (elements .ino)) w' l w' ∧
      Returns (on k getSize) w' (l.length + n + 1) w' ∧ l.length + n + 1 ≠ l.length ∧
      Reach lt w' (sw.put k (some (l, n + 1))) ∧ Shows lt w' (sw.put k (some (l, n + 1))) := by
  have ha : add lt (l, n) x = (l, n + 1) := by simp only [add, any_iff.1 hx, if_true]
  have hs : specStep lt (.push k x) sw = some (sw.put k (some (l, n + 1))) := by
    simp only [specStep, hk, Option.bind_some, ha]
  obtain ⟨w', h1, h2, h3⟩ := bst_runs_partial hw h _ hs trivial
  obtain ⟨_, h4, _, h5, _⟩ := (h3 k).2 l (n + 1) (by simp [SWorld.put])
  refine ⟨w', unit_of_step h1, h5 ?_, h4, by omega, h2, h3⟩
  rintro rfl
  obtain ⟨v, hv, _⟩ := hx
  cases hv

example : ∃ (w : World Nat) (sw : SWorld Nat) (l : List Nat) (n : Nat), Reach natLt w sw ∧ sw 0 = some (l, n) ∧
    ∃ v ∈ l, Equiv natLt 7 v := by
  obtain ⟨w, sw, h, h0, _⟩ := exReach
  exact ⟨w, sw, _, _, h, h0, any_iff.2 (by decide)⟩

/-- **C45, find.**  In every reachable state `find(x)` refers to the element equivalent to `x` if
there is one and is `end()` otherwise; it changes nothing. -/
theorem bst_find_partial (hw : StrictWeak lt) {w : World α} {sw : SWorld α} (h : Reach lt w sw) {k n : Nat} {l : List α}
    (hk : sw k = some (l, n)) (x : α) :
    (∀ v ∈ l, Equiv lt x v → ∃ it, it ≠ none ∧ Returns (on k (find lt x)) w it w ∧ Returns (on k (getData it)) w v w) ∧
    ((∀ v ∈ l, ¬ Equiv lt x v) → Returns (on k (find lt x)) w none w) := by
  obtain ⟨g, c, h, hg⟩ := h.holds hw
  obtain ⟨t, ht, rfl, _⟩ := hg.get hk
  have ha := h.base.good k t ht
  constructor
  · intro v hv he
    obtain ⟨⟨z, v'⟩, hm, rfl⟩ := List.mem_map.1 hv
    have hf := find_of_mem hw ha hm he
    exact ⟨some z, by simp, on_observes (h.live ht) (hf ▸ find_ok (h.load ht) x),
      on_observes (h.live ht) (getData_ok (dat_item (h.load ht).rep hm))⟩
  · intro hx
    exact on_observes (h.live ht) ((find_none hw ha).2 hx ▸ find_ok (h.load ht) x)

example : ∃ (w : World Nat) (sw : SWorld Nat) (l : List Nat) (n : Nat), Reach natLt w sw ∧ sw 0 = some (l, n) ∧
    (∃ v ∈ l, Equiv natLt 7 v) ∧ ∀ v ∈ l, ¬ Equiv natLt 6 v := by
  obtain ⟨w, sw, h, h0, _⟩ := exReach
  exact ⟨w, sw, _, _, h, h0, any_iff.2 (by decide), not_any.2 (by decide)⟩

theorem foldl_add_distinct (hw : StrictWeak lt) (xs : List α) (o : List α × Nat)
    (h1 : ∀ x ∈ xs, ∀ v ∈ o.1, ¬ Equiv lt x v) (h2 : xs.Pairwise fun a b => ¬ Equiv lt b a) :
    (xs.foldl (add lt) o).2 = o.2 ∧ ∀ v, v ∈ (xs.foldl (add lt) o).1 ↔ v ∈ xs ∨ v ∈ o.1 := by
  induction xs generalizing o with
  | nil => simp
  | cons x xs ih =>
    rw [List.pairwise_cons] at h2
    have hx := h1 x (List.mem_cons_self ..)
    have ha : add lt o x = (with_ lt o.1 x, o.2) := by simp only [add, not_any.1 hx]; rfl
    rw [List.foldl_cons, ha]
    obtain ⟨i1, i2⟩ := ih (with_ lt o.1 x, o.2) (fun y hy v hv => by
      rcases (mem_with hw hx v).1 hv with rfl | hv
      · exact h2.1 y hy
      · exact h1 y (List.mem_cons_of_mem _ hy) v hv) h2.2
    refine ⟨i1, fun v => ?_⟩
    rw [i2 v, mem_with hw hx v, List.mem_cons]
    constructor
    · rintro (h | rfl | h)
      · exact Or.inl (Or.inr h)
      · exact Or.inl (Or.inl rfl)
      · exact Or.inr h
    · rintro ((rfl | h) | h)
      · exact Or.inr (Or.inl rfl)
      · exact Or.inl h
      · exact Or.inr (Or.inr h)

theorem foldl_add_size (hw : StrictWeak lt) (xs : List α) (o : List α × Nat) :
    (xs.foldl (add lt) o).1.length + (xs.foldl (add lt) o).2 = o.1.length + o.2 + xs.length := by
  induction xs generalizing o with
  | nil => simp
  | cons x xs ih =>
    rw [List.foldl_cons, ih, List.length_cons]
    unfold add
    cases hx : o.1.any (same lt x) with
    | true => simp only [if_true]; omega
    | false =>
      have := length_with hw (not_any.2 hx)
      simp; omega

theorem specRun_pushes (k : Nat) (xs : List α) (sw : SWorld α) (o : List α × Nat) (hk : sw k = some o) :
    specRun lt (xs.map (.push k)) sw = some (sw.put k (some (xs.foldl (add lt) o))) ∧
      SafeAll lt (xs.map (.push k)) sw := by
  induction xs generalizing sw o with
  | nil =>
    refine ⟨?_, trivial⟩
    simp only [List.map_nil, specRun, List.foldl_nil, Option.some.injEq]
    funext j; by_cases e : j = k <;> simp [SWorld.put, e, hk]
  | cons x xs ih =>
    have hs : specStep lt (.push k x) sw = some (sw.put k (some (add lt o x))) := by simp [specStep, hk]
    obtain ⟨i1, i2⟩ := ih (sw.put k (some (add lt o x))) (add lt o x) (by simp [SWorld.put])
    refine ⟨?_, trivial, fun w' e => ?_⟩
    · simp only [List.map_cons, specRun, hs, Option.bind_some, i1, List.foldl_cons, Option.some.injEq]
      funext j; by_cases e : j = k <;> simp [SWorld.put, e]
    · rw [hs] at e; cases e; exact i2

/-- **C45, histories of pushes.**  Pushing any list of elements one after the other into an empty
tree runs without fault.  `size()` is then the number of pushes; if the elements are pairwise not
equivalent, the tree shows exactly these elements in ascending order, so `size()` is their
number. -/
theorem bst_pushes_partial (hw : StrictWeak lt) (xs : List α) :
    ∃ w' sw' l n, Returns (run lt (.new 0 :: xs.map (.push 0))) (World.init : World α) () w' ∧ Reach lt w' sw' ∧
      Shows lt w' sw' ∧ sw' 0 = some (l, n) ∧ Ascending lt l ∧ Returns (on 0 getSize) w' xs.length w' ∧
      (xs.Pairwise (fun a b => ¬ Equiv lt b a) → n = 0 ∧ (∀ v, v ∈ l ↔ v ∈ xs) ∧ l.length = xs.length) := by
  obtain ⟨i1, i2⟩ := specRun_pushes (lt := lt) 0 xs (SWorld.put (fun _ => none) 0 (some ([], 0))) ([], 0) rfl
  obtain ⟨w', h1, h2, h3⟩ := bst_history_partial hw (.new 0 :: xs.map (.push 0)) (w := World.init) .init
    (show specRun lt (.new 0 :: xs.map (.push 0)) (fun _ => none) = some _ from i1)
    ⟨trivial, fun w' e => by
      have e : some (SWorld.put (fun _ => none) 0 (some ([], 0))) = some w' := e
      cases e; exact i2⟩
  have hk : (SWorld.put (SWorld.put (fun _ => none) 0 (some ([], 0))) 0 (some (xs.foldl (add lt) ([], 0)))) 0 =
      some ((xs.foldl (add lt) ([], 0)).1, (xs.foldl (add lt) ([], 0)).2) := rfl
  have hsz := foldl_add_size hw xs ([], 0)
  obtain ⟨g1, g2, _⟩ := (h3 0).2 _ _ hk
  rw [hsz] at g2
  refine ⟨w', _, _, _, h1, h2, h3, hk, g1, by simpa using g2, fun hp => ?_⟩
  obtain ⟨d1, d2⟩ := foldl_add_distinct hw xs ([], 0) (by simp) hp
  refine ⟨d1, by simpa using d2, ?_⟩
  rw [d1] at hsz
  simpa using hsz

example : [5, 2, 8, 7, 9].Pairwise (fun a b => ¬ Equiv natLt b a) := by
  simp [Equiv, natLt]

/-! ## C46: pop and erase -/

/-- **C46, the part that holds, pop.**  In every reachable state `pop(x)` of an element whose node
has at most one child removes it and nothing else, also when `x` is a reference to the element of
this or another tree (`popAt`); what is left is again a tree that shows the smaller set in order.
When `size()` is 0, `pop` does nothing.  Missing for C46: nodes with two children, see
`bst_two_faults` and `bst_two_wrong`. -/
theorem bst_pop_partial (hw : StrictWeak lt) {w : World α} {sw : SWorld α} (h : Reach lt w sw) {k n : Nat} {l : List α}
    (hk : sw k = some (l, n)) (x : α) :
    ((∃ v ∈ l, Equiv lt x v) → OneChild lt w k x →
      ∃ l', (∀ v, v ∈ l' ↔ v ∈ l ∧ ¬ Equiv lt x v) ∧ l'.length + 1 = l.length ∧
      (∃ w', Returns (on k (pop lt (.val x))) w () w' ∧
        Reach lt w' (sw.put k (some (l', n))) ∧ Shows lt w' (sw.put k (some (l', n)))) ∧
      ∀ j l2 m, sw j = some (l2, m) → (∃ v ∈ l2, Equiv lt x v) → ∃ w', Returns (step lt (.popAt k j x)) w none w' ∧
        Reach lt w' (sw.put k (some (l', n))) ∧ Shows lt w' (sw.put k (some (l', n)))) ∧
    (l = [] → n = 0 → Returns (on k (pop lt (.val x))) w () w) := by
  have ha : Ascending lt l := (((h.holds hw).shows hw k).2 l n hk).1
  refine ⟨fun hx ho => ⟨without lt l x, mem_without, length_without hw ha hx, ?_, fun j l2 m hj hx2 => ?_⟩, ?_⟩
  · have hs : specStep lt (.pop k x) sw = some (sw.put k (some (without lt l x, n))) := by
      simp only [specStep, hk, Option.bind_some]
    obtain ⟨w', h1, h2, h3⟩ := bst_runs_partial hw h _ hs
      (fun o hl => Or.inr (by rw [hk] at hl; cases hl; exact ⟨any_iff.1 hx, ho⟩))
    exact ⟨w', unit_of_step h1, h2, h3⟩
  · have hs : specStep lt (.popAt k j x) sw = some (sw.put k (some (without lt l x, n))) := by
      simp only [specStep, hk, hj, Option.bind_some, any_iff.1 hx2, if_true]
    obtain ⟨w', h1, h2, h3⟩ := bst_runs_partial hw h _ hs
      (fun o hl => Or.inr (by rw [hk] at hl; cases hl; exact ⟨any_iff.1 hx, ho⟩))
    exact ⟨w', h1, h2, h3⟩
  · rintro rfl rfl
    obtain ⟨g, c, h, hg⟩ := h.holds hw
    obtain ⟨t, ht, e, hc⟩ := hg.get hk
    have e := vals_eq_nil.1 e
    subst e
    exact on_observes (h.live ht) (pop_empty hc)

/-- **C46, the part that holds, erase.**  In every reachable state, erasing the element `find(x)`
refers to removes exactly this element and returns an iterator to the next greater one (`end()` if
there is none), provided its node has at most one child. -/
theorem bst_erase_partial (hw : StrictWeak lt) {w : World α} {sw : SWorld α} (h : Reach lt w sw) {k n : Nat} {l : List α}
    (hk : sw k = some (l, n)) (x : α) (hx : ∃ v ∈ l, Equiv lt x v) (ho : OneChild lt w k x) :
    ∃ w' l' next, Returns (step lt (.erase k x)) w next w' ∧ (∀ v, v ∈ l' ↔ v ∈ l ∧ ¬ Equiv lt x v) ∧
      l'.length + 1 = l.length ∧ Reach lt w' (sw.put k (some (l', n))) ∧ Shows lt w' (sw.put k (some (l', n))) ∧
      (∀ v, next = some v → v ∈ l ∧ lt x v = true ∧ ∀ u ∈ l, lt x u = true → lt u v = false) ∧
      (next = none → ∀ u ∈ l, lt x u = false) := by
  have ha : Ascending lt l := (((h.holds hw).shows hw k).2 l n hk).1
  have hs : specStep lt (.erase k x) sw = some (sw.put k (some (without lt l x, n))) := by
    simp only [specStep, hk, Option.bind_some]
  obtain ⟨w', h1, h2, h3⟩ := bst_runs_partial hw h _ hs
    (fun o hl => by rw [hk] at hl; cases hl; exact ⟨any_iff.1 hx, ho⟩)
  refine ⟨w', _, _, h1, mem_without, length_without hw ha hx, h2, h3, fun v hv => ?_, fun hn u hu => ?_⟩
  all_goals simp only [specOut, hk, Option.bind_some] at *
  · have ha' : Ascending lt (l.filter (lt x ·)) := ha.filter _
    have hm := List.mem_of_mem_head? (by rw [hv]; rfl : v ∈ (l.filter (lt x ·)).head?)
    refine ⟨(List.mem_filter.1 hm).1, (List.mem_filter.1 hm).2, fun u hu hxu => ?_⟩
    have hu' : u ∈ l.filter (lt x ·) := List.mem_filter.2 ⟨hu, hxu⟩
    cases hf : l.filter (lt x ·) with
    | nil => rw [hf] at hu'; cases hu'
    | cons b ys =>
      rw [hf] at hv hu' ha'
      simp only [List.head?_cons, Option.some.injEq] at hv
      subst hv
      rcases List.mem_cons.1 hu' with rfl | hu'
      · exact hw.irrefl _
      · exact hw.asymm ((List.pairwise_cons.1 ha').1 u hu')
  · rw [List.head?_eq_none_iff, List.filter_eq_nil_iff] at hn
    simpa using hn u hu

/-- The element 8 of the tree built by pushing 5, 2, 8, 7 has one child. -/
example : ∃ (w : World Nat) (sw : SWorld Nat) (l : List Nat) (n : Nat), Reach natLt w sw ∧ sw 0 = some (l, n) ∧
    (∃ v ∈ l, Equiv natLt 8 v) ∧ OneChild natLt w 0 8 := by
  obtain ⟨w, sw, g, c, u, h, hh, hl, hu, e⟩ := build natLt_strictWeak [5, 2, 8, 7] rfl
  obtain ⟨a, p, b, rfl, ea, eb⟩ := strip_node e
  obtain ⟨a1, p1, b1, rfl, ea1, eb1⟩ := strip_node ea
  obtain ⟨a2, p2, b2, rfl, ea2, eb2⟩ := strip_node eb
  obtain ⟨a3, p3, b3, rfl, ea3, eb3⟩ := strip_node ea2
  have := strip_nil ea1; have := strip_nil eb1; have := strip_nil ea3; have := strip_nil eb3; have := strip_nil eb2
  subst_vars
  obtain ⟨l, n, hsw, hv⟩ : ∃ l n, sw 0 = some (l, n) ∧ l = [2, 5, 7, 8] := by
    rcases hl 0 with ⟨x, _⟩ | ⟨t, m, h1, h2, _⟩
    · rw [x] at hu; cases hu
    · rw [hu] at h1; cases h1; exact ⟨_, m, h2, rfl⟩
  subst hv
  have hrep : Rep w.mem none _ := hh.base.rep 0 _ hu
  refine ⟨w, sw, _, n, h, hsw, any_iff.2 (by decide), fun r c' m d ho hb hd hx => ?_⟩
  rw [hh.live hu] at ho
  cases ho
  have hm := item_dat hrep ((below_root hrep).1 hb) hd
  obtain ⟨_, _, _, _, _, q1, q2, q3, q4, _⟩ := hrep
  have : m = p2 := by
    simp only [T.inorder, List.nil_append, List.cons_append, List.mem_cons, Prod.mk.injEq, List.not_mem_nil, or_false] at hm
    simp only [Equiv, natLt, decide_eq_false_iff_not] at hx
    omega
  subst this
  exact Or.inr q4

/-- **C46, failing case.**  `pop` of an absent element dereferences a null pointer, in every
reachable state in which `size()` is not 0. -/
theorem bst_pop_absent_faults (hw : StrictWeak lt) {w : World α} {sw : SWorld α} (h : Reach lt w sw) {k n : Nat}
    {l : List α} (hk : sw k = some (l, n)) (hn : l.length + n ≠ 0) (x : α) (hx : ∀ v ∈ l, ¬ Equiv lt x v) :
    Faults (on k (pop lt (.val x))) w .nullDeref := by
  obtain ⟨g, c, h, hg⟩ := h.holds hw
  obtain ⟨t, ht, rfl, hc⟩ := hg.get hk
  refine on_faults (h.live ht) (pop_null hw.irrefl (x := x) (h.load ht) rfl ?_
    (del_absent ((find_none hw (h.base.good k t ht)).2 hx)))
  show c k ≠ 0
  rw [vals_length] at hn
  rw [hc]; exact hn

/-- **C46, failing case.**  `erase(end())` dereferences a null pointer. -/
theorem bst_erase_end_faults (hw : StrictWeak lt) {w : World α} {sw : SWorld α} (h : Reach lt w sw) {k n : Nat}
    {l : List α} (hk : sw k = some (l, n)) : Faults (on k (erase lt none)) w .nullDeref := by
  obtain ⟨g, c, h, hg⟩ := h.holds hw
  obtain ⟨t, ht, rfl, hc⟩ := hg.get hk
  exact on_faults (h.live ht) (erase_end _)

example : ∃ (w : World Nat) (sw : SWorld Nat) (l : List Nat) (n : Nat), Reach natLt w sw ∧ sw 0 = some (l, n) ∧
    l.length + n ≠ 0 ∧ ∀ v ∈ l, ¬ Equiv natLt 6 v := by
  obtain ⟨w, sw, h, h0, _⟩ := exReach
  exact ⟨w, sw, _, _, h, h0, by decide, not_any.2 (by decide)⟩

/-- **C46, failing case.**  Removing an element whose node has two children, when some node reached
from its right child along right links (the right child included) has no left child:
`while (nullptr == tmp->left) tmp = tmp->left` runs into a null pointer. -/
theorem bst_two_faults (hw : StrictWeak lt) {w : World α} {sw : SWorld α} (h : Reach lt w sw) {k n c : Nat} {r : Ptr} {d : α}
    (ho : w.obj k = some (r, c)) (hb : Below w.mem r n) (hd : w.mem.dat n = some (some d))
    (hl : w.mem.lft n ≠ none) (hr : w.mem.rgt n ≠ none) (hsp : ∃ m, RightOf w.mem (w.mem.rgt n) m ∧ w.mem.lft m = none)
    (x : α) (hx : Equiv lt x d) :
    Faults (on k (pop lt (.val x))) w .nullDeref ∧ Faults (step lt (.erase k x)) w .nullDeref := by
  obtain ⟨g, c', h, hg⟩ := h.holds hw
  obtain ⟨t, ht, hroot⟩ : ∃ t, g k = some t ∧ t.root = r := by
    rw [h.obj k] at ho
    cases ht : g k with
    | none => rw [ht] at ho; cases ho
    | some t => rw [ht] at ho; cases ho; exact ⟨t, rfl, rfl⟩
  subst hroot
  have hload := h.load ht
  have hgt := h.base.good k t ht
  have hrep : Rep w.mem none t := h.base.rep k t ht
  have hn := (below_root hrep).1 hb
  have hcnt : t.count ≠ 0 := by
    rw [count_ptrs]; intro e
    rw [List.eq_nil_of_length_eq_zero e] at hn; cases hn
  have hck : t.count ≤ c' k := by
    rcases hg k with ⟨h1, _⟩ | ⟨t', m, h1, _, h3⟩
    · rw [h1] at ht; cases ht
    · rw [h1] at ht; cases ht; omega
  obtain ⟨ctx, l, r, e1, hf, hdel⟩ := two_at hw hload hgt hn hd hx
  subst e1
  have hat := hload.at
  have hlft : w.mem.lft n = l.root := hat.lft
  have hrgt : w.mem.rgt n = r.root := hat.rgt
  rw [hlft, Ne, T.root_none] at hl
  rw [hrgt] at hr hsp
  rw [Ne, T.root_none] at hr
  have hrr : Rep w.mem (some n) r := hat.repr.congr fun _ _ => ⟨rfl, rfl, rfl, rfl⟩
  have hnone : fTry (.node l n d r) = none := (spine_none hrr hl hr).2 hsp
  rw [hnone] at hdel
  refine ⟨on_faults (h.live ht) (pop_null hw.irrefl hload (x := x) rfl ?_ hdel), on_faults (h.live ht) ?_⟩
  · show c' k ≠ 0
    omega
  · unfold Faults
    rw [bind_returns (find_ok hload x), hf]
    exact bind_faults (erase_null hw.irrefl hload hnone)

/-- **C46, failing case.**  Removing an element whose node has two children, when all nodes reached
from its right child along right links have left children: both methods return, `size()` shrinks by
one and exactly this element has gone, but the tree is no longer ordered: iteration does not
ascend, and `find` misses an element that is present.  `erase` returns an iterator to an element
that is not the next greater one. -/
theorem bst_two_wrong (hw : StrictWeak lt) {w : World α} {sw : SWorld α} (h : Reach lt w sw) {k n c : Nat} {r : Ptr} {d : α}
    (ho : w.obj k = some (r, c)) (hb : Below w.mem r n) (hd : w.mem.dat n = some (some d))
    (hl : w.mem.lft n ≠ none) (hr : w.mem.rgt n ≠ none) (hsp : ∀ m, RightOf w.mem (w.mem.rgt n) m → w.mem.lft m ≠ none)
    (x : α) (hx : Equiv lt x d) (l : List α) (m : Nat) (hk : sw k = some (l, m)) :
    ∀ op, op = .pop k x ∨ op = .erase k x → ∃ out w' l', Returns (step lt op) w out w' ∧
      Returns (on k getSize) w' (c - 1) w' ∧ Returns (on k (elements .ino)) w' l' w' ∧
      l'.Perm (l.filter fun v => !same lt x v) ∧ ¬ l'.Pairwise (fun a b => lt a b = true) ∧
      (∃ y ∈ l', Returns (on k (find lt y)) w' none w') ∧
      (op = .erase k x → ∃ v y, out = some v ∧ y ∈ l ∧ lt x y = true ∧ lt y v = true) := by
  obtain ⟨g, c', h, hg⟩ := h.holds hw
  obtain ⟨t, ht, rfl, hc⟩ := hg.get hk
  rw [h.live ht] at ho
  cases ho
  have hload := h.load ht
  have hgt := h.base.good k t ht
  have hrep : Rep w.mem none t := h.base.rep k t ht
  have hn := (below_root hrep).1 hb
  have hcnt : t.count ≠ 0 := by
    rw [count_ptrs]; intro e
    rw [List.eq_nil_of_length_eq_zero e] at hn; cases hn
  obtain ⟨ctx, l, r, e1, hf, hdel⟩ := two_at hw hload hgt hn hd hx
  subst e1
  have hat := hload.at
  have hlft : w.mem.lft n = l.root := hat.lft
  have hrgt : w.mem.rgt n = r.root := hat.rgt
  rw [hlft, Ne, T.root_none] at hl
  rw [hrgt] at hr hsp
  rw [Ne, T.root_none] at hr
  have hsome : fTry (.node l n d r) ≠ none := fun e => by
    have hrr : Rep w.mem (some n) r := hat.repr.congr fun _ _ => ⟨rfl, rfl, rfl, rfl⟩
    obtain ⟨m, h1, h2⟩ := (spine_none hrr hl hr).1 e
    exact hsp m h1 h2
  obtain ⟨⟨u, z⟩, hu⟩ := Option.ne_none_iff_exists'.1 hsome
  rw [hu] at hdel
  obtain ⟨k1, k2, k3, ⟨y, k4, k5⟩, v, y', ⟨q, k6, k6'⟩, k7, k8, k9⟩ := two_wrong hw hgt hx hl hr hu
  have hne : ctx.plug u ≠ .nil := by
    intro e
    rw [e] at k4; cases k4
  have after : ∀ (s' : St α), Removed (w.load ((ctx.plug (.node l n d r)).root, c' k)) s' (ctx.plug (.node l n d r)) (ctx.plug u) z →
      Returns (on k getSize) (w.store k s') (c' k - 1) (w.store k s') ∧
      Returns (on k (elements .ino)) (w.store k s') (vals (ctx.plug u)) (w.store k s') ∧
      Returns (on k (find lt y)) (w.store k s') none (w.store k s') := by
    intro s' hrem
    have hobj : (w.store k s').obj k = some (s'.root, s'.size) := upd_self _ _ _
    have htree : IsTree ((w.store k s').load (s'.root, s'.size)) (ctx.plug u) :=
      ⟨hrem.tree.root, hrem.tree.rep.congr fun _ _ => ⟨rfl, rfl, rfl, rfl⟩, hrem.tree.nodup⟩
    refine ⟨?_, on_observes hobj (elements_ok htree hne), on_observes hobj (k5 ▸ find_ok htree y)⟩
    have : Returns (on k getSize) (w.store k s') s'.size (w.store k s') := on_observes hobj rfl
    rw [hrem.size] at this
    exact this
  rintro op (rfl | rfl)
  · obtain ⟨_, s', h1, hrem⟩ := pop_ok hw.irrefl hload (obj := .val x) rfl (show c' k ≠ 0 by omega) hdel
    obtain ⟨a1, a2, a3⟩ := after s' hrem
    exact ⟨none, _, _, step_none (on_returns (h.live ht) h1), a1, a2, k2, k3, ⟨y, k4, a3⟩, fun e => by cases e⟩
  · obtain ⟨it, s', h1, hrem, hit⟩ := erase_ok hw.irrefl hload hu
    obtain ⟨a1, a2, a3⟩ := after s' hrem
    rw [if_pos k1] at hit
    subst hit
    rw [k1] at k6'
    cases k6'
    have hread : Returns (readIt (some n)) s' (some v) s' := by
      refine readIt_some (dat_item hrem.tree.rep ?_)
      rw [Ctx.inorder_plug]; simp [k6]
    refine ⟨some v, _, _, on_returns (h.live ht) (s' := s') ?_, a1, a2, k2, k3, ⟨y, k4, a3⟩, fun _ => ⟨v, y', rfl, k7, k8, k9⟩⟩
    unfold Returns
    rw [bind_returns (find_ok hload x), hf, bind_returns h1]
    exact hread

/-- Both cases are reachable: the root of the tree built by pushing 5, 2, 8, -/
example : ∃ (w : World Nat) (sw : SWorld Nat) (n c : Nat) (r : Ptr), Reach natLt w sw ∧ w.obj 0 = some (r, c) ∧
    Below w.mem r n ∧ w.mem.dat n = some (some 5) ∧ w.mem.lft n ≠ none ∧ w.mem.rgt n ≠ none ∧
    ∃ m, RightOf w.mem (w.mem.rgt n) m ∧ w.mem.lft m = none := by
  obtain ⟨w, sw, g, c, u, h, hh, hl, hu, e⟩ := build natLt_strictWeak [5, 2, 8] rfl
  obtain ⟨a, p, b, rfl, ea, eb⟩ := strip_node e
  obtain ⟨a1, p1, b1, rfl, ea1, eb1⟩ := strip_node ea
  obtain ⟨a2, p2, b2, rfl, ea2, eb2⟩ := strip_node eb
  have := strip_nil ea1; have := strip_nil eb1; have := strip_nil ea2; have := strip_nil eb2
  subst_vars
  have hrep : Rep w.mem none _ := hh.base.rep 0 _ hu
  obtain ⟨q1, q2, q3, q4, _, r1, r2, r3, _⟩ := hrep
  exact ⟨w, sw, p, _, _, h, hh.live hu, .here p, q1, by rw [q3]; simp [T.root], by rw [q4]; simp [T.root],
    p2, by rw [q4]; exact .here p2, r3⟩

/-- and of the tree built by pushing 5, 2, 8, 7. -/
example : ∃ (w : World Nat) (sw : SWorld Nat) (n c : Nat) (r : Ptr) (l : List Nat) (m : Nat), Reach natLt w sw ∧
    w.obj 0 = some (r, c) ∧ Below w.mem r n ∧ w.mem.dat n = some (some 5) ∧ w.mem.lft n ≠ none ∧ w.mem.rgt n ≠ none ∧
    (∀ m, RightOf w.mem (w.mem.rgt n) m → w.mem.lft m ≠ none) ∧ sw 0 = some (l, m) := by
  obtain ⟨w, sw, g, c, u, h, hh, hl, hu, e⟩ := build natLt_strictWeak [5, 2, 8, 7] rfl
  obtain ⟨a, p, b, rfl, ea, eb⟩ := strip_node e
  obtain ⟨a1, p1, b1, rfl, ea1, eb1⟩ := strip_node ea
  obtain ⟨a2, p2, b2, rfl, ea2, eb2⟩ := strip_node eb
  obtain ⟨a3, p3, b3, rfl, ea3, eb3⟩ := strip_node ea2
  have := strip_nil ea1; have := strip_nil eb1; have := strip_nil ea3; have := strip_nil eb3; have := strip_nil eb2
  subst_vars
  obtain ⟨l, n, hsw⟩ : ∃ l n, sw 0 = some (l, n) := by
    rcases hl 0 with ⟨x, _⟩ | ⟨t, m, h1, h2, _⟩
    · rw [x] at hu; cases hu
    · exact ⟨_, m, h2⟩
  have hrep : Rep w.mem none _ := hh.base.rep 0 _ hu
  obtain ⟨q1, q2, q3, q4, _, r1, r2, r3, r4, _⟩ := hrep
  refine ⟨w, sw, p, _, _, l, n, h, hh.live hu, .here p, q1, by rw [q3]; simp [T.root], by rw [q4]; simp [T.root],
    fun m hm => ?_, hsw⟩
  rw [q4] at hm
  cases hm with
  | here => rw [r3]; simp [T.root]
  | next hm => rw [r4] at hm; cases hm

/-! ## C42: iteration -/

/-- **C42 for binary search trees.**  In every reachable state, iterating from `begin()` to `end()`
over a non-empty tree visits every element exactly once in ascending order and changes nothing.
Missing for C42: the empty tree, see `bst_iteration_empty_faults`. -/
theorem bst_iteration_partial (hw : StrictWeak lt) {w : World α} {sw : SWorld α} (h : Reach lt w sw) {k n : Nat}
    {l : List α} (hk : sw k = some (l, n)) (hn : l ≠ []) :
    Returns (on k (elements .ino)) w l w ∧ l.Pairwise (fun a b => lt a b = true) :=
  have := ((h.holds hw).shows hw k).2 l n hk
  ⟨this.2.2.2.1 hn, this.1⟩

/-- **C42, failing case.**  `begin()` of an empty tree dereferences a null pointer. -/
theorem bst_iteration_empty_faults (hw : StrictWeak lt) {w : World α} {sw : SWorld α} (h : Reach lt w sw) {k n : Nat}
    (hk : sw k = some ([], n)) :
    Faults (on k (begin_ .ino)) w .nullDeref ∧ Faults (on k (elements .ino)) w .nullDeref := by
  obtain ⟨g, c, h, hg⟩ := h.holds hw
  obtain ⟨t, ht, e, _⟩ := hg.get hk
  have e := vals_eq_nil.1 e
  subst e
  exact ⟨on_faults (h.live ht) (begin_null rfl (by simp)),
    on_faults (h.live ht) (bind_faults (bind_faults (begin_null rfl (by simp))))⟩

example : ∃ (w : World Nat) (sw : SWorld Nat) (l : List Nat) (n : Nat), Reach natLt w sw ∧ sw 0 = some (l, n) ∧ l ≠ [] := by
  obtain ⟨w, sw, h, h0, _⟩ := exReach
  exact ⟨w, sw, _, _, h, h0, by simp⟩

example : ∃ (w : World Nat) (sw : SWorld Nat), Reach natLt w sw ∧ sw 0 = some ([], 0) := by
  obtain ⟨w, _, h, _⟩ := bst_history_partial natLt_strictWeak [.new 0] .init
    (by rfl : specRun natLt _ (fun _ => none) = some _) ⟨trivial, fun _ _ => trivial⟩
  exact ⟨w, _, h, rfl⟩

/-! ## C43: memory -/

/-- Every program: a statement whose objects are alive either returns or dereferences a null
pointer; it never touches a released node, releases one twice, or runs forever. -/
theorem bst_outcomes (hirr : ∀ a, lt a a = false) {w : World α} (h : Ran lt w) (op : Op α) (ha : Alive op w) :
    (∃ out w', Returns (step lt op) w out w' ∧ Ran lt w') ∨ Faults (step lt op) w .nullDeref := by
  rcases step_any (lt := lt) hirr (h.holds hirr) ha with ⟨y, w', h1, _⟩ | h1
  · exact Or.inl ⟨y, w', h1, h.step ha h1⟩
  · exact Or.inr h1

/-- **C43 for binary search trees.**  In every state any program reaches, also after defective
removals have left trees unordered: a node is allocated exactly if it belongs to one live object,
parent links mirror child links, and `size()` of each object is at least the number of its nodes
(greater after surplus pushes).  `clear()` and destruction run without fault and release all nodes
of the object and no other; when no object is alive, no node is allocated. -/
theorem bst_memory (hirr : ∀ a, lt a a = false) {w : World α} (h : Ran lt w) :
    MemoryOk w ∧
    (∀ k r c, w.obj k = some (r, c) → Returns (on k getSize) w c w ∧ ∃ n ≤ c, Counts w.mem r n) ∧
    (∀ k r c, w.obj k = some (r, c) → ∃ w1 w2, Returns (on k Tree.clear) w () w1 ∧ Returns (dropObj k) w () w2 ∧
      Ran lt w1 ∧ Ran lt w2 ∧ w1.obj k = some (none, 0) ∧ w2.obj k = none ∧
      ∀ n, (Allocated w1.mem n ↔ Allocated w.mem n ∧ ¬ Below w.mem r n) ∧
        (Allocated w2.mem n ↔ Allocated w.mem n ∧ ¬ Below w.mem r n)) ∧
    ((∀ k, w.obj k = none) → ∀ n, ¬ Allocated w.mem n) := by
  obtain ⟨g, c, hh, hc⟩ := h.holds hirr
  refine ⟨hh.memory, fun k r m hk => ⟨on_observes hk rfl, ?_⟩, fun k r m hk => ?_, fun hn n ha => ?_⟩
  · obtain ⟨t, ht⟩ := get_tree hh (k := k) (by rw [hk]; simp)
    rw [hh.live ht] at hk
    cases hk
    exact ⟨t.count, hc k t ht, hh.base.counts (k := k) (by simp [ht])⟩
  · obtain ⟨t, ht⟩ := get_tree hh (k := k) (by rw [hk]; simp)
    have hk' := hk
    rw [hh.live ht] at hk
    cases hk
    obtain ⟨w1, h1, h2⟩ := hh.clear ht trivial
    obtain ⟨w2, h3, h4⟩ := hh.drop ht trivial
    have hrep : Rep w.mem none t := hh.base.rep k t ht
    have al : ∀ n, Allocated w.mem n ↔ ∃ k t, g k = some t ∧ n ∈ t.ptrs := fun n => hh.base.allocated
    have al1 : ∀ n, Allocated w1.mem n ↔ ∃ j u, upd g k (some .nil) j = some u ∧ n ∈ u.ptrs := fun n => h2.base.allocated
    have al2 : ∀ n, Allocated w2.mem n ↔ ∃ j u, upd g k none j = some u ∧ n ∈ u.ptrs := fun n => h4.base.allocated
    refine ⟨w1, w2, h1, h3, h.step (op := .clear k) (by show w.obj k ≠ none; rw [hk']; simp) (step_none h1),
      h.step (op := .drop k) (by show w.obj k ≠ none; rw [hk']; simp) (step_none h3), ?_, ?_, fun n => ⟨?_, ?_⟩⟩
    · have := h2.live (k := k) (upd_self _ _ _)
      rw [upd_self] at this
      exact this
    · rw [h4.obj k]; simp only [upd_self, Option.map_none]
    · rw [al1, al, below_root hrep]
      exact upd_owned hh.base ht (by rintro u e; cases e; simp [T.ptrs])
    · rw [al2, al, below_root hrep]
      exact upd_owned hh.base ht (by rintro u e; cases e)
  · obtain ⟨k, t, hk, _⟩ := hh.base.allocated.1 ha
    have := hn k
    rw [hh.live hk] at this
    cases this

theorem Reach.ran (hw : StrictWeak lt) {w : World α} {sw : SWorld α} (h : Reach lt w sw) : Ran lt w := by
  induction h with
  | init => exact .init
  | @step op w w' sw sw' out hr hs _ h1 ih =>
    refine ih.step ?_ h1
    obtain ⟨g, c, hh, hl⟩ := hr.holds hw
    have alive : ∀ {k o}, sw k = some o → w.obj k ≠ none := by
      intro k o hk
      obtain ⟨t, ht, _⟩ := hl.get hk
      rw [hh.live ht]; simp
    have dead : ∀ {k}, sw k = none → w.obj k = none := by
      intro k hk
      rw [hh.obj k, hl.none hk]; rfl
    cases op <;> simp only [specStep, Option.isNone_iff_eq_none, Option.bind_eq_some_iff] at hs
    case new | newFrom =>
      split at hs
      · rename_i hk; exact dead hk
      · cases hs
    case push | pop | erase | clear | drop =>
      obtain ⟨o, hk, _⟩ := hs
      exact alive hk
    case pushAt | popAt | move =>
      obtain ⟨o, hk, o', hj, _⟩ := hs
      exact ⟨alive hk, alive hj⟩
    case moveNew =>
      split at hs
      · rename_i hk
        obtain ⟨o, hj, _⟩ := Option.bind_eq_some_iff.1 hs
        exact ⟨dead hk, alive hj⟩
      · cases hs

/-- For example every state reached by uses that are not defective. -/
example : ∃ (w : World Nat) (k : Nat) (r : Ptr) (c : Nat), Ran natLt w ∧ w.obj k = some (r, c) ∧ c = 6 := by
  obtain ⟨w, sw, h, h0, _⟩ := exReach
  obtain ⟨g, c, hh, hg⟩ := h.holds natLt_strictWeak
  obtain ⟨t, ht, hv, hc⟩ := hg.get h0
  refine ⟨w, 0, _, _, h.ran natLt_strictWeak, hh.live ht, ?_⟩
  rw [hc, ← vals_length, hv]; rfl

/-! ## C64: moving -/

/-- **C64.**  In every state any program reaches, moving from one tree to another runs without
fault.  Afterwards the target shows what the source showed — size, elements in order, what is
found —, the source is an empty tree, and the nodes of the target's former elements and only these
have been released.  Moving a tree to itself changes nothing. -/
theorem bst_move (hirr : ∀ a, lt a a = false) {w : World α} (h : Ran lt w) {d s : Nat}
    (hd : w.obj d ≠ none) (hs : w.obj s ≠ none) :
    (d = s → Returns (moveObj d s) w () w) ∧
    (d ≠ s → ∃ w', Returns (moveObj d s) w () w' ∧ Ran lt w' ∧
      (∀ n, Returns (on s getSize) w n w → Returns (on d getSize) w' n w') ∧
      (∀ l, Returns (on s (elements .ino)) w l w → Returns (on d (elements .ino)) w' l w') ∧
      (∀ x o, Returns (on s (do let it ← find lt x; readIt it)) w o w →
        Returns (on d (do let it ← find lt x; readIt it)) w' o w') ∧
      w'.obj s = some (none, 0) ∧
      (∀ k, k ≠ d → k ≠ s → w'.obj k = w.obj k) ∧
      ∀ r c, w.obj d = some (r, c) → ∀ n, Allocated w'.mem n ↔ Allocated w.mem n ∧ ¬ Below w.mem r n) := by
  constructor
  · intro e
    unfold moveObj
    rw [if_pos e]; rfl
  · intro e
    obtain ⟨g, c, hh, hc⟩ := h.holds hirr
    obtain ⟨td, htd⟩ := get_tree hh hd
    obtain ⟨ts, hts⟩ := get_tree hh hs
    have es : s ≠ d := fun x => e x.symm
    obtain ⟨w1, k1, k2⟩ := hh.clear htd trivial
    have h2' : upd g d (some .nil) s = some ts := by rw [upd_ne _ _ es]; exact hts
    have k3 := k2.take e (upd_self _ _ _) (upd_self _ _ _) h2'
    have ec : upd c d 0 s = c s := upd_ne _ _ es
    rw [ec] at k3
    have hmove : Returns (moveObj d s) w () { w1 with obj := upd (upd w1.obj d (some (ts.root, c s))) s (some (none, 0)) } := by
      unfold moveObj
      rw [if_neg e]
      unfold Returns
      rw [bind_returns k1]
      have := takeObj_ok (d := d) (k2.live h2')
      rw [ec] at this
      exact this
    have hgd : upd (upd (upd g d (some .nil)) d (some ts)) s (some .nil) d = some ts := by rw [upd_ne _ _ e, upd_self]
    have hcd : upd (upd (upd c d 0) d (c s)) s 0 d = c s := by rw [upd_ne _ _ e, upd_self]
    have hlive := k3.live hgd
    have hload := k3.load hgd
    rw [hcd] at hlive hload
    refine ⟨_, hmove, h.step (op := .move d s) ⟨hd, hs⟩ (step_none hmove), fun n hn => ?_, fun l hl => ?_, fun x o ho => ?_,
      upd_self _ _ _, fun k hkd hks => ?_, fun r c' hr n => ?_⟩
    · have : Returns (on s getSize) w (c s) w := on_observes (hh.live hts) rfl
      obtain ⟨rfl, _⟩ := this.det hn
      exact on_observes hlive rfl
    · by_cases hn : ts = .nil
      · subst hn
        have : Faults (on s (elements .ino)) w .nullDeref :=
          on_faults (hh.live hts) (bind_faults (bind_faults (begin_null rfl (by simp))))
        exact absurd (this.symm.trans hl) (by simp)
      · have := on_observes (hh.live hts) (elements_ok (hh.load hts) hn)
        obtain ⟨rfl, _⟩ := this.det hl
        exact on_observes hlive (elements_ok hload hn)
    · have key : ∀ (s : St α), IsTree s ts → Returns (do let it ← find lt x; readIt it) s
          ((fFind lt x ts).bind fun z => (ts.inorder.find? fun a => a.1 == z).map (·.2)) s := by
        intro s hts
        unfold Returns
        rw [bind_returns (find_ok hts x)]
        cases hf : fFind lt x ts with
        | none => rfl
        | some z =>
          obtain ⟨v, m1, _⟩ := find_some hf
          have : ∃ v', ts.inorder.find? (fun a => a.1 == z) = some (z, v') := by
            cases hq : ts.inorder.find? (fun a => a.1 == z) with
            | none =>
              rw [List.find?_eq_none] at hq
              exact absurd (hq _ m1) (by simp)
            | some a =>
              have := List.find?_some hq
              simp only [beq_iff_eq] at this
              exact ⟨a.2, by rw [← this]⟩
          obtain ⟨v', hv'⟩ := this
          simp only [Option.bind_some, hv', Option.map_some]
          exact readIt_some (dat_item hts.rep (List.mem_of_find?_eq_some hv'))
      have := on_observes (hh.live hts) (key _ (hh.load hts))
      obtain ⟨rfl, _⟩ := this.det ho
      exact on_observes hlive (key _ hload)
    · rw [k3.obj k, hh.obj k]
      simp only [upd_ne _ _ hks, upd_ne _ _ hkd]
    · rw [hh.live htd] at hr
      cases hr
      have hrep : Rep w.mem none td := hh.base.rep d td htd
      have al : Allocated w.mem n ↔ ∃ k t, g k = some t ∧ n ∈ t.ptrs := hh.base.allocated
      have al1 : Allocated w1.mem n ↔ ∃ j u, upd g d (some .nil) j = some u ∧ n ∈ u.ptrs := k2.base.allocated
      show Allocated w1.mem n ↔ _
      rw [al1, al, below_root hrep]
      exact upd_owned hh.base htd (by rintro u e; cases e; simp [T.ptrs])

/-- What is observed of one object does not change when another one comes into being. -/
private theorem on_beside {w : World α} {d s : Nat} (hds : s ≠ d) {o : Option (Ptr × Nat)} {p : Prog (St α) β} {a : β}
    (h : Returns (on s p) w a w) : Returns (on s p) { w with obj := upd w.obj d o } a { w with obj := upd w.obj d o } := by
  unfold Returns on at h ⊢
  simp only [upd_ne _ _ hds]
  cases ho : w.obj s with
  | none => rw [ho] at h; cases h
  | some q =>
    simp only [ho] at h ⊢
    show (match p (w.load q) with
      | none => none
      | some (.error e) => some (Except.error e)
      | some (.ok (a, t)) => some (Except.ok (a, World.store { w with obj := upd w.obj d o } s t))) = _
    cases hp : p (w.load q) with
    | none => rw [hp] at h; cases h
    | some r =>
      cases r with
      | error e => rw [hp] at h; cases h
      | ok r =>
        rw [hp] at h
        simp only [Option.some.injEq, Except.ok.injEq, Prod.mk.injEq] at h ⊢
        refine ⟨h.1, ?_⟩
        have hm := congrArg World.mem h.2
        have hq := congrArg World.obj h.2
        show World.mk _ _ = World.mk _ _
        rw [show ({ r.2 with root := w.mem.root, size := w.mem.size } : St α) = w.mem from hm]
        congr 1
        have hs := congrFun hq s
        simp only [World.store, upd_self] at hs
        funext x
        by_cases e : x = s
        · rw [e, upd_self, upd_ne _ _ hds]; exact hs
        · rw [upd_ne _ _ e]

/-- **C64** (move construction).  In every state any program reaches, a new tree constructed by moving
from another one shows what the source showed, the source is an empty tree afterwards, the other trees
keep their members, and no node is allocated or released. -/
theorem bst_move_new (hirr : ∀ a, lt a a = false) {w : World α} (h : Ran lt w) {d s : Nat}
    (hd : w.obj d = none) (hs : w.obj s ≠ none) :
    ∃ w', Returns (step lt (.moveNew d s)) w none w' ∧ Ran lt w' ∧
      (∀ n, Returns (on s getSize) w n w → Returns (on d getSize) w' n w') ∧
      (∀ l, Returns (on s (elements .ino)) w l w → Returns (on d (elements .ino)) w' l w') ∧
      (∀ x o, Returns (on s (do let it ← find lt x; readIt it)) w o w →
        Returns (on d (do let it ← find lt x; readIt it)) w' o w') ∧
      w'.obj s = some (none, 0) ∧
      (∀ k, k ≠ d → k ≠ s → w'.obj k = w.obj k) ∧
      ∀ n, Allocated w'.mem n ↔ Allocated w.mem n := by
  have hds : s ≠ d := by rintro rfl; exact hs hd
  have hnew : Returns (newObj d) w () { w with obj := upd w.obj d (some (none, 0)) } := rfl
  have h1 : Ran lt { w with obj := upd w.obj d (some (none, 0)) } := h.step (op := .new d) hd (step_none hnew)
  obtain ⟨w', m1, m2, m3, m4, m5, m6, m7, m8⟩ := (bst_move hirr h1 (d := d) (s := s) (by simp [upd_self])
    (by simpa only [upd_ne _ _ hds] using hs)).2 (fun e => hds e.symm)
  have hrun : Returns (step lt (.moveNew d s)) w none w' := by
    show (do newObj d; moveObj d s; pure none : Prog (World α) (Option α)) w = _
    rw [bind_returns hnew]
    exact step_none m1
  refine ⟨w', hrun, h.step (op := .moveNew d s) ⟨hd, hs⟩ hrun, fun n hn => m3 n (on_beside hds hn),
    fun l hl => m4 l (on_beside hds hl), fun x o ho => m5 x o (on_beside hds ho), m6, fun k k1 k2 => ?_, fun n => ?_⟩
  · rw [m7 k k1 k2]; exact upd_ne _ _ k1
  · rw [m8 none 0 (upd_self _ _ _) n]
    constructor
    · exact fun x => x.1
    · refine fun x => ⟨x, fun hb => ?_⟩
      cases hb

example : ∃ (w : World Nat) (l : List Nat), Ran natLt w ∧ w.obj 0 ≠ none ∧ w.obj 1 ≠ none ∧
    Returns (on 0 (elements .ino)) w l w ∧ l = [2, 5, 7, 8, 9] := by
  obtain ⟨w, sw, h, h0, h1, _⟩ := exReach
  obtain ⟨g, c, hh, hl⟩ := h.holds natLt_strictWeak
  obtain ⟨t, ht, _⟩ := hl.get h0
  obtain ⟨t1, ht1, _⟩ := hl.get h1
  exact ⟨w, _, h.ran natLt_strictWeak, by rw [hh.live ht]; simp, by rw [hh.live ht1]; simp,
    (bst_iteration_partial natLt_strictWeak h h0 (by simp)).1, rfl⟩

end Verif.BST
