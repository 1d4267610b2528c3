import Verif.AVLCopies

/-!
# Properties of `AVLTree` (C37–C44)

All of them are about the states a program reaches by statements that meet their preconditions
and are not one of the defective uses named in `Safe`; the defective uses have their own theorems.
-/

namespace Verif.AVL

open Prog Verif.Tree

variable {α : Type} {lt : α → α → Bool}

/-! ## Programs run -/

/-- A statement that meets its precondition and is not a defective use runs without fault, has
the specified result and leads to a state that shows what the program means. -/
theorem avl_runs_partial (hw : StrictWeak lt) {w : World α} {sw sw' : SWorld α} (h : Reach lt w sw) (op : Op α)
    (hs : specStep lt op sw = some sw') (hsafe : Safe lt op w sw) :
    ∃ w', Returns (step lt op) w (specOut lt op sw) w' ∧ Reach lt w' sw' ∧ Shows lt w' sw' := by
  obtain ⟨w', h1, h2⟩ := step_ok hw (h.holds hw) hs hsafe
  exact ⟨w', h1, h.step hs hsafe h1, h2.shows hw⟩

/-- A tree of three or more elements has a root with two children, so erasing is safe in it. -/
theorem rootSafe_of_three (hw : StrictWeak lt) {w : World α} {sw : SWorld α} (h : Reach lt w sw) {k : Nat} {l : List α}
    (hk : sw k = some l) (hl : 3 ≤ l.length) (x : α) : RootSafe lt w k x := by
  obtain ⟨g, h, hg⟩ := h.holds hw
  obtain ⟨t, ht, rfl⟩ := HoldsSet.get hg hk
  intro r n d ho _ _
  obtain ⟨t', ht', hr, _⟩ := h.get ho
  rw [ht] at ht'; cases ht'
  have hrep := h.rep k t ht
  have hv := (h.good k t ht).1
  have leaf : ∀ {u : Tr α}, Avl u → AVL.ht u ≤ 1 → (vals u).length ≤ 1 := by
    intro u hu h1
    cases u with
    | nil => simp [vals, T.inorder]
    | node a q e b =>
      obtain ⟨u1, u2, u3, _⟩ := hu
      have := ht_nonneg u1
      have := ht_nonneg u2
      simp only [ht_node] at h1
      have ha : a = .nil := by
        cases a with
        | nil => rfl
        | node a1 q1 e1 b1 => have := ht_pos u1; simp only [ht_node] at u3; omega
      have hb : b = .nil := by
        cases b with
        | nil => rfl
        | node a1 q1 e1 b1 => have := ht_pos u2; simp only [ht_node] at u3; omega
      subst ha hb
      simp [vals, T.inorder]
  cases t with
  | nil => simp [vals, T.inorder] at hl
  | node a q e b =>
    simp only [T.root, Option.some.injEq] at hr
    subst hr
    obtain ⟨r1, r2, r3, r4, _⟩ := hrep
    obtain ⟨u1, u2, u3, u4, u5⟩ := hv
    rw [vals_node] at hl
    simp only [List.length_append, List.length_cons] at hl
    rw [r3, r4, Ne, Ne, T.root_none, T.root_none]
    constructor
    · rintro rfl
      have := leaf u2 (by simp only [ht_nil] at u5; omega)
      simp [vals, T.inorder] at hl this; omega
    · rintro rfl
      have := leaf u1 (by simp only [ht_nil] at u4; omega)
      simp [vals, T.inorder] at hl this; omega

theorem SafeIn.safe (hw : StrictWeak lt) {w : World α} {sw sw' : SWorld α} (h : Reach lt w sw) {op : Op α}
    (hs : specStep lt op sw = some sw') (hsafe : SafeIn lt op sw) : Safe lt op w sw := by
  cases op with
  | erase k x =>
    simp only [specStep, Option.bind_eq_some_iff] at hs
    obtain ⟨l, hk, _⟩ := hs
    rcases hsafe l hk with hl | hx
    · exact rootSafe_of_three hw h hk hl x
    · intro r n d ho hd hx'
      obtain ⟨g, h, hg⟩ := h.holds hw
      obtain ⟨t, ht, rfl⟩ := HoldsSet.get hg hk
      obtain ⟨t', ht', hr, _⟩ := h.get ho
      rw [ht] at ht'; cases ht'
      cases t with
      | nil => cases hr
      | node a q e b =>
        simp only [T.root, Option.some.injEq] at hr
        subst hr
        have := (h.rep k _ ht).1
        rw [this] at hd; cases hd
        rw [List.any_eq_false] at hx
        exact absurd hx' (hx d.val (by simp [vals_node]))
  | _ => exact hsafe

/-- A whole program: one that meets the preconditions and contains no defective use runs without
fault to a state that shows what it means. -/
theorem avl_history_partial (hw : StrictWeak lt) (ops : List (Op α)) {w : World α} {sw sw' : SWorld α}
    (h : Reach lt w sw) (hs : specRun lt ops sw = some sw') (hsafe : SafeAll lt ops sw) :
    ∃ w', Returns (run lt ops) w () w' ∧ Reach lt w' sw' ∧ Shows lt w' sw' := by
  induction ops generalizing w sw with
  | nil =>
    cases hs
    exact ⟨w, rfl, h, (h.holds hw).shows hw⟩
  | cons op ops ih =>
    simp only [specRun, Option.bind_eq_some_iff] at hs
    obtain ⟨sw1, h1, h2⟩ := hs
    obtain ⟨w1, r1, r2, _⟩ := avl_runs_partial hw h op h1 (hsafe.1.safe hw h h1)
    obtain ⟨w2, r3, r4⟩ := ih r2 h2 (hsafe.2 _ h1)
    refine ⟨w2, ?_, r4⟩
    unfold Returns
    show (step lt op >>= fun _ => run lt ops) w = _
    rw [bind_returns r1]; exact r3

/-! The examples below use the order of the natural numbers and this program. -/

def natLt (a b : Nat) : Bool := decide (a < b)

theorem natLt_strictWeak : StrictWeak natLt := by
  constructor <;> simp only [natLt, decide_eq_true_eq, decide_eq_false_iff_not] <;> omega

def exOps : List (Op Nat) :=
  [.new 0, .push 0 5, .push 0 2, .push 0 8, .push 0 1, .push 0 9, .push 0 7, .pop 0 2, .erase 0 8,
    .new 1, .push 1 3, .popAt 1 1 3, .pop 1 4, .push 1 6, .push 1 4]

theorem exOps_meaning : ∃ sw, specRun natLt exOps (fun _ => none) = some sw ∧ sw 0 = some [1, 5, 7, 9] ∧
    sw 1 = some [4, 6] ∧ SafeAll natLt exOps (fun _ => none) := by
  refine ⟨_, rfl, rfl, rfl, ?_⟩
  repeat' first
    | (refine ⟨?_, fun w' e => ?_⟩; rotate_left; have e : some _ = some w' := e; cases e)
    | trivial
    | (intro l hl; have hl : some _ = some l := hl; cases hl; decide)

/-- A reachable state with two objects. -/
theorem exReach : ∃ (w : World Nat) (sw : SWorld Nat), Reach natLt w sw ∧ sw 0 = some [1, 5, 7, 9] ∧ sw 1 = some [4, 6] := by
  obtain ⟨sw, h1, h2, h3, h4⟩ := exOps_meaning
  obtain ⟨w, _, h5, _⟩ := avl_history_partial natLt_strictWeak exOps .init h1 h4
  exact ⟨w, sw, h5, h2, h3⟩

theorem unit_of_step {p : Prog (World α) Unit} {w w' : World α} {o : Option α}
    (h : Returns (do p; pure (none : Option α)) w o w') : Returns p w () w' := by
  obtain ⟨_, w1, h1, h2⟩ := (wp_bind p (fun _ => pure (none : Option α)) (fun _ s => s = w') w).1 ⟨_, _, h, rfl⟩
  rw [wp_pure] at h2
  exact h2 ▸ h1

/-! ## C37: push -/

theorem not_any {l : List α} {x : α} : (∀ v ∈ l, ¬ Equiv lt x v) ↔ l.any (same lt x) = false := by
  rw [List.any_eq_false]
  exact ⟨fun h v hv e => h v hv (same_iff.1 e), fun h v hv e => h v hv (same_iff.2 e)⟩

theorem mem_with (hw : StrictWeak lt) {l : List α} {x : α} (h : ∀ v ∈ l, ¬ Equiv lt x v) :
    ∀ v, v ∈ with_ lt l x ↔ v = x ∨ v ∈ l := by
  intro v
  simp only [with_, List.mem_append, List.mem_filter, List.mem_cons]
  constructor
  · rintro (⟨a, _⟩ | rfl | ⟨a, _⟩)
    · exact Or.inr a
    · exact Or.inl rfl
    · exact Or.inr a
  · rintro (rfl | hv)
    · exact Or.inr (Or.inl rfl)
    · cases c : lt v x with
      | true => exact Or.inl ⟨hv, rfl⟩
      | false =>
        cases c' : lt x v with
        | true => exact Or.inr (Or.inr ⟨hv, rfl⟩)
        | false => exact absurd ⟨c', c⟩ (h v hv)

theorem length_with (hw : StrictWeak lt) {l : List α} {x : α} (h : ∀ v ∈ l, ¬ Equiv lt x v) :
    (with_ lt l x).length = l.length + 1 := by
  induction l with
  | nil => rfl
  | cons a l ih =>
    have ih := ih fun v hv => h v (List.mem_cons_of_mem _ hv)
    have ha := h a (List.mem_cons_self ..)
    simp only [with_, List.length_append, List.length_cons, List.filter_cons] at ih ⊢
    cases c : lt a x with
    | true => rw [hw.asymm c]; simp only [if_true, List.length_cons]; simp; omega
    | false =>
      cases c' : lt x a with
      | true => simp; omega
      | false => exact absurd ⟨c', c⟩ ha

/-- **C37.**  `push(x)` of an element not yet present adds it and nothing else, in every reachable
state; `size`, `empty`, iteration and `find` then show the larger set.  `push` of an element that
is present stops at the assertion, and the assertion is reached before anything is changed: it
fails whenever `stop`, put in its place, fails in the state `push` started in. -/
theorem avl_push_partial (hw : StrictWeak lt) {w : World α} {sw : SWorld α} (h : Reach lt w sw) {k : Nat} {l : List α}
    (hk : sw k = some l) (x : α) :
    ((∀ v ∈ l, ¬ Equiv lt x v) → ∃ w' l', Returns (on k (push lt x)) w () w' ∧
      (∀ v, v ∈ l' ↔ v = x ∨ v ∈ l) ∧ l'.length = l.length + 1 ∧
      Reach lt w' (sw.put k (some l')) ∧ Shows lt w' (sw.put k (some l'))) ∧
    ((∃ v ∈ l, Equiv lt x v) → Faults (on k (push lt x)) w .assert ∧
      ∀ stop e, (∀ o, w.obj k = some o → Faults stop (w.load o) e) → Faults (on k (pushOr lt stop x)) w e) := by
  constructor
  · intro hx
    have hs : specStep lt (.push k x) sw = some (sw.put k (some (with_ lt l x))) := by
      simp only [specStep, hk, Option.bind_some, not_any.1 hx]; rfl
    obtain ⟨w', h1, h2, h3⟩ := avl_runs_partial hw h _ hs trivial
    refine ⟨w', _, ?_, mem_with hw hx, length_with hw hx, h2, h3⟩
    exact unit_of_step h1
  · rintro ⟨v, hv, he⟩
    obtain ⟨g, h, hg⟩ := h.holds hw
    obtain ⟨t, ht, rfl⟩ := HoldsSet.get hg hk
    have hf : (fFind lt x t).isSome := by
      rw [← any_find hw (h.good k t ht).2, List.any_eq_true]
      exact ⟨v, hv, same_iff.2 he⟩
    obtain ⟨z, hz⟩ := Option.isSome_iff_exists.1 hf
    exact ⟨on_faults (h.obj k t ht) (push_dup (h.load ht) hz),
      fun stop e hs => on_faults (h.obj k t ht) (pushOr_dup (h.load ht) hz (hs _ (h.obj k t ht)))⟩

example : ∃ (w : World Nat) (sw : SWorld Nat) (l : List Nat), Reach natLt w sw ∧ sw 0 = some l ∧
    (∀ v ∈ l, ¬ Equiv natLt 6 v) ∧ ∃ v ∈ l, Equiv natLt 7 v := by
  obtain ⟨w, sw, h, h0, _⟩ := exReach
  exact ⟨w, sw, _, h, h0, not_any.2 (by decide), 7, by decide, by simp [Equiv, natLt]⟩

/-! ## C38: balance -/

theorem avl_balanced_of {t : Tr α} (h : Avl t) : Balanced t := by
  induction t with
  | nil => trivial
  | node l p d r ihl ihr =>
    obtain ⟨h1, h2, _, h4, h5⟩ := h
    rw [ht_height h1, ht_height h2] at h4 h5
    exact ⟨by omega, by omega, ihl h1, ihr h2⟩

theorem fib_mono (n : Nat) : fib (n + 1) ≤ fib (n + 2) := by
  simp only [fib]; omega

theorem fib_le {a b : Nat} (h : a ≤ b) : fib (a + 1) ≤ fib (b + 1) := by
  induction h with
  | refl => exact Nat.le_refl _
  | step _ ih => exact Nat.le_trans ih (fib_mono _)

theorem fib_count {δ : Type} {t : T δ} (h : Balanced t) : fib (t.height + 2) ≤ t.count + 1 := by
  induction t with
  | nil => exact Nat.le_refl 1
  | node l p d r ihl ihr =>
    obtain ⟨h1, h2, h3, h4⟩ := h
    have ihl := ihl h3
    have ihr := ihr h4
    simp only [T.height, T.count]
    show fib (max l.height r.height + 1) + fib (max l.height r.height + 2) ≤ _
    rcases Nat.le_total l.height r.height with hle | hle
    · rw [Nat.max_eq_right hle]
      have : fib (r.height + 1) ≤ fib (l.height + 2) := fib_le (b := l.height + 1) (by omega)
      omega
    · rw [Nat.max_eq_left hle]
      have : fib (l.height + 1) ≤ fib (r.height + 2) := fib_le (b := r.height + 1) (by omega)
      omega

/-- **C38.**  In every reachable state every object is a tree in memory, with the elements the
program means, in which the heights of the subtrees of each node differ by at most one;
`height()` is its height, and its size is at least `fib (height + 2) - 1`. -/
theorem avl_balance_partial (hw : StrictWeak lt) {w : World α} {sw : SWorld α} (h : Reach lt w sw) {k : Nat} {l : List α}
    (hk : sw k = some l) :
    ∃ o t, w.obj k = some o ∧ IsTree (w.load o) t ∧ t.inorder.map (fun a => a.2.val) = l ∧ Balanced t ∧
      Returns (on k height) w (t.height : Int) w ∧ fib (t.height + 2) ≤ l.length + 1 := by
  obtain ⟨g, h, hg⟩ := h.holds hw
  obtain ⟨t, ht, rfl⟩ := HoldsSet.get hg hk
  have hb := avl_balanced_of (h.good k t ht).1
  refine ⟨_, t, h.obj k t ht, h.load ht, rfl, hb, on_observes (h.obj k t ht) (AVL.height_ok (h.load ht) (h.good k t ht).1), ?_⟩
  have := fib_count hb
  rwa [show (vals t).length = t.count from by rw [vals_eq, List.length_map, ← count_items]]

/-- The height is logarithmic: a tree of height `2 h` has at least `2 ^ h - 1` elements. -/
theorem fib_exp (h : Nat) : 2 ^ h ≤ fib (2 * h + 2) := by
  induction h with
  | zero => decide
  | succ h ih =>
    have e : fib (2 * (h + 1) + 2) = fib (2 * h + 2) + (fib (2 * h + 1) + fib (2 * h + 2)) := rfl
    rw [e, Nat.pow_succ]; omega

/-! ## C39: pop -/

theorem mem_without {l : List α} {x : α} : ∀ v, v ∈ without lt l x ↔ v ∈ l ∧ ¬ Equiv lt x v := by
  intro v
  simp only [without, List.mem_filter, Bool.not_eq_true', ← Bool.not_eq_true, same_iff]

theorem length_without (hw : StrictWeak lt) {l : List α} {x : α} (ha : Ascending lt l) (h : ∃ v ∈ l, Equiv lt x v) :
    (without lt l x).length + 1 = l.length := by
  obtain ⟨v, hv, he⟩ := h
  obtain ⟨xs, ys, rfl⟩ := List.append_of_mem hv
  rw [(split_spec hw ha he).1]
  simp; omega

theorem any_iff {l : List α} {x : α} : (∃ v ∈ l, Equiv lt x v) ↔ l.any (same lt x) = true := by
  rw [List.any_eq_true]
  exact ⟨fun ⟨v, hv, e⟩ => ⟨v, hv, same_iff.2 e⟩, fun ⟨v, hv, e⟩ => ⟨v, hv, same_iff.1 e⟩⟩

/-- **C39.**  `pop(x)` of an element that is present removes it and nothing else, in every
reachable state, also when `x` is a reference to the element of this or another tree (`popAt`);
what is left is again a tree that shows the smaller set (order, size and, by
`avl_balance_partial`, balance).  On an empty tree `pop` does nothing.  Missing for C39: `pop` of
an absent element of a non-empty tree, see `avl_pop_absent_faults`. -/
theorem avl_pop_partial (hw : StrictWeak lt) {w : World α} {sw : SWorld α} (h : Reach lt w sw) {k : Nat} {l : List α}
    (hk : sw k = some l) (x : α) :
    ((∃ v ∈ l, Equiv lt x v) → ∃ l', (∀ v, v ∈ l' ↔ v ∈ l ∧ ¬ Equiv lt x v) ∧ l'.length + 1 = l.length ∧
      (∃ w', Returns (on k (pop lt (.val x))) w () w' ∧
        Reach lt w' (sw.put k (some l')) ∧ Shows lt w' (sw.put k (some l'))) ∧
      ∀ j l2, sw j = some l2 → (∃ v ∈ l2, Equiv lt x v) → ∃ w', Returns (step lt (.popAt k j x)) w none w' ∧
        Reach lt w' (sw.put k (some l')) ∧ Shows lt w' (sw.put k (some l'))) ∧
    (l = [] → Returns (on k (pop lt (.val x))) w () w) := by
  have ha : Ascending lt l := (((h.holds hw).shows hw k).2 l hk).1
  refine ⟨fun hx => ⟨without lt l x, mem_without, length_without hw ha hx, ?_, fun j l2 hj hx2 => ?_⟩, ?_⟩
  · have hs : specStep lt (.pop k x) sw = some (sw.put k (some (without lt l x))) := by
      simp only [specStep, hk, Option.bind_some]
    obtain ⟨w', h1, h2, h3⟩ := avl_runs_partial hw h _ hs
      (fun l' hl => Or.inr (by rw [hk] at hl; cases hl; exact any_iff.1 hx))
    exact ⟨w', unit_of_step h1, h2, h3⟩
  · have hs : specStep lt (.popAt k j x) sw = some (sw.put k (some (without lt l x))) := by
      simp only [specStep, hk, hj, Option.bind_some, any_iff.1 hx2, if_true]
    obtain ⟨w', h1, h2, h3⟩ := avl_runs_partial hw h _ hs
      (fun l' hl => Or.inr (by rw [hk] at hl; cases hl; exact any_iff.1 hx))
    exact ⟨w', h1, h2, h3⟩
  · rintro rfl
    obtain ⟨g, h, hg⟩ := h.holds hw
    obtain ⟨t, ht, e⟩ := HoldsSet.get hg hk
    rw [vals_eq_nil] at e
    subst e
    exact on_observes (h.obj k _ ht) (pop_empty rfl)

/-- **C39, failing case.**  `pop` of an absent element of a non-empty tree dereferences a null
pointer, in every reachable state. -/
theorem avl_pop_absent_faults (hw : StrictWeak lt) {w : World α} {sw : SWorld α} (h : Reach lt w sw) {k : Nat}
    {l : List α} (hk : sw k = some l) (hn : l ≠ []) (x : α) (hx : ∀ v ∈ l, ¬ Equiv lt x v) :
    Faults (on k (pop lt (.val x))) w .nullDeref := by
  obtain ⟨g, h, hg⟩ := h.holds hw
  obtain ⟨t, ht, rfl⟩ := HoldsSet.get hg hk
  refine on_faults (h.obj k t ht) (pop_absent (x := x) (h.load ht) ((find_none hw (h.good k t ht).2).2 hx) rfl ?_)
  intro e
  have : t.count = 0 := e
  rw [count_items, List.length_eq_zero_iff] at this
  exact hn (by rw [vals_eq, this]; rfl)

example : ∃ (w : World Nat) (sw : SWorld Nat) (l : List Nat), Reach natLt w sw ∧ sw 0 = some l ∧
    (∃ v ∈ l, Equiv natLt 7 v) ∧ l ≠ [] ∧ ∀ v ∈ l, ¬ Equiv natLt 6 v := by
  obtain ⟨w, sw, h, h0, _⟩ := exReach
  exact ⟨w, sw, _, h, h0, any_iff.2 (by decide), by simp, not_any.2 (by decide)⟩

/-! ## C40: find -/

/-- **C40.**  In every reachable state `find(x)` refers to the element equivalent to `x` if there
is one and is `end()` otherwise; it changes nothing. -/
theorem avl_find_partial (hw : StrictWeak lt) {w : World α} {sw : SWorld α} (h : Reach lt w sw) {k : Nat} {l : List α}
    (hk : sw k = some l) (x : α) :
    (∀ v ∈ l, Equiv lt x v → ∃ it, it ≠ none ∧ Returns (on k (find lt x)) w it w ∧ Returns (on k (deref it)) w v w) ∧
    ((∀ v ∈ l, ¬ Equiv lt x v) → Returns (on k (find lt x)) w none w) := by
  obtain ⟨g, h, hg⟩ := h.holds hw
  obtain ⟨t, ht, rfl⟩ := HoldsSet.get hg hk
  have ha := (h.good k t ht).2
  constructor
  · intro v hv he
    rw [vals_eq, List.mem_map] at hv
    obtain ⟨⟨z, v'⟩, hm, rfl⟩ := hv
    obtain ⟨d, d1, d2⟩ := dat_item (h.load ht).rep hm
    have hf := find_of_mem hw ha hm he
    refine ⟨some z, by simp, on_observes (h.obj k t ht) (hf ▸ find_ok (h.load ht) x), on_observes (h.obj k t ht) ?_⟩
    unfold deref Returns
    rw [bind_returns (getData_ok d1), d2]; rfl
  · intro hx
    exact on_observes (h.obj k t ht) ((find_none hw ha).2 hx ▸ find_ok (h.load ht) x)

example : ∃ (w : World Nat) (sw : SWorld Nat) (l : List Nat), Reach natLt w sw ∧ sw 0 = some l ∧
    (∃ v ∈ l, Equiv natLt 7 v) ∧ ∀ v ∈ l, ¬ Equiv natLt 6 v := by
  obtain ⟨w, sw, h, h0, _⟩ := exReach
  exact ⟨w, sw, _, h, h0, any_iff.2 (by decide), not_any.2 (by decide)⟩

/-! ## C41: erase -/

/-- **C41.**  In every reachable state, erasing the element `find(x)` refers to removes exactly
this element and returns an iterator to the next greater one (`end()` if there is none), provided
the element is not in a root with fewer than two children (in particular, for every element of a
tree of three or more elements); erasing `end()` does nothing.  Missing for C41: the root with
fewer than two children, see `avl_erase_root_faults` and `avl_erase_root_dangles`. -/
theorem avl_erase_partial (hw : StrictWeak lt) {w : World α} {sw : SWorld α} (h : Reach lt w sw) {k : Nat} {l : List α}
    (hk : sw k = some l) (x : α) (hx : ∃ v ∈ l, Equiv lt x v) (hsafe : 3 ≤ l.length ∨ RootSafe lt w k x) :
    ∃ w' l' next, Returns (step lt (.erase k x)) w next w' ∧ (∀ v, v ∈ l' ↔ v ∈ l ∧ ¬ Equiv lt x v) ∧
      l'.length + 1 = l.length ∧ Reach lt w' (sw.put k (some l')) ∧ Shows lt w' (sw.put k (some l')) ∧
      (∀ v, next = some v → v ∈ l ∧ lt x v = true ∧ ∀ u ∈ l, lt x u = true → lt u v = false) ∧
      (next = none → ∀ u ∈ l, lt x u = false) := by
  have ha : Ascending lt l := (((h.holds hw).shows hw k).2 l hk).1
  have hs : specStep lt (.erase k x) sw = some (sw.put k (some (without lt l x))) := by
    simp only [specStep, hk, Option.bind_some]
  obtain ⟨w', h1, h2, h3⟩ := avl_runs_partial hw h _ hs
    (hsafe.elim (fun hl => rootSafe_of_three hw h hk hl x) id)
  refine ⟨w', _, _, h1, mem_without, length_without hw ha hx, h2, h3, fun v hv => ?_, fun hn u hu => ?_⟩
  all_goals simp only [specOut, hk, Option.bind_some, any_iff.1 hx, if_true] at *
  · have ha' : Ascending lt (l.filter (lt x ·)) := ha.filter _
    have hm := List.mem_of_mem_head? (by rw [hv]; rfl : v ∈ (l.filter (lt x ·)).head?)
    refine ⟨(List.mem_filter.1 hm).1, (List.mem_filter.1 hm).2, fun u hu hxu => ?_⟩
    have hu' : u ∈ l.filter (lt x ·) := List.mem_filter.2 ⟨hu, hxu⟩
    cases hf : l.filter (lt x ·) with
    | nil => rw [hf] at hu'; cases hu'
    | cons b ys =>
      rw [hf] at hv hu' ha'
      simp only [List.head?_cons, Option.some.injEq] at hv
      subst hv
      rcases List.mem_cons.1 hu' with rfl | hu'
      · exact hw.irrefl _
      · exact hw.asymm ((List.pairwise_cons.1 ha').1 u hu')
  · rw [List.head?_eq_none_iff, List.filter_eq_nil_iff] at hn
    simpa using hn u hu

/-- `erase(end())` does nothing. -/
theorem avl_erase_end (hw : StrictWeak lt) {w : World α} {sw : SWorld α} (h : Reach lt w sw) {k : Nat} {l : List α}
    (hk : sw k = some l) : Returns (on k (erase lt none)) w none w := by
  obtain ⟨g, h, hg⟩ := h.holds hw
  obtain ⟨t, ht, rfl⟩ := HoldsSet.get hg hk
  exact on_observes (h.obj k t ht) (erase_end _)

example : ∃ (w : World Nat) (sw : SWorld Nat) (l : List Nat), Reach natLt w sw ∧ sw 0 = some l ∧
    (∃ v ∈ l, Equiv natLt 7 v) ∧ 3 ≤ l.length := by
  obtain ⟨w, sw, h, h0, _⟩ := exReach
  exact ⟨w, sw, _, h, h0, any_iff.2 (by decide), by decide⟩

/-- **C41, failing case.**  Erasing a root that has a right child but no left child uses a
released node, in every reachable state. -/
theorem avl_erase_root_faults (hw : StrictWeak lt) {w : World α} {sw : SWorld α} (h : Reach lt w sw) {k r n : Nat}
    {d : D α} (ho : w.obj k = some (some r, n)) (hd : w.mem.dat r = some (some d))
    (hl : w.mem.lft r = none) (hr : w.mem.rgt r ≠ none) (x : α) (hx : Equiv lt x d.val) :
    Faults (step lt (.erase k x)) w .useAfterFree := by
  obtain ⟨g, h, hg⟩ := h.holds hw
  obtain ⟨t, ht, hroot, rfl⟩ := h.get ho
  have hload := h.load ht
  rw [hroot] at ho
  refine on_faults ho ?_
  cases t with
  | nil => cases hroot
  | node a q e b =>
    simp only [T.root, Option.some.injEq] at hroot
    subst hroot
    obtain ⟨r1, r2, r3, r4, _⟩ := h.rep k _ ht
    rw [r1] at hd; cases hd
    rw [r3, T.root_none] at hl
    rw [r4, Ne, T.root_none] at hr
    subst hl
    unfold Faults
    have hf := find_ok (lt := lt) hload x
    rw [show fFind lt x (.node .nil r d b) = some r by simp [fFind, hx.1, hx.2]] at hf
    rw [bind_returns hf]
    exact bind_faults (erase_root_right hload hr)

/-- **C41, failing case.**  Erasing a root without a right child returns `end()` and leaves the
object with a root pointer to a released node: every later `find`, `clear`, `push` and
the destruction of the object use the released node. -/
theorem avl_erase_root_dangles (hw : StrictWeak lt) {w : World α} {sw : SWorld α} (h : Reach lt w sw) {k r n : Nat}
    {d : D α} (ho : w.obj k = some (some r, n)) (hd : w.mem.dat r = some (some d))
    (hr : w.mem.rgt r = none) (x : α) (hx : Equiv lt x d.val) :
    ∃ w', Returns (step lt (.erase k x)) w none w' ∧
      (∀ y, Faults (on k (find lt y)) w' .useAfterFree ∧ Faults (on k (push lt y)) w' .useAfterFree) ∧
      Faults (on k Tree.clear) w' .useAfterFree ∧ Faults (dropObj k) w' .useAfterFree := by
  obtain ⟨g, h, hg⟩ := h.holds hw
  obtain ⟨t, ht, hroot, rfl⟩ := h.get ho
  have hload := h.load ht
  have ho' := h.obj k t ht
  cases t with
  | nil => cases hroot
  | node a q e b =>
    simp only [T.root, Option.some.injEq] at hroot
    subst hroot
    obtain ⟨r1, r2, r3, r4, _⟩ := h.rep k _ ht
    rw [r1] at hd; cases hd
    rw [r4, T.root_none] at hr
    subst hr
    have hf := find_ok (lt := lt) hload x
    rw [show fFind lt x (.node a r d .nil) = some r by simp [fFind, hx.1, hx.2]] at hf
    obtain ⟨_, s', h1, rfl, h2, h3⟩ := erase_root_last (lt := lt) hload
    have hstep : Returns (step lt (.erase k x)) w none (World.store w k s') := by
      refine on_returns ho' ?_
      unfold Returns
      rw [bind_returns hf, bind_returns h1]
      exact readIt_none s'
    have hs' : (World.store w k s').obj k = some (some r, s'.size) := by
      simp [World.store, h2]
    have hd' : ((World.store w k s').load (some r, s'.size)).dat r = none := h3
    have hc : Faults (on k Tree.clear) (World.store w k s') .useAfterFree := on_faults hs' (clear_dangling rfl hd')
    refine ⟨_, hstep, fun y => ⟨on_faults hs' (find_dangling rfl hd' y), on_faults hs' ?_⟩, hc, bind_faults hc⟩
    unfold push pushOr Faults
    rw [bind_returns (show Returns getRoot ((World.store w k s').load (some r, s'.size)) (some r)
      ((World.store w k s').load (some r, s'.size)) from rfl)]
    refine bind_faults ?_
    unfold insert
    rw [if_neg (by simp)]
    exact bind_faults (getData_freed hd')

/-- After pushing one element. -/
theorem exOne : ∃ (w : World Nat) (sw : SWorld Nat) (g : Nat → Option (Tr Nat)) (q : Nat) (d : D Nat),
    Reach natLt w sw ∧ sw 0 = some [4] ∧ Tree.Holds (Good natLt) w g ∧ g 0 = some (.node .nil q d .nil) ∧ d.val = 4 := by
  obtain ⟨w, _, h, _⟩ := avl_history_partial natLt_strictWeak [.new 0, .push 0 4] .init
    (by rfl : specRun natLt _ (fun _ => none) = some _) ⟨trivial, fun w' e => ⟨trivial, fun _ _ => trivial⟩⟩
  obtain ⟨g, hh, hg⟩ := h.holds natLt_strictWeak
  obtain ⟨t, ht, e⟩ := HoldsSet.get hg (k := 0) (l := [4]) rfl
  cases t with
  | nil => cases e
  | node a q d b =>
    rw [vals_node] at e
    have e' : vals a = [] ∧ d.val = 4 ∧ vals b = [] := by
      cases ha : vals a with
      | nil => rw [ha] at e; simpa using e
      | cons c cs => rw [ha] at e; simp at e
    rw [vals_eq_nil.1 e'.1, vals_eq_nil.1 e'.2.2] at ht
    exact ⟨w, _, g, q, d, h, rfl, hh, ht, e'.2.1⟩

/-- Both cases are reachable: a single element, -/
example : ∃ (w : World Nat) (sw : SWorld Nat) (r n : Nat) (d : D Nat), Reach natLt w sw ∧ w.obj 0 = some (some r, n) ∧
    w.mem.dat r = some (some d) ∧ w.mem.rgt r = none ∧ Equiv natLt 4 d.val := by
  obtain ⟨w, sw, g, q, d, h, _, hh, ht, hd⟩ := exOne
  obtain ⟨r1, r2, r3, r4, _⟩ := hh.rep 0 _ ht
  exact ⟨w, sw, q, _, d, h, hh.obj 0 _ ht, r1, r4, by simp [Equiv, natLt, hd]⟩

/-- and two elements, the smaller one pushed first. -/
example : ∃ (w : World Nat) (sw : SWorld Nat) (r n : Nat) (d : D Nat), Reach natLt w sw ∧ w.obj 0 = some (some r, n) ∧
    w.mem.dat r = some (some d) ∧ w.mem.lft r = none ∧ w.mem.rgt r ≠ none ∧ Equiv natLt 4 d.val := by
  obtain ⟨w, sw, g, q, d, h, h0, hh, ht, hd⟩ := exOne
  have hap : Apart natLt 9 (.node .nil q d .nil) := by simp [Apart, vals, T.inorder, hd, natLt]
  obtain ⟨_, s', h1, hp⟩ := push_ok (hh.load ht) hh.fresh (hh.good 0 _ ht).1 hap
  have hs : specStep natLt (.push 0 9) sw = some (sw.put 0 (some [4, 9])) := by
    simp only [specStep, h0, Option.bind_some]; rfl
  have hr := h.step hs trivial (step_none (on_returns (hh.obj 0 _ ht) h1))
  have htree := hp.tree
  have hf : ∃ d' f, fIns natLt 9 w.mem.next (.node .nil q d .nil) = .node .nil q d' (.node .nil w.mem.next f .nil) ∧
      d'.val = 4 := by
    simp [fIns, natLt, hd, balR, ht_node, ht_nil, updH, setH]
  obtain ⟨d', f, hf, hd'⟩ := hf
  rw [show (World.load w _).next = w.mem.next from rfl, hf] at htree
  obtain ⟨r1, r2, r3, r4, _⟩ := htree.rep
  refine ⟨_, _, q, s'.size, d', hr, ?_, r1, r3, ?_, by simp [Equiv, natLt, hd']⟩
  · simp only [World.store, upd_self, htree.root, T.root]
  · show s'.rgt q ≠ none
    rw [r4]; simp [T.root]

/-! ## C42: iteration -/

/-- **C42.**  In every reachable state, iterating from `begin()` to `end()` over a non-empty tree
visits every element exactly once in ascending order and changes nothing.  Missing for C42: the
empty tree, see `avl_iteration_empty_faults`. -/
theorem avl_iteration_partial (hw : StrictWeak lt) {w : World α} {sw : SWorld α} (h : Reach lt w sw) {k : Nat}
    {l : List α} (hk : sw k = some l) (hn : l ≠ []) :
    Returns (on k elements) w l w ∧ l.Pairwise (fun a b => lt a b = true) :=
  have := ((h.holds hw).shows hw k).2 l hk
  ⟨this.2.2.2.1 hn, this.1⟩

example : ∃ (w : World Nat) (sw : SWorld Nat) (l : List Nat), Reach natLt w sw ∧ sw 0 = some l ∧ l ≠ [] := by
  obtain ⟨w, sw, h, h0, _⟩ := exReach
  exact ⟨w, sw, _, h, h0, by simp⟩

/-- **C42, failing case.**  `begin()` of an empty tree dereferences a null pointer. -/
theorem avl_iteration_empty_faults (hw : StrictWeak lt) {w : World α} {sw : SWorld α} (h : Reach lt w sw) {k : Nat}
    (hk : sw k = some []) :
    Faults (on k (begin_ .ino)) w .nullDeref ∧ Faults (on k elements) w .nullDeref := by
  obtain ⟨g, h, hg⟩ := h.holds hw
  obtain ⟨t, ht, e⟩ := HoldsSet.get hg hk
  rw [vals_eq_nil] at e
  subst e
  exact ⟨on_faults (h.obj k _ ht) (begin_null rfl (by simp)), on_faults (h.obj k _ ht) (begin_empty rfl)⟩

example : ∃ (w : World Nat) (sw : SWorld Nat), Reach natLt w sw ∧ sw 0 = some [] := by
  obtain ⟨w, _, h, _⟩ := avl_history_partial natLt_strictWeak [.new 0] .init
    (by rfl : specRun natLt _ (fun _ => none) = some _) ⟨trivial, fun _ _ => trivial⟩
  exact ⟨w, _, h, rfl⟩

/-! ## C43: memory -/

/-- **C43.**  In every reachable state a node is allocated exactly if it belongs to one live
object, parent links mirror child links, and `size()` of each object is the number of its nodes.
`clear()` and destruction run without fault (so no node is released twice) and release all nodes
of the object and no other; when no object is alive, no node is allocated. -/
theorem avl_memory_partial (hw : StrictWeak lt) {w : World α} {sw : SWorld α} (h : Reach lt w sw) :
    MemoryOk w ∧
    (∀ k r c, w.obj k = some (r, c) → Counts w.mem r c ∧ Returns (on k getSize) w c w) ∧
    (∀ k r c, w.obj k = some (r, c) → ∃ w1 w2, Returns (on k Tree.clear) w () w1 ∧ Returns (dropObj k) w () w2 ∧
      Reach lt w1 (sw.put k (some [])) ∧ Reach lt w2 (sw.put k none) ∧
      ∀ n, (Allocated w1.mem n ↔ Allocated w.mem n ∧ ¬ Below w.mem r n) ∧
        (Allocated w2.mem n ↔ Allocated w.mem n ∧ ¬ Below w.mem r n)) ∧
    ((∀ k, sw k = none) → ∀ n, ¬ Allocated w.mem n) := by
  obtain ⟨g, hh, hg⟩ := h.holds hw
  refine ⟨hh.memory, fun k r c hk => ⟨hh.counts hk, on_observes hk rfl⟩, fun k r c hk => ?_, fun hn n ha => ?_⟩
  · obtain ⟨t, ht, rfl, rfl⟩ := hh.get hk
    have hs : sw k = some (vals t) := by rw [hg k, ht]; rfl
    obtain ⟨w1, h1, h2⟩ := hh.clear ht good_nil
    obtain ⟨w2, h3, h4⟩ := hh.drop ht good_nil
    refine ⟨w1, w2, h1, h3, h.step (op := .clear k) (by simp [specStep, hs]) trivial (step_none h1),
      h.step (op := .drop k) (by simp [specStep, hs]) trivial (step_none h3), fun n => ⟨?_, ?_⟩⟩
    · rw [h2.allocated, hh.allocated, below_root (hh.rep k t ht)]
      exact upd_owned hh ht (by rintro u e; cases e; simp [T.ptrs])
    · rw [h4.allocated, hh.allocated, below_root (hh.rep k t ht)]
      exact upd_owned hh ht (by rintro u e; cases e)
  · obtain ⟨k, t, hk, _⟩ := hh.allocated.1 ha
    have := hn k
    rw [hg k, hk] at this
    cases this

example : ∃ (w : World Nat) (sw : SWorld Nat) (k : Nat) (r : Ptr) (c : Nat), Reach natLt w sw ∧
    w.obj k = some (r, c) ∧ c = 4 := by
  obtain ⟨w, sw, h, h0, _⟩ := exReach
  obtain ⟨g, hh, hg⟩ := h.holds natLt_strictWeak
  obtain ⟨t, ht, e⟩ := HoldsSet.get hg h0
  refine ⟨w, sw, 0, _, _, h, hh.obj 0 t ht, ?_⟩
  rw [count_items, ← List.length_map (f := (·.2)), ← vals_eq, e]; rfl

/-! ## C44: copies -/

/-- **C44, the part that holds.**  Copying (or moving from) an empty tree gives an independent
empty tree, and assigning a tree to itself changes nothing; whatever follows on either object, as
long as it is not one of the defective uses, shows on that object only.  Missing for C44: copying
a non-empty tree (`avl_copy_faults`) and assigning to a non-empty tree (`avl_assign_leaks`). -/
theorem avl_copy_partial (hw : StrictWeak lt) {w : World α} {sw : SWorld α} (h : Reach lt w sw) (d s : Nat)
    (hs : sw s = some []) (hd : sw d = none ∨ sw d = some []) (more : List (Op α)) (sw' : SWorld α)
    (hm : specRun lt more (sw.put d (some [])) = some sw') (hsafe : SafeAll lt more (sw.put d (some []))) :
    ∃ w1 w2, Returns (copyObj d s) w () w1 ∧ Shows lt w1 (sw.put d (some [])) ∧
      Returns (run lt more) w1 () w2 ∧ Shows lt w2 sw' := by
  have key : ∃ op : Op α, (step lt op = do copyObj d s; pure none) ∧
      specStep lt op sw = some (sw.put d (some [])) ∧ Safe lt op w sw := by
    rcases hd with hd | hd
    · exact ⟨.copyNew d s, rfl, by simp [specStep, hd, hs], hs⟩
    · exact ⟨.copy d s, rfl, by simp [specStep, hd, hs], Or.inr ⟨hd, hs⟩⟩
  obtain ⟨op, e, h1, h2⟩ := key
  obtain ⟨w1, r1, r2, r3⟩ := avl_runs_partial hw h op h1 h2
  rw [e] at r1
  obtain ⟨w2, r4, _, r5⟩ := avl_history_partial hw more r2 hm hsafe
  exact ⟨w1, w2, unit_of_step r1, r3, r4, r5⟩

example : ∃ (w : World Nat) (sw sw' : SWorld Nat), Reach natLt w sw ∧ sw 0 = some [] ∧ sw 1 = none ∧
    specRun natLt [.push 1 3, .push 0 4] (sw.put 1 (some [])) = some sw' ∧
    SafeAll natLt [.push 1 3, .push 0 4] (sw.put 1 (some [])) ∧ sw' 0 = some [4] ∧ sw' 1 = some [3] := by
  obtain ⟨w, _, h, _⟩ := avl_history_partial natLt_strictWeak [.new 0] .init
    (by rfl : specRun natLt _ (fun _ => none) = some _) ⟨trivial, fun _ _ => trivial⟩
  exact ⟨w, _, _, h, rfl, rfl, rfl, ⟨trivial, fun _ _ => ⟨trivial, fun _ _ => trivial⟩⟩, rfl, rfl⟩

/-- **C44, failing case.**  A copy of a non-empty tree — by copy or move construction into a new
object, or by copy or move assignment to another object — shares all nodes with the original: once
either of the two is destroyed, searching or clearing the other one and destroying it use
released nodes. -/
theorem avl_copy_faults (hw : StrictWeak lt) {w : World α} {sw : SWorld α} (h : Reach lt w sw) (d s : Nat) {l : List α}
    (hs : sw s = some l) (hn : l ≠ []) (hd : d ≠ s) :
    ∃ w1, Returns (copyObj d s) w () w1 ∧ Returns (on d elements) w1 l w1 ∧
      ∀ a b, (a = d ∧ b = s) ∨ (a = s ∧ b = d) → ∃ w2, Returns (dropObj a) w1 () w2 ∧
        (∀ x, Faults (on b (find lt x)) w2 .useAfterFree) ∧ Faults (on b Tree.clear) w2 .useAfterFree ∧
        Faults (dropObj b) w2 .useAfterFree :=
  copy_faults (h.holds hw) d s hs hn hd

example : ∃ (w : World Nat) (sw : SWorld Nat) (l : List Nat), Reach natLt w sw ∧ sw 0 = some l ∧ l ≠ [] := by
  obtain ⟨w, sw, h, h0, _⟩ := exReach
  exact ⟨w, sw, _, h, h0, by simp⟩

/-- **C44, failing case.**  Assigning an empty tree to a non-empty one leaks: a node stays
allocated that belongs to no object. -/
theorem avl_assign_leaks (hw : StrictWeak lt) {w : World α} {sw : SWorld α} (h : Reach lt w sw) (d s : Nat) {l : List α}
    (hs : sw s = some []) (hd : sw d = some l) (hn : l ≠ []) :
    ∃ w' n, Returns (step lt (.copy d s)) w none w' ∧ Allocated w'.mem n ∧
      ∀ k r c, w'.obj k = some (r, c) → ¬ Below w'.mem r n := by
  obtain ⟨w', n, h1, h2⟩ := assign_leaks (h.holds hw) d s hs hd hn
  exact ⟨w', n, step_none h1, h2⟩

example : ∃ (w : World Nat) (sw : SWorld Nat) (l : List Nat), Reach natLt w sw ∧ sw 1 = some [] ∧ sw 0 = some l ∧ l ≠ [] := by
  obtain ⟨w, _, h, _⟩ := avl_history_partial natLt_strictWeak [.new 0, .push 0 4, .new 1] .init
    (by rfl : specRun natLt _ (fun _ => none) = some _) ⟨trivial, fun _ _ => ⟨trivial, fun _ _ => ⟨trivial, fun _ _ => trivial⟩⟩⟩
  exact ⟨w, _, _, h, rfl, rfl, by decide⟩

end Verif.AVL
