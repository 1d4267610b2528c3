import Verif.XStackPoolWorld

/-!
# Stacks in the static pool (C107)

Vocabulary: `Verif.Spec.XStackPool`.  `XPool.stackRun` and `XPool.wrun` work on the bytes of the static
allocator; the meaning of a history is `Stack.specRun` and `XStack.wspecRun`, which know only lists.
-/

namespace Verif.XPool

open Prog Vec Pool
open XStack (XS Obj WOp SObj)

variable {α ι : Type} {c : Sma.Cfg} {K : Elem α}

/-! ## `smemory::Stack` -/

/-- **C107** (`Stack`).  Every legal history of operations on any number of stacks in a fresh pool
stops for lack of memory or returns; in the latter case every stack shows the elements pushed and not
popped, the storage of the stacks lies in the pool, apart from each other and from the free blocks, and
`free_mem_size()` is the pool size minus the storage of the stacks alive.  Missing for the full
statement: copying a non-empty stack of a type with a non-trivial destructor (`Stack.AvoidsAll`, C04). -/
theorem stack_pool_partial (hc : Sma.Legal c) (hM : 2 * c.M + 8 < 2 ^ 31) (hK : 2 * K.size + 8 < 2 ^ 31)
    {s0 s : Sma.St} (h0 : Returns (Sma.construct c) s0 () s) (ops : List (Stack.Op α)) {sw : Stack.Spec α}
    (hs : Stack.specRun ops (fun _ => none) = some sw) (ha : Stack.AvoidsAll K.triv ops (fun _ => none)) :
    Faults (stackRun .port c K ops) ⟨s, fun _ => none⟩ .crash ∨
    ∃ w, Returns (stackRun .port c K ops) ⟨s, fun _ => none⟩ () w ∧ StackShows .port c K w sw ∧
      Placed c K.size w.pool w.obj ∧ Accounted c K.size w.pool w.obj (fun k => sw k ≠ none) := by
  rcases stackRun_pool hc hM hK ops (StackSt.init h0) hs ha with h | ⟨w, h1, h2⟩
  · exact Or.inl h
  · exact Or.inr ⟨w, h1, h2.shows hc, h2.placed hc, h2.accounted hc⟩

/-- **C107** (`Stack`, when the program stops).  Where there is room in the stack's storage, pushing
does not stop the program; otherwise it stops exactly if no free block can hold twice as many elements
(two for the first element), even after merging.  Popping stops it only if the storage shrinks;
clearing, moving, constructing and destroying never stop it. -/
theorem stack_pool_stops_partial (hc : Sma.Legal c) (hM : 2 * c.M + 8 < 2 ^ 31)
    (hK : 2 * K.size + 8 < 2 ^ 31)
    {s0 s : Sma.St} (h0 : Returns (Sma.construct c) s0 () s) (ops : List (Stack.Op α)) {sw : Stack.Spec α}
    (hs : Stack.specRun ops (fun _ => none) = some sw) (ha : Stack.AvoidsAll K.triv ops (fun _ => none))
    {w : PWorld} (hr : Returns (stackRun .port c K ops) ⟨s, fun _ => none⟩ () w) :
    (∀ k v x, w.obj k = some v → (Faults (stackStep .port c K (.push k x)) w .crash ↔
      v.sz = v.cap ∧ Full c w.pool (taken8 K.size (max 2 (2 * v.sz))))) ∧
    (∀ k v, w.obj k = some v → v.sz ≠ 0 → Faults (stackStep .port c K (.pop k)) w .crash →
      v.sz - 1 < v.cap / 3) ∧
    (∀ op sw', Stack.specStep op sw = some sw' → (∀ k x, op ≠ .push k x) → (∀ k, op ≠ .pop k) →
      (∀ d t, op ≠ .copy d t) → ∃ w', Returns (stackStep .port c K op) w () w') := by
  rcases stackRun_pool hc hM hK ops (StackSt.init h0) hs ha with h | ⟨w', h1, h2⟩
  · unfold Faults Returns at *; rw [h] at hr; cases hr
  obtain ⟨_, rfl⟩ := hr.det h1
  have hSh := h2.shows (md := .port) hc
  obtain ⟨⟨f, aw, vw, hI, habs, hW⟩, _⟩ := h2
  have hlive : ∀ k v, w.obj k = some v → ∃ l, sw k = some l ∧ v.sz = l.length := by
    intro k v hv
    rcases hk : sw k with _ | l
    · rw [(hSh k).1 hk] at hv; cases hv
    · obtain ⟨v', g1, g2, _⟩ := (hSh k).2 l hk
      rw [hv] at g1; cases g1
      exact ⟨l, rfl, g2⟩
  refine ⟨?_, ?_, ?_⟩
  · intro k v x hv
    obtain ⟨l, hl, hsz⟩ := hlive k v hv
    obtain ⟨av, hav, rfl⟩ : ∃ av, aw.obj k = some av ∧ v = vmap f av := by
      rw [hW.obj k] at hv
      rcases hk : aw.obj k with _ | u
      · rw [hk] at hv; cases hv
      · rw [hk] at hv; cases hv; exact ⟨u, rfl, rfl⟩
    obtain ⟨t, ht, g2, g3⟩ := WInv.fresh hI hav
    obtain ⟨c1, c2⟩ := cap_pool hc hW.mem g2
    have hszle : av.sz ≤ av.cap := by rw [g2.size]; exact c2
    show _ ↔ av.sz = av.cap ∧ Full c w.pool (taken8 K.size (max 2 (2 * av.sz)))
    constructor
    · intro hf
      obtain ⟨_, w1, r1, _⟩ := Stack.step_refines (triv := K.triv) (op := .push k x) hI habs
        (by simp [Stack.specStep, hl]; rfl) trivial
      rcases stackStep_sim hc hM hK hI hW r1 with ⟨⟨u, hu, l1, l2⟩, _⟩ | ⟨pw', _, e, _⟩
      · rw [hv] at hu; cases hu
        exact ⟨Nat.le_antisymm hszle (Nat.le_of_lt_succ l1), (full_iff _ _).1 l2.2⟩
      · unfold Faults Returns at *; rw [hf] at e; cases e
    · rintro ⟨l1, l2⟩
      have hal := alloc_faults hc hW.mem (n := max 2 (2 * av.sz)) (by omega)
        (fit_push hM hK (K := K) (c := c) (n := av.sz) (mul_le_of_le c1 hszle)) ((full_iff _ _).2 l2)
      refine (bind_returns (Pool.getObj_returns hv)).trans (bind_faults (Pool.lift_faults ?_))
      exact push_faults (v := vmap f av) (show av.sz + 1 > av.cap by omega) hal
  · intro k v hv h0 hf
    obtain ⟨l, hl, hsz⟩ := hlive k v hv
    obtain ⟨y, l, rfl⟩ := List.exists_cons_of_ne_nil (l := l) (by rintro rfl; exact h0 hsz)
    obtain ⟨_, w1, r1, _⟩ := Stack.step_refines (triv := K.triv) (op := .pop k) hI habs
      (by simp [Stack.specStep, hl]; rfl) trivial
    rcases stackStep_sim hc hM hK hI hW r1 with ⟨⟨u, hu, l1⟩, _⟩ | ⟨pw', _, e, _⟩
    · rw [hv] at hu; cases hu; exact l1
    · unfold Faults Returns at *; rw [hf] at e; cases e
  · intro op sw' hop n1 n2 n3
    obtain ⟨_, w1, r1, _⟩ := Stack.step_refines (triv := K.triv) (op := op) hI habs hop
      (by cases op with
        | copy d t => exact absurd rfl (n3 d t)
        | _ => trivial)
    rcases stackStep_sim hc hM hK hI hW r1 with ⟨hp, _⟩ | ⟨pw', _, e, _⟩
    · cases op with
      | push k x => exact absurd rfl (n1 k x)
      | pop k => exact absurd rfl (n2 k)
      | copy d t => exact absurd rfl (n3 d t)
      | _ => exact hp.elim
    · exact ⟨pw', e⟩

/-! ## `smemory::MinStack` and `smemory::MaxStack` -/

variable {R : ι → α → α → Prop} {cmp : ι → α → α → Bool}

/-- **C107** (`MinStack`, `MaxStack`).  Every legal history of operations on any number of extremum
stacks in a fresh pool stops for lack of memory or returns; in the latter case every stack shows the
elements pushed and not popped and their extremum, the storage of the stacks lies in the pool, apart
from each other and from the free blocks, and `free_mem_size()` is the pool size minus the storage of
the stacks alive.  Missing for the full statement: the situations in which these stacks go wrong with
any allocator (`XStack.WAvoidsAll`): pushing a value equal to the extremum (C11, C12) and copying
non-empty stacks of a type with a non-trivial destructor (C04). -/
theorem xstack_pool_partial [DecidableEq α] (hc : Sma.Legal c) (hM : 2 * c.M + 8 < 2 ^ 31)
    (hK : 2 * K.size + 8 < 2 ^ 31) (ho : ∀ i, Heap.Order (R i) (cmp i)) (gone : α → α)
    {s0 s : Sma.St} (h0 : Returns (Sma.construct c) s0 () s) (ops : List (WOp ι α)) {sw : XStack.SWorld ι α}
    (hs : XStack.wspecRun ops (fun _ => none) = some sw)
    (ha : XStack.WAvoidsAll R cmp K.triv ops (fun _ => none)) :
    Faults (wrun .port c K cmp gone ops) ⟨s, fun _ => none⟩ .crash ∨
    ∃ w, Returns (wrun .port c K cmp gone ops) ⟨s, fun _ => none⟩ () w ∧ Shows .port c K R w sw ∧
      Placed c K.size w.pool (vecs w) ∧ Accounted c K.size w.pool (vecs w) (fun k => sw k ≠ none) := by
  rcases wrun_pool hc hM hK ho gone ops (St.init h0) hs ha with h | ⟨w, h1, h2⟩
  · exact Or.inl h
  · exact Or.inr ⟨w, h1, h2.shows hc ho, h2.placed hc, h2.accounted hc⟩

/-- **C107** (nothing leaks).  When no stack is alive any more, all memory of the pool is free. -/
theorem xstack_pool_returned_partial [DecidableEq α] (hc : Sma.Legal c) (hM : 2 * c.M + 8 < 2 ^ 31)
    (hK : 2 * K.size + 8 < 2 ^ 31) (ho : ∀ i, Heap.Order (R i) (cmp i)) (gone : α → α)
    {s0 s : Sma.St} (h0 : Returns (Sma.construct c) s0 () s) (ops : List (WOp ι α)) {sw : XStack.SWorld ι α}
    (hs : XStack.wspecRun ops (fun _ => none) = some sw)
    (ha : XStack.WAvoidsAll R cmp K.triv ops (fun _ => none)) (hend : ∀ k, sw k = none) {w : XWorld ι α}
    (hr : Returns (wrun .port c K cmp gone ops) ⟨s, fun _ => none⟩ () w) :
    Returns Sma.freeMemSize w.pool (c.M : Int) w.pool := by
  rcases xstack_pool_partial hc hM hK ho gone h0 ops hs ha with h | ⟨w', h1, _, _, ks, h4, h5, h6⟩
  · unfold Faults Returns at *; rw [h] at hr; cases hr
  · obtain ⟨_, rfl⟩ := hr.det h1
    have : ks = [] := List.eq_nil_iff_forall_not_mem.2 fun k hk => (h5 k).1 hk (hend k)
    subst this
    simpa [storage] using h6

/-- **C107** (when the program stops).  Let `v` be a stack in the pool.  With room for two entries, or
for one if the extremum need not be saved, pushing does not stop the program; when its storage is full,
pushing stops it exactly if no free block can hold twice as many entries (two for the first element),
even after merging.  Popping stops it only if the storage shrinks; clearing, moving, constructing and
destroying never stop it. -/
theorem xstack_pool_stops_partial [DecidableEq α] (hc : Sma.Legal c) (hM : 2 * c.M + 8 < 2 ^ 31)
    (hK : 2 * K.size + 8 < 2 ^ 31) (ho : ∀ i, Heap.Order (R i) (cmp i)) (gone : α → α)
    {s0 s : Sma.St} (h0 : Returns (Sma.construct c) s0 () s) (ops : List (WOp ι α)) {sw : XStack.SWorld ι α}
    (hs : XStack.wspecRun ops (fun _ => none) = some sw)
    (ha : XStack.WAvoidsAll R cmp K.triv ops (fun _ => none)) {w : XWorld ι α}
    (hr : Returns (wrun .port c K cmp gone ops) ⟨s, fun _ => none⟩ () w) :
    (∀ k v x l, w.obj k = some v → sw k = some l → XStack.Avoids (R l.c) (cmp l.c) (.push x) l.s →
      (v.o.st.sz + 2 ≤ v.o.st.cap ∨ (v.o.st.sz < v.o.st.cap ∧ v.o.st.sz ≠ 0 ∧ cmp v.c x v.o.x = false) →
        ∃ w', Returns (wstep .port c K cmp gone (.op k (.push x))) w () w') ∧
      (v.o.st.sz = v.o.st.cap → (Faults (wstep .port c K cmp gone (.op k (.push x))) w .crash ↔
        Full c w.pool (taken8 K.size (max 2 (2 * v.o.st.sz)))))) ∧
    (∀ k v, w.obj k = some v → v.o.st.sz ≠ 0 →
      Faults (wstep .port c K cmp gone (.op k .pop)) w .crash → v.o.st.sz - 2 < v.o.st.cap / 3) ∧
    (∀ op sw', XStack.wspecStep op sw = some sw' → (∀ k x, op ≠ .op k (.push x)) → (∀ k, op ≠ .op k .pop) →
      (∀ d t, op ≠ .copy d t) → ∃ w', Returns (wstep .port c K cmp gone op) w () w') := by
  rcases wrun_pool hc hM hK ho gone ops (St.init h0) hs ha with h | ⟨w', h1, h2⟩
  · unfold Faults Returns at *; rw [h] at hr; cases hr
  obtain ⟨_, rfl⟩ := hr.det h1
  have hSh := h2.shows (md := .port) hc ho
  obtain ⟨⟨f, aw, vw, hI, hW⟩, _⟩ := h2
  have hstep : ∀ op sw', XStack.wspecStep op sw = some sw' → XStack.WAvoids R cmp K.triv op sw →
      (Lacks c K cmp w op ∧ Faults (wstep .port c K cmp gone op) w .crash) ∨
        ∃ w', Returns (wstep .port c K cmp gone op) w () w' := by
    intro op sw' hop hav
    obtain ⟨_, w1, r1, _⟩ := XStack.wstep_ok ho (triv := K.triv) (gone := gone) hI hop hav
    rcases wstep_sim hc hM hK hI hW hop r1 with h | ⟨pw', _, e, _⟩
    · exact Or.inl h
    · exact Or.inr ⟨pw', e⟩
  refine ⟨?_, ?_, ?_⟩
  · intro k v x l hv hl hav
    obtain ⟨u, r, q1, q2, q3, q4⟩ := hI.rep hl
    have hvu : v = omap f u := by
      rw [hW.obj k, q1] at hv; cases hv; rfl
    subst hvu
    obtain ⟨c1, c2⟩ := cap_pool hc hW.mem q3
    have hszle : u.o.st.sz ≤ u.o.st.cap := by rw [q3.size]; exact c2
    have hs' := hstep (.op k (.push x)) _ (by simp [XStack.wspecStep, hl, XStack.specStep]; rfl)
      (by intro v' hv'; rw [hl] at hv'; cases hv'; exact hav)
    constructor
    · intro hroom
      rcases hs' with ⟨⟨v', hv', hl'⟩, _⟩ | h
      · exfalso
        rw [hv] at hv'; cases hv'
        rcases hl' with ⟨p1, _⟩ | ⟨p1, p2⟩
        · omega
        · rcases hroom with hroom | ⟨r1, r2, r3⟩
          · omega
          · rcases p1 with p1 | p1
            · exact r2 p1
            · rw [r3] at p1; cases p1
      · exact h
    · intro hfull
      constructor
      · intro hf
        rcases hs' with ⟨⟨v', hv', hl'⟩, _⟩ | ⟨w', h⟩
        · rw [hv] at hv'; cases hv'
          rcases hl' with ⟨p1, p2⟩ | ⟨p1, p2⟩
          · exact (full_iff _ _).1 p2.2
          · omega
        · unfold Faults Returns at *; rw [hf] at h; cases h
      · intro l2
        have hfull : u.o.st.sz = u.o.st.cap := hfull
        have hal := alloc_faults hc hW.mem (n := max 2 (2 * u.o.st.sz)) (by omega)
          (fit_push hM hK (K := K) (c := c) (n := u.o.st.sz) (mul_le_of_le c1 hszle)) ((full_iff _ _).2 l2)
        have hpf : ∀ y, Faults (stPush (poolOps .port c K) (vmap f u.o.st) y) w.pool .crash := fun y =>
          push_faults (v := vmap f u.o.st) (show u.o.st.sz + 1 > u.o.st.cap by omega) hal
        refine (bind_returns (getObj_returns hv)).trans (bind_faults (lift_faults ?_))
        show Faults (push (poolOps .port c K) _ (omap f u).o x) _ _
        unfold push
        by_cases h : (omap f u).o.st.sz = 0 ∨ cmp (omap f u).c x (omap f u).o.x = true
        · rw [if_pos h]
          exact bind_faults (bind_faults (hpf _))
        · rw [if_neg h, pure_bind]
          exact bind_faults (hpf _)
  · intro k v hv h0 hf
    rcases hl : sw k with _ | l
    · rw [(hSh k).1 hl] at hv; cases hv
    · obtain ⟨v', g1, g2, g3, _⟩ := (hSh k).2 l hl
      rw [hv] at g1; cases g1
      have hne : l.s ≠ [] := by
        intro e
        have := g3.2 e
        simp [XStack.empty] at this
        exact h0 this
      obtain ⟨y, t, hyt⟩ := List.exists_cons_of_ne_nil hne
      rcases hstep (.op k .pop) _ (by simp [XStack.wspecStep, hl, hyt, XStack.specStep]; rfl)
        (by intro v' _; trivial) with ⟨⟨v', hv', hl'⟩, _⟩ | ⟨w', h⟩
      · rw [hv] at hv'; cases hv'; exact hl'
      · unfold Faults Returns at *; rw [hf] at h; cases h
  · intro op sw' hop n1 n2 n3
    rcases hstep op sw' hop (by
      cases op with
      | op k p =>
        intro v hv
        cases p with
        | push x => exact absurd rfl (n1 k x)
        | _ => trivial
      | copy d t => exact absurd rfl (n3 d t)
      | _ => trivial) with ⟨hl, _⟩ | h
    · cases op with
      | op k p =>
        cases p with
        | push x => exact absurd rfl (n1 k x)
        | pop => exact absurd rfl (n2 k)
        | clear => exact hl.elim
      | copy d t => exact absurd rfl (n3 d t)
      | _ => exact hl.elim
    · exact h

/-! ### The hypotheses are met -/

/-- A history of plain stacks with a pop, a copy and a move; for `int` the guard always holds. -/
example : ∃ sw, Stack.specRun [.new 0, .push 0 1, .push 0 2, .push 0 3, .pop 0, .new 1, .copy 1 0, .pop 1, .move 0 1]
    (fun _ => none : Stack.Spec (BitVec 32)) = some sw ∧ sw 0 = some [1] ∧ sw 1 = some [] := ⟨_, rfl, rfl, rfl⟩

example (ops : List (Stack.Op (BitVec 32))) (w : Stack.Spec (BitVec 32)) :
    Stack.AvoidsAll intElem.triv ops w := by
  induction ops generalizing w with
  | nil => trivial
  | cons op ops ih =>
    refine ⟨?_, fun w' _ => ih w'⟩
    cases op with
    | copy => exact Or.inr (Or.inl rfl)
    | _ => trivial

/-- `less` and `greater` on `int`, as a family of comparators. -/
def intCmp (max : Bool) (a b : BitVec 32) : Bool := if max then decide (a.toInt > b.toInt) else decide (a.toInt < b.toInt)

/-- The orders they come from. -/
def intOrd (max : Bool) (a b : BitVec 32) : Prop := if max then b.toInt ≤ a.toInt else a.toInt ≤ b.toInt

theorem int_orders (i : Bool) : Heap.Order (intOrd i) (intCmp i) := by
  cases i
  · exact ⟨fun a => Int.le_refl _, fun _ _ _ h1 h2 => Int.le_trans h1 h2,
      fun _ _ h => by simp [intCmp] at h; simp only [intOrd]; show _ ≤ _; omega,
      fun _ _ h => by simp [intCmp] at h; simp only [intOrd]; show _ ≤ _; omega⟩
  · exact ⟨fun a => Int.le_refl _, fun _ _ _ h1 h2 => Int.le_trans h2 h1,
      fun _ _ h => by simp [intCmp] at h; simp only [intOrd]; show _ ≤ _; omega,
      fun _ _ h => by simp [intCmp] at h; simp only [intOrd]; show _ ≤ _; omega⟩

/-- A history with a minimum stack and a maximum stack: pushes, a pop, a copy and a move. -/
def history : List (WOp Bool (BitVec 32)) :=
  [.new 0 false 0, .new 1 true 0, .op 0 (.push 5), .op 0 (.push 3), .op 0 (.push 4), .op 0 .pop,
    .op 1 (.push 7), .copy 1 0, .move 0 1, .op 0 (.push 1), .drop 1]

example : ∃ sw, XStack.wspecRun history (fun _ => none) = some sw ∧ sw 0 = some ⟨false, [1, 3, 5]⟩ ∧ sw 1 = none :=
  ⟨_, rfl, rfl, rfl⟩

/-- It meets the guard. -/
example : XStack.WAvoidsAll intOrd intCmp intElem.triv history (fun _ => none) := by
  have key : ∀ {ops : List (WOp Bool (BitVec 32))} {op w w1}, XStack.wspecStep op w = some w1 →
      XStack.WAvoids intOrd intCmp intElem.triv op w → XStack.WAvoidsAll intOrd intCmp intElem.triv ops w1 →
      XStack.WAvoidsAll intOrd intCmp intElem.triv (op :: ops) w := by
    intro ops op w w1 h1 h2 h3
    refine ⟨h2, fun w' hw' => ?_⟩
    rw [h1] at hw'; cases hw'; exact h3
  refine key rfl trivial (key rfl trivial (key rfl ?_ (key rfl ?_ (key rfl ?_ (key rfl ?_ (key rfl ?_
    (key rfl (Or.inr (Or.inl rfl)) (key rfl trivial (key rfl ?_ (key rfl trivial trivial))))))))))
  all_goals
    intro v hv
    cases hv
  · exact Or.inr (by simp [XStack.Ext])
  · exact Or.inr (by simp [XStack.Ext])
  · exact Or.inr (by simp [XStack.Ext, intOrd])
  · trivial
  · exact Or.inr (by simp [XStack.Ext])
  · exact Or.inr (by simp [XStack.Ext])

/-- In a fresh pool the first push returns: the pool is not out of memory. -/
example {s0 s : Sma.St} (h0 : Returns (Sma.construct (Sma.defaultSMA 4096)) s0 () s) :
    ∃ w, Returns (wstep .port (Sma.defaultSMA 4096) intElem intCmp id (.op 0 (.push 5)))
      ⟨s, fun x => if x = 0 then some ⟨false, XStack.new 0⟩ else none⟩ () w := by
  have hr : Returns (wrun .port (Sma.defaultSMA 4096) intElem intCmp id [.new 0 false 0]) ⟨s, fun _ => none⟩ ()
      ⟨s, fun x => if x = 0 then some ⟨false, XStack.new 0⟩ else none⟩ := rfl
  have ha : XStack.WAvoidsAll intOrd intCmp intElem.triv [.new 0 false 0] (fun _ => none) :=
    ⟨trivial, fun _ _ => trivial⟩
  have hp : XStack.Avoids (intOrd false) (intCmp false) (.push 5) [] := Or.inr (by simp [XStack.Ext])
  have := ((xstack_pool_stops_partial Sma.defaultSMA_legal (by decide) (by decide) int_orders id h0
    [.new 0 false 0] rfl ha hr).1 0 ⟨false, XStack.new 0⟩ 5 ⟨false, []⟩ rfl rfl hp).2 rfl
  have ha2 : XStack.WAvoidsAll intOrd intCmp intElem.triv [.new 0 false 0, .op 0 (.push 5)] (fun _ => none) := by
    refine ⟨trivial, fun w hw => ⟨?_, fun _ _ => trivial⟩⟩
    cases hw
    intro v hv
    cases hv
    exact hp
  have e : wrun .port (Sma.defaultSMA 4096) intElem intCmp id [.new 0 false 0, .op 0 (.push 5)] ⟨s, fun _ => none⟩ =
      (wstep .port (Sma.defaultSMA 4096) intElem intCmp id (.op 0 (.push 5)) >>= fun _ => Pure.pure ())
        ⟨s, fun x => if x = 0 then some ⟨false, XStack.new 0⟩ else none⟩ := rfl
  rcases xstack_pool_partial Sma.defaultSMA_legal (by decide) (by decide) int_orders id h0
    [.new 0 false 0, .op 0 (.push 5)] rfl ha2 with h | ⟨w, r, _⟩
  · exfalso
    refine fresh_room Sma.defaultSMA_legal h0 (by decide) (this.1 ?_)
    unfold Faults at h ⊢
    rw [e, Prog.bind_apply] at h
    split at h
    · cases h
    · rename_i e he; cases h; exact he
    · cases h
  · unfold Returns at r
    rw [e] at r
    obtain ⟨_, w1, r1, r2⟩ := returns_bind r
    exact ⟨w1, r1⟩

end Verif.XPool
