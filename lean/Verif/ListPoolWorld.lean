import Verif.ListPoolOps
import Verif.Spec.ListPool
import Verif.DListLemmas
import Verif.SListLemmas

/-! # Histories of lists in the static pool (helper lemmas) -/

namespace Verif.LPool

open Prog Verif.LL Pool

variable {α β γ : Type}

/-! ## Observing changes nothing -/

/-- The program leaves the memory as it is. -/
def RO (q : Prog (PMem α) β) : Prop := ∀ w, wlp q (fun _ w' => w' = w) w

theorem RO.bind {p : Prog (PMem α) β} {g : β → Prog (PMem α) γ} (h1 : RO p) (h2 : ∀ a, RO (g a)) :
    RO (p >>= g) := fun w => wlp_bind (wlp_mono (h1 w) fun a t ht => by subst ht; exact h2 a t)

theorem RO.pure (a : β) : RO (Pure.pure a : Prog (PMem α) β) := fun _ => wlp_pure rfl

theorem RO.ite {Q : Prop} [Decidable Q] {p q : Prog (PMem α) β} (h1 : RO p) (h2 : RO q) :
    RO (if Q then p else q) := fun w => wlp_ite (fun _ => h1 w) fun _ => h2 w

theorem RO.dassert {Q : Prop} [Decidable Q] : RO (Prog.dassert Q : Prog (PMem α) Unit) :=
  fun _ => wlp_dassert fun _ => rfl

theorem RO.fail {e : Fault} : RO (fail e : Prog (PMem α) β) := by intro w a w' h; cases h

theorem RO.get : RO (Prog.get : Prog (PMem α) (PMem α)) := by intro w a w' h; cases h; rfl

theorem RO.onPool {p : Prog Sma.St β} (h : ∀ s, wlp p (fun _ s' => s' = s) s) : RO (LPool.onPool (α := α) p) := by
  intro w a w' hr
  unfold Returns LPool.onPool at hr
  rcases e : p w.pool with _ | _ | ⟨b, s⟩
  · rw [e] at hr; cases hr
  · rw [e] at hr; cases hr
  · rw [e] at hr
    cases hr
    exact congrArg (fun t => { w with pool := t }) (h w.pool _ _ e)

theorem ro_getHead (k : Nat) : RO (getHead (α := α) k) := by
  intro w a w' hr
  unfold getHead Returns at hr
  simp only at hr
  split at hr <;> cases hr
  rfl

variable {md : Sma.Mode} {c : Sma.Cfg} {G : Slots.Env} {kd : Kind} {K : Pool.Layout α} {E : PtrRep}

theorem pool_touchWord (a : Nat) (s : Sma.St) : wlp (touchWord c a) (fun _ s' => s' = s) s :=
  wlp_bind (wlp_check fun _ => wlp_check fun _ => rfl)

theorem pool_loadPtr (a : Nat) (s : Sma.St) : wlp (loadPtr c E a) (fun _ s' => s' = s) s := by
  refine wlp_bind (wlp_mono (pool_touchWord a s) ?_)
  rintro _ t rfl
  intro q t' hr
  obtain ⟨u, v, r1, r2⟩ := returns_bind (p := Prog.get) hr
  cases r1
  rcases e : E.dec (t.mem a) with _ | p
  · rw [e] at r2; cases r2
  · rw [e] at r2; exact (returns_pure r2).2

theorem pool_touchObj (a : Nat) (s : Sma.St) : wlp (Pool.touchObj c K a) (fun _ s' => s' = s) s :=
  wlp_bind (wlp_check fun _ => wlp_check fun _ => rfl)

theorem pool_load (a : Nat) (s : Sma.St) : wlp (Pool.load c K a) (fun _ s' => s' = s) s := by
  refine wlp_bind (wlp_mono (pool_touchObj a s) ?_)
  rintro _ t rfl
  intro q t' hr
  obtain ⟨u, v, r1, r2⟩ := returns_bind (p := Prog.get) hr
  cases r1
  split at r2
  · exact (returns_pure r2).2
  · cases r2

theorem ro_getNext (p : Ptr) : RO ((poolNodes md c kd K E).getNext p) := by
  cases p with
  | null => exact RO.fail
  | head k => exact RO.bind (ro_getHead k) fun _ => RO.pure _
  | node a => exact RO.onPool (pool_loadPtr a)

theorem ro_getPrev (p : Ptr) : RO ((poolNodes md c kd K E).getPrev p) := by
  cases p with
  | null => exact RO.fail
  | head k => exact RO.bind (ro_getHead k) fun _ => RO.pure _
  | node a => exact RO.onPool (pool_loadPtr _)

theorem ro_getData (p : Ptr) : RO ((poolNodes md c kd K E).getData p) := by
  cases p with
  | null => exact RO.fail
  | head k =>
    refine RO.bind (ro_getHead k) fun h => ?_
    rcases h.data with _ | x
    · exact RO.fail
    · exact RO.pure x
  | node a => exact RO.onPool (pool_load _)

theorem ro_getSize (k : Nat) : RO ((poolNodes md c kd K E).getSize k) :=
  RO.bind (ro_getHead k) fun _ => RO.bind RO.get fun _ => RO.pure _

theorem ro_getTail (k : Nat) : RO ((poolNodes md c kd K E).getTail k) :=
  RO.bind (ro_getHead k) fun _ => RO.bind RO.get fun _ => RO.pure _

theorem ro_empty (k : Nat) : RO (empty (poolNodes md c kd K E) k) :=
  RO.bind (ro_getSize k) fun _ =>
    RO.ite (RO.bind (ro_getNext _) fun _ => RO.bind RO.dassert fun _ => RO.pure _) (RO.pure _)

theorem ro_front (k : Nat) : RO (front (poolNodes md c kd K E) k) :=
  RO.bind (ro_getNext _) fun _ => ro_getData _

theorem ro_dBack (k : Nat) : RO (LPool.D.back (poolNodes md c kd K E) k) :=
  RO.bind (ro_getSize k) fun _ => RO.bind RO.dassert fun _ => RO.bind (ro_getPrev _) fun _ => ro_getData _

theorem ro_sBack (k : Nat) : RO (LPool.S.back (poolNodes md c kd K E) k) :=
  RO.bind (ro_getSize k) fun _ => RO.bind RO.dassert fun _ => RO.bind (ro_getTail _) fun _ => ro_getData _

theorem ro_iterateFrom (k : Nat) (p : Ptr) : RO (iterateFrom (poolNodes md c kd K E) k p) := by
  have key : ∀ (p : Ptr) (w : PMem α), wlp (iterateFrom (poolNodes md c kd K E) k p) (fun _ w' => w' = w) w := by
    refine iterateFrom.fixpoint_induct (poolNodes md c kd K E) k _ (Prog.admissible_wlp _) ?_
    intro X ih p
    exact RO.ite (RO.pure _) (RO.bind (ro_getData _) fun _ => RO.bind (ro_getNext _) fun q =>
      RO.bind (ih q) fun _ => RO.pure _)
  exact key p

theorem ro_iterate (k : Nat) : RO (iterate (poolNodes md c kd K E) k) :=
  RO.bind (ro_getNext _) fun q => ro_iterateFrom k q

theorem ro_backward (k : Nat) : RO (LPool.D.backward (poolNodes md c kd K E) k) := by
  refine RO.bind (ro_getNext _) fun b => ?_
  have key : ∀ (p : Ptr) (w : PMem α),
      wlp (LPool.D.backwardFrom (poolNodes md c kd K E) k b p) (fun _ w' => w' = w) w := by
    refine LPool.D.backwardFrom.fixpoint_induct (poolNodes md c kd K E) k b _ (Prog.admissible_wlp _) ?_
    intro X ih p
    exact RO.ite (RO.pure _) (RO.bind (ro_getPrev _) fun q => RO.bind (ro_getData _) fun _ =>
      RO.bind (ih q) fun _ => RO.pure _)
  exact key _

/-- What is observed with memory of its own is observed in the pool. -/
theorem Sim.observe {f : Nat → Nat} {m : Mem α} {w : PMem α} {p : Prog (Mem α) β}
    {q : Prog (PMem α) β} (h : Sim c G kd K E (fun _ => False) f m w p q Same) (hq : RO q) {a : β}
    {m' : Mem α} (hr : Returns p m a m') : Returns q w a w := by
  rcases h a m' hr with ⟨hf, _⟩ | ⟨a', w', f', h1, _, _, h4⟩
  · exact hf.elim
  · cases h4
    have := hq w _ _ h1
    simp only at this
    rw [this] at h1
    exact h1

/-! ## What the invariant of the lists gives -/

theorem WInv.reach {m : Mem α} {g : Nat → Option (List (Nat × α))} (h : WInv kd m g) {p : Ptr} {x : Cell α}
    (hn : p ≠ .null) (hp : m.cell p = some (some x)) :
    ∃ k ns, g k = some ns ∧ p ∈ Ptr.head k :: ptrs ns := by
  cases p with
  | null => exact absurd rfl hn
  | head k =>
    rcases e : g k with _ | ns
    · rw [h.dead k e] at hp; cases hp
    · exact ⟨k, ns, e, List.mem_cons_self⟩
  | node n =>
    obtain ⟨k, ns, h1, h2⟩ := h.owned n (by rw [hp]; simp)
    exact ⟨k, ns, h1, List.mem_cons_of_mem _ h2⟩

theorem known_mem {m : Mem α} {g : Nat → Option (List (Nat × α))} (h : WInv kd m g) {k : Nat}
    {ns : List (Nat × α)} (hk : g k = some ns) {q : Ptr} (hq : q ∈ Ptr.head k :: ptrs ns) : Known m q := by
  obtain ⟨_, x, hx⟩ := (h.alive k ns hk).live hq
  cases q with
  | null => trivial
  | head j => trivial
  | node n => show m.cell _ ≠ none; rw [hx]; simp

theorem known_next {m : Mem α} {g : Nat → Option (List (Nat × α))} (h : WInv kd m g) (p : Ptr) (x : Cell α)
    (hn : p ≠ .null) (hp : m.cell p = some (some x)) : Known m x.next := by
  obtain ⟨k, ns, h1, h2⟩ := WInv.reach h hn hp
  obtain ⟨q, e1, e2⟩ := (h.alive k ns h1).fwd.succ h2
  have : x.next = q := by simpa [nx, hp] using e1
  rw [this]
  exact known_mem h h1 e2

theorem known_prev {m : Mem α} {g : Nat → Option (List (Nat × α))} (h : WInv .doubly m g) (p : Ptr) (x : Cell α)
    (hn : p ≠ .null) (hp : m.cell p = some (some x)) : Known m x.prev := by
  obtain ⟨k, ns, h1, h2⟩ := WInv.reach h hn hp
  obtain ⟨q, e1, e2⟩ := ((h.alive k ns h1).bwd rfl).succ (p := p) (by simpa using h2)
  have : x.prev = q := by simpa [pv, hp] using e1
  rw [this]
  exact known_mem h h1 (by simpa using e2)

theorem known_tail {m : Mem α} {g : Nat → Option (List (Nat × α))} (h : WInv .singly m g) (ht : SL.Tails m g)
    (k : Nat) (x : Cell α) (hp : m.cell (.head k) = some (some x)) : Known m (m.tail k) := by
  rcases e : g k with _ | ns
  · rw [h.dead k e] at hp; cases hp
  · rw [ht k ns e]
    refine known_mem h e ?_
    cases hr : (ptrs ns).reverse with
    | nil =>
      rw [List.reverse_eq_nil_iff] at hr
      rw [hr]
      exact List.mem_cons_self
    | cons z t =>
      have : ptrs ns = t.reverse ++ [z] := by rw [← List.reverse_reverse (ptrs ns), hr]; simp
      rw [this, lastOf_append]
      simp

/-! ## Counting -/

/-- Only finitely many lists are alive. -/
def Finite (sw : DL.SWorld α) : Prop := ∃ ks : List Nat, ks.Nodup ∧ ∀ k, k ∈ ks ↔ sw k ≠ none

theorem finite_empty : Finite (fun _ => none : DL.SWorld α) := ⟨[], List.nodup_nil, by simp⟩

theorem Finite.put {sw : DL.SWorld α} (h : Finite sw) (k : Nat) (v : Option (List α)) : Finite (sw.put k v) := by
  obtain ⟨ks, h1, h2⟩ := h
  have hmem : ∀ x, x ∈ ks.erase k ↔ x ≠ k ∧ x ∈ ks := fun x => h1.mem_erase_iff
  cases v with
  | none =>
    refine ⟨ks.erase k, h1.erase k, fun x => ?_⟩
    rw [hmem, h2]
    unfold DL.SWorld.put
    by_cases hx : x = k <;> simp [hx]
  | some v =>
    refine ⟨k :: ks.erase k, List.nodup_cons.2 ⟨fun h => ((hmem k).1 h).1 rfl, h1.erase k⟩, fun x => ?_⟩
    rw [List.mem_cons, hmem, h2]
    unfold DL.SWorld.put
    by_cases hx : x = k <;> simp [hx]

theorem Finite.dstep {sw sw' : DL.SWorld α} (h : Finite sw) {op : DL.Op α}
    (hs : DL.specStep op sw = some sw') : Finite sw' := by
  cases op <;> simp only [DL.specStep, Option.bind_eq_some_iff] at hs
  case new => split at hs <;> cases hs; exact h.put _ _
  case newFill => split at hs <;> cases hs; exact h.put _ _
  case pushFront => obtain ⟨_, _, hs⟩ := hs; cases hs; exact h.put _ _
  case pushBack => obtain ⟨_, _, hs⟩ := hs; cases hs; exact h.put _ _
  case pushFrontElem => obtain ⟨_, _, _, _, _, _, hs⟩ := hs; cases hs; exact h.put _ _
  case pushBackElem => obtain ⟨_, _, _, _, _, _, hs⟩ := hs; cases hs; exact h.put _ _
  case set => obtain ⟨_, _, hs⟩ := hs; split at hs <;> cases hs; exact h.put _ _
  case popFront => obtain ⟨_, _, hs⟩ := hs; split at hs <;> cases hs; exact h.put _ _
  case popBack => obtain ⟨_, _, hs⟩ := hs; split at hs <;> cases hs; exact h.put _ _
  case clear => obtain ⟨_, _, hs⟩ := hs; cases hs; exact h.put _ _
  case copy => obtain ⟨_, _, _, _, hs⟩ := hs; cases hs; exact h.put _ _
  case move =>
    obtain ⟨_, _, _, _, hs⟩ := hs
    split at hs <;> cases hs
    · exact h
    · exact (h.put _ _).put _ _
  case drop => obtain ⟨_, _, hs⟩ := hs; cases hs; exact h.put _ _

theorem Finite.sstep {sw sw' : DL.SWorld α} (h : Finite sw) {op : SL.Op α}
    (hs : SL.specStep op sw = some sw') : Finite sw' := by
  cases op <;> simp only [SL.specStep, Option.bind_eq_some_iff] at hs
  case new => split at hs <;> cases hs; exact h.put _ _
  case newFill => split at hs <;> cases hs; exact h.put _ _
  case pushFront => obtain ⟨_, _, hs⟩ := hs; cases hs; exact h.put _ _
  case pushBack => obtain ⟨_, _, hs⟩ := hs; cases hs; exact h.put _ _
  case popFront => obtain ⟨_, _, hs⟩ := hs; split at hs <;> cases hs; exact h.put _ _
  case popBack => obtain ⟨_, _, hs⟩ := hs; split at hs <;> cases hs; exact h.put _ _
  case push => obtain ⟨_, _, hs⟩ := hs; cases hs; exact h.put _ _
  case pop => obtain ⟨_, _, hs⟩ := hs; split at hs <;> cases hs; exact h.put _ _
  case clear => obtain ⟨_, _, hs⟩ := hs; cases hs; exact h.put _ _
  case copy => obtain ⟨_, _, _, _, hs⟩ := hs; cases hs; exact h.put _ _
  case move =>
    obtain ⟨_, _, _, _, hs⟩ := hs
    split at hs <;> cases hs
    · exact h
    · exact (h.put _ _).put _ _
  case drop => obtain ⟨_, _, hs⟩ := hs; cases hs; exact h.put _ _

/-- The nodes of the lists `ks`. -/
def nodesOf (g : Nat → Option (List (Nat × α))) : List Nat → List Nat
  | [] => []
  | k :: ks => ((g k).getD []).map Prod.fst ++ nodesOf g ks

theorem mem_nodesOf {g : Nat → Option (List (Nat × α))} {ks : List Nat} {n : Nat} :
    n ∈ nodesOf g ks ↔ ∃ k ∈ ks, ∃ ns, g k = some ns ∧ Ptr.node n ∈ ptrs ns := by
  induction ks with
  | nil => simp [nodesOf]
  | cons k ks ih =>
    simp only [nodesOf, List.mem_append, ih, List.mem_cons]
    have : (n ∈ ((g k).getD []).map Prod.fst) ↔ ∃ ns, g k = some ns ∧ Ptr.node n ∈ ptrs ns := by
      rcases e : g k with _ | ns
      · simp
      · simp
    rw [this]
    constructor
    · rintro (h | ⟨j, hj, h⟩)
      · exact ⟨k, Or.inl rfl, h⟩
      · exact ⟨j, Or.inr hj, h⟩
    · rintro ⟨j, rfl | hj, h⟩
      · exact Or.inl h
      · exact Or.inr ⟨j, hj, h⟩

theorem nodup_nodesOf {m : Mem α} {g : Nat → Option (List (Nat × α))} (h : WInv kd m g) {ks : List Nat}
    (hks : ks.Nodup) : (nodesOf g ks).Nodup := by
  induction ks with
  | nil => exact List.nodup_nil
  | cons k ks ih =>
    rw [List.nodup_cons] at hks
    unfold nodesOf
    rcases e : g k with _ | ns
    · simpa using ih hks.2
    · refine List.nodup_append.2 ⟨?_, ih hks.2, ?_⟩
      · have := (List.nodup_cons.1 (h.alive k ns e).nodup).2
        show (ns.map Prod.fst).Nodup
        rw [show ptrs ns = (ns.map Prod.fst).map Ptr.node by rw [List.map_map]; rfl] at this
        exact List.Pairwise.of_map Ptr.node (fun a b hab e => hab (e ▸ rfl)) this
      · intro a ha b hb hab
        subst hab
        obtain ⟨j, hj, ms, g1, g2⟩ := mem_nodesOf.1 hb
        have hjk : j ≠ k := fun e => hks.1 (e ▸ hj)
        refine h.sep j k ms ns hjk g1 e _ g2 ?_
        obtain ⟨x, hx, rfl⟩ := List.mem_map.1 ha
        exact List.mem_map.2 ⟨x, hx, rfl⟩

theorem length_nodesOf {g : Nat → Option (List (Nat × α))} {ks : List Nat} :
    (nodesOf g ks).length = (ks.map fun k => ((DL.abs g k).getD []).length).sum := by
  induction ks with
  | nil => rfl
  | cons k ks ih =>
    unfold nodesOf
    rw [List.length_append, ih, List.map_cons, List.sum_cons]
    congr 1
    unfold DL.abs
    rcases g k with _ | ns <;> simp

/-- The number of allocated nodes is the number of elements. -/
theorem WInv.total {m : Mem α} {g : Nat → Option (List (Nat × α))} (h : WInv kd m g)
    (hf : Finite (DL.abs g)) {bs : List Nat} (hb : bs.Nodup) (hm : ∀ n, n ∈ bs ↔ m.cell (.node n) ≠ none) :
    Total (DL.abs g) bs.length := by
  obtain ⟨ks, h1, h2⟩ := hf
  refine ⟨ks, h1, h2, ?_⟩
  rw [← length_nodesOf]
  refine ((List.perm_ext_iff_of_nodup hb (nodup_nodesOf h h1)).2 fun n => ?_).length_eq
  rw [hm, mem_nodesOf]
  constructor
  · intro hn
    obtain ⟨k, ns, e1, e2⟩ := h.owned n hn
    exact ⟨k, (h2 k).2 (by simp [DL.abs, e1]), ns, e1, e2⟩
  · rintro ⟨k, _, ns, e1, e2⟩
    exact known_mem h e1 (List.mem_cons_of_mem _ e2)

theorem Total.det {sw : DL.SWorld α} {n n' : Nat} (h : Total sw n) (h' : Total sw n') : n = n' := by
  obtain ⟨ks, h1, h2, rfl⟩ := h
  obtain ⟨ls, g1, g2, rfl⟩ := h'
  have hp : ks.Perm ls := (List.perm_ext_iff_of_nodup h1 g1).2 fun k => (h2 k).trans (g2 k).symm
  exact (hp.map _).sum_nat

/-- Too many nodes are too many elements. -/
theorem Over.total {m : Mem α} {g : Nat → Option (List (Nat × α))} (h : WInv kd m g)
    (hf : Finite (DL.abs g)) (hG : G.solo) (ho : Over c G kd K m) :
    ∃ n, Total (DL.abs g) n ∧ c.M / (8 * nodeWords kd K) < n := by
  obtain ⟨ks, h1, h2⟩ := hf
  refine ⟨_, ⟨ks, h1, h2, rfl⟩, ?_⟩
  obtain ⟨bs, b1, b2, b3⟩ := ho hG
  rw [← length_nodesOf]
  refine Nat.lt_of_lt_of_le b3 ?_
  refine List.Nodup.length_le_of_subset b1 fun n hn => ?_
  obtain ⟨k, ns, e1, e2⟩ := h.owned n (b2 n hn)
  exact mem_nodesOf.2 ⟨k, (h2 k).2 (by simp [DL.abs, e1]), ns, e1, e2⟩

theorem R.total {f : Nat → Nat} {m : Mem α} {w : PMem α} {g : Nat → Option (List (Nat × α))}
    (hc : Sma.Legal c) (hG : G.solo) (hR : R c G kd K E f m w) (h : WInv kd m g) (hf : Finite (DL.abs g)) :
    ∃ n, Total (DL.abs g) n ∧ n ≤ c.M / (8 * nodeWords kd K) ∧ Returns Sma.freeMemSize w.pool
      ((c.M - n * (8 * nodeWords kd K) : Nat) : Int) w.pool ∧ n * (8 * nodeWords kd K) ≤ c.M := by
  obtain ⟨bs, h1, h2⟩ := hR.held
  obtain ⟨g1, g2⟩ := h1.count hc hG
  refine ⟨bs.length, WInv.total h hf h1.nodup h2, h1.le hc hG nodeWords_pos, ?_, g2⟩
  rw [Int.ofNat_sub g2]
  exact g1

theorem R.init {s0 s : Sma.St} (h : Returns (Sma.construct c) s0 () s) (f : Nat → Nat) :
    R c Slots.Env.own kd K E f (Mem.init : Mem α) (PMem.init s) := by
  refine ⟨fun _ _ => rfl, ?_, ?_, ?_, fun _ _ => rfl, rfl, ?_, ⟨[], Slots.Held.init h, ?_⟩, ?_, ?_⟩
  · intro p x hx; cases hx
  · intro k; trivial
  · intro k x hx; cases hx
  · intro k; rfl
  · intro n; simp [Mem.init]
  · intro n x hx; cases hx
  · intro n x hx; cases hx

/-! ## Doubly linked lists -/

section
variable {f : Nat → Nat} {m : Mem α} {w : PMem α} {sw sw' : DL.SWorld α}

theorem dStep_any (hc : Sma.Legal c) (hfit : 8 * nodeWords .doubly K + 8 < 2 ^ 31) (dflt : Option α)
    (h : DL.Holds m sw) (hR : R c G .doubly K E f m w) {op : DL.Op α}
    (hs : DL.specStep op sw = some sw') (ha : DL.Avoids op sw) :
    (((G.solo → Finite sw → ∃ n, Total sw' n ∧ c.M / (8 * nodeWords .doubly K) < n) ∧
      (md = .port → dStop c (nodeWords .doubly K) w.pool op)) ∧
      Faults (LPool.D.step (poolNodes md c .doubly K E) dflt op) w .crash) ∨
    ∃ w' f' m', Returns (LPool.D.step (poolNodes md c .doubly K E) dflt op) w () w' ∧
        DL.Holds m' sw' ∧ R c G .doubly K E f' m' w' := by
  obtain ⟨_, m', r1, g, h1, rfl⟩ := DL.step_ok (dflt := dflt) h hs ha
  rw [← LPool.D.step_mem] at r1
  rcases dStep_sim hc hfit hR dflt op _ _ r1 with ⟨⟨h2, h4⟩, h3⟩ | ⟨_, w', f', h2, _, h3, _⟩
  · exact Or.inl ⟨⟨fun hG hf => Over.total h1 (hf.dstep hs) hG h2, h4⟩, h3⟩
  · exact Or.inr ⟨w', f', m', h2, ⟨g, h1, rfl⟩, h3⟩

theorem dStep_pool (hc : Sma.Legal c) (hG : G.solo) (hfit : 8 * nodeWords .doubly K + 8 < 2 ^ 31) (dflt : Option α)
    (h : DL.Holds m sw) (hR : R c G .doubly K E f m w) (hf : Finite sw) {op : DL.Op α}
    (hs : DL.specStep op sw = some sw') (ha : DL.Avoids op sw) :
    ((∃ n, Total sw' n ∧ c.M / (8 * nodeWords .doubly K) < n) ∧
      Faults (LPool.D.step (poolNodes md c .doubly K E) dflt op) w .crash) ∨
    ((∃ n, Total sw' n ∧ n ≤ c.M / (8 * nodeWords .doubly K)) ∧
      ∃ w' f' m', Returns (LPool.D.step (poolNodes md c .doubly K E) dflt op) w () w' ∧
        DL.Holds m' sw' ∧ R c G .doubly K E f' m' w') := by
  rcases dStep_any (md := md) hc hfit dflt h hR hs ha with ⟨⟨h2, _⟩, h3⟩ | ⟨w', f', m', h1, h2, h3⟩
  · exact Or.inl ⟨h2 hG hf, h3⟩
  · obtain ⟨g, g1, rfl⟩ := h2
    obtain ⟨n, t1, t2, _⟩ := R.total hc hG h3 g1 (hf.dstep hs)
    exact Or.inr ⟨⟨n, t1, t2⟩, w', f', m', h1, ⟨g, g1, rfl⟩, h3⟩

theorem dShows_pool (hc : Sma.Legal c) (h : DL.Holds m sw) (hR : R c G .doubly K E f m w) :
    LPool.D.Shows md c K E w sw := by
  intro k
  obtain ⟨h1, h2⟩ := h.shows k
  refine ⟨fun hk => hR.dead k (h1 hk), fun l hl => ?_⟩
  obtain ⟨g1, g2, g3, g4, g5, g6⟩ := h2 l hl
  obtain ⟨g, hW, _⟩ := h
  refine ⟨?_, ?_, ?_, ?_, fun x hx => ?_, fun x hx => ?_⟩
  · rw [← iterate_mem] at g1
    exact (iterate_sim hc hR k).observe (ro_iterate k) g1
  · rw [← LPool.D.backward_mem] at g2
    exact (backward_sim hc hR k fun p x hn hx => ⟨known_next hW p x hn hx, known_prev hW p x hn hx⟩).observe
      (ro_backward k) g2
  · exact (getSize_sim hR k).observe (ro_getSize k) g3
  · exact (empty_sim hc hR k).observe (ro_empty k) g4
  · exact (front_sim hc hR k).observe (ro_front k) (g5 x hx)
  · exact (dBack_sim hc hR k).observe (ro_dBack k) (g6 x hx)

theorem dRun_pool (hc : Sma.Legal c) (hG : G.solo) (hfit : 8 * nodeWords .doubly K + 8 < 2 ^ 31) (dflt : Option α)
    (ops : List (DL.Op α)) {f : Nat → Nat} {m : Mem α} {w : PMem α} {sw sw' : DL.SWorld α}
    (h : DL.Holds m sw) (hR : R c G .doubly K E f m w) (hf : Finite sw)
    (hs : DL.specRun ops sw = some sw') (ha : DL.AvoidsAll ops sw) :
    (¬ LPool.D.FitsAll (c.M / (8 * nodeWords .doubly K)) ops sw ∧
      Faults (LPool.D.run (poolNodes md c .doubly K E) dflt ops) w .crash) ∨
    (LPool.D.FitsAll (c.M / (8 * nodeWords .doubly K)) ops sw ∧
      ∃ w' f' m', Returns (LPool.D.run (poolNodes md c .doubly K E) dflt ops) w () w' ∧
        DL.Holds m' sw' ∧ R c G .doubly K E f' m' w' ∧ Finite sw') := by
  induction ops generalizing f m w sw with
  | nil => cases hs; exact Or.inr ⟨trivial, w, f, m, rfl, h, hR, hf⟩
  | cons op ops ih =>
    obtain ⟨sw1, hs1, hs2⟩ := Option.bind_eq_some_iff.1 hs
    have hfa : LPool.D.FitsAll (c.M / (8 * nodeWords .doubly K)) (op :: ops) sw ↔
        (∃ n, Total sw1 n ∧ n ≤ c.M / (8 * nodeWords .doubly K)) ∧
        LPool.D.FitsAll (c.M / (8 * nodeWords .doubly K)) ops sw1 := by
      constructor
      · intro h; exact h sw1 hs1
      · intro h w' hw; rw [hs1] at hw; cases hw; exact h
    rcases dStep_pool hc hG hfit dflt h hR hf hs1 ha.1 with ⟨⟨n, t1, t2⟩, hcr⟩ | ⟨ht, w1, f1, m1, e1, e2, e3⟩
    · refine Or.inl ⟨fun hall => ?_, bind_faults hcr⟩
      obtain ⟨⟨n', t3, t4⟩, _⟩ := hfa.1 hall
      have := t1.det t3
      omega
    · have er : LPool.D.run (poolNodes md c .doubly K E) dflt (op :: ops) w =
        LPool.D.run (poolNodes md c .doubly K E) dflt ops w1 := bind_returns e1
      have := ih e2 e3 (hf.dstep hs1) hs2 (ha.2 sw1 hs1)
      unfold Faults Returns at *
      rw [er, hfa]
      rcases this with ⟨g1, g2⟩ | ⟨g1, g2⟩
      · exact Or.inl ⟨fun hall => g1 hall.2, g2⟩
      · exact Or.inr ⟨⟨ht, g1⟩, g2⟩

end

/-! ## Singly linked lists -/

section
variable {f : Nat → Nat} {m : Mem α} {w : PMem α} {sw sw' : DL.SWorld α}

theorem sStep_any (hc : Sma.Legal c) (hfit : 8 * nodeWords .singly K + 8 < 2 ^ 31) (dflt : Option α)
    (h : SL.Holds m sw) (hR : R c G .singly K E f m w) {op : SL.Op α}
    (hs : SL.specStep op sw = some sw') (ha : SL.Avoids op sw) :
    (((G.solo → Finite sw → ∃ n, Total sw' n ∧ c.M / (8 * nodeWords .singly K) < n) ∧
      (md = .port → sStop c (nodeWords .singly K) w.pool op)) ∧
      Faults (LPool.S.step (poolNodes md c .singly K E) dflt op) w .crash) ∨
    ∃ w' f' m', Returns (LPool.S.step (poolNodes md c .singly K E) dflt op) w () w' ∧
        SL.Holds m' sw' ∧ R c G .singly K E f' m' w' := by
  obtain ⟨_, m', r1, g, h1, h0, rfl⟩ := SL.step_ok (dflt := dflt) h hs ha
  rw [← LPool.S.step_mem] at r1
  obtain ⟨g0, hW, hT, _⟩ := h
  rcases sStep_sim hc hfit hR (known_next hW) (known_tail hW hT) dflt op _ _ r1 with ⟨⟨h2, h4⟩, h3⟩ | ⟨_, w', f', h2, _, h3, _⟩
  · exact Or.inl ⟨⟨fun hG hf => Over.total h1 (hf.sstep hs) hG h2, h4⟩, h3⟩
  · exact Or.inr ⟨w', f', m', h2, ⟨g, h1, h0, rfl⟩, h3⟩

theorem sStep_pool (hc : Sma.Legal c) (hG : G.solo) (hfit : 8 * nodeWords .singly K + 8 < 2 ^ 31) (dflt : Option α)
    (h : SL.Holds m sw) (hR : R c G .singly K E f m w) (hf : Finite sw) {op : SL.Op α}
    (hs : SL.specStep op sw = some sw') (ha : SL.Avoids op sw) :
    ((∃ n, Total sw' n ∧ c.M / (8 * nodeWords .singly K) < n) ∧
      Faults (LPool.S.step (poolNodes md c .singly K E) dflt op) w .crash) ∨
    ((∃ n, Total sw' n ∧ n ≤ c.M / (8 * nodeWords .singly K)) ∧
      ∃ w' f' m', Returns (LPool.S.step (poolNodes md c .singly K E) dflt op) w () w' ∧
        SL.Holds m' sw' ∧ R c G .singly K E f' m' w') := by
  rcases sStep_any (md := md) hc hfit dflt h hR hs ha with ⟨⟨h2, _⟩, h3⟩ | ⟨w', f', m', h1, h2, h3⟩
  · exact Or.inl ⟨h2 hG hf, h3⟩
  · obtain ⟨g, g1, g0, rfl⟩ := h2
    obtain ⟨n, t1, t2, _⟩ := R.total hc hG h3 g1 (hf.sstep hs)
    exact Or.inr ⟨⟨n, t1, t2⟩, w', f', m', h1, ⟨g, g1, g0, rfl⟩, h3⟩

theorem sShows_pool (hc : Sma.Legal c) (h : SL.Holds m sw) (hR : R c G .singly K E f m w) :
    LPool.S.Shows md c K E w sw := by
  intro k
  obtain ⟨h1, h2⟩ := h.shows k
  refine ⟨fun hk => hR.dead k (h1 hk), fun l hl => ?_⟩
  obtain ⟨g1, g3, g4, g5, g6⟩ := h2 l hl
  refine ⟨?_, ?_, ?_, fun x hx => ?_, fun x hx => ?_⟩
  · rw [← iterate_mem] at g1
    exact (iterate_sim hc hR k).observe (ro_iterate k) g1
  · exact (getSize_sim hR k).observe (ro_getSize k) g3
  · exact (empty_sim hc hR k).observe (ro_empty k) g4
  · exact (front_sim hc hR k).observe (ro_front k) (g5 x hx)
  · exact (sBack_sim hc hR k).observe (ro_sBack k) (g6 x hx)

theorem sRun_pool (hc : Sma.Legal c) (hG : G.solo) (hfit : 8 * nodeWords .singly K + 8 < 2 ^ 31) (dflt : Option α)
    (ops : List (SL.Op α)) {f : Nat → Nat} {m : Mem α} {w : PMem α} {sw sw' : DL.SWorld α}
    (h : SL.Holds m sw) (hR : R c G .singly K E f m w) (hf : Finite sw)
    (hs : SL.specRun ops sw = some sw') (ha : SL.AvoidsAll ops sw) :
    (¬ LPool.S.FitsAll (c.M / (8 * nodeWords .singly K)) ops sw ∧
      Faults (LPool.S.run (poolNodes md c .singly K E) dflt ops) w .crash) ∨
    (LPool.S.FitsAll (c.M / (8 * nodeWords .singly K)) ops sw ∧
      ∃ w' f' m', Returns (LPool.S.run (poolNodes md c .singly K E) dflt ops) w () w' ∧
        SL.Holds m' sw' ∧ R c G .singly K E f' m' w' ∧ Finite sw') := by
  induction ops generalizing f m w sw with
  | nil => cases hs; exact Or.inr ⟨trivial, w, f, m, rfl, h, hR, hf⟩
  | cons op ops ih =>
    obtain ⟨sw1, hs1, hs2⟩ := Option.bind_eq_some_iff.1 hs
    have hfa : LPool.S.FitsAll (c.M / (8 * nodeWords .singly K)) (op :: ops) sw ↔
        (∃ n, Total sw1 n ∧ n ≤ c.M / (8 * nodeWords .singly K)) ∧
        LPool.S.FitsAll (c.M / (8 * nodeWords .singly K)) ops sw1 := by
      constructor
      · intro h; exact h sw1 hs1
      · intro h w' hw; rw [hs1] at hw; cases hw; exact h
    rcases sStep_pool hc hG hfit dflt h hR hf hs1 ha.1 with ⟨⟨n, t1, t2⟩, hcr⟩ | ⟨ht, w1, f1, m1, e1, e2, e3⟩
    · refine Or.inl ⟨fun hall => ?_, bind_faults hcr⟩
      obtain ⟨⟨n', t3, t4⟩, _⟩ := hfa.1 hall
      have := t1.det t3
      omega
    · have er : LPool.S.run (poolNodes md c .singly K E) dflt (op :: ops) w =
        LPool.S.run (poolNodes md c .singly K E) dflt ops w1 := bind_returns e1
      have := ih e2 e3 (hf.sstep hs1) hs2 (ha.2 sw1 hs1)
      unfold Faults Returns at *
      rw [er, hfa]
      rcases this with ⟨g1, g2⟩ | ⟨g1, g2⟩
      · exact Or.inl ⟨fun hall => g1 hall.2, g2⟩
      · exact Or.inr ⟨⟨ht, g1⟩, g2⟩

end

end Verif.LPool
