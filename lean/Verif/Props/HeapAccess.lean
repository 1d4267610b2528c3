import Verif.Props.Heap
import Verif.HeapCost

/-! # Access to the elements of a `Heap` by index (C84) -/

namespace Verif.Heap

open Prog Vec

variable {α : Type}

/-- What the observers show of a heap whose loop visits `l`. -/
structure Access (R : α → α → Prop) (m : Mem α) (v : Vec) (l : List α) : Prop where
  iter : Returns (iterate v) m l m
  size : size v = l.length
  empty : empty v = l.isEmpty
  cap : v.cap < 2 ^ 64 → l.length ≤ capacity v
  /-- `h[1]`, …, `h[size()]` are the elements in the order of the loop … -/
  fwd : ∀ i (hi : i < l.length), Returns (at_ v (i + 1)) m l[i] m
  /-- … and `h[-1]`, …, `h[-size()]` the same backwards; -/
  bwd : ∀ i (hi : i < l.length), Returns (at_ v ((i : Int) - l.length)) m l[i] m
  /-- `h[1]` is the top; -/
  top : ∀ x, l.head? = some x → Returns (top v) m x m
  /-- the parent of `h[i]` is `h[i / 2]`; -/
  order : ∀ i x y, 2 ≤ i → Returns (at_ v (i / 2 : Nat)) m x m → Returns (at_ v i) m y m → R x y
  /-- an index beyond the last element is rejected. -/
  out : ∀ i : Int, (l.length : Int) < i → Faults (at_ v i) m .assert

theorem HRep.access {R : α → α → Prop} {cmp : α → α → Bool} (hc : Order R cmp) {m : Mem α} {v : Vec} {z : α}
    {hs : List α} (h : HRep R m v z hs) (hlen : hs.length ≤ 2 ^ 30) : Access R m v hs := by
  have hsz : v.sz = hs.length + 1 := by rw [h.rep.size]; simp
  have hidx := fun i hi => index_ok h.rep (by simp; omega) i hi
  have out : ∀ i : Int, (hs.length : Int) < i → Faults (at_ v i) m .assert := by
    intro i hi
    unfold at_ index
    refine bind_faults ?_
    have : ¬ (normIndex v i < Int.bmod v.sz (2 ^ 32)) := by
      unfold normIndex
      rw [if_neg (by omega), hsz, bmod32 _ (by omega) (by omega)]; omega
    unfold Faults dassert check; rw [if_neg this]
  refine ⟨iterate_ok h.rep, ?_, ?_, ?_, ?_, ?_, ?_, ?_, out⟩
  · unfold size; rw [hsz]; omega
  · unfold empty; rw [hsz]
    cases hs <;> simp
  · intro hcap
    have := (h.rep.buf h.ne).2.1
    unfold capacity
    simp only [List.length_cons] at this
    omega
  · intro i hi
    have := (hidx (i + 1) (by simp; omega)).1
    simp only [Int.natCast_add, Int.natCast_one, List.getElem_cons_succ] at this
    exact this
  · intro i hi
    have := (hidx (i + 1) (by simp; omega)).2
    have e : ((i + 1 : Nat) : Int) - ((z :: hs).length : Nat) = (i : Int) - hs.length := by simp; omega
    rw [e, List.getElem_cons_succ] at this
    exact this
  · intro x hx
    obtain ⟨t, rfl⟩ : ∃ t, hs = x :: t := by
      cases hs with
      | nil => cases hx
      | cons a t => cases hx; exact ⟨t, rfl⟩
    exact (top_ok hc h (by simp at hlen; omega)).1
  · intro i x y hi hx hy
    by_cases hb : i < hs.length + 1
    · have e1 := (hidx (i / 2) (by simp; omega)).1
      have e2 := (hidx i (by simp; omega)).1
      have g1 := (Returns.det hx e1).1
      have g2 := (Returns.det hy e2).1
      refine h.ord i x y (by omega) (by omega) (by omega) ?_ ?_
      · rw [g1]; exact List.getElem?_eq_getElem _
      · rw [g2]; exact List.getElem?_eq_getElem _
    · have := out i (by omega)
      rw [Faults, hy] at this; cases this

/-- A copy that hits the defect of C17 does not complete. -/
theorem step_avoids {R : α → α → Prop} {cmp : α → α → Bool} {triv : Bool} {op : Op α} {w w' : World α}
    {vw : SWorld α} {sw : Spec α} (hi : WInv w vw) (habs : Abs R vw sw) (hp : Pre op sw)
    (hr : Returns (step triv cmp op) w () w') : Avoids triv op := by
  have no : ∀ {e}, ¬ Faults (step triv cmp op) w e := fun hf => by rw [Faults, hr] at hf; cases hf
  cases op with
  | copy d s =>
    cases triv with
    | true => exact Or.inr rfl
    | false =>
      refine Or.inl (Classical.byContradiction fun hds => ?_)
      cases hs' : sw s with
      | none => exact hp.2 hs'
      | some t =>
        cases hd' : sw d with
        | none => exact hp.1 hd'
        | some t' =>
          obtain ⟨v, z, hl, cap, g1, g2, _⟩ := habs.get hi hs'
          obtain ⟨v', z', hl', cap', g1', g2', _⟩ := habs.get hi hd'
          exact no (step_copy_faults hi hds g2' g2 (by simp))
  | newCopy d s =>
    cases triv with
    | true => rfl
    | false =>
      exfalso
      cases hs' : sw s with
      | none => exact hp.2 hs'
      | some t =>
        have hds : d ≠ s := by rintro rfl; rw [hp.1] at hs'; cases hs'
        obtain ⟨v, z, hl, cap, g1, g2, _⟩ := habs.get hi hs'
        refine no (e := .badDestroy) ?_
        rw [step]
        refine faults_bind_of_wp (wp_mono (new_ok hi (habs.dead d hp.1)) ?_)
        rintro _ w1 i1
        exact step_copy_faults i1 hds (t := ⟨[], 0⟩) (u := ⟨z :: hl, cap⟩) (by simp [SWorld.put])
          (by simp [SWorld.put, Ne.symm hds, g2]) (by simp)
  | _ => trivial

/-- A legal history that completes follows the specification. -/
theorem run_completed {R : α → α → Prop} {cmp : α → α → Bool} (hc : Order R cmp) {triv : Bool}
    {ops : List (Op α)} {w w' : World α} {vw : SWorld α} {sw : Spec α} (hi : WInv w vw) (habs : Abs R vw sw)
    (hl : Legal R ops sw) (hr : Returns (run triv cmp ops) w () w') :
    ∃ vw' sw', WInv w' vw' ∧ Abs R vw' sw' ∧ specRun R ops sw sw' := by
  induction ops generalizing w vw sw with
  | nil =>
    cases hr
    exact ⟨vw, sw, hi, habs, rfl⟩
  | cons op ops ih =>
    have hw := hr.wp (Q := fun _ t => t = w') rfl
    simp only [run, List.map_cons, seqAll] at hw
    rw [wp_bind] at hw
    obtain ⟨_, w1, e1, _, w2, e2, rfl⟩ := hw
    obtain ⟨_, w1', e1', vw1, sw1, i1, a1, s1⟩ := step_refines hc hi habs hl.1 (step_avoids hi habs hl.1 e1)
    cases (Returns.det e1' e1).2
    obtain ⟨vw2, sw2, i2, a2, s2⟩ := ih i1 a1 (hl.2 sw1 s1) e2
    exact ⟨vw2, sw2, i2, a2, sw1, s1, s2⟩

/-- **C84.**  After every legal history that completes, the elements of each heap are `h[1]`, …, `h[size()]` in the order
of the loop, from the back `h[-1]`, …; `h[1]` is the top, and no element precedes the one at half its index. -/
theorem heap_access {R : α → α → Prop} {cmp : α → α → Bool} (hc : Order R cmp) (triv : Bool)
    (ops : List (Op α)) (hl : Legal R ops (fun _ => none)) (w : World α)
    (hr : Returns (run triv cmp ops) World.init () w) :
    ∃ sw, specRun R ops (fun _ => none) sw ∧
      ∀ k s, sw k = some s → ∃ v, ∃ l : List α, w.obj k = some v ∧ (l : Multiset α) = s ∧ Access R w.mem v l := by
  obtain ⟨vw, sw, h2, h3, h4⟩ := run_completed hc WInv.init (Abs.init R) hl hr
  refine ⟨sw, h4, fun k s hk => ?_⟩
  obtain ⟨v, z, hs, cap, g1, _, _, g4, g5, g6⟩ := h3.get h2 hk
  exact ⟨v, hs, g1, g5, g4.access hc g6⟩

/-- **C84** (`capacity()`).  A push changes the capacity exactly if the heap is full, `size() == capacity()`,
and then to one more than twice the size. -/
theorem heap_capacity {R : α → α → Prop} {cmp : α → α → Bool} (hc : Order R cmp) (triv : Bool)
    (ops : List (Op α)) (hl : Legal R ops (fun _ => none)) (w : World α)
    (hr : Returns (run triv cmp ops) World.init () w) {k : Nat} {v : Vec} (hk : w.obj k = some v)
    (hlen : size v < 2 ^ 30) (hcap : v.cap < 2 ^ 64) (x : α) :
    size v ≤ capacity v ∧ ∃ w' v', Returns (step triv cmp (.push k x)) w () w' ∧ w'.obj k = some v' ∧
      size v' = size v + 1 ∧ capacity v' = if size v = capacity v then 2 * size v + 1 else capacity v := by
  obtain ⟨vw, sw, hi, habs, _⟩ := run_completed hc WInv.init (Abs.init R) hl hr
  obtain ⟨s, hs⟩ : ∃ s, sw k = some s := by
    cases e : sw k with
    | none => rw [hi.dead k (habs.dead k e)] at hk; cases hk
    | some s => exact ⟨s, rfl⟩
  obtain ⟨v', z, l, cap, g1, _, _, g4, g5, g6⟩ := habs.get hi hs
  rw [hk] at g1; cases g1
  have ha := g4.access hc g6
  have hsz : v.sz = l.length + 1 := by rw [g4.rep.size]; simp
  have hle : v.sz ≤ v.cap := by
    have := (g4.rep.buf g4.ne).2.1
    simp only [List.length_cons] at this
    omega
  have e1 : size v = l.length := ha.size
  have e2 : capacity v = v.cap - 1 := by unfold capacity; omega
  refine ⟨by omega, ?_⟩
  have hp : wp (push triv cmp v (.val x)) (fun v' _ => v'.sz = v.sz + 1 ∧
      v'.cap = if v.sz < v.cap then v.cap else if v.sz = 0 then 2 else 2 * v.sz) w.mem := by
    obtain ⟨v', m', r, _⟩ := push_ok hc (triv := triv) hi.wf g4 (by omega) (val_get x _) (fun _ => Or.inl rfl)
    have : wlp (push triv cmp v (.val x)) (fun v' _ => v'.sz = v.sz + 1 ∧
        v'.cap = if v.sz < v.cap then v.cap else if v.sz = 0 then 2 else 2 * v.sz) w.mem :=
      wlp_bind (wlp_mono pushBack_vec fun _ _ h => wlp_bind fun _ _ _ => wlp_pure h)
    exact ⟨v', m', r, this _ _ r⟩
  have hst : wp (step triv cmp (.push k x)) (fun _ w' => ∃ v', w'.obj k = some v' ∧
      size v' = size v + 1 ∧ capacity v' = if size v = capacity v then 2 * size v + 1 else capacity v) w := by
    rw [step, wp_bind, wp_getObj hk, wp_bind, wp_lift]
    refine wp_mono hp ?_
    rintro v' m' ⟨r1, r2⟩
    rw [wp_putObj]
    refine ⟨v', by simp, by unfold size; omega, ?_⟩
    rw [e1, e2]
    unfold capacity
    rw [r2]
    split <;> split <;> first | omega | (split <;> omega)
  obtain ⟨_, w', h1, v', h2⟩ := hst
  exact ⟨w', v', h1, h2⟩

/-- A push or a pop. -/
def Op.pushPop (k : Nat) : Op α → Prop
  | .push j _ => j = k
  | .pop j => j = k
  | _ => False

theorem run_pushPop {R : α → α → Prop} {cmp : α → α → Bool} (hc : Order R cmp) {triv : Bool} {k : Nat} {z : α}
    {ops : List (Op α)} {w : World α} {v : Vec} {hs : List α} (hob : w.obj k = some v) (hw : w.mem.WF)
    (h : HRep R w.mem v z hs) (hb : hs.length ≤ 2 ^ 30) (sw : Spec α) (hsw : sw k = some (hs : Multiset α)) (hl : Legal R ops sw)
    (hp : ∀ op ∈ ops, op.pushPop k) :
    wp (run triv cmp ops) (fun _ w' => ∃ v' hs', w'.obj k = some v' ∧ HRep R w'.mem v' z hs' ∧
      hs'.length ≤ 2 ^ 30) w := by
  induction ops generalizing w v hs sw with
  | nil => exact (wp_pure _ _ _).2 ⟨v, hs, hob, h, hb⟩
  | cons op ops ih =>
    show wp (do step triv cmp op; run triv cmp ops) _ w
    rw [wp_bind]
    have h1 := hp op (List.mem_cons_self ..)
    have h2 : ∀ o ∈ ops, o.pushPop k := fun o ho => hp o (List.mem_cons_of_mem _ ho)
    cases op with
    | push j x =>
      cases (show j = k from h1)
      obtain ⟨s, e1, e2⟩ := hl.1
      rw [hsw] at e1; cases e1
      simp only [Multiset.coe_card] at e2
      rw [step, wp_bind, wp_getObj hob, wp_bind, wp_lift]
      refine wp_mono (push_ok hc hw h (by omega) (val_get x _) (fun _ => Or.inl rfl)) ?_
      rintro v' m' ⟨hs', g1, g2, g3, g4⟩
      rw [wp_putObj]
      have hlen : hs'.length ≤ 2 ^ 30 := by rw [g2.length_eq]; simp; omega
      refine ih (by simp) g4 g1 hlen (sw.put k (some (x ::ₘ (hs : Multiset α)))) ?_ (hl.2 _ ⟨_, hsw, rfl⟩) h2
      simp only [Spec.put, if_true, Option.some.injEq, Multiset.cons_coe]
      exact Multiset.coe_eq_coe.2 g2.symm
    | pop j =>
      cases (show j = k from h1)
      obtain ⟨s, e1, e2⟩ := hl.1
      rw [hsw] at e1; cases e1
      rcases hs with _ | ⟨x, t⟩
      · exact absurd rfl e2
      have hx := fun hb => (top_ok hc h hb).2
      have hlt := hb
      simp only [List.length_cons] at hlt
      rw [step, wp_bind, wp_getObj hob, wp_bind, wp_lift]
      refine wp_mono (pop_ok hc hw h (by omega)) ?_
      rintro v' m' ⟨hs', g1, g2, g3, g4⟩
      rw [wp_putObj]
      have hlen : hs'.length ≤ 2 ^ 30 := by rw [g2.length_eq]; omega
      refine ih (by simp) g4 g1 hlen (sw.put k (some (t : Multiset α))) ?_ (hl.2 _ ⟨x, t, ?_, ?_, rfl⟩) h2
      · simp only [Spec.put, if_true, Option.some.injEq]
        exact Multiset.coe_eq_coe.2 g2.symm
      · rw [hsw]; rfl
      · intro y hy
        exact hx (by omega) y (List.mem_cons_of_mem _ (by simpa using hy))
    | _ => exact absurd h1 (by simp [Op.pushPop])

/-- **C84, the failing case of the usual reading.**  Counting from 0 does not enumerate the elements: `h[0]` is the
object given to the constructor (`T()` by default), after any legal pushes and pops, whether or not it
was ever pushed; so is `h[-size() - 1]`. -/
theorem heap_access_zero {R : α → α → Prop} {cmp : α → α → Bool} (hc : Order R cmp) (triv : Bool) (obj : α)
    (ops : List (Op α)) (hp : ∀ op ∈ ops, op.pushPop 0) (hl : Legal R (.new 0 obj :: ops) (fun _ => none)) :
    ∃ w v, Returns (run triv cmp (.new 0 obj :: ops)) World.init () w ∧ w.obj 0 = some v ∧
      Returns (at_ v 0) w.mem obj w.mem ∧ Returns (at_ v (-size v - 1)) w.mem obj w.mem := by
  have hr : wp (run triv cmp (.new 0 obj :: ops)) (fun _ w' => ∃ v' hs', w'.obj 0 = some v' ∧
      HRep R w'.mem v' obj hs' ∧ hs'.length ≤ 2 ^ 30) World.init := by
    show wp (do step triv cmp (.new 0 obj); run triv cmp ops) _ _
    rw [wp_bind, step, wp_bind, wp_lift]
    refine wp_mono (ctor_ok (R := R) WInv.init.wf obj) ?_
    rintro v' m' ⟨h1, h2, h3⟩
    rw [wp_putObj]
    exact run_pushPop hc (by simp) h3 h1 (by simp) _ (by simp [Spec.put]) (hl.2 _ rfl) hp
  obtain ⟨_, w, h1, v, hs, h2, h3, h4⟩ := hr
  obtain ⟨e1, e2⟩ := index_ok h3.rep (by simp; omega) 0 (by simp)
  refine ⟨w, v, h1, h2, e1, ?_⟩
  have e : -(size v : Int) - 1 = ((0 : Nat) : Int) - ((obj :: hs).length : Nat) := by
    rw [(h3.access hc h4).size]; simp; omega
  rw [e]
  exact e2

/-- A heap that was never given 7 has `h[0] = 7`. -/
example : ∃ w v, Returns (run true (fun a b : Int => decide (a < b)) [.new 0 7, .push 0 3, .push 0 1, .pop 0])
    World.init () w ∧ w.obj 0 = some v ∧ Returns (at_ v 0) w.mem 7 w.mem ∧ Returns (at_ v (-size v - 1)) w.mem 7 w.mem := by
  refine heap_access_zero (R := fun a b : Int => a ≤ b) ⟨fun a => Int.le_refl a, fun _ _ _ => Int.le_trans,
    fun _ _ h => by simp at h; omega, fun _ _ h => by simp at h; omega⟩ true 7 _ (by simp [Op.pushPop]) ?_
  refine ⟨rfl, ?_⟩
  rintro _ rfl
  refine ⟨⟨0, rfl, by simp⟩, ?_⟩
  rintro _ ⟨_, h, rfl⟩
  cases h
  refine ⟨⟨_, rfl, by simp⟩, ?_⟩
  rintro _ ⟨_, h, rfl⟩
  cases h
  exact ⟨⟨_, rfl, by simp⟩, fun _ _ => trivial⟩

/-- The hypotheses of `heap_access` for a history with a copy and a heap built from a range. -/
example : let ops := [Op.new 0 (0 : Int), .push 0 3, .newCopy 1 0, .newRange 2 0 [5, 2, 9]]
    Legal (fun a b : Int => a ≤ b) ops (fun _ => none) ∧
      ∃ w, Returns (run true (fun a b : Int => decide (a < b)) ops) World.init () w := by
  intro ops
  have hl : Legal (fun a b : Int => a ≤ b) ops (fun _ => none) := by
    refine ⟨rfl, ?_⟩
    rintro _ rfl
    refine ⟨⟨0, rfl, by simp⟩, ?_⟩
    rintro _ ⟨_, h, rfl⟩
    cases h
    refine ⟨⟨rfl, by simp [Spec.put]⟩, ?_⟩
    rintro _ rfl
    exact ⟨⟨rfl, by simp⟩, fun _ _ => trivial⟩
  obtain ⟨w, _, h, _⟩ := heap_copy_partial (R := fun a b : Int => a ≤ b) (cmp := fun a b => decide (a < b)) ⟨fun a => Int.le_refl a, fun _ _ _ => Int.le_trans,
    fun _ _ h => by simp at h; omega, fun _ _ h => by simp at h; omega⟩ true ops (by simp [ops, Avoids]) hl
  exact ⟨hl, w, h⟩

/-- A new heap is full: its first push changes the capacity from 0 to 1. -/
example : ∃ w v w' v', Returns (run true (fun a b : Int => decide (a < b)) [.new 0 7]) World.init () w ∧
    w.obj 0 = some v ∧ capacity v = 0 ∧
    Returns (step true (fun a b : Int => decide (a < b)) (.push 0 3)) w () w' ∧ w'.obj 0 = some v' ∧ capacity v' = 1 := by
  have hr : ∃ w v, Returns (run true (fun a b : Int => decide (a < b)) [.new 0 7]) World.init () w ∧
      w.obj 0 = some v ∧ v.sz = 1 ∧ v.cap = 1 := ⟨_, _, rfl, rfl, rfl, rfl⟩
  obtain ⟨w, v, h1, h2, h3, h4⟩ := hr
  have e1 : size v = 0 := by unfold size; omega
  have e2 : capacity v = 0 := by unfold capacity; omega
  obtain ⟨_, w', v', g1, g2, _, g3⟩ := heap_capacity (R := fun a b : Int => a ≤ b) ⟨fun a => Int.le_refl a,
    fun _ _ _ => Int.le_trans, fun _ _ h => by simp at h; omega, fun _ _ h => by simp at h; omega⟩ true
    [.new 0 7] ⟨rfl, fun _ _ => trivial⟩ w h1 h2 (by omega) (by omega) 3
  exact ⟨w, v, w', v', h1, h2, e2, g1, g2, by rw [g3, e1, e2]; rfl⟩

end Verif.Heap
