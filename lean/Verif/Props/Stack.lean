import Verif.Stack
import Verif.VectorWorld

/-! # Property of `Stack` (C10) -/

namespace Verif.Stack

open Prog Vec

variable {α : Type}

/-! ## Specification: a stack is a list with its top first -/

abbrev Spec (α : Type) := Nat → Option (List α)

def Spec.put (w : Spec α) (k : Nat) (v : Option (List α)) : Spec α := fun x => if x = k then v else w x

/-- The meaning of one operation; `none` when its precondition fails. -/
def specStep : Op α → Spec α → Option (Spec α)
  | .new k, w => if (w k).isNone then some (w.put k (some [])) else none
  | .push k x, w => (w k).bind fun s => some (w.put k (some (x :: s)))
  | .pop k, w => match w k with
    | some (_ :: s) => some (w.put k (some s))
    | _ => none
  | .clear k, w => (w k).bind fun _ => some (w.put k (some []))
  | .copy d s, w => (w d).bind fun _ => (w s).bind fun t => some (w.put d (some t))
  | .move d s, w => (w d).bind fun _ => (w s).bind fun t =>
      if d = s then some w else some ((w.put d (some t)).put s (some []))
  | .drop k, w => (w k).bind fun _ => some (w.put k none)

def specRun : List (Op α) → Spec α → Option (Spec α)
  | [], w => some w
  | op :: ops, w => (specStep op w).bind (specRun ops)

/-- What the public observers show: `size()`, `empty()` and `top()` of every live stack. -/
def Shows (w : World α) (sw : Spec α) : Prop :=
  ∀ k, (sw k = none → w.obj k = none) ∧
    ∀ s, sw k = some s → ∃ v, w.obj k = some v ∧ v.sz = s.length ∧
      (∀ x t, s = x :: t → Returns (top v) w.mem x w.mem) ∧
      Returns (iterate v) w.mem s.reverse w.mem

/-- Copying a non-empty stack of a type with a non-trivial destructor hits the `Vector` copy
defect (C04). -/
def Avoids (triv : Bool) : Op α → Spec α → Prop
  | .copy d s, w => d = s ∨ triv = true ∨ w s = some []
  | _, _ => True

def AvoidsAll (triv : Bool) : List (Op α) → Spec α → Prop
  | [], _ => True
  | op :: ops, w => Avoids triv op w ∧ ∀ w', specStep op w = some w' → AvoidsAll triv ops w'

/-! ## Refinement -/

/-- Stack contents of a vector world. -/
def Abs (vw : SWorld α) (sw : Spec α) : Prop := ∀ k, sw k = (vw k).map (fun s => s.data.reverse)

theorem Abs.put {vw : SWorld α} {sw : Spec α} (h : Abs vw sw) (k : Nat) (v : Option (SVec α))
    (t : Option (List α)) (ht : t = v.map (fun s => s.data.reverse)) : Abs (vw.put k v) (sw.put k t) := by
  intro j
  simp only [SWorld.put, Spec.put]
  split
  · exact ht
  · exact h j

/-- A vector operation that implements a stack operation. -/
theorem via_vec {triv : Bool} {p : Prog (World α) Unit} {vop : Vec.Op α} {w : World α}
    {vw vw' : SWorld α} {sw' : Spec α} (hp : p = Vec.step triv vop) (hi : WInv w vw)
    (hs : Vec.specStep vop vw = some vw') (ha : Vec.Avoids triv vop vw) (habs : Abs vw' sw') :
    wp p (fun _ w' => ∃ vw', WInv w' vw' ∧ Abs vw' sw') w := by
  subst hp
  exact wp_mono (step_ok hi hs ha) (fun _ w' h => ⟨vw', h, habs⟩)

theorem step_refines {triv : Bool} {op : Op α} {w : World α} {vw : SWorld α} {sw sw' : Spec α}
    (hi : WInv w vw) (habs : Abs vw sw) (hs : specStep op sw = some sw') (ha : Avoids triv op sw) :
    wp (step triv op) (fun _ w' => ∃ vw', WInv w' vw' ∧ Abs vw' sw') w := by
  cases op with
  | new k =>
    simp only [specStep] at hs
    split at hs
    · rename_i hk
      cases hs
      have : vw k = none := by rw [habs k] at hk; simpa using hk
      refine via_vec (triv := triv) (vop := .new k) rfl hi (by simp [Vec.specStep, this]; rfl) trivial ?_
      exact habs.put k _ _ rfl
    · cases hs
  | push k x =>
    rcases hk : vw k with _ | s
    · simp [specStep, habs k, hk] at hs
    · simp only [specStep, habs k, hk, Option.map_some, Option.bind_some, Option.some.injEq] at hs
      subst hs
      refine via_vec (vop := .push k x) rfl hi (by simp [Vec.specStep, hk]; rfl) trivial ?_
      exact habs.put k _ _ (by simp)
  | pop k =>
    rcases hk : vw k with _ | s
    · simp [specStep, habs k, hk] at hs
    · simp only [specStep, habs k, hk, Option.map_some] at hs
      obtain ⟨v, g1, g2, g3⟩ := hi.alive k s hk
      rcases hr : s.data.reverse with _ | ⟨y, t⟩
      · simp [hr] at hs
      · simp only [hr, Option.some.injEq] at hs
        subst hs
        have hne : s.data ≠ [] := by intro h; simp [h] at hr
        have hpop := step_ok (triv := triv) (op := .pop k) hi (by simp [Vec.specStep, hk, hne]; rfl) trivial
        have hstep : step triv (.pop k) w = Vec.step triv (.pop k) w := by
          simp only [step, Vec.step, Vec.stepWith, Stack.pop]
          have hg : Returns (getObj k) w v w := by simp [Returns, getObj, g1]
          rw [bind_returns hg, bind_returns hg]
          have hb := back_ok g2 hne
          have hl : ∀ q : Prog (Mem α) Vec,
              lift (do let _ ← back v; q) w = lift q w := by
            intro q
            simp only [lift]
            rw [bind_returns hb]
          rw [Prog.bind_apply, Prog.bind_apply, hl]
          rfl
        obtain ⟨a, w', e1, e2⟩ := hpop
        refine ⟨a, w', by rw [hstep]; exact e1, _, e2, ?_⟩
        refine habs.put k _ _ ?_
        simp only [Option.map_some, Option.some.injEq]
        have : s.data = (y :: t).reverse := by rw [← hr]; simp
        rw [this]; simp
  | clear k =>
    rcases hk : vw k with _ | s
    · simp [specStep, habs k, hk] at hs
    · simp only [specStep, habs k, hk, Option.map_some, Option.bind_some, Option.some.injEq] at hs
      subst hs
      refine via_vec (vop := .clear k) rfl hi (by simp [Vec.specStep, hk]; rfl) trivial ?_
      exact habs.put k _ _ rfl
  | copy d s =>
    rcases hd : vw d with _ | t
    · simp [specStep, habs d, hd] at hs
    rcases hk : vw s with _ | r
    · simp [specStep, habs d, habs s, hd, hk] at hs
    simp only [specStep, habs d, habs s, hd, hk, Option.map_some, Option.bind_some,
      Option.some.injEq] at hs
    subst hs
    refine via_vec (vop := .copy d s) rfl hi (by simp [Vec.specStep, hd, hk]; rfl) ?_ ?_
    · rcases ha with ha | ha | ha
      · exact Or.inl ha
      · exact Or.inr (Or.inl ha)
      · right; right
        intro u hu
        rw [habs s, hu] at ha
        simpa using ha
    · exact habs.put d _ _ rfl
  | move d s =>
    rcases hd : vw d with _ | t
    · simp [specStep, habs d, hd] at hs
    rcases hk : vw s with _ | r
    · simp [specStep, habs d, habs s, hd, hk] at hs
    simp only [specStep, habs d, habs s, hd, hk, Option.map_some, Option.bind_some] at hs
    by_cases hds : d = s
    · rw [if_pos hds] at hs; cases hs
      exact via_vec (vop := .move d s) (vw' := vw) rfl hi (by simp [Vec.specStep, hk, hds])
        trivial habs
    · rw [if_neg hds] at hs; cases hs
      refine via_vec (vop := .move d s) rfl hi (by simp [Vec.specStep, hd, hk, hds]; rfl) trivial ?_
      exact (habs.put d (some r) _ rfl).put s _ _ rfl
  | drop k =>
    rcases hk : vw k with _ | s
    · simp [specStep, habs k, hk] at hs
    · simp only [specStep, habs k, hk, Option.map_some, Option.bind_some, Option.some.injEq] at hs
      subst hs
      refine via_vec (vop := .drop k) rfl hi (by simp [Vec.specStep, hk]; rfl) trivial ?_
      exact habs.put k _ _ rfl

theorem run_refines {triv : Bool} {ops : List (Op α)} {w : World α} {vw : SWorld α} {sw sw' : Spec α}
    (hi : WInv w vw) (habs : Abs vw sw) (hs : specRun ops sw = some sw') (ha : AvoidsAll triv ops sw) :
    wp (run triv ops) (fun _ w' => ∃ vw', WInv w' vw' ∧ Abs vw' sw') w := by
  induction ops generalizing w vw sw with
  | nil =>
    simp only [specRun, Option.some.injEq] at hs
    subst hs
    exact (wp_pure _ _ _).2 ⟨vw, hi, habs⟩
  | cons op ops ih =>
    simp only [specRun] at hs
    rcases h1 : specStep op sw with _ | s1
    · simp [h1] at hs
    · simp only [h1, Option.bind_some] at hs
      show wp (do step triv op; run triv ops) _ w
      rw [wp_bind]
      refine wp_mono (step_refines hi habs h1 ha.1) ?_
      rintro _ w1 ⟨vw1, hw1, ha1⟩
      exact ih hw1 ha1 hs (ha.2 s1 h1)

/-- **C10.**  After any legal history of stack operations every stack shows exactly the
elements pushed and not popped, most recent on top; nothing faults.  The guard `AvoidsAll`
excludes only copying a non-empty stack of a type with a non-trivial destructor, which is the
`Vector` copy defect of C04; it is vacuous for trivially destructible types. -/
theorem stack_lifo_partial (triv : Bool) (ops : List (Op α)) (sw : Spec α)
    (hs : specRun ops (fun _ => none) = some sw) (ha : AvoidsAll triv ops (fun _ => none)) :
    ∃ w, Returns (run triv ops) World.init () w ∧ Shows w sw := by
  obtain ⟨_, w, h1, vw, h2, h3⟩ := run_refines (triv := triv) WInv.init (fun _ => rfl) hs ha
  refine ⟨w, h1, ?_⟩
  intro k
  constructor
  · intro hk
    rw [h3 k] at hk
    exact h2.dead k (by simpa using hk)
  · intro s hk
    rw [h3 k] at hk
    rcases hv : vw k with _ | t
    · simp [hv] at hk
    · simp only [hv, Option.map_some, Option.some.injEq] at hk
      obtain ⟨v, g1, g2, g3⟩ := h2.alive k t hv
      refine ⟨v, g1, by rw [← hk]; simp [g2.size], ?_, ?_⟩
      · intro x r hx
        have hd : t.data = r.reverse ++ [x] := by
          have : t.data = t.data.reverse.reverse := by simp
          rw [this, hk, hx]; simp
        have hne : t.data ≠ [] := by simp [hd]
        have := back_ok g2 hne
        have hl : t.data.getLast hne = x := by simp [hd]
        rw [hl] at this
        exact this
      · rw [← hk, List.reverse_reverse]; exact iterate_ok g2

/-- Without copies no guard is needed, whatever the element type. -/
theorem stack_lifo (triv : Bool) (ops : List (Op α)) (sw : Spec α)
    (hc : ∀ op ∈ ops, ∀ d s, op ≠ .copy d s)
    (hs : specRun ops (fun _ => none) = some sw) :
    ∃ w, Returns (run triv ops) World.init () w ∧ Shows w sw := by
  refine stack_lifo_partial triv ops sw hs ?_
  generalize (fun _ => none : Spec α) = s0
  clear hs
  induction ops generalizing s0 with
  | nil => trivial
  | cons op ops ih =>
    refine ⟨?_, fun w' _ => ih (fun o ho => hc o (List.mem_cons_of_mem _ ho)) w'⟩
    have := hc op (List.mem_cons_self ..)
    cases op <;> simp_all [Avoids]

example : ∃ sw, specRun [Op.new 0, .push 0 1, .push 0 2, .push 0 3, .pop 0, .new 1, .copy 1 0, .pop 1]
    (fun _ => none) = some sw ∧ sw 0 = some [2, 1] ∧ sw 1 = some [1] := ⟨_, rfl, rfl, rfl⟩

/-- Popping (or asking for the top of) an empty stack stops at the assertion. -/
theorem stack_empty_pop (triv : Bool) (m : Mem α) (v : Vec) (h : v.sz = 0) :
    Faults (pop triv v) m .assert ∧ Faults (top v) m .assert := by
  have : Faults (back v) m .assert := bind_faults (faults_dassert (by omega) m)
  exact ⟨bind_faults this, this⟩

end Verif.Stack
