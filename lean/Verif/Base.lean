/-!
# Programs, faults and weakest preconditions

Every C++ function of the library is modelled by a term of `Prog σ α`: a
computation over a state `σ` that may return, go wrong, or fail to terminate.
-/

namespace Verif

open Lean.Order

/-- The ways an execution can go wrong.  The first seven are undefined behaviour, the
last two are the library's own run-time checks. -/
inductive Fault
  /-- access through `nullptr` -/
  | nullDeref
  /-- access through a pointer to storage that was released (or never obtained) -/
  | useAfterFree
  /-- access outside the bounds of a live block -/
  | outOfBounds
  /-- read of a slot that holds no object, or of an indeterminate pointer -/
  | uninit
  /-- destructor call on a slot that holds no object -/
  | badDestroy
  /-- deallocation of something that is not a live block of the stated size -/
  | badFree
  /-- signed integer overflow -/
  | overflow
  /-- a failed `DSTRUCT_ASSERT` (port/dstruct-port.h:39-43) -/
  | assert
  /-- `DSTRUCT_CRASH` (spec/DStructSpec.hpp:13-16) -/
  | crash
  deriving DecidableEq, Repr

/-- A program over state `σ`.  `none`: does not terminate.  `some (.error f)`: goes
wrong with `f`.  `some (.ok (a, s'))`: returns `a` and leaves state `s'`. -/
def Prog (σ α : Type) : Type := σ → Option (Except Fault (α × σ))

namespace Prog

variable {σ α β : Type}

protected def pure (a : α) : Prog σ α := fun s => some (.ok (a, s))

protected def bind (p : Prog σ α) (f : α → Prog σ β) : Prog σ β := fun s =>
  match p s with
  | none => none
  | some (.error e) => some (.error e)
  | some (.ok (a, s')) => f a s'

instance : Monad (Prog σ) where
  pure := Prog.pure
  bind := Prog.bind

instance : PartialOrder (Prog σ α) :=
  inferInstanceAs (PartialOrder (σ → Option (Except Fault (α × σ))))

instance : CCPO (Prog σ α) :=
  inferInstanceAs (CCPO (σ → Option (Except Fault (α × σ))))

instance : MonoBind (Prog σ) where
  bind_mono_left {α β a₁ a₂ f} h := by
    intro s
    have := h s
    show PartialOrder.rel (Prog.bind a₁ f s) (Prog.bind a₂ f s)
    unfold Prog.bind
    generalize a₁ s = x at *
    generalize a₂ s = y at *
    cases this
    · exact FlatOrder.rel.bot
    · exact FlatOrder.rel.refl
  bind_mono_right {α β a f₁ f₂} h := by
    intro s
    show PartialOrder.rel (Prog.bind a f₁ s) (Prog.bind a f₂ s)
    unfold Prog.bind
    rcases a s with _ | _ | ⟨x, s'⟩
    · exact FlatOrder.rel.refl
    · exact FlatOrder.rel.refl
    · exact h x s'

instance : LawfulMonad (Prog σ) := LawfulMonad.mk'
  (id_map := by
    intro α x; funext s; show Prog.bind _ _ _ = _; unfold Prog.bind
    rcases x s with _ | _ | ⟨x, s'⟩ <;> rfl)
  (pure_bind := by intros; rfl)
  (bind_assoc := by
    intro α β γ x f g; funext s
    show Prog.bind (Prog.bind x f) g s = Prog.bind x (fun a => Prog.bind (f a) g) s
    unfold Prog.bind
    rcases x s with _ | _ | ⟨x, s'⟩ <;> rfl)

/-- Read the whole state. -/
def get : Prog σ σ := fun s => some (.ok (s, s))

/-- Replace the whole state. -/
def set (s : σ) : Prog σ Unit := fun _ => some (.ok ((), s))

/-- Update the state. -/
def modify (f : σ → σ) : Prog σ Unit := fun s => some (.ok ((), f s))

/-- Go wrong. -/
def fail (f : Fault) : Prog σ α := fun _ => some (.error f)

/-- Continue only if `c` holds, otherwise go wrong with `f`. -/
def check (c : Prop) [Decidable c] (f : Fault) : Prog σ Unit := fun s =>
  if c then some (.ok ((), s)) else some (.error f)

/-- `if (c) p;` -/
def when (c : Prop) [Decidable c] (p : Prog σ Unit) : Prog σ Unit := if c then p else pure ()

/-- `DSTRUCT_ASSERT(c)` (port/dstruct-port.h:39-43): stops the program when `c` is false. -/
def dassert (c : Prop) [Decidable c] : Prog σ Unit := check c .assert

/-- Run the body for `i = lo, lo+1, …` while `i < hi` (a C++ `for` loop whose bound the
body does not change); the loop variable `acc` is threaded through. -/
def forRange {γ : Type} (n : Nat) (lo : Nat) (acc : γ) (f : Nat → γ → Prog σ γ) : Prog σ γ :=
  match n with
  | 0 => pure acc
  | n + 1 => do
    let acc ← f lo acc
    forRange n (lo + 1) acc f

/-- Run a list of unit programs in order. -/
def seqAll : List (Prog σ Unit) → Prog σ Unit
  | [] => pure ()
  | p :: ps => do p; seqAll ps

end Prog

/-! ## Outcomes -/

variable {σ α β : Type}

/-- `p` started in `s` returns `a` and leaves `s'`. -/
def Returns (p : Prog σ α) (s : σ) (a : α) (s' : σ) : Prop := p s = some (.ok (a, s'))

/-- `p` started in `s` goes wrong with fault `f`. -/
def Faults (p : Prog σ α) (s : σ) (f : Fault) : Prop := p s = some (.error f)

/-- `p` started in `s` never terminates. -/
def Diverges (p : Prog σ α) (s : σ) : Prop := p s = none

/-- Total correctness: `p` started in `s` terminates without fault, and the result and
final state satisfy `Q`. -/
def wp (p : Prog σ α) (Q : α → σ → Prop) (s : σ) : Prop :=
  ∃ a s', p s = some (.ok (a, s')) ∧ Q a s'

theorem wp_iff_returns (p : Prog σ α) (Q : α → σ → Prop) (s : σ) :
    wp p Q s ↔ ∃ a s', Returns p s a s' ∧ Q a s' := Iff.rfl

theorem wp_bind (p : Prog σ α) (f : α → Prog σ β) (Q : β → σ → Prop) (s : σ) :
    wp (p >>= f) Q s ↔ wp p (fun a s' => wp (f a) Q s') s := by
  unfold wp
  simp only [bind, Prog.bind]
  rcases h : p s with _ | _ | ⟨x, s'⟩
  · simp
  · simp
  · constructor
    · rintro ⟨a, t, h1, h2⟩; exact ⟨x, s', rfl, a, t, h1, h2⟩
    · rintro ⟨a, t, h1, h2⟩; cases h1; exact h2

theorem wp_pure (a : α) (Q : α → σ → Prop) (s : σ) :
    wp (pure a : Prog σ α) Q s ↔ Q a s := by
  constructor
  · rintro ⟨a', s', h, hq⟩; cases h; exact hq
  · intro h; exact ⟨a, s, rfl, h⟩

theorem wp_get (Q : σ → σ → Prop) (s : σ) : wp Prog.get Q s ↔ Q s s := by
  constructor
  · rintro ⟨a', s', h, hq⟩; cases h; exact hq
  · intro h; exact ⟨s, s, rfl, h⟩

theorem wp_set (t : σ) (Q : Unit → σ → Prop) (s : σ) : wp (Prog.set t) Q s ↔ Q () t := by
  constructor
  · rintro ⟨a', s', h, hq⟩; cases h; exact hq
  · intro h; exact ⟨(), t, rfl, h⟩

theorem wp_modify (f : σ → σ) (Q : Unit → σ → Prop) (s : σ) :
    wp (Prog.modify f) Q s ↔ Q () (f s) := by
  constructor
  · rintro ⟨a', s', h, hq⟩; cases h; exact hq
  · intro h; exact ⟨(), f s, rfl, h⟩

theorem wp_fail (f : Fault) (Q : α → σ → Prop) (s : σ) :
    wp (Prog.fail f : Prog σ α) Q s ↔ False := by
  constructor
  · rintro ⟨a', s', h, hq⟩; cases h
  · exact False.elim

theorem wp_check (c : Prop) [Decidable c] (f : Fault) (Q : Unit → σ → Prop) (s : σ) :
    wp (Prog.check c f) Q s ↔ c ∧ Q () s := by
  unfold wp Prog.check
  by_cases hc : c
  · simp only [hc, if_true, true_and]
    constructor
    · rintro ⟨a', s', h, hq⟩; cases h; exact hq
    · intro h; exact ⟨(), s, rfl, h⟩
  · simp [hc]

theorem wp_dassert (c : Prop) [Decidable c] (Q : Unit → σ → Prop) (s : σ) :
    wp (Prog.dassert c) Q s ↔ c ∧ Q () s := wp_check c _ Q s

theorem dassert_pos {c : Prop} [Decidable c] (h : c) : (Prog.dassert c : Prog σ Unit) = pure () := by
  funext s; simp only [Prog.dassert, Prog.check, h, if_true]; rfl

theorem dassert_neg {c : Prop} [Decidable c] (h : ¬ c) :
    (Prog.dassert c : Prog σ Unit) = Prog.fail .assert := by
  funext s; simp only [Prog.dassert, Prog.check, h, if_false]; rfl

theorem wp_ite (c : Prop) [Decidable c] (p q : Prog σ α) (Q : α → σ → Prop) (s : σ) :
    wp (if c then p else q) Q s ↔ (c → wp p Q s) ∧ (¬ c → wp q Q s) := by
  by_cases hc : c <;> simp [hc]

theorem wp_when (c : Prop) [Decidable c] (p : Prog σ Unit) (Q : Unit → σ → Prop) (s : σ) :
    wp (Prog.when c p) Q s ↔ (c → wp p Q s) ∧ (¬ c → Q () s) := by
  unfold Prog.when
  by_cases hc : c <;> simp [hc, wp_pure]

theorem wp_mono {p : Prog σ α} {Q R : α → σ → Prop} {s : σ}
    (h : wp p Q s) (hqr : ∀ a s', Q a s' → R a s') : wp p R s := by
  obtain ⟨a, s', e, hq⟩ := h
  exact ⟨a, s', e, hqr _ _ hq⟩

theorem wp_and {p : Prog σ α} {Q R : α → σ → Prop} {s : σ}
    (h : wp p Q s) (h' : wp p R s) : wp p (fun a s' => Q a s' ∧ R a s') s := by
  obtain ⟨a, s', e, hq⟩ := h
  obtain ⟨a', s'', e', hr⟩ := h'
  rw [e] at e'; cases e'
  exact ⟨a, s', e, hq, hr⟩

theorem Returns.wp {p : Prog σ α} {s : σ} {a : α} {s' : σ} (h : Returns p s a s')
    {Q : α → σ → Prop} (hq : Q a s') : wp p Q s := ⟨a, s', h, hq⟩

theorem wp_of_returns {p : Prog σ α} {s : σ} {a : α} {s' : σ} (h : Returns p s a s')
    (Q : α → σ → Prop) : wp p Q s ↔ Q a s' := by
  constructor
  · rintro ⟨b, t, e, hq⟩
    unfold Returns at h; rw [h] at e; cases e; exact hq
  · intro hq; exact ⟨a, s', h, hq⟩

/-! ## Running binds -/

theorem Returns.det {p : Prog σ α} {s : σ} {a b : α} {t u : σ}
    (h : Returns p s a t) (h' : Returns p s b u) : a = b ∧ t = u := by
  unfold Returns at *; rw [h] at h'; cases h'; exact ⟨rfl, rfl⟩

theorem bind_returns {p : Prog σ α} {f : α → Prog σ β} {s : σ} {a : α} {s' : σ}
    (h : Returns p s a s') : (p >>= f) s = f a s' := by
  unfold Returns at h
  simp only [bind, Prog.bind, h]

theorem bind_faults {p : Prog σ α} {f : α → Prog σ β} {s : σ} {e : Fault}
    (h : Faults p s e) : Faults (p >>= f) s e := by
  unfold Faults at *
  simp only [bind, Prog.bind, h]

theorem bind_diverges {p : Prog σ α} {f : α → Prog σ β} {s : σ}
    (h : Diverges p s) : Diverges (p >>= f) s := by
  unfold Diverges at *
  simp only [bind, Prog.bind, h]

theorem Prog.bind_apply (p : Prog σ α) (f : α → Prog σ β) (s : σ) :
    (p >>= f) s = match p s with
      | none => none
      | some (.error e) => some (.error e)
      | some (.ok (a, s')) => f a s' := rfl

theorem Prog.pure_apply (a : α) (s : σ) : (pure a : Prog σ α) s = some (.ok (a, s)) := rfl

/-- If `p` returns and the continuation then goes wrong, the composition goes wrong. -/
theorem faults_bind_of_wp {p : Prog σ α} {f : α → Prog σ β} {s : σ} {e : Fault}
    (h : wp p (fun a s' => Faults (f a) s' e) s) : Faults (p >>= f) s e := by
  obtain ⟨a, s', h1, h2⟩ := h
  unfold Faults
  rw [bind_returns h1]
  exact h2

/-- If `p` returns and the continuation then diverges, the composition diverges. -/
theorem diverges_bind_of_wp {p : Prog σ α} {f : α → Prog σ β} {s : σ}
    (h : wp p (fun a s' => Diverges (f a) s') s) : Diverges (p >>= f) s := by
  obtain ⟨a, s', h1, h2⟩ := h
  unfold Diverges
  rw [bind_returns h1]
  exact h2

theorem faults_fail (e : Fault) (s : σ) : Faults (Prog.fail e : Prog σ α) s e := rfl

theorem faults_dassert {c : Prop} [Decidable c] (h : ¬ c) (s : σ) :
    Faults (Prog.dassert c : Prog σ Unit) s .assert := by
  rw [dassert_neg h]; rfl

/-! ## Non-termination -/

/-- "Diverges on all inputs satisfying `P`" can be established by fixpoint induction. -/
theorem Prog.admissible_diverges {ι : Type} (P : ι → σ → Prop) :
    admissible (fun f : ι → Prog σ β => ∀ i s, P i s → f i s = none) := by
  refine admissible_pi_apply (fun i (g : Prog σ β) => ∀ s, P i s → g s = none) (fun i => ?_)
  refine admissible_pi_apply (α := σ) (β := fun _ => Option (Except Fault (β × σ)))
    (fun s x => P i s → x = none) (fun s => ?_)
  exact admissible_flatOrder _ (fun _ => rfl)

/-! ## Loops -/

/-- Invariant rule for `forRange`. -/
theorem wp_forRange {γ : Type} (I : Nat → γ → σ → Prop) (f : Nat → γ → Prog σ γ) (n lo : Nat)
    (acc : γ) (s : σ) (h0 : I lo acc s)
    (hstep : ∀ i a t, lo ≤ i → i < lo + n → I i a t → wp (f i a) (fun a' t' => I (i + 1) a' t') t) :
    wp (Prog.forRange n lo acc f) (fun a t => I (lo + n) a t) s := by
  induction n generalizing lo acc s with
  | zero => exact (wp_pure _ _ _).2 h0
  | succ n ih =>
    unfold Prog.forRange
    rw [wp_bind]
    refine wp_mono (hstep lo acc s (Nat.le_refl _) (by omega) h0) ?_
    intro a' t' hI
    have := ih (lo + 1) a' t' hI (fun i a t h1 h2 h3 => hstep i a t (by omega) (by omega) h3)
    rwa [show lo + 1 + n = lo + (n + 1) by omega] at this

end Verif
