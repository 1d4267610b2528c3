import Verif.Base

/-! Partial correctness: what holds after a program if it returns. -/

namespace Verif

open Prog Lean.Order

variable {σ α β : Type}

/-- If the program returns, the result and the state afterwards satisfy `Q`. -/
def wlp (p : Prog σ α) (Q : α → σ → Prop) (s : σ) : Prop := ∀ a s', Returns p s a s' → Q a s'

theorem wlp_bind {p : Prog σ α} {f : α → Prog σ β} {Q : β → σ → Prop} {s : σ}
    (h : wlp p (fun a t => wlp (f a) Q t) s) : wlp (p >>= f) Q s := by
  intro b s' hr
  have hw := hr.wp (Q := fun x t => x = b ∧ t = s') ⟨rfl, rfl⟩
  rw [wp_bind] at hw
  obtain ⟨a, s1, e1, c, t, e2, rfl, rfl⟩ := hw
  exact h a s1 e1 _ _ e2

theorem wlp_mono {p : Prog σ α} {Q R : α → σ → Prop} {s : σ} (h : wlp p Q s) (hq : ∀ a t, Q a t → R a t) : wlp p R s :=
  fun a t hr => hq a t (h a t hr)

theorem wlp_pure {a : α} {Q : α → σ → Prop} {s : σ} (h : Q a s) : wlp (pure a) Q s := by
  intro b t hr
  cases hr; exact h

theorem wlp_modify {f : σ → σ} {Q : Unit → σ → Prop} {s : σ} (h : Q () (f s)) : wlp (Prog.modify f) Q s := by
  intro b t hr
  cases hr; exact h

theorem wlp_check {c : Prop} [Decidable c] {e : Fault} {Q : Unit → σ → Prop} {s : σ} (h : c → Q () s) :
    wlp (check c e) Q s := by
  intro b t hr
  have := (wp_check c e (fun _ t' => t' = t) s).1 (Returns.wp hr rfl)
  obtain ⟨h1, rfl⟩ := this
  exact h h1

theorem wlp_dassert {c : Prop} [Decidable c] {Q : Unit → σ → Prop} {s : σ} (h : c → Q () s) :
    wlp (dassert c) Q s := wlp_check h

theorem wlp_ite {c : Prop} [Decidable c] {p q : Prog σ α} {Q : α → σ → Prop} {s : σ}
    (h1 : c → wlp p Q s) (h2 : ¬ c → wlp q Q s) : wlp (if c then p else q) Q s := by
  split
  · exact h1 ‹_›
  · exact h2 ‹_›

theorem wlp_when {c : Prop} [Decidable c] {p : Prog σ Unit} {Q : Unit → σ → Prop} {s : σ}
    (h1 : c → wlp p Q s) (h2 : ¬ c → Q () s) : wlp (Prog.when c p) Q s := by
  unfold Prog.when
  split
  · exact h1 ‹_›
  · exact wlp_pure (h2 ‹_›)

theorem wlp_forRange {γ : Type} (I : Nat → γ → σ → Prop) (f : Nat → γ → Prog σ γ) (n lo : Nat) (acc : γ) (s : σ)
    (h0 : I lo acc s) (hs : ∀ i a t, lo ≤ i → i < lo + n → I i a t → wlp (f i a) (fun b u => I (i + 1) b u) t) :
    wlp (forRange n lo acc f) (fun b u => I (lo + n) b u) s := by
  induction n generalizing lo acc s with
  | zero => exact wlp_pure h0
  | succ n ih =>
    refine wlp_bind (wlp_mono (hs lo acc s (Nat.le_refl _) (by omega) h0) fun b u hb => ?_)
    have := ih (lo + 1) b u hb fun i a t h1 h2 => hs i a t (by omega) (by omega)
    rw [show lo + (n + 1) = lo + 1 + n by omega]
    exact this

/-- A partial-correctness statement can be established by fixpoint induction. -/
theorem Prog.admissible_wlp {ι : Type} (Q : ι → σ → α → σ → Prop) :
    admissible (fun f : ι → Prog σ α => ∀ i s, wlp (f i) (Q i s) s) := by
  refine admissible_pi_apply (fun i (g : Prog σ α) => ∀ s, wlp g (Q i s) s) (fun i => ?_)
  refine admissible_pi_apply (α := σ) (β := fun _ => Option (Except Fault (α × σ)))
    (fun s x => ∀ a t, x = some (.ok (a, t)) → Q i s a t) (fun s => ?_)
  exact admissible_flatOrder _ (fun _ _ h => by cases h)

end Verif
