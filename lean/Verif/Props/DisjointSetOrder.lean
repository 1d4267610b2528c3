import Verif.DisjointSetOrderLemmas
import Verif.Props.DisjointSet

/-! # The replies of a `DisjointSet` and the order of evaluation (C104) -/

namespace Verif.DSU

open Prog Vec

/-- **C104.**  Take any history on valid indices, redundant `connect`s included, and any choice `c` of the orders of
evaluation that the language leaves to the compiler, made anew in each call.  If the history looks up no dead element it
returns, and its replies are those of the specification, which does not mention `c`: `find` returns the representative
that follows from the rule that `connect(a, b)` gives the elements of the class of `b` the representative of `a`, and
`connected` says whether two representatives are equal.  Otherwise the history never terminates, whatever `c` is. -/
theorem dsu_order (n : Nat) (hn : 0 < n) (hs : n < 2 ^ 31) (ops : List Op) (hv : ∀ op ∈ ops, op.Valid n)
    (c : Nat → Choice) :
    (Usable [] ops → ∃ m, Returns (do repliesC (← ctor n) c ops) Mem.init (specReplies [] ops) m) ∧
    (¬ Usable [] ops → Diverges (do repliesC (← ctor n) c ops) Mem.init) := by
  have h := gctor n (by omega) hs
  constructor
  · intro hu
    have : wp (do repliesC (← ctor n) c ops) (fun rs _ => rs = specReplies [] ops) Mem.init := by
      rw [wp_bind]
      exact wp_mono h fun v m h => grepliesC (pre := []) ops h hv hu
    obtain ⟨_, m, h1, rfl⟩ := this
    exact ⟨m, h1⟩
  · intro hu
    exact diverges_of_wp (wp_mono h fun v m h => grepliesC_diverges (pre := []) ops h hv hu)

/-- **C104, the order fixed elsewhere.**  The order of evaluation that `Verif.DisjointSet` and all other theorems about
disjoint sets use gives the same replies. -/
theorem dsu_order_fixed (n : Nat) (hn : 0 < n) (hs : n < 2 ^ 31) (ops : List Op) (hv : ∀ op ∈ ops, op.Valid n)
    (hu : Usable [] ops) :
    ∃ m, Returns (do replies (← ctor n) ops) Mem.init (specReplies [] ops) m := by
  have : wp (do replies (← ctor n) ops) (fun rs _ => rs = specReplies [] ops) Mem.init := by
    rw [wp_bind]
    exact wp_mono (gctor n (by omega) hs) fun v m h => greplies (pre := []) ops h hv hu
  obtain ⟨_, m, h1, rfl⟩ := this
  exact ⟨m, h1⟩

/-- **C104, the representative.**  In the specification the representative of an element is an element of its class, and
two elements have the same one exactly if the history connected them. -/
theorem dsu_order_repr (ps : List (Nat × Nat)) (i j : Nat) :
    Conn ps i (repr ps i) ∧ (repr ps i = repr ps j ↔ Conn ps i j) := by
  generalize hr : ps.reverse = qs
  induction qs generalizing ps i j with
  | nil =>
    rw [List.reverse_eq_nil_iff.1 hr]
    refine ⟨.refl _, ⟨fun h => by
      have : i = j := h
      rw [this]; exact .refl _, fun h => ?_⟩⟩
    induction h with
    | refl => rfl
    | pair h => simp at h
    | symm _ ih => exact ih.symm
    | trans _ _ ih1 ih2 => exact ih1.trans ih2
  | cons p qs ih =>
    have e : ps = qs.reverse ++ [p] := by rw [← List.reverse_reverse ps, hr]; simp
    subst e
    have hx := fun i j => ih qs.reverse i j (by simp)
    have hm : ∀ {x y}, Conn qs.reverse x y → Conn (qs.reverse ++ [p]) x y := fun h => h.mono (by simp +contextual)
    have hp : Conn (qs.reverse ++ [p]) p.1 p.2 := .pair (by simp)
    constructor
    · rw [repr_snoc, join]
      split
      · rename_i h
        exact (hm ((hx i p.2).2.1 h)).trans (hp.symm.trans (hm (hx p.1 p.1).1))
      · exact hm (hx i i).1
    · rw [repr_snoc]
      obtain ⟨a, b⟩ := p
      rw [conn_add, ← (hx i j).2, ← (hx i a).2, ← (hx b j).2, ← (hx i b).2, ← (hx a j).2]
      simp only [join]
      grind

/-! ## The hypotheses are met by concrete, non-trivial histories -/

/-- A guarded history is usable. -/
theorem usable_of_guarded {n : Nat} (ops : List Op) : ∀ {pre : List Op}, (∀ x, ¬ Dead pre x) →
    Guarded n (pairs pre) ops → Usable pre ops := by
  induction ops with
  | nil => intro pre _ _ a o b e; simp at e
  | cons op ops ih =>
    intro pre hd hg
    refine usable_cons (fun x _ => hd x) (ih ?_ (by rw [pairs_snoc]; exact hg.2.2))
    intro x
    cases op with
    | find i => rw [dead_snoc_query rfl]; exact hd x
    | connected i j => rw [dead_snoc_query rfl]; exact hd x
    | connect i j =>
      rw [dead_snoc_connect]
      rintro (h | ⟨h, _⟩)
      · exact hd x h
      · exact hg.2.1 h

/-- Two chains that meet, looked up at their ends: both operands of `connected` compress the common part.  The replies
are the same in every order of evaluation. -/
example (c : Nat → Choice) : ∃ m, Returns (do
      let v ← ctor 5
      repliesC v c [.connect 1 2, .connect 1 3, .connect 0 1, .connect 4 0, .connected 2 3, .find 3, .find 0]) Mem.init
    [.done, .done, .done, .done, .same true, .root 4, .root 4] m := by
  have h : ∀ (c : Nat → Nat) ps, (∀ p ∈ ps, c p.1 = c p.2) → ∀ a b, Conn ps a b → c a = c b := by
    intro c ps hp a b h
    induction h with
    | refl => rfl
    | pair h => exact hp _ h
    | symm _ ih => exact ih.symm
    | trans _ _ ih1 ih2 => exact ih1.trans ih2
  refine (dsu_order 5 (by omega) (by omega) _ (by simp [Op.Valid]) c).1 (usable_of_guarded (n := 5) _ ?_ ?_)
  · intro x
    rw [dead_nil]; exact id
  · simp only [Guarded, Op.Valid, Op.Fresh, Op.pair, pairs, List.flatMap_nil, List.nil_append, List.append_nil, true_and,
      and_true, List.cons_append]
    refine ⟨by omega, fun hc => ?_, by omega, fun hc => ?_, by omega, fun hc => ?_, by omega, fun hc => ?_, by omega,
      by omega, by omega⟩
    · have := h id [] (by simp) _ _ hc; simp at this
    · have := h (fun x => if x = 3 then 3 else 0) _ (by simp) _ _ hc; simp at this
    · have := h (fun x => if x = 0 then 1 else 0) _ (by simp) _ _ hc; simp at this
    · have := h (fun x => if x = 4 then 1 else 0) _ (by simp) _ _ hc; simp at this

end Verif.DSU
