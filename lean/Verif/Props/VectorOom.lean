import Verif.VectorOom
import Verif.Props.Vector

/-!
# Vectors that run out of memory (C92)

`runWith (allocOr grant)` runs a history over an allocator that satisfies exactly the requests chosen
by `grant`; the theorems hold for every choice.  `Fault.crash` is the library's own stop on a null
address (`DSTRUCT_CRASH`, core/common.hpp:55, 71 and 83); every other fault is undefined behaviour or
a failed assertion.
-/

namespace Verif.Vec

open Prog

variable {α : Type}

/-- **C92.**  Whichever requests for memory are denied, a history of operations on vectors either runs to
its end, and then every vector shows exactly the list the history means, nothing has been lost and
nothing leaks, or it is stopped by the library's null-pointer check.  It never continues with wrong
contents and never touches memory that is not its own. -/
theorem vector_out_of_memory (grant : Nat → Bool) (triv : Bool) (ops : List (Op α)) (sw : SWorld α)
    (hs : specRun ops (fun _ => none) = some sw) (ha : AvoidsAll triv ops (fun _ => none)) :
    (∃ w, Returns (runWith (allocOr grant) triv ops) World.init () w ∧ Shows w sw ∧ w.mem.lost = 0 ∧
      (∀ b, w.mem.blk b ≠ none → ∃ k v, w.obj k = some v ∧ v.c = b) ∧
      ((∀ k, sw k = none) → ∀ b, w.mem.blk b = none)) ∨
    Faults (runWith (allocOr grant) triv ops) World.init .crash := by
  refine (runWith_ok (g := grant) (triv := triv) WInvO.init hs ha).imp ?_ id
  rintro ⟨_, w, h1, h2⟩
  refine ⟨w, h1, h2.shows, h2.lost, h2.owned, fun hn b => ?_⟩
  by_cases hb : w.mem.blk b = none
  · exact hb
  · obtain ⟨j, v, g1, _⟩ := h2.owned b hb
    rw [h2.dead j (hn j)] at g1; cases g1

/-- A state reached by a history over an allocator that satisfies the requests chosen by `grant`, and
what the history means. -/
def Reached (grant : Nat → Bool) (triv : Bool) (w : World α) (sw : SWorld α) : Prop :=
  ∃ ops, specRun ops (fun _ => none) = some sw ∧ AvoidsAll triv ops (fun _ => none) ∧
    Returns (runWith (allocOr grant) triv ops) World.init () w

theorem Reached.inv {grant : Nat → Bool} {triv : Bool} {w : World α} {sw : SWorld α}
    (h : Reached grant triv w sw) : WInvO w sw := by
  obtain ⟨ops, h1, h2, h3⟩ := h
  rcases runWith_ok (g := grant) (triv := triv) WInvO.init h1 h2 with ⟨_, w', e1, e2⟩ | e
  · obtain ⟨_, rfl⟩ := Returns.det h3 e1
    exact e2
  · unfold Faults at e; unfold Returns at h3; rw [e] at h3; cases h3

/-- **C92** (a denied request that matters is noticed at once).  When the next request is denied, the
operations that have something to put into the new storage stop: filling constructor, `push_back` on
a full vector, `resize(n, x)`, `resize(n)` of a vector with elements, and copying a vector with
elements. -/
theorem vector_denied_stops (grant : Nat → Bool) (triv : Bool) (w : World α) (sw : SWorld α)
    (h : Reached grant triv w sw) (hd : grant w.mem.next = false) :
    (∀ k n x, sw k = none → n ≠ 0 →
      Faults (stepWith (allocOr grant) triv (.newFill k n x)) w .crash) ∧
    (∀ k s x, sw k = some s → s.data.length = s.cap →
      Faults (stepWith (allocOr grant) triv (.push k x)) w .crash) ∧
    (∀ k s n x, sw k = some s → n ≠ 0 →
      Faults (stepWith (allocOr grant) triv (.resizeFill k n x)) w .crash) ∧
    (∀ k s n, sw k = some s → n ≠ 0 → s.data ≠ [] →
      Faults (stepWith (allocOr grant) triv (.resize k n)) w .crash) ∧
    (∀ d s t u, sw d = some t → sw s = some u → d ≠ s → u.data ≠ [] →
      Faults (stepWith (allocOr grant) triv (.copy d s)) w .crash) :=
  denied_stops h.inv (by simp [hd])

/-- **C92** (a denied request that does not matter yet goes unnoticed).  `resize(n)` of a vector without
elements returns although it got no storage, `capacity()` reports `n`, and it is the next
`push_back` that is stopped. -/
theorem vector_denied_unnoticed (grant : Nat → Bool) (triv : Bool) (w : World α) (sw : SWorld α)
    (h : Reached grant triv w sw) (hd : grant w.mem.next = false) (k n : Nat) (hn : n ≠ 0)
    (s : SVec α) (hk : sw k = some s) (hl : s.data = []) :
    ∃ w' v, Returns (stepWith (allocOr grant) triv (.resize k n)) w () w' ∧ w'.obj k = some v ∧
      v.cap = n ∧ v.c = 0 ∧ ∀ x, Faults (stepWith (allocOr grant) triv (.push k x)) w' .crash :=
  denied_unnoticed h.inv (by simp [hd]) k n hn s hk hl

/-- The hypotheses are met: over an allocator that satisfies the first request only, a vector is filled,
its storage is released, and the second request is about to be denied. -/
example : ∃ (w : World Char) (sw : SWorld Char), Reached (fun i => i == 1) true w sw ∧
    (fun i => i == 1) w.mem.next = false ∧ (sw 0).map (fun v => (v.data, v.cap)) = some (['a', 'b'], 2) ∧
    (sw 1).map (fun v => (v.data, v.cap)) = some ([], 0) := by
  have hs : specRun [Op.new 0, .new 1, .push 0 'a', .push 0 'b'] (fun _ => none) = some _ := rfl
  have hr : (match runWith (allocOr fun i => i == 1) true [Op.new 0, .new 1, .push 0 'a', .push 0 'b'] World.init with
    | some (.ok (_, w)) => some w.mem.next
    | _ => none) = some 2 := by decide +kernel
  rcases h : runWith (allocOr fun i => i == 1) true [Op.new 0, .new 1, .push 0 'a', .push 0 'b'] World.init with _ | _ | ⟨_, w⟩
  · rw [h] at hr; cases hr
  · rw [h] at hr; cases hr
  · rw [h] at hr
    simp only [Option.some.injEq] at hr
    exact ⟨w, _, ⟨_, hs, by simp [AvoidsAll, Avoids], h⟩, by rw [hr]; rfl, rfl, rfl⟩

/-- Both outcomes of `vector_out_of_memory` occur: with one request granted, two elements fit and the
third is refused. -/
example : (match runWith (allocOr fun i => i == 1) true [Op.new 0, .push 0 'a', .push 0 'b'] World.init with
    | some (.ok (_, w)) => (w.obj 0).map Vec.sz
    | _ => none) = some 2 := by decide +kernel

example : (match runWith (allocOr fun i => i == 1) true [Op.new 0, .push 0 'a', .push 0 'b', .push 0 'c'] World.init with
    | some (.error e) => some e
    | _ => none) = some .crash := by decide +kernel

end Verif.Vec
