import Verif.VectorRefs

/-! Properties of references to vector elements (`core/ds/array/Vector.hpp`). -/

namespace Verif.Vec

open Prog

variable {α : Type}

/-- **C71.**  Take the address of an element of vector `k` after any history, then run any
further history that completes.

* If the storage is still held, by `k` or by the vector it was moved to, the address is the
  address of the same position, reads the value that position has now, and a write through it
  is exactly an assignment to that position.
* If the storage was given up at any time since (growing when full, shrinking, `resize`,
  `clear`, assignment, end of lifetime), every access through the address is a use after free,
  however many operations have run in between. -/
theorem vector_references (triv : Bool) (ops more : List (Op α)) (sw sw' : SWorld α)
    (hs : specRun ops (fun _ => none) = some sw) (hs' : specRun more sw = some sw')
    (w w' : World α) (hw : Returns (run triv ops) World.init () w)
    (hw' : Returns (run triv more) w () w')
    (k : Nat) (s : SVec α) (hk : sw k = some s) (v : Vec) (hv : w.obj k = some v)
    (i : Nat) (hi : i < s.data.length) :
    (∀ k', storageAll more sw k = some k' →
      ∃ v' s', w'.obj k' = some v' ∧ sw' k' = some s' ∧ elemAddr v i = elemAddr v' i ∧
        ∀ h : i < s'.data.length,
          Returns (deref (elemAddr v i)) w'.mem s'.data[i] w'.mem ∧
          ∀ x, ∃ m, Returns (store (elemAddr v i) (.val x)) w'.mem () m ∧
            Shows { w' with mem := m } (sw'.put k' (some ⟨s'.data.set i x, s'.cap⟩))) ∧
    (storageAll more sw k = none →
      Faults (deref (elemAddr v i)) w'.mem .useAfterFree ∧
      ∀ x, Faults (store (elemAddr v i) (.val x)) w'.mem .useAfterFree) := by
  obtain ⟨h1, -, -⟩ := run_buf WInv.init hs hw
  obtain ⟨h2, -, hb⟩ := run_buf h1 hs' hw'
  obtain ⟨u, u1, u2, u3⟩ := h1.alive k s hk
  rw [hv] at u1; cases u1
  have hv0 : v.c ≠ 0 := fun h => by rw [(u2.null h).2] at hi; simp at hi
  have hf := hb k v hv hv0
  refine ⟨fun k' hk' => ?_, fun hn => ?_⟩
  · rw [hk'] at hf
    obtain ⟨v', q1, q2⟩ := hf
    rcases hsk : sw' k' with _ | s'
    · rw [h2.dead k' hsk] at q1; cases q1
    obtain ⟨a, a1, a2, a3⟩ := h2.alive k' s' hsk
    rw [q1] at a1; cases a1
    have hadr : elemAddr v i = elemAddr v' i := by simp [elemAddr, q2]
    refine ⟨v', s', q1, rfl, hadr, fun hi' => ⟨?_, fun x => ?_⟩⟩
    · rw [hadr]; exact a2.read_ok i hi'
    · rw [hadr]
      obtain ⟨_, m, e1, e2, e3, e4⟩ := store_ok (x := x) h2.wf a2 hi'
      refine ⟨m, e1, ?_⟩
      have := h2.update (Or.inl q1) e2 a3 e3 e4
      have hobj : (fun x => if x = k' then some v' else w'.obj x) = w'.obj := by
        funext y; split
        · rename_i hy; rw [hy, q1]
        · rfl
      rw [hobj] at this
      exact this.shows
  · rw [hn] at hf
    have hacc : Faults (access (α := α) v.c (i : Int)) w'.mem .useAfterFree := by
      have hf : w'.mem.blk v.c = none := hf
      simp [Faults, access, hv0, hf]
    refine ⟨bind_faults hacc, fun x => ?_⟩
    unfold store assign elemAddr
    refine faults_bind_of_wp ((wp_of_returns (val_get x _) _).2 ?_)
    exact bind_faults hacc

/-- The hypotheses are met on both sides: with room left a push keeps the storage, the next one
gives it up, and after a move the storage is found at the destination. -/
example : ∃ sw, specRun [Op.new 0, .push 0 1, .new 1] (fun _ => none) = some sw ∧
    (∃ s, sw 0 = some s ∧ 0 < s.data.length) ∧
    storageAll [Op.push 0 2, .set 0 0 7] sw 0 = some 0 ∧
    storageAll [Op.push 0 2, .push 0 3] sw 0 = none ∧
    storageAll [Op.push 0 2, .move 1 0, .push 0 9] sw 0 = some 1 ∧
    (∃ sw', specRun [Op.push 0 2, .push 0 3] sw = some sw') ∧
    (∃ sw', specRun [Op.push 0 2, .move 1 0, .push 0 9] sw = some sw') ∧
    ∃ w w', Returns (run true [Op.new 0, .push 0 1, .new 1]) World.init () w ∧
      Returns (run true [Op.push 0 2, .move 1 0, .push 0 9]) w () w' := by
  refine ⟨_, rfl, ⟨_, rfl, by decide⟩, by rfl, by rfl, by rfl, ⟨_, rfl⟩, ⟨_, rfl⟩, ?_⟩
  obtain ⟨_, w, h1, h2⟩ := run_ok (triv := true) (ops := [Op.new 0, .push 0 1, .new 1])
    WInv.init rfl ⟨trivial, fun _ _ => ⟨trivial, fun _ _ => ⟨trivial, fun _ _ => trivial⟩⟩⟩
  obtain ⟨_, w', h3, _⟩ := run_ok (triv := true) (ops := [Op.push 0 2, .move 1 0, .push 0 9])
    h2 rfl ⟨trivial, fun _ _ => ⟨trivial, fun _ _ => ⟨trivial, fun _ _ => trivial⟩⟩⟩
  exact ⟨w, w', h1, h3⟩

end Verif.Vec
