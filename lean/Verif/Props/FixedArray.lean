import Verif.FixedArrayLemmas

/-!
# Properties of `Array` (C09)

`specRun` (in `Verif/Spec/FixedArray.lean`) is the meaning of a history on arrays of length
`N`; `Shows N w sw` says that all public observers of the model world `w` agree with it.
-/

namespace Verif.Arr

open Prog

variable {α : Type}

/-- **C09**, for every `N < 2^31`.  Any history of construction (default or fill), `[]`
assignment with indices from either end, copy, move and destruction that meets the
operations' preconditions runs without fault, and afterwards every array shows exactly the
contents the history means.  Missing for the full statement: `N ≥ 2^31`, where it is false
(`array_fill_overflow`, `array_copy_overflow`). -/
theorem array_sequence_partial (N : Nat) (hN : N < 2 ^ 31) (dflt : Option α) (mv : α → α)
    (ops : List (Op α)) (sw : SWorld α) (hs : specRun N dflt mv ops (fun _ => none) = some sw) :
    ∃ w, Returns (run N dflt mv ops) World.init () w ∧ Shows N w sw := by
  obtain ⟨_, w, h1, h2⟩ := run_ok hN Inv.init hs
  exact ⟨w, h1, h2.shows hN⟩

/-- The hypotheses are met by a history with a fill, writes from both ends, a copy and a
move. -/
example : ∃ sw, specRun 3 none id [Op.newFill 0 'a', .set 0 (-1) 'z', .set 0 1 'y', .new 1, .copy 1 0,
      .set 1 0 'q', .new 2, .move 2 1] (fun _ => none) = some sw ∧
    (sw 2).map (fun a => [a 0, a 1, a 2]) = some [some 'q', some 'y', some 'z'] ∧
    (sw 0).map (fun a => [a 0, a 1, a 2]) = some [some 'a', some 'y', some 'z'] := by
  exact ⟨_, rfl, rfl, rfl⟩

/-- Every array that shows contents `a` has `size() = capacity() = N`, all positions
`0 … N-1` can be written through both of their indices, and a write changes what is read
at that position only. -/
theorem array_write (N : Nat) (hN : N < 2 ^ 31) (dflt : Option α) (mv : α → α)
    (ops : List (Op α)) (sw : SWorld α) (hs : specRun N dflt mv ops (fun _ => none) = some sw)
    (k : Nat) (a : SArr α) (hk : sw k = some a) (i : Nat) (hi : i < N) (x : α)
    (idx : Int) (hidx : idx = i ∨ idx = i - N) :
    ∃ w w', Returns (run N dflt mv ops) World.init () w ∧ Returns (step N dflt mv (.set k idx x)) w () w' ∧
      Returns (index N k i) w' x w' ∧
      (∀ j y, j < N → j ≠ i → a j = some y → Returns (index N k j) w' y w') ∧
      (∀ k' b, k' ≠ k → sw k' = some b → ∀ j y, j < N → b j = some y → Returns (index N k' j) w' y w') := by
  obtain ⟨_, w, h1, h2⟩ := run_ok hN Inv.init hs
  have hspec : specStep N dflt mv (.set k idx x) sw = some (sw.put k
      (some fun j => if (j : Int) = (if idx < 0 then N + idx else idx) then some x else a j)) := by
    simp only [specStep, hk, Option.bind_eq_bind, Option.bind_some]
    rw [if_pos (by omega)]
  obtain ⟨_, w', h3, h4⟩ := step_ok hN h2 hspec
  have hsh := h4.shows hN
  have hpos : (if idx < 0 then (N : Int) + idx else idx) = i := by split <;> omega
  refine ⟨w, w', h1, h3, ?_, ?_, ?_⟩
  · exact ((((hsh k).2 _ (by simp [SWorld.put]; rfl)).2.2.2.1 i x hi (by rw [hpos]; simp)).1)
  · intro j y hj hne hy
    refine (((hsh k).2 _ (by simp [SWorld.put]; rfl)).2.2.2.1 j y hj ?_).1
    rw [hpos, if_neg (by omega)]; exact hy
  · intro k' b hne hb j y hj hy
    exact (((hsh k').2 b (by simp [SWorld.put, hne, hb])).2.2.2.1 j y hj hy).1

/-- The fill constructor of an array longer than `INT_MAX` overflows its loop counter. -/
theorem array_fill_overflow (N : Nat) (hN : 2 ^ 31 ≤ N) (dflt : Option α) (k : Nat) (x : α)
    (w : World α) : Faults (newFill N dflt k x) w .overflow := by
  unfold newFill
  apply faults_bind_of_wp
  refine wp_mono (new_ok w k) ?_
  rintro _ w1 ⟨h1, h2⟩
  exact intLoop_overflow hN (FillInv N w k x) _ w1 ⟨⟨_, h1, by omega⟩, h2⟩ fill_step

/-- So does copying one. -/
theorem array_copy_overflow (N : Nat) (hN : 2 ^ 31 ≤ N) (d s : Nat) (w : World α) (sw : SWorld α)
    (hi : Inv N w sw) (a b : SArr α) (hd : sw d = some b) (hs : sw s = some a) (ha : Full N a) :
    Faults (copyAssign N d s) w .overflow :=
  intLoop_overflow hN (CopyInv N w d s a) _ w
    ⟨⟨b, hi.alive d b hd, by omega⟩, hi.alive s a hs, fun _ _ => rfl⟩ (copy_step ha)

/-- A world with such arrays. -/
example : ∃ (w : World Nat) (sw : SWorld Nat), Inv (2 ^ 31) w sw ∧ ∃ a, sw 0 = some a ∧
    Full (2 ^ 31) a := by
  obtain ⟨_, w, _, h⟩ := new_ok (N := 2 ^ 31) (dflt := some 7) (World.init : World Nat) 0
  exact ⟨w, _, (Inv.init (N := 2 ^ 31)).update h.1 h.2, _, rfl, fun _ _ => rfl⟩

/-- **C09, indices outside.**  Every other `int` index leaves the storage: reading and writing are out
of bounds (there is no assertion in the code). -/
theorem array_index_outside_faults (N : Nat) (h1 : 1 ≤ N) (hN : N < 2 ^ 31) (dflt : Option α) (mv : α → α)
    (ops : List (Op α)) (sw : SWorld α) (hs : specRun N dflt mv ops (fun _ => none) = some sw)
    (k : Nat) (a : SArr α) (hk : sw k = some a) (i : Int) (hlo : -(2 ^ 31) ≤ i) (hi : i < -N ∨ N ≤ i) (x : α) :
    ∃ w, Returns (run N dflt mv ops) World.init () w ∧ Faults (index N k i) w .outOfBounds ∧
      Faults (setIndex N k i x) w .outOfBounds := by
  obtain ⟨_, w, e1, e2⟩ := run_ok hN Inv.init hs
  obtain ⟨l, g1, g2, g3⟩ := e2.alive k a hk
  have hl : l.length = N := by rw [g2]; unfold cells; rw [if_neg (by omega)]
  have hn : ¬ (0 ≤ normIndex N i ∧ normIndex N i < l.length) := by
    unfold normIndex
    split
    · rw [bmod32 _ (by omega) (by omega)]; omega
    · omega
  have hg : Returns (getObj k) w l w := by unfold Returns getObj; rw [g1]
  refine ⟨w, e1, ?_, ?_⟩
  · unfold index read Faults
    rw [bind_returns hg]
    exact bind_faults (by unfold Faults check; rw [if_neg hn])
  · unfold setIndex write Faults
    rw [bind_returns hg]
    exact bind_faults (by unfold Faults check; rw [if_neg hn])

/-- **C09, length zero** (outside the property).  `Array<T, 0>` has one cell of storage: `a[0]` can be
written and read although `size()` is 0, every other index and `back()` leave the storage. -/
theorem array_zero_length (dflt : Option α) (mv : α → α) (ops : List (Op α)) (sw : SWorld α)
    (hs : specRun 0 dflt mv ops (fun _ => none) = some sw) (k : Nat) (a : SArr α) (hk : sw k = some a) (x : α) :
    ∃ w w', Returns (run 0 dflt mv ops) World.init () w ∧ Returns (setIndex 0 k 0 x) w () w' ∧
      Returns (index 0 k 0) w' x w' ∧ Returns (front k) w' x w' ∧ Returns (iterate 0 k) w' [] w' ∧
      Faults (back 0 k) w' .outOfBounds ∧
      ∀ i : Int, -(2 ^ 31) ≤ i → i ≠ 0 → Faults (index 0 k i) w' .outOfBounds := by
  obtain ⟨_, w, e1, e2⟩ := run_ok (by omega) Inv.init hs
  obtain ⟨l, g1, g2, g3⟩ := e2.alive k a hk
  have hl : l.length = 1 := by rw [g2]; rfl
  have hg : Returns (getObj k) w l w := by unfold Returns getObj; rw [g1]
  obtain ⟨y, rfl⟩ := List.length_eq_one_iff.1 hl
  let w' : World α := { w with obj := fun z => if z = k then some [some x] else w.obj z }
  have hg' : Returns (getObj k) w' [some x] w' := by unfold Returns getObj; simp [w']
  have rd : Returns (read k 0) w' x w' := by
    unfold Returns read
    rw [bind_returns hg']
    rfl
  have out : ∀ i : Int, i ≠ 0 → Faults (read k i) w' .outOfBounds := by
    intro i hi
    unfold read Faults
    rw [bind_returns hg']
    exact bind_faults (by unfold Faults check; rw [if_neg (by simp; omega)])
  refine ⟨w, w', e1, ?_, rd, rd, rfl, out _ (by decide), ?_⟩
  · unfold setIndex write Returns
    rw [bind_returns hg]
    rfl
  · intro i h1 h2
    refine out _ ?_
    unfold normIndex
    split
    · rw [bmod32 _ (by omega) (by omega)]; omega
    · exact h2

example : ∃ sw, specRun 0 none id [Op.newFill 0 'a', .new 1] (fun _ => none) = some sw ∧ (sw 0).isSome :=
  ⟨_, rfl, rfl⟩

end Verif.Arr
