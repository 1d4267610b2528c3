import Verif.Spec.FixedArray

/-! # Lemmas about the model of `Array` -/

namespace Verif.Arr

open Prog

variable {α : Type} {N : Nat} {dflt : Option α} {mv : α → α}

theorem bmod32 (x : Int) (h1 : -(2 ^ 31) ≤ x) (h2 : x < 2 ^ 31) : Int.bmod x (2 ^ 32) = x := by
  rw [Int.bmod_def]; split <;> omega

/-- The array `k` stores `a`. -/
def Holds (N : Nat) (w : World α) (k : Nat) (a : SArr α) : Prop :=
  ∃ l, w.obj k = some l ∧ l.length = cells N ∧ ∀ i < N, l[i]? = some (a i)

structure Inv (N : Nat) (w : World α) (sw : SWorld α) : Prop where
  dead : ∀ k, sw k = none → w.obj k = none
  alive : ∀ k a, sw k = some a → Holds N w k a

theorem le_cells : N ≤ cells N := by unfold cells; split <;> omega

theorem read_ok {w : World α} {k i : Nat} {a : SArr α} {x : α} (h : Holds N w k a) (hi : i < N)
    (hx : a i = some x) : Returns (read k (i : Int)) w x w := by
  obtain ⟨l, h1, h2, h3⟩ := h
  have h4 := h3 i hi
  have hl : i < l.length := by have := @le_cells N; omega
  unfold read Returns
  rw [bind_returns (a := l) (s' := w) (by unfold Returns getObj; rw [h1])]
  rw [bind_returns (a := ()) (s' := w) (by unfold Returns check; rw [if_pos (by omega)])]
  simp only [Int.toNat_natCast, h4, hx]
  rfl

/-- Change position `i` of an array. -/
def upd (a : SArr α) (i : Nat) (x : α) : SArr α := fun j => if j = i then some x else a j

theorem write_ok {w : World α} {k i : Nat} {a : SArr α} {x : α} (h : Holds N w k a) (hi : i < N) :
    wp (write k (i : Int) x) (fun _ w' => Holds N w' k (upd a i x) ∧
      ∀ j, j ≠ k → w'.obj j = w.obj j) w := by
  obtain ⟨l, h1, h2, h3⟩ := h
  have hl : i < l.length := by have := @le_cells N; omega
  unfold write
  rw [wp_bind, wp_of_returns (a := l) (s' := w) (by unfold Returns getObj; rw [h1])]
  rw [wp_bind, wp_check]
  refine ⟨by omega, ?_⟩
  unfold putObj
  rw [wp_modify]
  refine ⟨⟨l.set i (some x), by simp, by simpa using h2, fun j hj => ?_⟩, fun j hj => by simp [hj]⟩
  unfold upd
  rw [List.getElem?_set]
  by_cases hij : i = j
  · subst hij; simp [hl]
  · rw [if_neg hij, if_neg (by omega)]; exact h3 j hj

theorem Holds.congr {w w' : World α} {k : Nat} {a : SArr α} (h : Holds N w k a)
    (e : w'.obj k = w.obj k) : Holds N w' k a := by
  obtain ⟨l, h1, h2⟩ := h; exact ⟨l, e.trans h1, h2⟩

theorem Holds.ext {w : World α} {k : Nat} {a b : SArr α} (h : Holds N w k a)
    (e : ∀ i < N, a i = b i) : Holds N w k b := by
  obtain ⟨l, h1, h2, h3⟩ := h; exact ⟨l, h1, h2, fun i hi => by rw [h3 i hi, e i hi]⟩

theorem intLoop_ok (hN : N < 2 ^ 31) (I : Nat → World α → Prop) (f : Nat → Prog (World α) Unit)
    (w : World α) (h0 : I 0 w)
    (hs : ∀ i w, i < N → I i w → wp (f i) (fun _ w' => I (i + 1) w') w) :
    wp (intLoop N f) (fun _ w' => I N w') w := by
  unfold intLoop
  have := wp_forRange (σ := World α) (fun i (_ : Unit) w => I i w)
    (fun i _ => do f i; check (i + 1 < 2 ^ 31) .overflow) N 0 () w h0 (by
      intro i _ t _ hi hI
      rw [wp_bind]
      refine wp_mono (hs i t (by omega) hI) ?_
      intro _ t' hI'
      rw [wp_check]
      exact ⟨by omega, hI'⟩)
  simpa using this

/-- The loops of `Array` overflow their `int` counter when `N` exceeds `INT_MAX`. -/
theorem intLoop_overflow (hN : 2 ^ 31 ≤ N) (I : Nat → World α → Prop)
    (f : Nat → Prog (World α) Unit) (w : World α) (h0 : I 0 w)
    (hs : ∀ i w, i < N → I i w → wp (f i) (fun _ w' => I (i + 1) w') w) :
    Faults (intLoop N f) w .overflow := by
  have key : ∀ n lo w, lo < 2 ^ 31 → 2 ^ 31 ≤ lo + n → lo + n ≤ N → I lo w →
      Faults (forRange n lo () fun i _ => do f i; check (i + 1 < 2 ^ 31) .overflow) w .overflow := by
    intro n
    induction n with
    | zero => intros; omega
    | succ n ih =>
      intro lo w h1 h2 h3 hI
      unfold forRange
      by_cases hlo : lo + 1 < 2 ^ 31
      · apply faults_bind_of_wp
        rw [wp_bind]
        refine wp_mono (hs lo w (by omega) hI) ?_
        intro _ t' hI'
        rw [wp_check]
        exact ⟨hlo, ih (lo + 1) t' hlo (by omega) (by omega) hI'⟩
      · apply bind_faults
        apply faults_bind_of_wp
        refine wp_mono (hs lo w (by omega) hI) ?_
        intro _ t' _
        unfold Faults check
        rw [if_neg hlo]
  exact key N 0 w (by omega) (by omega) (by omega) h0

theorem new_ok (w : World α) (k : Nat) : wp (new N dflt k) (fun _ w' =>
    Holds N w' k (fun _ => dflt) ∧ ∀ j, j ≠ k → w'.obj j = w.obj j) w := by
  unfold new putObj
  rw [wp_modify]
  refine ⟨⟨_, by simp; rfl, by simp, fun i hi => ?_⟩, fun j hj => by simp [hj]⟩
  have := @le_cells N
  rw [List.getElem?_replicate, if_pos (by omega)]

/-- Loop invariant of the fill constructor. -/
def FillInv (N : Nat) (w : World α) (k : Nat) (x : α) (i : Nat) (w' : World α) : Prop :=
  (∃ a, Holds N w' k a ∧ ∀ j < i, a j = some x) ∧ ∀ j, j ≠ k → w'.obj j = w.obj j

theorem fill_step {w : World α} {k : Nat} {x : α} (i : Nat) (t : World α) (hi : i < N)
    (h : FillInv N w k x i t) : wp (write k (i : Int) x) (fun _ w' => FillInv N w k x (i + 1) w') t := by
  obtain ⟨⟨a, h1, h2⟩, h3⟩ := h
  refine wp_mono (write_ok h1 hi) ?_
  rintro _ t' ⟨g1, g2⟩
  refine ⟨⟨_, g1, fun j hj => ?_⟩, fun j hj => (g2 j hj).trans (h3 j hj)⟩
  unfold upd
  split
  · rfl
  · exact h2 j (by omega)

theorem newFill_ok (hN : N < 2 ^ 31) (w : World α) (k : Nat) (x : α) :
    wp (newFill N dflt k x) (fun _ w' =>
      Holds N w' k (fun _ => some x) ∧ ∀ j, j ≠ k → w'.obj j = w.obj j) w := by
  unfold newFill
  rw [wp_bind]
  refine wp_mono (new_ok w k) ?_
  rintro _ w1 ⟨h1, h2⟩
  refine wp_mono (intLoop_ok hN (FillInv N w k x) _ w1 ⟨⟨_, h1, by omega⟩, h2⟩ fill_step) ?_
  rintro _ w2 ⟨⟨a, h3, h4⟩, h5⟩
  exact ⟨h3.ext h4, h5⟩

/-- Loop invariant of copy assignment. -/
def CopyInv (N : Nat) (w : World α) (d s : Nat) (a : SArr α) (i : Nat) (w' : World α) : Prop :=
  (∃ b, Holds N w' d b ∧ ∀ j < i, b j = a j) ∧ Holds N w' s a ∧ ∀ j, j ≠ d → w'.obj j = w.obj j

theorem Holds.det {w : World α} {k : Nat} {a b : SArr α} (h : Holds N w k a) (h' : Holds N w k b) :
    ∀ i < N, a i = b i := by
  obtain ⟨l, h1, _, h3⟩ := h
  obtain ⟨l', h1', _, h3'⟩ := h'
  rw [h1] at h1'; cases h1'
  intro i hi
  have := (h3 i hi).symm.trans (h3' i hi)
  simpa using this

theorem copy_step {w : World α} {d s : Nat} {a : SArr α} (ha : Full N a) (i : Nat) (t : World α)
    (hi : i < N) (h : CopyInv N w d s a i t) :
    wp (do let x ← read s (i : Int); write d (i : Int) x) (fun _ w' => CopyInv N w d s a (i + 1) w') t := by
  obtain ⟨⟨b, h1, h2⟩, h3, h4⟩ := h
  obtain ⟨x, hx⟩ := Option.isSome_iff_exists.1 (ha i hi)
  rw [wp_bind, wp_of_returns (read_ok h3 hi hx)]
  refine wp_mono (write_ok h1 hi) ?_
  rintro _ t' ⟨g1, g2⟩
  refine ⟨⟨_, g1, fun j hj => ?_⟩, ?_, fun j hj => (g2 j hj).trans (h4 j hj)⟩
  · unfold upd
    split
    · rename_i e; rw [e, hx]
    · exact h2 j (by omega)
  · by_cases hds : s = d
    · subst hds
      refine g1.ext fun j hj => ?_
      unfold upd
      split
      · rename_i e; rw [e, hx]
      · exact h1.det h3 j hj
    · exact h3.congr (g2 s hds)

theorem copyAssign_ok (hN : N < 2 ^ 31) {w : World α} {d s : Nat} {a b : SArr α}
    (hd : Holds N w d b) (hs : Holds N w s a) (ha : Full N a) :
    wp (copyAssign N d s) (fun _ w' => Holds N w' d a ∧ ∀ j, j ≠ d → w'.obj j = w.obj j) w := by
  refine wp_mono (intLoop_ok hN (CopyInv N w d s a) _ w
    ⟨⟨b, hd, by omega⟩, hs, fun _ _ => rfl⟩ (copy_step ha)) ?_
  rintro _ w' ⟨⟨c, h1, h2⟩, _, h4⟩
  exact ⟨h1.ext h2, h4⟩

/-- Loop invariant of move assignment between different arrays. -/
def MoveInv (N : Nat) (mv : α → α) (w : World α) (d s : Nat) (a : SArr α) (i : Nat) (w' : World α) : Prop :=
  (∃ b, Holds N w' d b ∧ ∀ j < i, b j = a j) ∧
  Holds N w' s (fun j => if j < i then (a j).map mv else a j) ∧
  ∀ j, j ≠ d → j ≠ s → w'.obj j = w.obj j

theorem move_step {w : World α} {d s : Nat} {a : SArr α} (hds : d ≠ s) (ha : Full N a) (i : Nat)
    (t : World α) (hi : i < N) (h : MoveInv N mv w d s a i t) :
    wp (do let x ← read s (i : Int); write s (i : Int) (mv x); write d (i : Int) x)
      (fun _ w' => MoveInv N mv w d s a (i + 1) w') t := by
  obtain ⟨⟨b, h1, h2⟩, h3, h4⟩ := h
  obtain ⟨x, hx⟩ := Option.isSome_iff_exists.1 (ha i hi)
  rw [wp_bind, wp_of_returns (read_ok h3 hi (by simpa using hx)), wp_bind]
  refine wp_mono (write_ok h3 hi) ?_
  rintro _ t1 ⟨g1, g2⟩
  refine wp_mono (write_ok (h1.congr (g2 d hds)) hi) ?_
  rintro _ t2 ⟨k1, k2⟩
  refine ⟨⟨_, k1, fun j hj => ?_⟩, ?_, fun j hj hj' => by rw [k2 j hj, g2 j hj', h4 j hj hj']⟩
  · unfold upd
    split
    · rename_i e; rw [e, hx]
    · exact h2 j (by omega)
  · refine (g1.congr (k2 s (Ne.symm hds))).ext fun j hj => ?_
    unfold upd
    by_cases hji : j = i
    · subst hji; simp [hx]
    · rw [if_neg hji]
      show (if j < i then (a j).map mv else a j) = _
      by_cases hlt : j < i
      · rw [if_pos hlt, if_pos (by omega)]
      · rw [if_neg hlt, if_neg (by omega)]

theorem selfMove_step {w : World α} {s : Nat} {a : SArr α} (ha : Full N a) (i : Nat)
    (t : World α) (hi : i < N) (h : Holds N t s a ∧ ∀ j, j ≠ s → t.obj j = w.obj j) :
    wp (do let x ← read s (i : Int); write s (i : Int) (mv x); write s (i : Int) x)
      (fun _ w' => Holds N w' s a ∧ ∀ j, j ≠ s → w'.obj j = w.obj j) t := by
  obtain ⟨h3, h4⟩ := h
  obtain ⟨x, hx⟩ := Option.isSome_iff_exists.1 (ha i hi)
  rw [wp_bind, wp_of_returns (read_ok h3 hi hx), wp_bind]
  refine wp_mono (write_ok h3 hi) ?_
  rintro _ t1 ⟨g1, g2⟩
  refine wp_mono (write_ok g1 hi) ?_
  rintro _ t2 ⟨k1, k2⟩
  refine ⟨k1.ext fun j hj => ?_, fun j hj => by rw [k2 j hj, g2 j hj, h4 j hj]⟩
  unfold upd
  split
  · rename_i e; rw [e, hx]
  · rfl

theorem moveAssign_ok (hN : N < 2 ^ 31) {w : World α} {d s : Nat} {a b : SArr α} (hds : d ≠ s)
    (hd : Holds N w d b) (hs : Holds N w s a) (ha : Full N a) :
    wp (moveAssign N mv d s) (fun _ w' => Holds N w' d a ∧ Holds N w' s (fun j => (a j).map mv) ∧
      ∀ j, j ≠ d → j ≠ s → w'.obj j = w.obj j) w := by
  refine wp_mono (intLoop_ok hN (MoveInv N mv w d s a) _ w
    ⟨⟨b, hd, by omega⟩, by simpa using hs, fun _ _ _ => rfl⟩ (move_step hds ha)) ?_
  rintro _ w' ⟨⟨c, h1, h2⟩, h3, h4⟩
  exact ⟨h1.ext h2, h3.ext (fun i hi => by simp [hi]), h4⟩

theorem selfMove_ok (hN : N < 2 ^ 31) {w : World α} {s : Nat} {a : SArr α}
    (hs : Holds N w s a) (ha : Full N a) :
    wp (moveAssign N mv s s) (fun _ w' => Holds N w' s a ∧ ∀ j, j ≠ s → w'.obj j = w.obj j) w :=
  intLoop_ok hN (fun _ w' => Holds N w' s a ∧ ∀ j, j ≠ s → w'.obj j = w.obj j) _ w
    ⟨hs, fun _ _ => rfl⟩ (selfMove_step ha)

/-- Updating one array keeps the invariant. -/
theorem Inv.update {w w' : World α} {sw : SWorld α} {k : Nat} {a : SArr α} (hi : Inv N w sw)
    (h1 : Holds N w' k a) (h2 : ∀ j, j ≠ k → w'.obj j = w.obj j) : Inv N w' (sw.put k (some a)) := by
  constructor
  · intro j hj
    by_cases e : j = k
    · simp [SWorld.put, e] at hj
    · simp only [SWorld.put, if_neg e] at hj
      rw [h2 j e]; exact hi.dead j hj
  · intro j b hj
    by_cases e : j = k
    · simp only [SWorld.put, if_pos e] at hj; cases hj; rwa [e]
    · simp only [SWorld.put, if_neg e] at hj
      exact (hi.alive j b hj).congr (h2 j e)

theorem normIndex_ok (hN : N < 2 ^ 31) {i : Int} (h1 : -(N : Int) ≤ i) (h2 : i < N) :
    ∃ p : Nat, p < N ∧ normIndex N i = p ∧ (p : Int) = if i < 0 then N + i else i := by
  unfold normIndex
  by_cases h : i < 0
  · refine ⟨(N + i).toNat, by omega, ?_, ?_⟩
    · rw [if_pos h, bmod32 _ (by omega) (by omega)]; omega
    · rw [if_pos h]; omega
  · exact ⟨i.toNat, by omega, by rw [if_neg h]; omega, by rw [if_neg h]; omega⟩

theorem getObj_ok {w : World α} {k : Nat} {a : SArr α} (h : Holds N w k a) :
    ∃ l, Returns (getObj k) w l w := by
  obtain ⟨l, h1, _⟩ := h
  exact ⟨l, by unfold Returns getObj; rw [h1]⟩

theorem step_ok (hN : N < 2 ^ 31) {op : Op α} {w : World α} {sw sw' : SWorld α} (hi : Inv N w sw)
    (hs : specStep N dflt mv op sw = some sw') :
    wp (step N dflt mv op) (fun _ w' => Inv N w' sw') w := by
  cases op with
  | new k =>
    simp only [specStep] at hs
    split at hs <;> cases hs
    refine wp_mono (new_ok w k) ?_
    rintro _ w' ⟨h1, h2⟩
    exact hi.update h1 h2
  | newFill k x =>
    simp only [specStep] at hs
    split at hs <;> cases hs
    refine wp_mono (newFill_ok hN w k x) ?_
    rintro _ w' ⟨h1, h2⟩
    exact hi.update h1 h2
  | set k i x =>
    simp only [specStep, Option.bind_eq_bind, Option.bind_eq_some_iff] at hs
    obtain ⟨a, ha, hs⟩ := hs
    split at hs <;> cases hs
    rename_i hr
    obtain ⟨p, hp, e1, e2⟩ := normIndex_ok hN hr.1 hr.2
    show wp (write k (normIndex N i) x) _ w
    rw [e1]
    refine wp_mono (write_ok (hi.alive k a ha) hp) ?_
    rintro _ w' ⟨h1, h2⟩
    refine hi.update (h1.ext fun j _ => ?_) h2
    unfold upd
    by_cases hj : j = p
    · rw [if_pos hj, if_pos (by rw [← e2]; omega)]
    · rw [if_neg hj, if_neg (by rw [← e2]; omega)]
  | copy d s =>
    simp only [specStep, Option.bind_eq_bind, Option.bind_eq_some_iff] at hs
    obtain ⟨b, hb, a, ha, hs⟩ := hs
    split at hs <;> cases hs
    rename_i hf
    obtain ⟨l1, e1⟩ := getObj_ok (hi.alive d b hb)
    obtain ⟨l2, e2⟩ := getObj_ok (hi.alive s a ha)
    rw [step, wp_bind, wp_of_returns e1, wp_bind, wp_of_returns e2]
    refine wp_mono (copyAssign_ok hN (hi.alive d b hb) (hi.alive s a ha) hf) ?_
    rintro _ w' ⟨h1, h2⟩
    exact hi.update h1 h2
  | move d s =>
    simp only [specStep, Option.bind_eq_bind, Option.bind_eq_some_iff] at hs
    obtain ⟨b, hb, a, ha, hs⟩ := hs
    split at hs <;> cases hs
    rename_i hf
    obtain ⟨l1, e1⟩ := getObj_ok (hi.alive d b hb)
    obtain ⟨l2, e2⟩ := getObj_ok (hi.alive s a ha)
    rw [step, wp_bind, wp_of_returns e1, wp_bind, wp_of_returns e2]
    by_cases hds : d = s
    · subst hds
      rw [if_pos rfl]
      refine wp_mono (selfMove_ok hN (hi.alive d a ha) hf) ?_
      rintro _ w' ⟨h1, h2⟩
      have := hi.update h1 h2
      rwa [show sw.put d (some a) = sw from by
        funext x; simp only [SWorld.put]; split
        · rename_i e; rw [e, ha]
        · rfl] at this
    · rw [if_neg hds]
      refine wp_mono (moveAssign_ok hN hds (hi.alive d b hb) (hi.alive s a ha) hf) ?_
      rintro _ w' ⟨h1, h2, h3⟩
      constructor
      · intro j hj
        simp only [SWorld.put] at hj
        split at hj
        · cases hj
        · split at hj
          · cases hj
          · rename_i g1 g2; rw [h3 j g1 g2]; exact hi.dead j hj
      · intro j c hj
        simp only [SWorld.put] at hj
        split at hj
        · rename_i e; cases hj; rwa [e]
        · split at hj
          · rename_i _ e; cases hj; rwa [e]
          · rename_i g1 g2; exact (hi.alive j c hj).congr (h3 j g1 g2)
  | drop k =>
    simp only [specStep, Option.bind_eq_bind, Option.bind_eq_some_iff] at hs
    obtain ⟨a, ha, hs⟩ := hs
    cases hs
    obtain ⟨l1, e1⟩ := getObj_ok (hi.alive k a ha)
    rw [step, wp_bind, wp_of_returns e1]
    unfold putObj
    rw [wp_modify]
    constructor
    · intro j hj
      simp only [SWorld.put] at hj ⊢
      split
      · rfl
      · rename_i e; rw [if_neg e] at hj; exact hi.dead j hj
    · intro j c hj
      simp only [SWorld.put] at hj
      split at hj
      · cases hj
      · rename_i e; exact (hi.alive j c hj).congr (by simp [e])

theorem run_ok (hN : N < 2 ^ 31) {ops : List (Op α)} {w : World α} {sw sw' : SWorld α}
    (hi : Inv N w sw) (hs : specRun N dflt mv ops sw = some sw') :
    wp (run N dflt mv ops) (fun _ w' => Inv N w' sw') w := by
  induction ops generalizing w sw with
  | nil => cases hs; exact (wp_pure _ _ _).2 hi
  | cons op ops ih =>
    simp only [specRun, Option.bind_eq_some_iff] at hs
    obtain ⟨sw1, h1, h2⟩ := hs
    show wp (do step N dflt mv op; run N dflt mv ops) _ w
    rw [wp_bind]
    exact wp_mono (step_ok hN hi h1) fun _ w1 hi1 => ih hi1 h2

theorem Inv.init : Inv N (World.init : World α) (fun _ => none) :=
  ⟨fun _ _ => rfl, fun _ _ h => by cases h⟩

theorem iterate_ok {w : World α} {k : Nat} {a : SArr α} (h : Holds N w k a) {l : List α}
    (hl : l.length = N) (e : ∀ i (h : i < l.length), a i = some l[i]) :
    Returns (iterate N k) w l w := by
  have key := wp_forRange (σ := World α) (fun i acc t => acc = l.take i ∧ t = w)
    (fun i acc => do let x ← read k i; pure (acc ++ [x])) N 0 [] w ⟨rfl, rfl⟩ (by
      rintro i acc t _ hi ⟨rfl, rfl⟩
      rw [wp_bind, wp_of_returns (read_ok h (by omega) (e i (by omega))), wp_pure]
      exact ⟨by rw [List.take_append_getElem (by omega)], rfl⟩)
  obtain ⟨r, t, h1, h2, h3⟩ := key
  have : r = l := by rw [h2]; simp [← hl]
  subst this; subst h3; exact h1

theorem Inv.shows (hN : N < 2 ^ 31) {w : World α} {sw : SWorld α} (hi : Inv N w sw) :
    Shows N w sw := by
  intro k
  refine ⟨hi.dead k, fun a ha => ?_⟩
  have h := hi.alive k a ha
  refine ⟨by obtain ⟨l, h1, _⟩ := h; simp [h1], rfl, by simp [empty], fun i x hlt hx => ⟨?_, ?_, ?_, ?_⟩,
    fun l hl e => iterate_ok h hl e⟩
  · unfold index
    rw [show normIndex N (i : Int) = (i : Int) from if_neg (by omega)]
    exact read_ok h hlt hx
  · unfold index
    obtain ⟨p, hp, e1, e2⟩ := normIndex_ok (N := N) hN (i := (i : Int) - N) (by omega) (by omega)
    rw [e1]
    have : p = i := by rw [if_pos (by omega)] at e2; omega
    rw [this]
    exact read_ok h hlt hx
  · rintro rfl; exact read_ok h hlt hx
  · rintro rfl
    unfold back
    rw [show ((N : Int) - 1) % 2 ^ 64 = ((N - 1 : Nat) : Int) by omega]
    exact read_ok h hlt hx

end Verif.Arr
