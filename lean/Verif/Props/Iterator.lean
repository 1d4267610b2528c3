import Verif.Iterator
import Verif.VectorRefs
import Verif.FixedArrayLemmas

/-! # Properties of the iterators of `Vector` and `Array` (C72) -/

namespace Verif.Iter

open Prog

variable {σ α : Type}

/-- Random-access iterators over positions `0 … n`: `it i` is the iterator at position `i`, `b` is
`begin()` and `e` computes `end()`. -/
structure Line (A : Arrays σ α) (s : σ) (n : Nat) (b : PIter) (e : Prog σ PIter)
    (it : Nat → PIter) : Prop where
  begin_ : b = it 0
  end_ : Returns e s (it n) s
  inc : ∀ i, i < n → Returns (inc A (it i)) s (it (i + 1)) s ∧
    Returns (postInc A (it i)) s (it i, it (i + 1)) s
  dec : ∀ i, i < n → Returns (dec A (it (i + 1))) s (it i) s ∧
    Returns (postDec A (it (i + 1))) s (it (i + 1), it i) s
  plus : ∀ i j, i ≤ n → j ≤ n → Returns (plus A (it i) ((j : Int) - i)) s (it j) s
  minus : ∀ i j, i ≤ n → j ≤ n → Returns (minus A (it i) ((i : Int) - j)) s (it j) s
  distance : ∀ i j, i ≤ n → j ≤ n → Returns (distance A (it i) (it j)) s ((j : Int) - i) s
  eq : ∀ i j, i ≤ n → j ≤ n → (eq (it i) (it j) = true ↔ i = j)

theorem line_of_extent {A : Arrays σ α} {s : σ} {c n len : Nat} (h : A.extent s c = some len)
    (hn : n ≤ len) : Line A s n ⟨c, 0⟩ (shift A ⟨c, 0⟩ n) (fun i => ⟨c, i⟩) := by
  have key : ∀ (i : Nat) (z : Int) (j : Nat), (j : Int) = i + z → j ≤ n →
      Returns (shift A ⟨c, i⟩ z) s ⟨c, j⟩ s := by
    intro i z j hj hjn
    unfold Returns shift
    simp only [h]
    rw [if_pos (by omega), ← hj]
  refine ⟨rfl, ?_, ?_, ?_, ?_, ?_, ?_, ?_⟩
  · exact key 0 n n (by omega) (by omega)
  · intro i hi
    have := key i 1 (i + 1) (by omega) (by omega)
    refine ⟨this, ?_⟩
    unfold postInc Returns
    rw [bind_returns this]; rfl
  · intro i hi
    have := key (i + 1) (-1) i (by omega) (by omega)
    refine ⟨this, ?_⟩
    unfold postDec Returns
    rw [bind_returns this]; rfl
  · intro i j hi hj
    exact key i _ j (by omega) hj
  · intro i j hi hj
    exact key i _ j (by omega) hj
  · intro i j hi hj
    unfold distance diff Returns
    simp [h]
  · intro i j _ _
    simp [Iter.eq]; omega

/-- **C72**, vectors: in every state a history of vector operations completes in, the iterators
of every vector form a line from `begin()` to `end()` under `++`, `--`, `+ n`, `- n` and
`distance`; `*` reads the element at the position, and writing through it is assigning to that
position. -/
theorem vector_iterators (triv : Bool) (ops : List (Vec.Op α)) (sw : Vec.SWorld α)
    (hs : Vec.specRun ops (fun _ => none) = some sw) (w : Vec.World α)
    (hw : Returns (Vec.run triv ops) Vec.World.init () w)
    (k : Nat) (l : Vec.SVec α) (hk : sw k = some l) :
    ∃ v it, w.obj k = some v ∧
      Line vecArrays w.mem l.data.length (vecBegin v) (vecEnd v) it ∧
      ∀ i (h : i < l.data.length), Returns (deref vecArrays (it i)) w.mem l.data[i] w.mem ∧
        ∀ x, ∃ m, Returns (store vecArrays (it i) x) w.mem () m ∧
          Vec.Shows { w with mem := m } (sw.put k (some ⟨l.data.set i x, l.cap⟩)) := by
  obtain ⟨h1, -, -⟩ := Vec.run_buf Vec.WInv.init hs hw
  obtain ⟨v, g1, g2, g3⟩ := h1.alive k l hk
  have hext : ∃ len, vecArrays.extent w.mem v.c = some len ∧ l.data.length ≤ len := by
    by_cases h0 : v.c = 0
    · exact ⟨0, by simp [vecArrays, h0], by rw [(g2.null h0).2]; simp⟩
    · obtain ⟨_, hle, f, hb, _⟩ := g2.buf h0
      exact ⟨v.cap, by simp [vecArrays, h0, hb], hle⟩
  obtain ⟨len, e1, e2⟩ := hext
  refine ⟨v, fun i => ⟨v.c, i⟩, g1, ?_, fun i hi => ⟨g2.read_ok i hi, fun x => ?_⟩⟩
  · have := line_of_extent e1 e2
    unfold vecBegin vecEnd
    rw [g2.size]; exact this
  · obtain ⟨_, m, k1, k2, k3, k4⟩ := Vec.store_ok (x := x) h1.wf g2 hi
    refine ⟨m, k1, ?_⟩
    have := h1.update (Or.inl g1) k2 g3 k3 k4
    have hobj : (fun x => if x = k then some v else w.obj x) = w.obj := by
      funext y; split
      · rename_i hy; rw [hy, g1]
      · rfl
    rw [hobj] at this
    exact this.shows

/-- **C72**, arrays of any length below 2^31: the same for `Array<T, N>`, including `N = 0` where
`begin() == end()`. -/
theorem array_iterators (N : Nat) (hN : N < 2 ^ 31) (dflt : Option α) (mv : α → α)
    (ops : List (Arr.Op α)) (sw : Arr.SWorld α)
    (hs : Arr.specRun N dflt mv ops (fun _ => none) = some sw) :
    ∃ w, Returns (Arr.run N dflt mv ops) Arr.World.init () w ∧
      ∀ k a, sw k = some a → ∃ it, Line arrArrays w N (arrBegin k) (arrEnd N k) it ∧
        ∀ i, i < N → (∀ x, a i = some x → Returns (deref arrArrays (it i)) w x w) ∧
          ∀ x, ∃ w', Returns (store arrArrays (it i) x) w () w' ∧
            Arr.Shows N w' (sw.put k (some fun j => if j = i then some x else a j)) := by
  obtain ⟨_, w, h1, h2⟩ := Arr.run_ok hN Arr.Inv.init hs
  refine ⟨w, h1, fun k a hk => ?_⟩
  have hh := h2.alive k a hk
  obtain ⟨c, c1, c2, c3⟩ := hh
  have hext : arrArrays.extent w k = some c.length := by simp [arrArrays, c1]
  refine ⟨_, line_of_extent hext (by have := @Arr.le_cells N; omega), fun i hi => ⟨fun x hx => ?_, fun x => ?_⟩⟩
  · exact Arr.read_ok (h2.alive k a hk) hi hx
  · obtain ⟨_, w', k1, k2⟩ := Arr.write_ok (x := x) (h2.alive k a hk) hi
    exact ⟨w', k1, (h2.update k2.1 k2.2).shows hN⟩

/-- The other side of C72, vectors: arithmetic that leaves the storage is out of bounds, and so is
the distance between iterators of two vectors that have storage. -/
theorem vector_iterators_outside_faults (triv : Bool) (ops : List (Vec.Op α)) (sw : Vec.SWorld α)
    (hs : Vec.specRun ops (fun _ => none) = some sw) (w : Vec.World α)
    (hw : Returns (Vec.run triv ops) Vec.World.init () w)
    (k : Nat) (l : Vec.SVec α) (hk : sw k = some l) :
    ∃ v, w.obj k = some v ∧
      (∀ (i : Nat) (n : Int), i + n < 0 ∨ (l.cap : Int) < i + n →
        Faults (plus vecArrays ⟨v.c, i⟩ n) w.mem .outOfBounds ∧
        Faults (minus vecArrays ⟨v.c, i⟩ (-n)) w.mem .outOfBounds) ∧
      Faults (inc vecArrays ⟨v.c, l.cap⟩) w.mem .outOfBounds ∧
      Faults (dec vecArrays (vecBegin v)) w.mem .outOfBounds ∧
      ∀ j u, j ≠ k → w.obj j = some u → l.cap ≠ 0 →
        Faults (distance vecArrays (vecBegin v) (vecBegin u)) w.mem .outOfBounds := by
  obtain ⟨h1, -, -⟩ := Vec.run_buf Vec.WInv.init hs hw
  obtain ⟨v, g1, g2, g3⟩ := h1.alive k l hk
  have hext : vecArrays.extent w.mem v.c = some l.cap := by
    by_cases h0 : v.c = 0
    · have := (g2.null h0).1
      rw [← g3, this]; simp [vecArrays, Vec.Vec.empty]
    · obtain ⟨_, _, f, hb, _⟩ := g2.buf h0
      simp [vecArrays, h0, hb, g3]
  have key : ∀ (i n : Int), i + n < 0 ∨ (l.cap : Int) < i + n → Faults (shift vecArrays ⟨v.c, i⟩ n) w.mem .outOfBounds := by
    intro i n h
    unfold Faults shift
    simp only [hext]
    rw [if_neg (by omega)]
  refine ⟨v, g1, fun i n h => ⟨key i n h, ?_⟩, key _ _ (by omega), key _ _ (by simp), fun j u hj hu hc => ?_⟩
  · unfold minus; rw [Int.neg_neg]; exact key i n h
  · have h0 : v.c ≠ 0 := by
      intro h0; rw [← g3, (g2.null h0).1] at hc; exact hc rfl
    have hne := h1.sep k j v u (Ne.symm hj) g1 hu h0
    obtain ⟨l', hl'⟩ : ∃ l', sw j = some l' := by
      cases e : sw j with
      | none => rw [h1.dead j e] at hu; cases hu
      | some l' => exact ⟨l', rfl⟩
    obtain ⟨u', e1, e2, _⟩ := h1.alive j l' hl'
    rw [hu] at e1; cases e1
    have hext' : ∃ n, vecArrays.extent w.mem u.c = some n := by
      by_cases hu0 : u.c = 0
      · exact ⟨0, by simp [vecArrays, hu0]⟩
      · obtain ⟨_, _, f, hb, _⟩ := e2.buf hu0
        exact ⟨_, by simp only [vecArrays, hu0, hb, if_false]; rfl⟩
    obtain ⟨n, hn⟩ := hext'
    unfold distance diff Faults vecBegin
    simp only [hn]
    rw [if_neg (Ne.symm hne)]

/-- The other side of C72, arrays: arithmetic that leaves the array (which has one cell if its
length is 0) is out of bounds. -/
theorem array_iterators_outside_faults (N : Nat) (hN : N < 2 ^ 31) (dflt : Option α) (mv : α → α)
    (ops : List (Arr.Op α)) (sw : Arr.SWorld α)
    (hs : Arr.specRun N dflt mv ops (fun _ => none) = some sw) :
    ∃ w, Returns (Arr.run N dflt mv ops) Arr.World.init () w ∧
      ∀ k a, sw k = some a → ∀ (i : Nat) (n : Int), i + n < 0 ∨ ((max N 1 : Nat) : Int) < i + n →
        Faults (plus arrArrays ⟨k, i⟩ n) w .outOfBounds ∧ Faults (minus arrArrays ⟨k, i⟩ (-n)) w .outOfBounds := by
  obtain ⟨_, w, h1, h2⟩ := Arr.run_ok hN Arr.Inv.init hs
  refine ⟨w, h1, fun k a hk i n h => ?_⟩
  obtain ⟨c, c1, c2, c3⟩ := h2.alive k a hk
  have hext : arrArrays.extent w k = some c.length := by simp [arrArrays, c1]
  have hc : c.length ≤ max N 1 := by rw [c2]; unfold Arr.cells; split <;> omega
  have key : Faults (shift arrArrays ⟨k, i⟩ n) w .outOfBounds := by
    unfold Faults shift
    simp only [hext]
    rw [if_neg (by omega)]
  refine ⟨key, ?_⟩
  unfold minus; rw [Int.neg_neg]; exact key

/-- Hypotheses met: a vector with three elements in storage for four, an empty vector without
storage, and an array of length 3 with one indeterminate position. -/
example : ∃ sw w, Vec.specRun [Vec.Op.new 0, .push 0 5, .push 0 7, .push 0 9, .new 1]
      (fun _ => none) = some sw ∧ sw 0 = some ⟨[5, 7, 9], 4⟩ ∧ sw 1 = some ⟨[], 0⟩ ∧
    Returns (Vec.run false [Vec.Op.new 0, .push 0 5, .push 0 7, .push 0 9, .new 1])
      Vec.World.init () w := by
  obtain ⟨_, w, h, _⟩ := Vec.run_ok (triv := false)
    (ops := [Vec.Op.new 0, .push 0 5, .push 0 7, .push 0 9, .new 1]) Vec.WInv.init rfl
    (by simp [Vec.AvoidsAll, Vec.Avoids])
  exact ⟨_, w, rfl, rfl, rfl, h⟩

example : ∃ sw, Arr.specRun 3 none id [Arr.Op.new 0, .set 0 0 'a', .set 0 (-1) 'c'] (fun _ => none) =
      some sw ∧ (sw 0).map (fun a => [a 0, a 1, a 2]) = some [some 'a', none, some 'c'] :=
  ⟨_, rfl, rfl⟩

end Verif.Iter
