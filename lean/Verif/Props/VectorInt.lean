import Verif.VectorInt
import Verif.Props.Vector

/-!
# The `int` arithmetic of `Vector` (C102)

Vocabulary: `Verif.Spec.VectorInt`, `Verif.Spec.Vector`.  `runI` runs the functions of `Vector` with the
`int` loop counters and `int` byte counts of the code; `w` is `sizeof(T)`.
-/

namespace Verif.Vec

open Prog

variable {α : Type} {w : Nat} {triv : Bool}

/-- **C102** (below the limit).  With loops counted in `int` and byte counts handed on as `int`, every legal
history (outside C04 and C07) in which the storage of each vector stays below `2^31` bytes returns, every
vector then shows exactly the elements it should, and all storage belongs to a vector that is alive. -/
theorem vector_int (hw : 0 < w) {ops : List (Op α)} {sw : SWorld α} (hs : specRun ops (fun _ => none) = some sw)
    (ha : AvoidsAll triv ops (fun _ => none)) (hr : RoomAll w ops (fun _ => none)) :
    ∃ m, Returns (runI w triv ops) World.init () m ∧ Shows m sw ∧ m.mem.lost = 0 ∧
      ∀ b, m.mem.blk b ≠ none → ∃ k v, m.obj k = some v ∧ v.c = b := by
  obtain ⟨m, h1, h2, _⟩ := runI_ok hw WInv.init hs ha (fun k v h => by cases h) hr
  exact ⟨m, h1, h2.shows, h2.lost, h2.owned⟩

/-- **C102** (`push_back` at the limit).  After such a history, `push_back` to a full vector whose doubled
storage has `2^31` bytes or more stops at a null pointer. -/
theorem vector_int_push_full (hw : 0 < w) (hw2 : w < 2 ^ 31) {ops : List (Op α)} {sw : SWorld α}
    (hs : specRun ops (fun _ => none) = some sw)
    (ha : AvoidsAll triv ops (fun _ => none)) (hr : RoomAll w ops (fun _ => none)) {m : World α}
    (hm : Returns (runI w triv ops) World.init () m) {k : Nat} {v : SVec α} (hk : sw k = some v)
    (hfull : v.data.length = v.cap) (hbig : 2 ^ 31 ≤ max 2 (2 * v.cap) * w) (x : α) :
    Faults (stepI w triv (.push k x)) m .crash := by
  obtain ⟨m', h1, h2, h3⟩ := runI_ok hw WInv.init hs ha (fun k v h => by cases h) hr
  obtain ⟨_, rfl⟩ := h1.det hm
  exact pushI_full hw hw2 h2 h3 hk hfull hbig x

/-- **C102** (`resize` beyond the limit).  `resize(n)` of a new vector for `2^31` bytes or more returns, and
the vector reports the capacity `n`.  But it has storage for fewer elements, `granted w n`: one more
`push_back` than that writes past the storage, or to a null pointer if there is none at all. -/
theorem vector_int_resize {n : Nat} (hbig : 2 ^ 31 ≤ n * w) (k : Nat) :
    granted w n < n ∧
    (∃ m v, Returns (runI w triv [.new k, .resize k n]) (World.init : World α) () m ∧ m.obj k = some v ∧ v.cap = n) ∧
    ∀ (l : List α) (x : α), l.length = granted w n →
      Faults (runI w triv ([.new k, .resize k n] ++ (l.map (.push k) ++ [.push k x]))) World.init
        (if n * w % 2 ^ 32 < 2 ^ 31 then .outOfBounds else .crash) := by
  have hn : n ≠ 0 := by rintro rfl; omega
  have hg : granted w n < n := by
    unfold granted
    split
    · refine Nat.div_lt_of_lt_mul ?_
      rw [Nat.mul_comm w n]
      generalize n * w = p at *
      omega
    · omega
  have hnew : ∀ rest : List (Op α), runI w triv (.new k :: rest) World.init =
      runI w triv rest { mem := Mem.init, obj := fun x => if x = k then some Vec.empty else none } := fun rest => rfl
  by_cases hb : n * w % 2 ^ 32 < 2 ^ 31
  · have hal : Returns (resizeI w triv Vec.empty n) (Mem.init : Mem α) { sz := 0, cap := n, c := 1 }
        { (Mem.init : Mem α) with blk := fun b => if b = 1 then some ⟨granted w n, fun _ => none⟩ else none, next := 2 } := by
      unfold Returns resizeI
      rw [if_neg hn, bind_returns (show Returns (allocI w n) (Mem.init : Mem α) 1
        { (Mem.init : Mem α) with blk := fun b => if b = 1 then some ⟨granted w n, fun _ => none⟩ else none, next := 2 } by
          unfold Returns allocI
          rw [bytesAsked_pos hb, if_neg (by omega), Int.toNat_natCast]
          unfold granted
          rw [if_pos hb]
          rfl)]
      simp [Vec.empty, when]
      rfl
    have hst : Returns (stepI w triv (.resize k n))
        ({ mem := Mem.init, obj := fun x => if x = k then some Vec.empty else none } : World α) ()
        { mem := { (Mem.init : Mem α) with blk := fun b => if b = 1 then some ⟨granted w n, fun _ => none⟩ else none, next := 2 },
          obj := fun x => if x = k then some { sz := 0, cap := n, c := 1 } else if x = k then some Vec.empty else none } := by
      unfold Returns
      rw [stepI, bind_getObj (if_pos rfl), bind_returns (lift_returns hal)]
      rfl
    refine ⟨hg, ⟨_, _, (hnew _).trans (bind_returns hst), if_pos rfl, rfl⟩, fun l x hl => ?_⟩
    rw [if_pos hb]
    unfold Faults
    have e : runI w triv ([.new k, .resize k n] ++ (l.map (.push k) ++ [.push k x])) (World.init : World α) =
        runI w triv (l.map (.push k) ++ [.push k x]) _ := (hnew _).trans (bind_returns hst)
    rw [e]
    exact Short.pushes hg l ⟨1, fun _ => none, if_pos rfl, by decide, by simp⟩ (by omega) x
  · have hal := (resizeI_neg (w := w) (triv := triv) (v := Vec.empty) (m := (Mem.init : Mem α)) hn
      (bytesAsked_neg (Nat.le_of_not_lt hb))).1 rfl
    have hst : Returns (stepI w triv (.resize k n))
        ({ mem := Mem.init, obj := fun x => if x = k then some Vec.empty else none } : World α) ()
        { mem := { (Mem.init : Mem α) with next := 2 },
          obj := fun x => if x = k then some { sz := 0, cap := n, c := 0 } else if x = k then some Vec.empty else none } := by
      unfold Returns
      rw [stepI, bind_getObj (if_pos rfl), bind_returns (lift_returns hal)]
      rfl
    refine ⟨hg, ⟨_, _, (hnew _).trans (bind_returns hst), if_pos rfl, rfl⟩, fun l x hl => ?_⟩
    rw [if_neg hb]
    have : l = [] := by
      rw [granted, if_neg hb] at hl
      exact List.length_eq_zero_iff.1 hl
    subst this
    unfold Faults
    have e : runI w triv ([.new k, .resize k n] ++ ([].map (.push k) ++ [.push k x])) (World.init : World α) =
        runI w triv [.push k x] _ := (hnew _).trans (bind_returns hst)
    rw [e]
    refine bind_faults ?_
    unfold Faults
    rw [stepI, bind_getObj (if_pos rfl)]
    refine bind_faults (lift_faults ?_)
    unfold Faults pushBackI
    rw [if_neg (by show ¬ 0 + 1 > n; omega), pure_bind]
    refine bind_faults ?_
    exact construct_null

/-! ## The hypotheses can be met -/

/-- A history below the limit. -/
example : ∃ m, Returns (runI 4 true [Op.new 0, .push 0 5, .push 0 6, .push 0 7, .pop 0]) World.init () m ∧
    ∃ v, m.obj 0 = some v ∧ v.sz = 2 ∧ v.cap = 4 ∧ Returns (iterate v) m.mem [5, 6] m.mem := by
  obtain ⟨m, h1, h2, _⟩ := vector_int (w := 4) (triv := true) (by decide)
    (ops := [Op.new 0, .push 0 5, .push 0 6, .push 0 7, .pop 0]) rfl
    (avoidsAll_of_plain (by simp [Op.plain]) _) (by
      have small : ∀ (sw : SWorld Nat) (l : List Nat) c, Room 4 sw → c < 10 → Room 4 (sw.put 0 (some ⟨l, c⟩)) := by
        intro sw l c h hc k v hv
        simp only [SWorld.put] at hv
        split at hv
        · cases hv; show c * 4 < _; omega
        · exact h k v hv
      intro w1 e1; cases e1
      have h1 := small (fun _ => none) [] 0 (fun k v h => by cases h) (by decide)
      refine ⟨h1, ?_⟩
      intro w1 e1; cases e1
      have h1 := small _ [5] 2 h1 (by decide)
      refine ⟨h1, ?_⟩
      intro w1 e1; cases e1
      have h1 := small _ [5, 6] 2 h1 (by decide)
      refine ⟨h1, ?_⟩
      intro w1 e1; cases e1
      have h1 := small _ [5, 6, 7] 4 h1 (by decide)
      refine ⟨h1, ?_⟩
      intro w1 e1; cases e1
      exact ⟨small _ [5, 6] 4 h1 (by decide), trivial⟩)
  obtain ⟨v, g1, g2, g3, g4, _⟩ := (h2 0).2 ⟨[5, 6], 4⟩ rfl
  exact ⟨m, h1, v, g1, g2, g3, g4⟩

/-- A full vector of `n` eight-byte elements, `n` being for example `2^27`: the next `push_back` stops. -/
example {n : Nat} (h1 : 2 ^ 27 ≤ n) (h2 : n < 2 ^ 28) (x : Nat) :
    ∃ m, Returns (runI 8 true [Op.newFill 0 n 0]) World.init () m ∧ Faults (stepI 8 true (.push 0 x)) m .crash := by
  have hst : specStep (Op.newFill 0 n 0) (fun _ => none) =
      some (SWorld.put (fun _ => none) 0 (some ⟨List.replicate n 0, n⟩)) := by
    rw [specStep, if_pos ⟨rfl, by omega⟩]
  have hr : RoomAll 8 [Op.newFill 0 n 0] (fun _ => none) := by
    intro sw' e
    rw [hst] at e
    cases e
    refine ⟨fun k v hv => ?_, trivial⟩
    simp only [SWorld.put] at hv
    split at hv
    · cases hv; show n * 8 < _; omega
    · cases hv
  have hs : specRun [Op.newFill 0 n 0] (fun _ => none) =
      some (SWorld.put (fun _ => none) 0 (some ⟨List.replicate n 0, n⟩)) := by
    rw [specRun, hst]
    rfl
  have ha : AvoidsAll true [Op.newFill 0 n 0] (fun _ => none) := avoidsAll_of_plain (by simp [Op.plain]) _
  obtain ⟨m, h3, _⟩ := vector_int (w := 8) (triv := true) (by decide) hs ha hr
  exact ⟨m, h3, vector_int_push_full (by decide) (by decide) hs ha hr h3 (v := ⟨List.replicate n 0, n⟩)
    rfl (by simp) (by show _ ≤ max 2 (2 * n) * 8; omega) x⟩

/-- `resize(2^30 + 1)` of a vector of four-byte elements gets storage for one element; `resize(2^29)` gets
none. -/
example : 2 ^ 31 ≤ (2 ^ 30 + 1) * 4 ∧ granted 4 (2 ^ 30 + 1) = 1 ∧ (2 ^ 30 + 1) * 4 % 2 ^ 32 < 2 ^ 31 ∧
    2 ^ 31 ≤ 2 ^ 29 * 4 ∧ granted 4 (2 ^ 29) = 0 ∧ ¬ 2 ^ 29 * 4 % 2 ^ 32 < 2 ^ 31 := by decide

end Verif.Vec
