import Verif.DequeCost

/-! # Storage of `DoubleEndedQueue` (C89, C90) -/

namespace Verif.Deq

open Prog

variable {α : Type}

/-! ## C89 -/

theorem pushes_cons (a : Act α) (as : List (Act α)) :
    pushes (a :: as) = pushes as + if a.isPush then 1 else 0 := List.countP_cons

/-- **C89.**  Growth is amortised: any history of pushes and pops (no pop on empty) of a new deque
returns, having allocated at most two blocks and room for sixteen elements per push (`World.next` is
1 at first and counts the allocations); its capacity is at most two blocks and eight elements per
push.  `cfg.A` is the number of elements in a block. -/
theorem deque_amortised (cfg : Cfg α) (hA : 0 < cfg.A) (hadj : AdjUp cfg) (acts : List (Act α))
    (l : List α) (hs : seqRun acts [] = some l) :
    ∃ m c, Returns (run cfg (.new 0 :: acts.map (Act.op 0))) World.init () m ∧
      cfg.A * (m.next - 1) ≤ 2 * cfg.A + 16 * pushes acts ∧
      Returns (capacity 0) m c m ∧ c ≤ 2 * cfg.A + 8 * pushes acts := by
  cases acts with
  | nil =>
    refine ⟨setObj World.init 0 (some .fresh), 0, rfl, ?_, rfl, Nat.zero_le _⟩
    show cfg.A * (1 - 1) ≤ _; simp
  | cons a acts =>
    obtain ⟨l1, h1, h2⟩ := seqRun_cons hs
    have ha : pushes (a :: acts) = pushes acts + 1 := by
      rw [pushes_cons]
      cases a <;> first | rfl | cases h1
    rw [ha]
    generalize hT : pushes acts + 1 = T
    have key := history_ok hA hadj (I := fun as nb P (l : List α) N => ∃ q,
        2 * (nb * cfg.A) ≤ q + 16 * P ∧ 2 * (nb * cfg.A) + 16 * (P + l.length) ≤ q + 16 * (nb * cfg.A) ∧
        N * cfg.A + q + 16 * pushes as ≤ 3 * cfg.A + 16 * T ∧
        2 * (nb * cfg.A) + q + 16 * pushes as ≤ 4 * cfg.A + 16 * T) ?_ a acts h1 ?_ h2
    · obtain ⟨_, m, e1, nb, P, e2, q, e3, e4, e5, e6⟩ := key
      refine ⟨m, nb * cfg.A, e1, ?_, e2.capacity, ?_⟩
      · rw [Nat.mul_sub, Nat.mul_comm]; simp only [pushes, List.countP_nil] at e5; omega
      · simp only [pushes, List.countP_nil] at e6; omega
    · rintro a as nb P l l' N nb' P' new h2 hev hfit ⟨q, q1, q2, q3, q4⟩ hs hr
      rw [pushes_cons] at q3 q4
      cases a with
      | pushBack x =>
        cases hs
        simp only [Act.isPush, if_true] at q3 q4
        rw [List.length_append, List.length_singleton]
        rcases hr with ⟨r1, rfl, rfl, rfl⟩ | ⟨r1, hg⟩
        · exact ⟨q + 16, by omega, by omega, by rw [Nat.add_zero]; omega, by omega⟩
        · obtain ⟨g1, g2, g3, g4, _⟩ := hg.room hA h2 hev hfit
          refine ⟨16, by rw [g1]; omega, by rw [g1]; omega, ?_, by rw [g1]; omega⟩
          rw [Nat.add_mul]; omega
      | pushFront x =>
        cases hs
        simp only [Act.isPush, if_true] at q3 q4
        rw [List.length_cons]
        rcases hr with ⟨r1, rfl, r2, rfl⟩ | ⟨r1, hg⟩
        · exact ⟨q + 16, by omega, by omega, by rw [Nat.add_zero]; omega, by omega⟩
        · obtain ⟨g1, g2, g3, g4, _⟩ := hg.room hA h2 hev hfit
          refine ⟨16, by rw [g1]; omega, by rw [g1]; omega, ?_, by rw [g1]; omega⟩
          rw [Nat.add_mul]; omega
      | popBack =>
        obtain ⟨rfl, rfl, rfl⟩ := hr
        simp only [seqRun] at hs
        split at hs
        · cases hs
        · cases hs
          rw [List.length_dropLast]
          simp only [Act.isPush] at q3 q4
          exact ⟨q, by omega, by omega, by simpa using q3, by simpa using q4⟩
      | popFront =>
        obtain ⟨rfl, rfl, rfl⟩ := hr
        simp only [seqRun] at hs
        split at hs
        · cases hs
        · rename_i hl
          cases hs
          have := List.length_pos_iff.2 hl
          rw [List.length_tail]
          simp only [Act.isPush] at q3 q4
          exact ⟨q, by omega, by omega, by simpa using q3, by simpa using q4⟩
    · intro P hP hl
      refine ⟨16, ?_, ?_, ?_, ?_⟩
      · rcases hP with ⟨_, h⟩ | ⟨_, h⟩ <;> omega
      · rw [hl]; rcases hP with ⟨_, h⟩ | ⟨_, h⟩ <;> omega
      · omega
      · omega

example : seqRun [.pushBack 1, .pushFront 2, .pushBack 3, .popFront, .pushBack 4, .popBack] [] =
      some [1, 3] ∧
    pushes [Act.pushBack 1, .pushFront 2, .pushBack 3, .popFront, .pushBack 4, .popBack] = 4 := ⟨rfl, rfl⟩

/-! ## C90 -/

theorem AtMost.step {n : Nat} {a : Act α} {as : List (Act α)} {l l1 : List α}
    (h : AtMost n (a :: as) l) (h1 : seqRun [a] l = some l1) : AtMost n as l1 := by
  intro b c e l' hl
  refine h (a :: b) c (by rw [e]; rfl) l' ?_
  rw [show a :: b = [a] ++ b from rfl, seqRun_append, h1]; exact hl

theorem AtMost.now {n : Nat} {as : List (Act α)} {l : List α} (h : AtMost n as l) : l.length ≤ n :=
  h [] as rfl l rfl

/-- **C90** (partial: only for deques used at one end, see `deque_window_grows`).  When all pushes
and pops happen at the same end, the capacity stays within two blocks or eight times the largest
number of elements there ever were, and however long the history is, room for no more than twice the capacity was ever
allocated. -/
theorem deque_one_ended_storage_partial (cfg : Cfg α) (hA : 0 < cfg.A) (hadj : AdjUp cfg)
    (acts : List (Act α)) (back : Bool) (hb : ∀ a ∈ acts, a.isBack = back) (n : Nat)
    (hn : AtMost n acts []) (l : List α) (hs : seqRun acts [] = some l) :
    ∃ m c, Returns (run cfg (.new 0 :: acts.map (Act.op 0))) World.init () m ∧
      Returns (capacity 0) m c m ∧ c ≤ max (2 * cfg.A) (8 * n) ∧ cfg.A * (m.next - 1) ≤ 2 * c := by
  cases acts with
  | nil => exact ⟨setObj World.init 0 (some .fresh), 0, rfl, rfl, Nat.zero_le _, Nat.le_of_eq (Nat.mul_zero _)⟩
  | cons a acts =>
    obtain ⟨l1, h1, h2⟩ := seqRun_cons hs
    have key := history_ok hA hadj (I := fun as nb P (l : List α) N =>
        N + 1 ≤ 2 * nb ∧
        (∀ a ∈ as, a.isBack = back) ∧ AtMost n as l ∧ nb * cfg.A ≤ max (2 * cfg.A) (8 * n) ∧
        (if back then 4 * P ≤ 3 * (nb * cfg.A) else nb * cfg.A ≤ 4 * (P + l.length))) ?_ a acts h1 ?_ h2
    · obtain ⟨_, m, e1, nb, P, e2, e4, _, _, e3, _⟩ := key
      refine ⟨m, nb * cfg.A, e1, e2.capacity, e3, ?_⟩
      have := Nat.mul_le_mul_left cfg.A (show m.next - 1 ≤ 2 * nb by omega)
      rw [Nat.mul_comm nb, Nat.mul_left_comm 2]
      exact this
    · rintro a as nb P l l' N nb' P' new h2 hev hfit ⟨q0, q1, q2, q3, q4⟩ hs hr
      refine ⟨?_, fun b hb => q1 b (List.mem_cons_of_mem _ hb), q2.step hs, ?_⟩
      · cases a with
        | pushBack x | pushFront x =>
          rcases hr with ⟨_, rfl, _, rfl⟩ | ⟨_, hg⟩
          · exact q0
          · have := hg.len'
            have := hg.new_le
            omega
        | popBack | popFront =>
          obtain ⟨rfl, _, rfl⟩ := hr
          exact q0
      have hab := q1 a (List.mem_cons_self ..)
      have hlen := q2.now
      have hA2 : 2 * cfg.A ≤ nb * cfg.A := Nat.mul_le_mul_right _ h2
      cases a with
      | pushBack x =>
        cases hs
        rw [← hab] at q4 ⊢
        simp only [Act.isBack, if_true] at q4 ⊢
        rcases hr with ⟨r1, rfl, rfl, rfl⟩ | ⟨r1, hg⟩
        · exact ⟨q3, q4⟩
        · obtain ⟨g1, g2, g3, g4, g5, g6⟩ := hg.room hA h2 hev hfit
          rw [g1]
          exact ⟨by omega, by omega⟩
      | pushFront x =>
        cases hs
        rw [← hab] at q4 ⊢
        simp only [Act.isBack, Bool.false_eq_true, if_false] at q4 ⊢
        rw [List.length_cons]
        rcases hr with ⟨r1, rfl, r2, rfl⟩ | ⟨r1, hg⟩
        · exact ⟨q3, by omega⟩
        · obtain ⟨g1, g2, g3, g4, g5, g6⟩ := hg.room hA h2 hev hfit
          rw [g1]
          exact ⟨by omega, by omega⟩
      | popBack =>
        obtain ⟨rfl, rfl, rfl⟩ := hr
        rw [← hab] at q4 ⊢
        exact ⟨q3, q4⟩
      | popFront =>
        obtain ⟨rfl, rfl, rfl⟩ := hr
        rw [← hab] at q4 ⊢
        simp only [Act.isBack, Bool.false_eq_true, if_false] at q4 ⊢
        refine ⟨q3, ?_⟩
        simp only [seqRun] at hs
        split at hs
        · cases hs
        · rename_i hl
          cases hs
          have := List.length_pos_iff.2 hl
          rw [List.length_tail]
          omega
    · intro P hP hl
      refine ⟨by omega, fun b hb' => hb b (List.mem_cons_of_mem _ hb'), hn.step h1, by omega, ?_⟩
      have hab := hb a (List.mem_cons_self ..)
      rw [← hab, hl]
      rcases hP with ⟨⟨x, rfl⟩, h⟩ | ⟨⟨x, rfl⟩, h⟩
      · simp only [Act.isBack, if_true]; omega
      · simp only [Act.isBack, Bool.false_eq_true, if_false]; omega

example : (∀ a ∈ [Act.pushFront 1, .pushFront 2, .popFront, .pushFront 3], a.isBack = false) ∧
    seqRun [Act.pushFront 1, .pushFront 2, .popFront, .pushFront 3] [] = some [3, 1] :=
  ⟨by simp [Act.isBack], rfl⟩

theorem run_append (cfg : Cfg α) (xs ys : List (Op α)) :
    run cfg (xs ++ ys) = (run cfg xs >>= fun _ => run cfg ys) := by
  unfold run
  induction xs with
  | nil => rfl
  | cons x xs ih =>
    show (step cfg x >>= fun _ => seqAll ((xs ++ ys).map (step cfg))) = _
    rw [ih]
    show _ = ((step cfg x >>= fun _ => seqAll (xs.map (step cfg))) >>= fun _ => seqAll (ys.map (step cfg)))
    rw [bind_assoc]

theorem window_add (x : α) (a b : Nat) : window x (a + b) = window x a ++ window x b := by
  induction a with
  | zero => rw [Nat.zero_add]; rfl
  | succ a ih => rw [Nat.succ_add]; show _ :: _ :: window x (a + b) = _; rw [ih]; rfl

theorem window_run (x : α) (n : Nat) : seqRun (window x n) [] = some [] := by
  induction n with
  | zero => rfl
  | succ n ih => exact ih

theorem window_atMost (x : α) (n : Nat) : AtMost 1 (window x n) [] := by
  induction n with
  | zero =>
    intro b c e l hl
    have : b = [] := by cases b with | nil => rfl | cons _ _ => cases e
    subst this; cases hl; simp
  | succ n ih =>
    intro b c e l hl
    match b, e, hl with
    | [], _, hl => cases hl; simp
    | [_], e, hl =>
      have := (List.cons.inj e).1
      subst this; cases hl; simp
    | _ :: _ :: b, e, hl =>
      obtain ⟨e1, e2⟩ := List.cons.inj e
      obtain ⟨e2, e3⟩ := List.cons.inj e2
      subst e1 e2
      exact ih b c e3 l hl

/-- One round moves on by one slot, or doubles the table. -/
theorem round_ok {cfg : Cfg α} (hA : 0 < cfg.A) (hadj : AdjUp cfg) {m : World α} {nb P : Nat} (x : α)
    (h : In cfg m nb P []) :
    wp (run cfg ((window x 1).map (Act.op 0))) (fun _ m' => ∃ nb' P', In cfg m' nb' P' [] ∧
      (P < nb * cfg.A ∧ nb' = nb ∧ P' = P + 1 ∨ nb' = 2 * nb)) m := by
  show wp (step cfg (Act.op 0 (.pushBack x)) >>= fun _ => step cfg (Act.op 0 .popFront) >>= fun _ => pure ()) _ m
  rw [wp_bind]
  refine wp_mono (act_ok hA hadj h (a := .pushBack x) rfl) ?_
  rintro _ m1 ⟨nb1, P1, new, h1, _, h3⟩
  rw [wp_bind]
  refine wp_mono (act_ok hA hadj h1 (a := .popFront) rfl) ?_
  rintro _ m2 ⟨nb2, P2, _, h4, _, rfl, rfl, _⟩
  refine (wp_pure _ _ _).2 ⟨_, _, h4, ?_⟩
  rcases h3 with ⟨r1, r2, r3, _⟩ | ⟨_, g⟩
  · exact Or.inl ⟨r1, r2, by rw [r3]⟩
  · exact Or.inr g.len'

theorem window_double {cfg : Cfg α} (hA : 0 < cfg.A) (hadj : AdjUp cfg) (x : α) (r : Nat) {m : World α}
    {nb P : Nat} (h : In cfg m nb P []) (hr : nb * cfg.A - P ≤ r) :
    ∃ n, wp (run cfg ((window x n).map (Act.op 0))) (fun _ m' => ∃ P', In cfg m' (2 * nb) P' []) m := by
  induction r generalizing m P with
  | zero =>
    refine ⟨1, wp_mono (round_ok hA hadj x h) ?_⟩
    rintro _ m1 ⟨nb1, P1, h1, ⟨h2, _⟩ | h2⟩
    · omega
    · subst h2; exact ⟨P1, h1⟩
  | succ r ih =>
    obtain ⟨_, m1, e, nb1, P1, h1, h2⟩ := round_ok hA hadj x h
    rcases h2 with ⟨h2, rfl, rfl⟩ | rfl
    · obtain ⟨n, hn⟩ := ih h1 (by omega)
      refine ⟨1 + n, ?_⟩
      rw [window_add, List.map_append, run_append, wp_bind, wp_of_returns e]
      exact hn
    · exact ⟨1, wp_of_returns e _ |>.2 ⟨P1, h1⟩⟩

theorem window_grow {cfg : Cfg α} (hA : 0 < cfg.A) (hadj : AdjUp cfg) (x : α) (j : Nat) {m : World α}
    {nb P : Nat} (h : In cfg m nb P []) :
    ∃ n, wp (run cfg ((window x n).map (Act.op 0)))
      (fun _ m' => ∃ nb' P', In cfg m' nb' P' [] ∧ nb + j ≤ nb') m := by
  induction j generalizing m nb P with
  | zero => exact ⟨0, (wp_pure _ _ _).2 ⟨nb, P, h, Nat.le_refl _⟩⟩
  | succ j ih =>
    obtain ⟨n1, _, m1, e, P1, h1⟩ := window_double hA hadj x _ h (Nat.le_refl _)
    obtain ⟨n2, hn⟩ := ih h1
    refine ⟨n1 + n2, ?_⟩
    rw [window_add, List.map_append, run_append, wp_bind, wp_of_returns e]
    refine wp_mono hn ?_
    rintro _ m2 ⟨nb2, P2, k1, k2⟩
    exact ⟨nb2, P2, k1, by have := h.fits; omega⟩

/-- **C90**, why it is not true in general: a deque used as a first-in first-out queue that never
holds more than one element (`window`: push at the back, pop at the front, again and again) reaches
every capacity, and is empty at the end. -/
theorem deque_window_grows (cfg : Cfg α) (hA : 0 < cfg.A) (hadj : AdjUp cfg) (x : α) (N : Nat) :
    ∃ n m c, Returns (run cfg (.new 0 :: (window x n).map (Act.op 0))) World.init () m ∧
      AtMost 1 (window x n) [] ∧ ShowsSeq cfg m 0 [] ∧ Returns (capacity 0) m c m ∧ N ≤ c := by
  obtain ⟨_, m0, e0, P0, h0, _⟩ := first_ok (cfg := cfg) hA hadj (a := .pushBack x) (l' := [x]) rfl
  obtain ⟨_, m1, e1, nb1, P1, _, h1, _⟩ := act_ok hA hadj h0 (a := .popFront) (l' := []) rfl
  obtain ⟨n, _, m2, e2, nb2, P2, h2, h3⟩ := window_grow hA hadj x N h1
  refine ⟨1 + n, m2, nb2 * cfg.A, ?_, window_atMost x _, h2.shows hA hadj, h2.capacity, ?_⟩
  · rw [window_add, List.map_append,
      show Op.new 0 :: ((window x 1).map (Act.op 0) ++ (window x n).map (Act.op 0)) =
        [Op.new 0, Act.op 0 (.pushBack x)] ++ ([Act.op 0 .popFront] ++ (window x n).map (Act.op 0)) from rfl,
      run_append, run_append]
    unfold Returns at *
    rw [bind_returns e0, bind_returns (a := ()) (s' := m1), e2]
    show (step cfg (Act.op 0 .popFront) >>= fun _ => pure ()) m0 = _
    rw [bind_returns e1]; rfl
  · have := Nat.mul_le_mul (show N ≤ nb2 by omega) (show 1 ≤ cfg.A from hA)
    omega

/-- Growing at the back does not bring the first element closer to the begin of the table. -/
theorem Grown.later {A nb nb' P P' len new : Nat} (h2 : 2 ≤ nb) (hA : 0 < A) (hfull : P + len = nb * A)
    (h : Grown A nb nb' P P' len new) : P ≤ P' := by
  have hpe := pos_eq (A := A) (nb := nb) (by omega) (show P ≤ nb * A by omega)
  have h1 : bidx A nb P ≤ (nb * A * 2 - len) / 2 / A := by
    rw [Nat.le_div_iff_mul_le hA]
    omega
  have := Nat.mul_le_mul_right A h1
  rw [h.pos]
  omega

/-- Pushing at the back and popping at the front. -/
def Act.isFifo : Act α → Bool
  | .pushBack _ | .popFront => true
  | .pushFront _ | .popBack => false

theorem fifo_ok {cfg : Cfg α} (hA : 0 < cfg.A) (hadj : AdjUp cfg) (acts : List (Act α)) (hne : acts ≠ [])
    (hf : ∀ a ∈ acts, a.isFifo = true) {l : List α} (hs : seqRun acts [] = some l) :
    wp (run cfg (.new 0 :: acts.map (Act.op 0))) (fun _ m => ∃ nb P, In cfg m nb P l ∧
      pushes acts + cfg.A ≤ nb * cfg.A) World.init := by
  cases acts with
  | nil => exact absurd rfl hne
  | cons a acts =>
    obtain ⟨l1, h1, h2⟩ := seqRun_cons hs
    have ha : pushes (a :: acts) = pushes acts + 1 := by
      rw [pushes_cons]
      cases a <;> first | rfl | cases h1
    rw [ha]
    generalize hT : pushes acts + 1 = T
    refine wp_mono (history_ok hA hadj (I := fun as nb P (l : List α) _ =>
        (∀ a ∈ as, a.isFifo = true) ∧ T + cfg.A ≤ pushes as + P + l.length) ?_ a acts h1 ?_ h2) ?_
    · rintro a as nb P l l' N nb' P' new h2 hev hfit ⟨q1, q2⟩ hs hr
      refine ⟨fun b hb => q1 b (List.mem_cons_of_mem _ hb), ?_⟩
      rw [pushes_cons] at q2
      cases a with
      | pushBack x =>
        cases hs
        simp only [Act.isPush, if_true] at q2
        rw [List.length_append, List.length_singleton]
        rcases hr with ⟨r1, rfl, rfl, rfl⟩ | ⟨r1, hg⟩
        · omega
        · have := hg.later h2 hA r1
          omega
      | pushFront x => exact absurd (q1 _ (List.mem_cons_self ..)) (by simp [Act.isFifo])
      | popBack => exact absurd (q1 _ (List.mem_cons_self ..)) (by simp [Act.isFifo])
      | popFront =>
        obtain ⟨rfl, rfl, rfl⟩ := hr
        simp only [seqRun] at hs
        split at hs
        · cases hs
        · rename_i hl
          cases hs
          have := List.length_pos_iff.2 hl
          rw [List.length_tail]
          simp only [Act.isPush, Bool.false_eq_true, if_false, Nat.add_zero] at q2
          omega
    · intro P hP hl
      refine ⟨fun b hb => hf b (List.mem_cons_of_mem _ hb), ?_⟩
      rcases hP with ⟨_, h⟩ | ⟨⟨x, rfl⟩, _⟩
      · omega
      · exact absurd (hf _ (List.mem_cons_self ..)) (by simp [Act.isFifo])
    · rintro _ m ⟨nb, P, g1, _, g2⟩
      have := g1.fits.1
      simp only [pushes, List.countP_nil, Nat.zero_add] at g2
      exact ⟨nb, P, g1, by omega⟩

/-- **C90**, why it is not true for queues: whatever is pushed at the back and popped at the front, the capacity is at
least the number of elements ever pushed (and one block more), however few of them are left. -/
theorem deque_fifo_storage (cfg : Cfg α) (hA : 0 < cfg.A) (hadj : AdjUp cfg) (acts : List (Act α)) (hne : acts ≠ [])
    (hf : ∀ a ∈ acts, a.isFifo = true) (l : List α) (hs : seqRun acts [] = some l) :
    ∃ m c, Returns (run cfg (.new 0 :: acts.map (Act.op 0))) World.init () m ∧ ShowsSeq cfg m 0 l ∧
      Returns (capacity 0) m c m ∧ pushes acts + cfg.A ≤ c := by
  obtain ⟨_, m, e, nb, P, h1, h2⟩ := fifo_ok hA hadj acts hne hf hs
  exact ⟨m, _, e, h1.shows hA hadj, h1.capacity, h2⟩

example : (∀ a ∈ [Act.pushBack 1, .pushBack 2, .popFront, .pushBack 3, .popFront], a.isFifo = true) ∧
    seqRun [Act.pushBack 1, .pushBack 2, .popFront, .pushBack 3, .popFront] [] = some [3] ∧
    pushes [Act.pushBack 1, .pushBack 2, .popFront, .pushBack 3, .popFront] = 3 :=
  ⟨by simp [Act.isFifo], rfl, rfl⟩

end Verif.Deq
