import Verif.Props.Deque
import Verif.DequeIters

/-! # Properties of deque iterators (C67, C70, C95) -/

namespace Verif.Deq

open Prog

variable {α : Type}

/-- `it 0, it 1, …` are the iterators of the deque `k` with contents `l`, from `begin()` to
`end()`: `++` and `--` move between neighbours, `+` and `-` move any distance, `==` tells positions
apart, and `*` reads the element. -/
structure Line (cfg : Cfg α) (m : World α) (k : Nat) (l : List α) (it : Nat → Iter) : Prop where
  begin_ : Returns (begin_ k) m (it 0) m
  end_ : Returns (end_ k) m (it l.length) m
  next : ∀ i, i < l.length → Returns (incr cfg (it i)) m (it (i + 1)) m
  prev : ∀ i, i < l.length → Returns (decr cfg (it (i + 1))) m (it i) m
  plus : ∀ i j, i ≤ l.length → j ≤ l.length →
    Returns (plus cfg (it i) ((j : Int) - (i : Int))) m (it j) m
  eq : ∀ i j, i ≤ l.length → j ≤ l.length → Returns (iterEq cfg (it i) (it j)) m (decide (i = j)) m
  elem : ∀ i (h : i < l.length), Returns (deref cfg (it i)) m l[i] m

/-- **C67** (partial: the guard `AvoidsAll` excludes the defective uses of C33 and C35, and blocks
that touch must have been allocated in address order, see C31).  In every state that a history of
operations leads to, the iterators of every deque in use form a line from `begin()` to `end()`, and
reading backwards from `end()` gives the elements in reverse. -/
theorem deque_iterators_partial (cfg : Cfg α) (hA : 0 < cfg.A) (hadj : AdjUp cfg) (ops : List (Op α))
    (w : SWorld α) (hs : specRun ops (fun _ => none) = some w) (ha : AvoidsAll ops (fun _ => none))
    (k : Nat) (s : SD α) (hk : w k = some s) (hph : s.ph = .used) :
    ∃ m, Returns (run cfg ops) World.init () m ∧ (∃ it, Line cfg m k s.l it) ∧
      Returns (backward cfg k) m s.l.reverse m := by
  obtain ⟨_, m, h1, h2⟩ := run_ok hA hadj WInv.init hs ha
  obtain ⟨d, g1, g2, g3⟩ := h2.get hk
  unfold ObjInv at g2
  rw [hph] at g2
  obtain ⟨P, hU⟩ := g2
  have hT := g3.tbl g1 rfl
  have hfit := hU.fits
  have heq : ∀ i j, i ≤ s.l.length → j ≤ s.l.length →
      Returns (iterEq cfg (itAt cfg.A d.tbl k (P + i)) (itAt cfg.A d.tbl k (P + j))) m
        (decide (i = j)) m := by
    intro i j hi hj
    unfold iterEq Returns
    rw [bind_returns (itAt_getCur ..), bind_returns (itAt_getCur ..)]
    have := ptrEq_pos hA hadj g3.1 hU.last hU.pos (m := P + i) (n := P + j) (by omega) (by omega)
    have e : ptrEq cfg (curAt cfg.A d.tbl (P + i)) (curAt cfg.A d.tbl (P + j)) = decide (i = j) := by
      by_cases hij : i = j
      · rw [decide_eq_true hij]; exact this.2 (by omega)
      · rw [decide_eq_false hij]
        cases hp : ptrEq cfg (curAt cfg.A d.tbl (P + i)) (curAt cfg.A d.tbl (P + j)) with
        | false => rfl
        | true => exact absurd (this.1 hp) (by omega)
    rw [← e]
    exact cmp_ok (hT.live_cur hU.pos hA _) (hT.live_cur hU.pos hA _)
  have helem : ∀ i (h : i < s.l.length),
      Returns (deref cfg (itAt cfg.A d.tbl k (P + i))) m s.l[i] m := by
    intro i h
    unfold deref Returns
    rw [bind_returns (itAt_getCur ..)]
    exact readPtr_ok hA (by omega) (hU.inside i h)
  have hprev : ∀ i, i < s.l.length → Returns (decr cfg (itAt cfg.A d.tbl k (P + (i + 1)))) m
      (itAt cfg.A d.tbl k (P + i)) m := fun i hi => decr_ok (n := P + i) hA hadj hT (by omega)
  have hbeg : Returns (begin_ k) m (itAt cfg.A d.tbl k (P + 0)) m := by
    unfold begin_ Returns
    rw [bind_returns (getObj_ok g1), hU.beg]
    exact copyIter_itAt ..
  have hend : Returns (end_ k) m (itAt cfg.A d.tbl k (P + s.l.length)) m := by
    unfold end_ Returns
    rw [bind_returns (getObj_ok g1), hU.fin]
    exact copyIter_itAt ..
  refine ⟨m, h1, ⟨fun i => itAt cfg.A d.tbl k (P + i), hbeg, hend, ?_, hprev, ?_, heq, helem⟩, ?_⟩
  · intro i hi
    exact incr_ok hA hadj hT (by omega)
  · intro i j hi hj
    by_cases hij : i ≤ j
    · have := plus_pos hA hadj hT (P + i) (j - i) (by omega)
      rwa [show P + i + (j - i) = P + j by omega, show ((j - i : Nat) : Int) = (j : Int) - i by omega] at this
    · have := plus_neg hA hadj hT (P + j) (i - j) (by omega) (by omega)
      rwa [show P + j + (i - j) = P + i by omega, show -((i - j : Nat) : Int) = (j : Int) - i by omega] at this
  · have hback : ∀ n, n ≤ s.l.length → Returns (backwardFrom cfg (itAt cfg.A d.tbl k (P + n))
        (itAt cfg.A d.tbl k (P + 0))) m (s.l.take n).reverse m := by
      intro n
      induction n with
      | zero =>
        intro _
        rw [backwardFrom]
        unfold Returns
        rw [bind_returns (heq 0 0 (by omega) (by omega))]
        rfl
      | succ n ih =>
        intro hn
        rw [backwardFrom]
        unfold Returns
        rw [bind_returns (heq (n + 1) 0 hn (by omega)), if_neg (by simp),
          bind_returns (hprev n (by omega)), bind_returns (helem n (by omega)),
          bind_returns (ih (by omega)), List.take_succ_eq_append_getElem (by omega : n < s.l.length),
          List.reverse_append]
        rfl
    have := hback s.l.length (Nat.le_refl _)
    rw [List.take_length] at this
    unfold backward Returns
    rw [bind_returns hend, bind_returns hbeg]
    exact this

/-- A deque in use after pushes at both ends and a pop. -/
example : ∃ w : SWorld Nat, specRun [Op.new 0, .pushBack 0 1, .pushBack 0 2, .pushFront 0 3,
      .pushBack 0 4, .popFront 0] (fun _ => none) = some w ∧
    AvoidsAll [Op.new 0, .pushBack 0 1, .pushBack 0 2, .pushFront 0 3, .pushBack 0 4, .popFront 0]
      (fun _ => none) ∧ w 0 = some ⟨[1, 2, 4], .used⟩ :=
  ⟨_, rfl, avoidsAll_of_plain (by simp [Op.plain]) _ sound_nil, rfl⟩

/-- **C70** (partial: the guard `AvoidsAll` excludes the defective uses of C33 and C35, and blocks
that touch must have been allocated in address order, see C31).  A reference to an element stays
valid: take the reference `k[i]` in any reachable state; after any further history that does not
remove that element (pushes and pops at either end, growth of the block table, clearing, copying and
moving other deques, moving this one), reading through the reference gives the current value of the
element, which is now where `followAll` says, and indexing there gives the same reference. -/
theorem deque_references_partial (cfg : Cfg α) (hA : 0 < cfg.A) (hadj : AdjUp cfg)
    (ops more : List (Op α)) (w w' : SWorld α)
    (hs : specRun ops (fun _ => none) = some w) (ha : AvoidsAll ops (fun _ => none))
    (hmore : specRun more w = some w') (ha' : AvoidsAll more w)
    (k i k' i' : Nat) (s : SD α) (hk : w k = some s) (hph : s.ph = .used) (hi : i < s.l.length)
    (hf : followAll more w (k, i) = some (k', i')) :
    ∃ m m' c, Returns (run cfg ops) World.init () m ∧ Returns (indexRef cfg k i) m c m ∧
      Returns (run cfg more) m () m' ∧ ∃ s' x, w' k' = some s' ∧ s'.l[i']? = some x ∧
        Returns (readPtr cfg c) m' x m' ∧ (s'.ph = .used → Returns (indexRef cfg k' i') m' c m') := by
  obtain ⟨_, m, h1, h2⟩ := run_ok hA hadj WInv.init hs ha
  obtain ⟨d, g1, g2, g3⟩ := h2.get hk
  unfold ObjInv at g2
  rw [hph] at g2
  obtain ⟨P, hU⟩ := g2
  have hat : At cfg m k i (curAt cfg.A d.tbl (P + i)) := ⟨d, k, s.l, P, g1, hU, hi, rfl⟩
  obtain ⟨s0, x0, e1, _, _, e2⟩ := hat.read hA hadj h2
  rw [hk] at e1; cases e1
  obtain ⟨_, m', h3, h4, h5⟩ := run_at hA hadj h2 hmore ha' hat hf
  exact ⟨m, m', _, h1, e2 hph, h3, h5.read hA hadj h4⟩

/-- The element `2` is followed through pushes at both ends that make the table grow, a write, a
pop, and the assignment of its deque to another one. -/
example : ∃ w w' : SWorld Nat,
    specRun [Op.new 0, .pushBack 0 1, .pushBack 0 2, .new 1] (fun _ => none) = some w ∧
    AvoidsAll [Op.new 0, .pushBack 0 1, .pushBack 0 2, .new 1] (fun _ => none) ∧
    specRun [Op.pushFront 0 3, .pushBack 0 4, .pushFront 0 5, .pushBackElem 0 0 1, .set 0 3 9, .popFront 0,
      .move 1 0] w = some w' ∧
    AvoidsAll [Op.pushFront 0 3, .pushBack 0 4, .pushFront 0 5, .pushBackElem 0 0 1, .set 0 3 9,
      .popFront 0, .move 1 0] w ∧
    w 0 = some ⟨[1, 2], .used⟩ ∧ w' 1 = some ⟨[3, 1, 9, 4, 3], .stale⟩ ∧
    followAll [Op.pushFront 0 3, .pushBack 0 4, .pushFront 0 5, .pushBackElem 0 0 1, .set 0 3 9,
      .popFront 0, .move 1 0] w (0, 1) = some (1, 2) := by
  have hplain := avoidsAll_of_plain (α := Nat) (ops := [Op.new 0, .pushBack 0 1, .pushBack 0 2, .new 1])
    (by simp [Op.plain]) _ sound_nil
  refine ⟨_, _, rfl, hplain, rfl, ?_, rfl, rfl, rfl⟩
  have snd : ∀ (w : SWorld Nat) (l : List Nat) (k : Nat), w k = some ⟨l, .used⟩ → Sound w k := by
    intro w l k h s hs; rw [h] at hs; cases hs; simp
  refine ⟨snd _ _ _ rfl, fun _ h => ?_⟩; cases h
  refine ⟨snd _ _ _ rfl, fun _ h => ?_⟩; cases h
  refine ⟨snd _ _ _ rfl, fun _ h => ?_⟩; cases h
  refine ⟨⟨snd _ _ _ rfl, snd _ _ _ rfl⟩, fun _ h => ?_⟩; cases h
  refine ⟨snd _ _ _ rfl, fun _ h => ?_⟩; cases h
  refine ⟨snd _ _ _ rfl, fun _ h => ?_⟩; cases h
  refine ⟨Or.inr ⟨fun s hs => ?_, fun u hu => ?_⟩, fun _ h => ?_⟩
  · cases hs; simp
  · cases hu; simp
  · cases h; trivial

/-! ## C95 -/

/-- **C95** (partial: the guard `AvoidsAll` excludes the defective uses of C33 and C35, and blocks
that touch must have been allocated in address order, see C31).  Take the iterator `begin() + i`
of a deque in use in any reachable state.  After any further history that does not take its place
away (`shiftAll`) the capacity is at least what it was.  When it is the same, the iterator is the one
that `begin() + i'` gives now, `i'` being its new position: it can be used like a new one (C67), and
reading through it gives the element that is there. -/
theorem deque_iterator_kept_partial (cfg : Cfg α) (hA : 0 < cfg.A) (hadj : AdjUp cfg)
    (ops more : List (Op α)) (w w' : SWorld α)
    (hs : specRun ops (fun _ => none) = some w) (ha : AvoidsAll ops (fun _ => none))
    (hmore : specRun more w = some w') (ha' : AvoidsAll more w)
    (k i i' : Nat) (s : SD α) (hk : w k = some s) (hph : s.ph = .used) (hi : i ≤ s.l.length)
    (hf : shiftAll more w k i = some i') :
    ∃ m m' b it c c', Returns (run cfg ops) World.init () m ∧ Returns (begin_ k) m b m ∧
      Returns (plus cfg b i) m it m ∧ Returns (capacity k) m c m ∧
      Returns (run cfg more) m () m' ∧ Returns (capacity k) m' c' m' ∧ c ≤ c' ∧
      ∃ s' b', w' k = some s' ∧ s'.ph = .used ∧ i' ≤ s'.l.length ∧ Returns (begin_ k) m' b' m' ∧
        (c' = c → Returns (plus cfg b' i') m' it m' ∧
          ∀ x, s'.l[i']? = some x → Returns (deref cfg it) m' x m') := by
  obtain ⟨_, m, h1, h2⟩ := run_ok hA hadj WInv.init hs ha
  obtain ⟨d, g1, g2, g3⟩ := h2.get hk
  unfold ObjInv at g2
  rw [hph] at g2
  obtain ⟨P, hU⟩ := g2
  have hat : ItPos cfg m w k i d.cap (itAt cfg.A d.tbl k (P + i)) :=
    ⟨d, s, P, g1, hk, hph, hU, hi, rfl, rfl⟩
  obtain ⟨b, _, _, _, _, e1, e2, e3, _⟩ := hat.reach hA hadj h2
  obtain ⟨_, m', h3, h4, c', it', h5, h6, h7⟩ := run_it hA hadj h2 hmore ha' hat hf
  obtain ⟨b', s', f1, f2, f3, f4, f5, f6, f7⟩ := h5.reach hA hadj h4
  refine ⟨m, m', b, _, d.cap, c', h1, e1, e2, e3, h3, f6, h6, s', b', f1, f2, f3, f4, fun e => ?_⟩
  rw [← h7 e]
  exact ⟨f5, f7⟩

/-- The iterator to `2` is followed through pushes at both ends, a write and pops. -/
example : ∃ w w' : SWorld Nat,
    specRun [Op.new 0, .pushBack 0 1, .pushBack 0 2] (fun _ => none) = some w ∧
    AvoidsAll [Op.new 0, .pushBack 0 1, .pushBack 0 2] (fun _ => none) ∧
    specRun [Op.pushFront 0 3, .pushBack 0 4, .set 0 2 9, .popFront 0, .popFront 0] w = some w' ∧
    AvoidsAll [Op.pushFront 0 3, .pushBack 0 4, .set 0 2 9, .popFront 0, .popFront 0] w ∧
    w 0 = some ⟨[1, 2], .used⟩ ∧ w' 0 = some ⟨[9, 4], .used⟩ ∧
    shiftAll [Op.pushFront 0 3, .pushBack 0 4, .set 0 2 9, .popFront 0, .popFront 0] w 0 1 = some 0 := by
  refine ⟨_, _, rfl, avoidsAll_of_plain (by simp [Op.plain]) _ sound_nil, rfl, ?_, rfl, rfl, rfl⟩
  refine avoidsAll_of_plain (by simp [Op.plain]) _ ?_
  intro k s hs
  simp only [SWorld.put] at hs
  split at hs
  · cases hs; simp
  · cases hs

/-- C95: without the condition on the capacity it fails, whatever the size of the blocks.  Fill a
new deque with `3 * A` elements at the back, take `it = begin()`, and push one more element, which
makes the block table grow.  `*it` still is the first element (C70), but `it + A`, which should be at
the element of index `A`, is an iterator that can neither be read nor moved on: the block index in
`it` is that of another block now, so that `++` misses the end of the block. -/
theorem deque_stale_iterator (cfg : Cfg α) (hA : 0 < cfg.A) (hadj : AdjUp cfg) (l : List α)
    (hl : l.length = 3 * cfg.A) (x : α) :
    ∃ m m' it it', Returns (run cfg (.new 0 :: l.map (Op.pushBack 0))) World.init () m ∧
      Returns (begin_ 0) m it m ∧ Returns (step cfg (.pushBack 0 x)) m () m' ∧
      ShowsSeq cfg m' 0 (l ++ [x]) ∧
      (∀ y, l.head? = some y → Returns (deref cfg it) m' y m') ∧
      Returns (plus cfg it cfg.A) m' it' m' ∧ Faults (deref cfg it') m' .outOfBounds ∧
      Faults (incr cfg it') m' .outOfBounds := by
  obtain ⟨_, m, h1, ⟨d, hd, hO, hU, hlen⟩, hn⟩ := filled_ok hA hadj l hl
  obtain ⟨_, m', h2, d', P', g1, g2, g3, g4, g5⟩ :=
    pushBack_ok hA hadj hd hn hO (Or.inr ⟨_, hU⟩) (a := .val x) (x := x) (Or.inl rfl)
  have hbeg : Returns (begin_ 0) m (itAt cfg.A d.tbl 0 cfg.A) m := by
    unfold begin_ Returns
    rw [bind_returns (getObj_ok hd), hU.beg]
    exact copyIter_itAt ..
  have hO' := g3.ok hO
  have hT' := hO'.tbl g1 rfl
  have hcur := g5 cfg.A hU 0 (by omega)
  rw [Nat.add_zero, Nat.add_zero] at hcur
  have hgrow : d'.tbl.length = 8 ∧ P' = 2 * cfg.A := by
    rcases g4 with ⟨e, _⟩ | ⟨P0, hU0, g4⟩
    · rw [e] at hlen; simp at hlen
    · have e := hU.unique hA hadj hO hU0
      subst e
      rcases g4 with ⟨e1, _⟩ | ⟨_, new, _, hg⟩
      · exact absurd (by rw [hlen, hl]; omega) e1
      · have e1 := hg.len'
        have e2 := hg.pos
        have hbo : boff cfg.A 4 cfg.A = 0 := by simp [boff]; omega
        have hdv : (4 * cfg.A * 2 - 3 * cfg.A) / 2 / cfg.A = 2 := by
          refine Nat.div_eq_of_lt_le ?_ ?_ <;> omega
        rw [hlen, hl, hbo, hdv, Nat.add_zero] at e2
        rw [hlen] at e1
        exact ⟨e1, e2⟩
  obtain ⟨hl8, rfl⟩ := hgrow
  have hb8 : bidx cfg.A 8 (2 * cfg.A) = 2 ∧ boff cfg.A 8 (2 * cfg.A) = 0 := by
    have h := bidx_of (A := cfg.A) (nb := 8) (q := 2) (r := 0) (by omega) hA
    have h' := boff_of (A := cfg.A) (nb := 8) (q := 2) (r := 0) (by omega) hA
    exact ⟨h, h'⟩
  have hb4 : bidx cfg.A 4 cfg.A = 1 := by
    have h := bidx_of (A := cfg.A) (nb := 4) (q := 1) (r := 0) (by omega) hA
    rwa [Nat.one_mul, Nat.add_zero] at h
  obtain ⟨q2, _⟩ := hT'.get (i := 2) (by omega)
  obtain ⟨q1, _⟩ := hT'.get (i := 1) (by omega)
  generalize hB2 : d'.tbl.getD 2 0 = b2 at q2
  generalize hB1 : d'.tbl.getD 1 0 = b1 at q1
  have hne : b2 ≠ b1 := by
    intro e
    subst e
    have := (List.getElem?_inj (i := 2) (j := 1) (by omega) hO'.1).1 (by rw [q1, q2])
    omega
  have hc' : curAt cfg.A d'.tbl (2 * cfg.A) = .at b2 0 := by
    unfold curAt; rw [hl8, hb8.1, hb8.2, hB2]
  have hit : itAt cfg.A d.tbl 0 cfg.A = { idx := some ((1 : Nat) : Int), cur := some (.at b2 0), tbl := some 0 } := by
    unfold itAt; rw [← hcur, hc', hlen, hb4]
  obtain ⟨_, f, hf⟩ := hT'.live b2 (List.mem_of_getElem? q2)
  have hplus := incrN_wrong (cfg := cfg) (o := 0) hT' q1 hf hne cfg.A (by omega)
  rw [Nat.zero_add] at hplus
  refine ⟨m, m', _, { idx := some ((1 : Nat) : Int), cur := some (.at b2 cfg.A), tbl := some 0 }, h1, hbeg, h2,
    g2.shows hA hadj g1 hO', ?_, ?_, ?_, ?_⟩
  · intro y hy
    obtain ⟨z, t, rfl⟩ : ∃ z t, l = z :: t := by
      cases l with
      | nil => cases hy
      | cons z t => exact ⟨z, t, rfl⟩
    cases hy
    unfold deref Returns
    rw [bind_returns (itAt_getCur ..), ← hcur]
    exact readPtr_ok hA (by rw [hl8]; omega) (g2.inside 0 (by simp))
  · rw [hit]
    unfold plus Returns
    rw [bind_returns (copyIter_mk ..), if_neg (by omega), Int.toNat_natCast]
    exact hplus
  · unfold deref Faults
    rw [bind_returns (getCur_mk ..)]
    refine bind_faults ?_
    show (match m'.blk b2 with
      | none => _
      | some f => if cfg.A < cfg.A then _ else _) = _
    rw [hf]
    simp
  · unfold incr Faults
    rw [bind_returns (getCur_mk ..)]
    refine bind_faults ?_
    show (check _ _ >>= fun _ => _) m' = _
    simp [check, bind, Prog.bind]

/-- Blocks of two elements. -/
example : [10, 11, 12, 13, 14, 15].length = 3 * 2 := rfl

end Verif.Deq
