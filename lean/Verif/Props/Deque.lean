import Verif.DequeDefects

/-! # Properties of `DoubleEndedQueue` (C31–C35, C62) -/

namespace Verif.Deq

open Prog

variable {α : Type}

/-! ## Histories without copies and moves -/

/-- Neither a copy nor a move. -/
def Op.plain : Op α → Prop
  | .copy _ _ | .move _ _ => False
  | _ => True

theorem plain_step {op : Op α} (hp : op.plain) {w w' : SWorld α} (h : ∀ k, Sound w k)
    (hs : specStep op w = some w') : ∀ k, Sound w' k := by
  have put : ∀ (k : Nat) (v : Option (SD α)), (∀ s, v = some s → s.ph ≠ .stale) →
      ∀ j, Sound (w.put k v) j := by
    intro k v hv j s hj
    simp only [SWorld.put] at hj
    split at hj
    · exact hv s hj
    · exact h j s hj
  cases op with
  | copy d s => exact absurd hp (by simp [Op.plain])
  | move d s => exact absurd hp (by simp [Op.plain])
  | new k =>
    simp only [specStep] at hs
    split at hs
    · cases hs; exact put k _ (by rintro _ ⟨⟩; simp)
    · cases hs
  | pushBack k x =>
    simp only [specStep, Option.bind_eq_some_iff] at hs
    obtain ⟨_, _, hs⟩ := hs
    cases hs; exact put k _ (by rintro _ ⟨⟩; simp)
  | pushFront k x =>
    simp only [specStep, Option.bind_eq_some_iff] at hs
    obtain ⟨_, _, hs⟩ := hs
    cases hs; exact put k _ (by rintro _ ⟨⟩; simp)
  | pushBackElem k j i =>
    simp only [specStep, Option.bind_eq_some_iff] at hs
    obtain ⟨_, _, _, _, _, _, hs⟩ := hs
    cases hs; exact put k _ (by rintro _ ⟨⟩; simp)
  | pushFrontElem k j i =>
    simp only [specStep, Option.bind_eq_some_iff] at hs
    obtain ⟨_, _, _, _, _, _, hs⟩ := hs
    cases hs; exact put k _ (by rintro _ ⟨⟩; simp)
  | popBack k =>
    simp only [specStep, Option.bind_eq_some_iff] at hs
    obtain ⟨s, h1, hs⟩ := hs
    split at hs
    · cases hs
    · cases hs; exact put k _ (by rintro _ ⟨⟩; exact h k s h1)
  | popFront k =>
    simp only [specStep, Option.bind_eq_some_iff] at hs
    obtain ⟨s, h1, hs⟩ := hs
    split at hs
    · cases hs
    · cases hs; exact put k _ (by rintro _ ⟨⟩; exact h k s h1)
  | set k i x =>
    simp only [specStep, Option.bind_eq_some_iff] at hs
    obtain ⟨s, h1, hs⟩ := hs
    split at hs
    · cases hs; exact put k _ (by rintro _ ⟨⟩; exact h k s h1)
    · cases hs
  | clear k =>
    simp only [specStep, Option.bind_eq_some_iff] at hs
    obtain ⟨s, h1, hs⟩ := hs
    cases hs; exact put k _ (by rintro _ ⟨⟩; exact SD.clear_ph s (h k s h1))
  | drop k =>
    simp only [specStep, Option.bind_eq_some_iff] at hs
    obtain ⟨s, h1, hs⟩ := hs
    cases hs; exact put k _ (by rintro _ ⟨⟩)

theorem avoidsAll_of_plain {ops : List (Op α)} (hp : ∀ op ∈ ops, op.plain) :
    ∀ w : SWorld α, (∀ k, Sound w k) → AvoidsAll ops w := by
  induction ops with
  | nil => intro _ _; trivial
  | cons op ops ih =>
    intro w hw
    have h1 := hp op (List.mem_cons_self ..)
    refine ⟨?_, fun w' hs => ih (fun o ho => hp o (List.mem_cons_of_mem _ ho)) w' (plain_step h1 hw hs)⟩
    cases op with
    | copy d s => exact absurd h1 (by simp [Op.plain])
    | move d s => exact absurd h1 (by simp [Op.plain])
    | pushBackElem k j i => exact ⟨hw k, hw j⟩
    | pushFrontElem k j i => exact ⟨hw k, hw j⟩
    | new k => trivial
    | _ => exact hw _

theorem sound_nil : ∀ k, Sound (fun _ => none : SWorld α) k := by
  intro k s h; cases h

/-! ## C31 -/

theorem seq_spec (acts : List (Act α)) {w : SWorld α} {l l' : List α} (hw : w 0 = some ⟨l, .used⟩)
    (hs : seqRun acts l = some l') :
    ∃ w', specRun (acts.map (Act.op 0)) w = some w' ∧ w' 0 = some ⟨l', .used⟩ := by
  induction acts generalizing w l with
  | nil => cases hs; exact ⟨w, rfl, hw⟩
  | cons a as ih =>
    have go : ∀ l1, (specStep (a.op 0) w = some (w.put 0 (some ⟨l1, .used⟩))) → seqRun as l1 = some l' →
        ∃ w', specRun ((a :: as).map (Act.op 0)) w = some w' ∧ w' 0 = some ⟨l', .used⟩ := by
      intro l1 h1 h2
      obtain ⟨w', h3, h4⟩ := ih (w := w.put 0 (some ⟨l1, .used⟩)) (by simp [SWorld.put]) h2
      exact ⟨w', by simp only [List.map_cons, specRun, h1, Option.bind_some]; exact h3, h4⟩
    cases a with
    | pushBack x => exact go _ (by simp [Act.op, specStep, hw]) hs
    | pushFront x => exact go _ (by simp [Act.op, specStep, hw]) hs
    | popBack =>
      simp only [seqRun] at hs
      split at hs
      · cases hs
      · rename_i hl
        exact go _ (by simp [Act.op, specStep, hw, hl]) hs
    | popFront =>
      simp only [seqRun] at hs
      split at hs
      · cases hs
      · rename_i hl
        exact go _ (by simp [Act.op, specStep, hw, hl]) hs

/-- **C31** (partial: at least one operation, see `deque_never_used_faults`; and blocks that touch
are in order of allocation, see `deque_adjacent_wrong`).  After any non-empty history of pushes and
pops at either end (no pop on empty) of a new deque, iteration, `size`, `empty`, `front`, `back`
and indexing from both ends report exactly the corresponding list; for every block size. -/
theorem deque_sequence_partial (cfg : Cfg α) (hA : 0 < cfg.A) (hadj : AdjUp cfg) (acts : List (Act α))
    (hne : acts ≠ []) (l : List α) (hs : seqRun acts [] = some l) :
    ∃ m, Returns (run cfg (.new 0 :: acts.map (Act.op 0))) World.init () m ∧ ShowsSeq cfg m 0 l := by
  have key : ∀ (a : Act α) (as : List (Act α)) (l1 : List α),
      specStep (a.op 0) (SWorld.put (fun _ => none) 0 (some ⟨[], .fresh⟩)) =
        some ((SWorld.put (fun _ => none) 0 (some ⟨[], .fresh⟩)).put 0 (some ⟨l1, .used⟩)) →
      seqRun as l1 = some l →
      ∃ m, Returns (run cfg (.new 0 :: (a :: as).map (Act.op 0))) World.init () m ∧ ShowsSeq cfg m 0 l := by
    intro a as l1 h1 h2
    obtain ⟨w', h3, h4⟩ := seq_spec as (w := (SWorld.put (fun _ => none) 0 (some ⟨[], .fresh⟩)).put 0
      (some ⟨l1, .used⟩)) (by simp [SWorld.put]) h2
    have hspec : specRun (.new 0 :: (a :: as).map (Act.op 0)) (fun _ => none) = some w' := by
      show (specStep (a.op 0) _).bind (specRun (as.map (Act.op 0))) = some w'
      refine (congrArg (fun o => Option.bind o (specRun (as.map (Act.op 0)))) h1).trans ?_
      exact h3
    have hav : AvoidsAll (.new 0 :: (a :: as).map (Act.op 0)) (fun _ => none : SWorld α) := by
      refine avoidsAll_of_plain ?_ _ sound_nil
      intro op hop
      rcases List.mem_cons.1 hop with rfl | hop
      · trivial
      · obtain ⟨b, _, rfl⟩ := List.mem_map.1 hop
        cases b <;> trivial
    obtain ⟨_, m, e1, e2⟩ := run_ok hA hadj WInv.init hspec hav
    exact ⟨m, e1, ((e2.shows hA hadj 0).2 _ h4).2.2 (Or.inl rfl)⟩
  cases acts with
  | nil => exact absurd rfl hne
  | cons a as =>
    cases a with
    | pushBack x => exact key _ as [x] (by simp [Act.op, specStep, SWorld.put]) hs
    | pushFront x => exact key _ as [x] (by simp [Act.op, specStep, SWorld.put]) hs
    | popBack => simp [seqRun] at hs
    | popFront => simp [seqRun] at hs

/-- A block size and an allocator whose blocks are contiguous. -/
def exCfg : Cfg Nat := { A := 2, d := 0, adj := fun b c => c == b + 1 }

theorem exCfg_adj : AdjUp exCfg := by
  intro b c h
  simp only [exCfg, beq_iff_eq] at h
  omega

example : seqRun [Act.pushBack 1, .pushBack 2, .pushBack 3, .pushFront 4, .pushFront 5, .pushFront 6,
    .popBack, .popFront, .pushBack 9] [] = some [5, 4, 1, 2, 9] := rfl

/-- **C31** for several deques at once, with clearing, destruction and pushing elements of one
deque (or the same) onto another: `size` and `empty` are right in every state, and everything else
unless the deque was never used or was cleared while it had elements. -/
theorem deque_history_partial (cfg : Cfg α) (hA : 0 < cfg.A) (hadj : AdjUp cfg) (ops : List (Op α))
    (w : SWorld α) (hs : specRun ops (fun _ => none) = some w) (hp : ∀ op ∈ ops, op.plain) :
    ∃ m, Returns (run cfg ops) World.init () m ∧ Shows cfg m w := by
  obtain ⟨_, m, h1, h2⟩ := run_ok hA hadj WInv.init hs (avoidsAll_of_plain hp _ sound_nil)
  exact ⟨m, h1, h2.shows hA hadj⟩

example : ∃ w, specRun [Op.new 0, .pushBack 0 1, .pushBackElem 0 0 0, .new 1, .pushFrontElem 1 0 (-1),
      .pushFront 1 7, .clear 0, .pushFront 0 3] (fun _ => none) = some w ∧
    w 0 = some ⟨[3], .used⟩ ∧ w 1 = some ⟨[7, 1], .used⟩ := ⟨_, rfl, rfl, rfl⟩

/-- **C31, failing case.**  Two pushes already go wrong when the begin of the first block
happens to be the end of the second one: iterating the two-element deque finds nothing. -/
theorem deque_adjacent_wrong :
    ∃ m, Returns (run ({ A := 1, d := 0, adj := fun b c => b == 2 && c == 1 } : Cfg Nat)
        [.new 0, .pushBack 0 5, .pushFront 0 7]) World.init () m ∧
      Returns (size 0) m 2 m ∧
      Returns (iterate ({ A := 1, d := 0, adj := fun b c => b == 2 && c == 1 } : Cfg Nat) 0) m [] m := by
  refine ⟨_, rfl, rfl, ?_⟩
  unfold iterate iterateFrom
  rfl

/-! ## C32 -/

/-- The layout of a deque with contents `l`: distinct allocated blocks, capacity the number of
their slots, and the elements in consecutive slots. -/
def Layout (cfg : Cfg α) (m : World α) (k : Nat) (l : List α) : Prop :=
  ∃ d, m.obj k = some d ∧ d.sz = l.length ∧ d.sz ≤ d.cap ∧ d.cap = d.tbl.length * cfg.A ∧
    d.tbl.Nodup ∧ (∀ b ∈ d.tbl, Allocated m b) ∧
    ∃ P, P + l.length ≤ d.cap ∧ ∀ (j : Nat) (x : α), l[j]? = some x →
      ∃ b f, d.tbl[(P + j) / cfg.A]? = some b ∧ m.blk b = some f ∧ f ((P + j) % cfg.A) = .elem x

theorem layout_of {cfg : Cfg α} (hA : 0 < cfg.A) {m : World α} {w : SWorld α} (h : WInv cfg m w)
    {k : Nat} {s : SD α} (hs : w k = some s) : Layout cfg m k s.l := by
  obtain ⟨d, hd, hI, hO⟩ := h.get hs
  have hall : ∀ b ∈ d.tbl, Allocated m b := by
    intro b hb
    obtain ⟨_, _, f, hf⟩ := hO.2 b hb
    unfold Allocated; rw [hf]; simp
  have idle : d.tbl = [] → d.cap = 0 → d.sz = 0 → s.l = [] → Layout cfg m k s.l := by
    intro h1 h2 h3 h4
    refine ⟨d, hd, by rw [h3, h4]; rfl, by omega, by rw [h1, h2]; simp, hO.1, hall, 0, by rw [h4]; simp, ?_⟩
    intro j x hx; rw [h4] at hx; simp at hx
  have used : ∀ own P, Used cfg m own d s.l P → Layout cfg m k s.l := by
    intro own P hU
    have hfit := hU.fits
    refine ⟨d, hd, hU.sz, by rw [hU.sz, hU.cap]; omega, hU.cap, hO.1, hall, P, by rw [hU.cap]; exact hfit, ?_⟩
    intro j x hx
    obtain ⟨hj, hx⟩ := List.getElem?_eq_some_iff.1 hx
    have hn : P + j < d.tbl.length * cfg.A := by omega
    obtain ⟨f, h1, h2⟩ := slotAt_some (hU.inside j hj)
    have hlt := bidx_lt (A := cfg.A) (n := P + j) hU.pos
    unfold bidx at h1 hlt
    unfold boff at h2
    rw [if_pos hn] at h1 h2 hlt
    refine ⟨_, f, ?_, h1, by rw [h2, hx]⟩
    rw [List.getD_eq_getElem?_getD, List.getElem?_eq_getElem hlt]; rfl
  unfold ObjInv at hI
  cases hp : s.ph <;> rw [hp] at hI
  · obtain ⟨rfl, h2⟩ := hI; exact idle rfl rfl rfl h2
  · obtain ⟨P, hU⟩ := hI; exact used k P hU
  · exact idle hI.1.tbl hI.1.cap hI.1.sz hI.2
  · exact idle hI.1.tbl hI.1.cap hI.1.sz hI.2
  · obtain ⟨own, P, _, hU⟩ := hI; exact used own P hU

/-- **C32** (partial: the guard `AvoidsAll` excludes the defective uses of C33 and C35 and holds for
all histories without copy and move, `avoidsAll_of_plain`; touching blocks as in C31).  Any history
runs without a fault, hence without an access outside the blocks; in the state reached every deque
has the `Layout` above, different deques share no block, and every allocated block belongs to
a deque. -/
theorem deque_layout_partial (cfg : Cfg α) (hA : 0 < cfg.A) (hadj : AdjUp cfg) (ops : List (Op α))
    (w : SWorld α) (hs : specRun ops (fun _ => none) = some w) (ha : AvoidsAll ops (fun _ => none)) :
    ∃ m, Returns (run cfg ops) World.init () m ∧
      (∀ k s, w k = some s → Layout cfg m k s.l ∧
        ∃ n, Returns (capacity k) m n m ∧ s.l.length ≤ n) ∧
      (∀ j k d e, j ≠ k → m.obj j = some d → m.obj k = some e → ∀ b ∈ d.tbl, b ∉ e.tbl) ∧
      (∀ b, Allocated m b ↔ ∃ k d, m.obj k = some d ∧ b ∈ d.tbl) := by
  obtain ⟨_, m, h1, h2⟩ := run_ok hA hadj WInv.init hs ha
  refine ⟨m, h1, fun k s hk => ?_, ?_, ?_⟩
  · have hL := layout_of hA h2 hk
    refine ⟨hL, ?_⟩
    obtain ⟨d, hd, e1, e2, _⟩ := hL
    refine ⟨d.cap, ?_, by omega⟩
    unfold capacity Returns; rw [bind_returns (getObj_ok hd)]; rfl
  · intro j k d e hjk hd he b hb hb'
    refine h2.disj j k hjk b ?_ ?_
    · rw [hd]; exact hb
    · rw [he]; exact hb'
  · intro b
    constructor
    · intro hb
      unfold Allocated at hb
      cases hf : m.blk b with
      | none => exact absurd hf hb
      | some f =>
        obtain ⟨k, hk⟩ := h2.owned b f hf
        cases hd : m.obj k with
        | none => rw [hd] at hk; simp [tblOf] at hk
        | some d => rw [hd] at hk; exact ⟨k, d, hd, hk⟩
    · rintro ⟨k, d, hd, hb⟩
      have := h2.own k
      rw [hd] at this
      obtain ⟨_, _, f, hf⟩ := this.2 b hb
      unfold Allocated; rw [hf]; simp

example : ∃ w, specRun [Op.new 0, .pushBack 0 1, .pushBack 0 2, .pushBack 0 3, .popFront 0, .new 1,
      .pushFront 1 4] (fun _ => none) = some w ∧
    AvoidsAll [Op.new 0, .pushBack 0 1, .pushBack 0 2, .pushBack 0 3, .popFront 0, .new 1,
      .pushFront 1 4] (fun _ => none) ∧ w 0 = some ⟨[2, 3], .used⟩ ∧ w 1 = some ⟨[4], .used⟩ :=
  ⟨_, rfl, avoidsAll_of_plain (by simp [Op.plain]) _ sound_nil, rfl, rfl⟩

/-- **C32**: a pop at either end (partial as above) neither allocates nor releases a block and
keeps the capacity, however few elements remain. -/
theorem deque_pop_keeps_storage_partial (cfg : Cfg α) (hA : 0 < cfg.A) (hadj : AdjUp cfg) (ops : List (Op α))
    (w : SWorld α) (hs : specRun ops (fun _ => none) = some w) (ha : AvoidsAll ops (fun _ => none))
    (k : Nat) (s : SD α) (hk : w k = some s) (hl : s.l ≠ []) (hp : s.ph ≠ .stale) (op : Op α)
    (hop : op = .popBack k ∨ op = .popFront k) :
    ∃ m m' d d', Returns (run cfg ops) World.init () m ∧ Returns (step cfg op) m () m' ∧
      m.obj k = some d ∧ m'.obj k = some d' ∧ d'.cap = d.cap ∧ d'.tbl = d.tbl ∧ m'.next = m.next ∧
      ∀ b, Allocated m' b ↔ Allocated m b := by
  obtain ⟨_, m, h1, h2⟩ := run_ok hA hadj WInv.init hs ha
  obtain ⟨d, hd, hI, hO⟩ := h2.get hk
  obtain ⟨_, P, hU⟩ := hI.used hp hl
  have fin : ∀ (m' : World α) (d' : Deque), Step cfg m m' k d.tbl d'.tbl → d'.tbl = d.tbl →
      ∀ b, Allocated m' b ↔ Allocated m b := by
    intro m' d' st ht b
    unfold Allocated
    by_cases hb : b ∈ d.tbl
    · obtain ⟨_, _, f, hf⟩ := hO.2 b hb
      obtain ⟨_, _, f', hf'⟩ := (st.ok hO).2 b (by rw [ht]; exact hb)
      rw [hf, hf']; simp
    · constructor
      · intro hn
        cases hf : m'.blk b with
        | none => exact absurd hf hn
        | some f =>
          rcases st.gone b f hf with h | ⟨_, h⟩
          · rw [ht] at h; exact absurd h hb
          · rw [h]; simp
      · intro hn
        cases hf : m.blk b with
        | none => exact absurd hf hn
        | some f =>
          obtain ⟨j, hj⟩ := h2.owned b f hf
          rw [st.keep b hb ((h2.own j).2 b hj).2.1, hf]; simp
  rcases hop with rfl | rfl
  · obtain ⟨_, m', e1, d', e2, _, st, e4, e5, e6⟩ := popBack_ok hA hadj hd hO hU hl
    exact ⟨m, m', d, d', h1, e1, hd, e2, e5, e4, e6, fin m' d' st e4⟩
  · obtain ⟨_, m', e1, d', e2, _, st, e4, e5, e6⟩ := popFront_ok hA hadj hd hO hU hl
    exact ⟨m, m', d, d', h1, e1, hd, e2, e5, e4, e6, fin m' d' st e4⟩

/-! ## C33 -/

/-- **C33** (partial: not for deques that were never used or were cleared while they had elements,
see the two theorems below; `AvoidsAll` as in C32).  A deque in use, emptied by pops, cleared while
empty, or moved from is iterated exactly over its contents, and can be copied. -/
theorem deque_iterable_partial (cfg : Cfg α) (hA : 0 < cfg.A) (hadj : AdjUp cfg) (ops : List (Op α))
    (w : SWorld α) (hs : specRun ops (fun _ => none) = some w) (ha : AvoidsAll ops (fun _ => none))
    (k : Nat) (s : SD α) (hk : w k = some s) (hp : s.ph = .used ∨ s.ph = .null) :
    ∃ m, Returns (run cfg ops) World.init () m ∧ Returns (iterate cfg k) m s.l m ∧
      ∀ d t, d ≠ k → w d = some t → t.ph ≠ .stale →
        ∃ m', Returns (step cfg (.copy d k)) m () m' ∧ Returns (size d) m' s.l.length m' ∧
          (s.l ≠ [] → Returns (iterate cfg d) m' s.l m') := by
  obtain ⟨_, m, h1, h2⟩ := run_ok hA hadj WInv.init hs ha
  refine ⟨m, h1, (((h2.shows hA hadj k).2 s hk).2.2 hp).iter, ?_⟩
  intro d t hdk hd ht
  obtain ⟨_, m', e1, e2⟩ := step_ok hA hadj (op := .copy d k) h2
    (w' := w.put d (some (if s.l = [] then t.clear else ⟨s.l, .used⟩)))
    (by simp [specStep, hd, hk, hdk])
    (Or.inr ⟨fun u hu => by rw [hd] at hu; cases hu; exact ht,
      fun u hu => by rw [hk] at hu; cases hu; exact hp⟩)
  have hsh := (e2.shows hA hadj d).2 _ (SWorld.put_self ..)
  refine ⟨m', e1, ?_, ?_⟩
  · have := hsh.1
    by_cases hl : s.l = []
    · rw [if_pos hl] at this; rw [hl]; exact this
    · rw [if_neg hl] at this; exact this
  · intro hl
    rw [if_neg hl] at hsh
    exact (hsh.2.2 (Or.inl rfl)).iter

example : ∃ w, specRun [Op.new 0, .pushBack 0 1, .popBack 0, .new 1, .pushFront 1 4, .pushFront 1 5]
      (fun _ => none) = some w ∧
    AvoidsAll [Op.new 0, .pushBack 0 1, .popBack 0, .new 1, .pushFront 1 4, .pushFront 1 5]
      (fun _ => none) ∧ w 0 = some ⟨[], .used⟩ ∧ w 1 = some ⟨[5, 4], .used⟩ :=
  ⟨_, rfl, avoidsAll_of_plain (by simp [Op.plain]) _ sound_nil, rfl, rfl⟩

/-- **C33, failing case.**  A deque on which nothing was ever pushed has indeterminate iterators:
iterating it, copying from it and moving from it read them. -/
theorem deque_never_used_faults (cfg : Cfg α) (hA : 0 < cfg.A) (hadj : AdjUp cfg) (ops : List (Op α))
    (w : SWorld α) (hs : specRun ops (fun _ => none) = some w) (ha : AvoidsAll ops (fun _ => none))
    (k : Nat) (s : SD α) (hk : w k = some s) (hp : s.ph = .fresh) :
    ∃ m, Returns (run cfg ops) World.init () m ∧ Faults (iterate cfg k) m .uninit ∧
      ∀ d t, d ≠ k → w d = some t → t.ph ≠ .stale →
        Faults (step cfg (.copy d k)) m .uninit ∧ Faults (step cfg (.move d k)) m .uninit := by
  obtain ⟨_, m, h1, h2⟩ := run_ok hA hadj WInv.init hs ha
  obtain ⟨x, hx, hI, _⟩ := h2.get hk
  have hI' := hI
  unfold ObjInv at hI
  rw [hp] at hI
  refine ⟨m, h1, iterate_fresh (by rw [hx, hI.1]), ?_⟩
  intro d t hdk hd ht
  obtain ⟨y, hy, _⟩ := h2.get hd
  obtain ⟨f1, f2⟩ := copy_fresh hA hadj h2 hdk hd hk ht hp
  constructor
  · refine bind_faults_of (getObj_ok hy) (bind_faults_of (getObj_ok hx) ?_)
    rw [if_neg hdk]; exact f1
  · refine bind_faults_of (getObj_ok hy) (bind_faults_of (getObj_ok hx) ?_)
    rw [if_neg hdk]; exact f2

example : ∃ w : SWorld Nat, specRun [Op.new 0, .new 1, .pushBack 1 8] (fun _ => none) = some w ∧
    AvoidsAll [Op.new 0, .new 1, .pushBack 1 8] (fun _ => none) ∧ w 0 = some ⟨[], .fresh⟩ ∧
    w 1 = some ⟨[8], .used⟩ :=
  ⟨_, rfl, avoidsAll_of_plain (by simp [Op.plain]) _ sound_nil, rfl, rfl⟩

/-- **C33, failing case.**  After `clear()` of a deque with elements its iterators still delimit
the released blocks: iterating it and copying from it read released memory. -/
theorem deque_cleared_faults (cfg : Cfg α) (hA : 0 < cfg.A) (hadj : AdjUp cfg) (ops : List (Op α))
    (w : SWorld α) (hs : specRun ops (fun _ => none) = some w) (ha : AvoidsAll ops (fun _ => none))
    (k : Nat) (s : SD α) (hk : w k = some s) (hp : s.ph = .cleared) :
    ∃ m, Returns (run cfg ops) World.init () m ∧ Returns (size k) m 0 m ∧
      Faults (iterate cfg k) m .useAfterFree ∧
      ∀ d t, d ≠ k → w d = some t → t.ph ≠ .stale →
        Faults (step cfg (.copy d k)) m .useAfterFree := by
  obtain ⟨_, m, h1, h2⟩ := run_ok hA hadj WInv.init hs ha
  obtain ⟨x, hx, hI, _⟩ := h2.get hk
  unfold ObjInv at hI
  rw [hp] at hI
  refine ⟨m, h1, ?_, iterate_dangling hx hI.1, ?_⟩
  · unfold size Returns; rw [bind_returns (getObj_ok hx), hI.1.sz]; rfl
  intro d t hdk hd ht
  obtain ⟨y, hy, _⟩ := h2.get hd
  refine bind_faults_of (getObj_ok hy) (bind_faults_of (getObj_ok hx) ?_)
  rw [if_neg hdk]
  exact copy_cleared hA hadj h2 hdk hd hk ht hp

example : ∃ w : SWorld Nat, specRun [Op.new 0, .pushBack 0 1, .clear 0, .new 1] (fun _ => none) = some w ∧
    AvoidsAll [Op.new 0, .pushBack 0 1, .clear 0, .new 1] (fun _ => none) ∧
    w 0 = some ⟨[], .cleared⟩ ∧ w 1 = some ⟨[], .fresh⟩ :=
  ⟨_, rfl, avoidsAll_of_plain (by simp [Op.plain]) _ sound_nil, rfl, rfl⟩

/-! ## C34 -/

/-- The operation may change the deque `j`. -/
def Op.changes (j : Nat) : Op α → Prop
  | .new k | .pushFront k _ | .pushBack k _ | .pushBackElem k _ _ | .pushFrontElem k _ _
  | .popFront k | .popBack k | .clear k | .set k _ _ | .drop k => k = j
  | .copy d _ => d = j
  | .move d s => d = j ∨ s = j

theorem specStep_other {op : Op α} {w w' : SWorld α} (hs : specStep op w = some w') {j : Nat}
    (hj : ¬ op.changes j) : w' j = w j := by
  cases op with
  | move d s =>
    simp only [Op.changes, not_or] at hj
    simp only [specStep, Option.bind_eq_some_iff] at hs
    obtain ⟨_, _, l, _, hs⟩ := hs
    split at hs
    · cases hs; rfl
    · cases hs; simp [SWorld.put, Ne.symm hj.1, Ne.symm hj.2]
  | copy d s =>
    simp only [Op.changes] at hj
    simp only [specStep, Option.bind_eq_some_iff] at hs
    obtain ⟨_, _, l, _, hs⟩ := hs
    split at hs
    · cases hs; rfl
    · cases hs; simp [SWorld.put, Ne.symm hj]
  | new k =>
    simp only [Op.changes] at hj
    simp only [specStep] at hs
    split at hs <;> cases hs
    simp [SWorld.put, Ne.symm hj]
  | popFront k =>
    simp only [Op.changes] at hj
    simp only [specStep, Option.bind_eq_some_iff] at hs
    obtain ⟨_, _, hs⟩ := hs
    split at hs <;> cases hs
    simp [SWorld.put, Ne.symm hj]
  | set k i x =>
    simp only [Op.changes] at hj
    simp only [specStep, Option.bind_eq_some_iff] at hs
    obtain ⟨_, _, hs⟩ := hs
    split at hs <;> cases hs
    simp [SWorld.put, Ne.symm hj]
  | popBack k =>
    simp only [Op.changes] at hj
    simp only [specStep, Option.bind_eq_some_iff] at hs
    obtain ⟨_, _, hs⟩ := hs
    split at hs <;> cases hs
    simp [SWorld.put, Ne.symm hj]
  | pushBackElem k i x =>
    simp only [Op.changes] at hj
    simp only [specStep, Option.bind_eq_some_iff] at hs
    obtain ⟨_, _, _, _, _, _, hs⟩ := hs
    cases hs
    simp [SWorld.put, Ne.symm hj]
  | pushFrontElem k i x =>
    simp only [Op.changes] at hj
    simp only [specStep, Option.bind_eq_some_iff] at hs
    obtain ⟨_, _, _, _, _, _, hs⟩ := hs
    cases hs
    simp [SWorld.put, Ne.symm hj]
  | _ =>
    simp only [Op.changes] at hj
    simp only [specStep, Option.bind_eq_some_iff] at hs
    obtain ⟨_, _, hs⟩ := hs
    cases hs
    simp [SWorld.put, Ne.symm hj]

theorem specRun_other {ops : List (Op α)} {w w' : SWorld α} (hs : specRun ops w = some w') {j : Nat}
    (hj : ∀ op ∈ ops, ¬ op.changes j) : w' j = w j := by
  induction ops generalizing w with
  | nil => cases hs; rfl
  | cons op ops ih =>
    simp only [specRun, Option.bind_eq_some_iff] at hs
    obtain ⟨w1, h1, h2⟩ := hs
    rw [ih h2 (fun o ho => hj o (List.mem_cons_of_mem _ ho)),
      specStep_other h1 (hj op (List.mem_cons_self ..))]

/-- **C34** (partial: the source is in use; sources that cannot be copied are covered by C33, empty
`null` sources by `deque_iterable_partial`; `AvoidsAll` as in C32).  After `d = s` both deques show the
contents of `s`, their tables have no block in common, the other deques are as before; and
whatever is done afterwards, a deque of the two that is not itself changed still reads the same. -/
theorem deque_copy_partial (cfg : Cfg α) (hA : 0 < cfg.A) (hadj : AdjUp cfg) (ops more : List (Op α))
    (w w' : SWorld α) (d s : Nat) (hds : d ≠ s) (t : SD α) (l : List α) (hl : l ≠ [])
    (hs : specRun ops (fun _ => none) = some w) (ha : AvoidsAll ops (fun _ => none))
    (hd : w d = some t) (ht : t.ph ≠ .stale) (hsrc : w s = some ⟨l, .used⟩)
    (hmore : specRun more (w.put d (some ⟨l, .used⟩)) = some w')
    (ha' : AvoidsAll more (w.put d (some ⟨l, .used⟩))) :
    ∃ m1 m2 m3, Returns (run cfg ops) World.init () m1 ∧ Returns (step cfg (.copy d s)) m1 () m2 ∧
      Returns (run cfg more) m2 () m3 ∧ Shows cfg m2 (w.put d (some ⟨l, .used⟩)) ∧ Shows cfg m3 w' ∧
      (∀ x y, m2.obj d = some x → m2.obj s = some y → ∀ b ∈ x.tbl, b ∉ y.tbl) ∧
      ∀ j, (j = d ∨ j = s) → (∀ op ∈ more, ¬ op.changes j) → ShowsSeq cfg m3 j l := by
  obtain ⟨_, m1, h1, h2⟩ := run_ok hA hadj WInv.init hs ha
  obtain ⟨_, m2, h3, h4⟩ := step_ok hA hadj (op := .copy d s) h2
    (w' := w.put d (some ⟨l, .used⟩)) (by simp [specStep, hd, hsrc, hds, hl])
    (Or.inr ⟨fun u hu => by rw [hd] at hu; cases hu; exact ht,
      fun u hu => by rw [hsrc] at hu; cases hu; exact Or.inl rfl⟩)
  obtain ⟨_, m3, h5, h6⟩ := run_ok hA hadj h4 hmore ha'
  refine ⟨m1, m2, m3, h1, h3, h5, h4.shows hA hadj, h6.shows hA hadj, ?_, ?_⟩
  · intro x y hx hy b hb hb'
    refine h4.disj d s hds b ?_ ?_
    · rw [hx]; exact hb
    · rw [hy]; exact hb'
  · intro j hj hc
    have hw : w' j = some ⟨l, .used⟩ := by
      rw [specRun_other hmore hc]
      rcases hj with rfl | rfl
      · exact SWorld.put_self ..
      · rw [SWorld.put_other _ _ (fun h => hds h.symm)]; exact hsrc
    exact ((h6.shows hA hadj j).2 _ hw).2.2 (Or.inl rfl)

example : ∃ w w', specRun [Op.new 0, .pushBack 0 1, .pushFront 0 2, .new 1, .pushBack 1 8]
      (fun _ => none) = some w ∧
    AvoidsAll [Op.new 0, .pushBack 0 1, .pushFront 0 2, .new 1, .pushBack 1 8] (fun _ => none) ∧
    w 1 = some ⟨[8], .used⟩ ∧ w 0 = some ⟨[2, 1], .used⟩ ∧
    specRun [Op.popFront 1, .pushBack 1 9] (w.put 1 (some ⟨[2, 1], .used⟩)) = some w' ∧
    w' 1 = some ⟨[1, 9], .used⟩ ∧ ∀ op ∈ [Op.popFront 1, .pushBack 1 9], ¬ op.changes 0 :=
  ⟨_, _, rfl, avoidsAll_of_plain (by simp [Op.plain]) _ sound_nil, rfl, rfl, rfl, rfl, by simp [Op.changes]⟩

/-! ## C35 -/

/-- **C35** (partial: of the destination only `size`, `empty` and `front` work, see
`deque_moved_to_faults`).  After `d = move(s)` from a deque in use the destination reports the size and
the front of the source's contents, the source shows an empty sequence in full, the other
deques are as before; and any later history that leaves the destination alone, in
particular one that uses the source again, behaves as specified. -/
theorem deque_move_partial (cfg : Cfg α) (hA : 0 < cfg.A) (hadj : AdjUp cfg) (ops more : List (Op α))
    (w w' : SWorld α) (d s : Nat) (hds : d ≠ s) (t : SD α) (l : List α)
    (hs : specRun ops (fun _ => none) = some w) (ha : AvoidsAll ops (fun _ => none))
    (hd : w d = some t) (ht : t.ph ≠ .stale) (hsrc : w s = some ⟨l, .used⟩)
    (hmore : specRun more ((w.put d (some ⟨l, .stale⟩)).put s (some ⟨[], .null⟩)) = some w')
    (ha' : AvoidsAll more ((w.put d (some ⟨l, .stale⟩)).put s (some ⟨[], .null⟩))) :
    ∃ m1 m2 m3, Returns (run cfg ops) World.init () m1 ∧ Returns (step cfg (.move d s)) m1 () m2 ∧
      Returns (run cfg more) m2 () m3 ∧
      Shows cfg m2 ((w.put d (some ⟨l, .stale⟩)).put s (some ⟨[], .null⟩)) ∧
      Returns (size d) m2 l.length m2 ∧ (∀ x, l.head? = some x → Returns (front cfg d) m2 x m2) ∧
      ShowsSeq cfg m2 s [] ∧ Shows cfg m3 w' := by
  have hsd : s ≠ d := fun h => hds h.symm
  obtain ⟨_, m1, h1, h2⟩ := run_ok hA hadj WInv.init hs ha
  obtain ⟨_, m2, h3, h4⟩ := step_ok hA hadj (op := .move d s) h2
    (w' := (w.put d (some ⟨l, .stale⟩)).put s (some ⟨[], .null⟩)) (by simp [specStep, hd, hsrc, hds])
    (Or.inr ⟨fun u hu => by rw [hd] at hu; cases hu; exact ht,
      fun u hu => by rw [hsrc] at hu; cases hu; simp⟩)
  obtain ⟨_, m3, h5, h6⟩ := run_ok hA hadj h4 hmore ha'
  have hwd : ((w.put d (some ⟨l, .stale⟩)).put s (some ⟨[], .null⟩)) d = some ⟨l, .stale⟩ := by
    rw [SWorld.put_other _ _ hds, SWorld.put_self]
  have hsh := h4.shows hA hadj
  refine ⟨m1, m2, m3, h1, h3, h5, hsh, ((hsh d).2 _ hwd).1, ?_,
    ((hsh s).2 _ (SWorld.put_self ..)).2.2 (Or.inr rfl), h6.shows hA hadj⟩
  intro x hx
  obtain ⟨y, hy, hI, hO⟩ := h4.get hwd
  obtain ⟨own, P, hne, hU⟩ := hI
  cases l with
  | nil => cases hx
  | cons a l =>
    cases hx
    have hfit := hU.fits
    have hin := hU.inside 0 (by simp)
    rw [Nat.add_zero] at hin
    unfold front Returns
    rw [bind_returns (getObj_ok hy), hU.beg, bind_returns (itAt_getCur ..)]
    refine readPtr_ok hA ?_ hin
    simp only [List.length_cons] at hfit; omega

example : ∃ w w' : SWorld Nat, specRun [Op.new 0, .pushBack 0 1, .pushFront 0 2, .new 1, .pushBack 1 8]
      (fun _ => none) = some w ∧
    AvoidsAll [Op.new 0, .pushBack 0 1, .pushFront 0 2, .new 1, .pushBack 1 8] (fun _ => none) ∧
    w 1 = some ⟨[8], .used⟩ ∧ w 0 = some ⟨[2, 1], .used⟩ ∧
    specRun [Op.pushBack 0 9] ((w.put 1 (some ⟨[2, 1], .stale⟩)).put 0 (some ⟨[], .null⟩)) = some w' ∧
    AvoidsAll [Op.pushBack 0 9] ((w.put 1 (some ⟨[2, 1], .stale⟩)).put 0 (some ⟨[], .null⟩)) ∧
    w' 0 = some ⟨[9], .used⟩ := by
  refine ⟨_, _, rfl, avoidsAll_of_plain (by simp [Op.plain]) _ sound_nil, rfl, rfl, rfl, ⟨?_, ?_⟩, rfl⟩
  · intro s hs
    rw [SWorld.put_self] at hs; cases hs; simp
  · intro _ _; trivial

/-- **C35, failing case.**  After `d = move(s)` from *any* deque in use, the iterators of `d`
still refer to the block table of `s`, which is empty: pushing to `d` stops at the assertion; and
unless the deque moved was empty so do iterating it, reading its back or any element but the
first, popping it at either end, clearing it and destroying it. -/
theorem deque_moved_to_faults (cfg : Cfg α) (hA : 0 < cfg.A) (hadj : AdjUp cfg) (ops : List (Op α))
    (w : SWorld α) (d s : Nat) (hds : d ≠ s) (t : SD α) (l : List α)
    (hs : specRun ops (fun _ => none) = some w) (ha : AvoidsAll ops (fun _ => none))
    (hd : w d = some t) (ht : t.ph ≠ .stale) (hsrc : w s = some ⟨l, .used⟩) :
    ∃ m1 m2, Returns (run cfg ops) World.init () m1 ∧ Returns (step cfg (.move d s)) m1 () m2 ∧
      (∀ x, Faults (step cfg (.pushBack d x)) m2 .assert ∧ Faults (step cfg (.pushFront d x)) m2 .assert) ∧
      (l ≠ [] → Faults (iterate cfg d) m2 .assert ∧ Faults (back cfg d) m2 .assert ∧
        (∀ i, i ≠ 0 → Faults (index cfg d i) m2 .assert) ∧
        Faults (step cfg (.popBack d)) m2 .assert ∧ Faults (step cfg (.popFront d)) m2 .assert ∧
        Faults (step cfg (.clear d)) m2 .assert ∧ Faults (step cfg (.drop d)) m2 .assert) := by
  have hsd : s ≠ d := fun h => hds h.symm
  obtain ⟨_, m1, h1, h2⟩ := run_ok hA hadj WInv.init hs ha
  obtain ⟨x, hx, _⟩ := h2.get hd
  obtain ⟨y, hy, hI, hO⟩ := h2.get hsrc
  obtain ⟨_, m2, h3, h4, m0, src, rfl, hsrc', _⟩ := move_world hA hadj h2 hds hd hsrc ht (by simp)
  have hstep : Returns (step cfg (.move d s)) m1 () (movedW m0 d s src) := by
    show ((getObj d >>= fun _ => getObj s >>= fun _ => _) : Prog (World α) Unit) m1 = _
    rw [bind_returns (getObj_ok hx), bind_returns (getObj_ok hy), if_neg hds]
    exact h3
  have hdst : (movedW m0 d s src).obj d = some src := by
    unfold movedW; rw [setObj_other _ _ hds, setObj_obj]
  have hs0 : (movedW m0 d s src).obj s = some Deque.moved := setObj_obj ..
  have hwd : ((w.put d (some ⟨l, .stale⟩)).put s (some ⟨[], .null⟩)) d = some ⟨l, .stale⟩ := by
    rw [SWorld.put_other _ _ hds, SWorld.put_self]
  simp only [if_true] at h4
  obtain ⟨z, hz, hJ, hOz⟩ := h4.get hwd
  rw [hdst] at hz
  cases hz
  obtain ⟨own, P, hne, hU⟩ := hJ
  have hown : own = s := by
    rw [hy] at hsrc'
    cases hsrc'
    obtain ⟨P', hU'⟩ := hI
    have e1 := hU.beg
    have e2 := hU'.beg
    rw [e1] at e2
    have := congrArg Iter.tbl e2
    simpa [itAt] using this
  subst hown
  have hst : Stale cfg (movedW m0 d own src) d own l := ⟨hds, ⟨_, hs0, rfl⟩, ⟨_, P, hdst, hOz, hU⟩⟩
  refine ⟨m1, _, h1, hstep, fun x => ⟨hst.pushBack hA hadj x, hst.pushFront hA hadj x⟩, fun hl => ?_⟩
  exact ⟨hst.iterate hA hadj hl, hst.back, fun i hi => hst.index hA hl hi, hst.popBack,
    hst.popFront hA hl, hst.clear hA hadj hl, bind_faults (hst.clear hA hadj hl)⟩

example : ∃ w : SWorld Nat, specRun [Op.new 0, .pushBack 0 1, .pushFront 0 2, .new 1] (fun _ => none) = some w ∧
    AvoidsAll [Op.new 0, .pushBack 0 1, .pushFront 0 2, .new 1] (fun _ => none) ∧
    w 1 = some ⟨[], .fresh⟩ ∧ w 0 = some ⟨[2, 1], .used⟩ :=
  ⟨_, rfl, avoidsAll_of_plain (by simp [Op.plain]) _ sound_nil, rfl, rfl⟩

/-! ## C62 -/

theorem totD_zero {A : Nat} {blk : Nat → Option (Nat → Slot α)} (n : Nat) (h : ∀ b, blk b = none) :
    totD A blk n = 0 := by
  induction n with
  | zero => rfl
  | succ n ih => simp [totD, ih, cntD, h n]

/-- **C62** (partial: for the elements that were pushed; `AvoidsAll` as in C32).  In any history no
pushed element is overwritten or its storage released while it is alive, and none is destroyed twice
(destroying raw storage would be a fault); when no deque is left no block is allocated. -/
theorem deque_elements_destroyed_partial (cfg : Cfg α) (hA : 0 < cfg.A) (hadj : AdjUp cfg)
    (ops : List (Op α)) (w : SWorld α) (hs : specRun ops (fun _ => none) = some w)
    (ha : AvoidsAll ops (fun _ => none)) :
    ∃ m, Returns (run cfg ops) World.init () m ∧ m.lostElem = 0 ∧
      ((∀ k, w k = none) → ∀ b, ¬ Allocated m b) := by
  obtain ⟨_, m, h1, h2⟩ := run_ok hA hadj WInv.init hs ha
  refine ⟨m, h1, h2.elem, fun hn b hb => ?_⟩
  unfold Allocated at hb
  cases hf : m.blk b with
  | none => exact hb hf
  | some f =>
    obtain ⟨k, hk⟩ := h2.owned b f hf
    rw [((h2.shows hA hadj) k).1 (hn k)] at hk
    simp [tblOf] at hk

example : ∃ w : SWorld Nat, specRun [Op.new 0, .pushBack 0 1, .pushFront 0 2, .new 1, .pushBack 1 5,
      .popFront 0, .clear 1, .drop 0, .drop 1] (fun _ => none) = some w ∧
    AvoidsAll [Op.new 0, .pushBack 0 1, .pushFront 0 2, .new 1, .pushBack 1 5, .popFront 0, .clear 1,
      .drop 0, .drop 1] (fun _ => none) ∧ ∀ k, w k = none := by
  refine ⟨_, rfl, avoidsAll_of_plain (by simp [Op.plain]) _ sound_nil, ?_⟩
  intro k
  simp only [SWorld.put]
  repeat' split
  all_goals first | rfl | omega

/-- **C62, failing case.**  The objects default-constructed with each block are *never* destroyed:
after any history at the end of which no deque is left, all of them (one per slot of every block
ever allocated; blocks are numbered from 1) were overwritten or released while alive. -/
theorem deque_defaults_leaked (cfg : Cfg α) (hA : 0 < cfg.A) (hadj : AdjUp cfg) (ops : List (Op α))
    (w : SWorld α) (hs : specRun ops (fun _ => none) = some w) (ha : AvoidsAll ops (fun _ => none))
    (hn : ∀ k, w k = none) :
    ∃ m, Returns (run cfg ops) World.init () m ∧ m.lostDflt = cfg.A * (m.next - 1) := by
  obtain ⟨_, m, h1, h2⟩ := run_ok hA hadj WInv.init hs ha
  refine ⟨m, h1, ?_⟩
  have hb : ∀ b, m.blk b = none := by
    intro b
    cases hf : m.blk b with
    | none => rfl
    | some f =>
      obtain ⟨k, hk⟩ := h2.owned b f hf
      rw [((h2.shows hA hadj) k).1 (hn k)] at hk
      simp [tblOf] at hk
  have := h2.bal.1
  rw [totD_zero _ hb] at this
  omega

end Verif.Deq
