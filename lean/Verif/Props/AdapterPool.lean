import Verif.AdapterPool
import Verif.Props.QueueValues
import Verif.Props.StackOn
import Verif.Props.ListPool
import Verif.Props.DequePool
import Verif.QueuePoolTrace

/-! # Queues and stacks in the static pool (C112) -/

namespace Verif

open Prog

variable {σ α β : Type}

/-! ## An adapter whose operations are those of its container -/

theorem run_same {A B : β → Prog σ Unit} {ops : List β} {s : σ}
    (h : ∀ pre op post w, ops = pre ++ op :: post → Returns (seqAll (pre.map B)) s () w → A op w = B op w) :
    seqAll (ops.map A) s = seqAll (ops.map B) s := by
  induction ops generalizing s with
  | nil => rfl
  | cons op ops ih =>
    have h1 : A op s = B op s := h [] op ops s rfl rfl
    show (do A op; seqAll (ops.map A)) s = (do B op; seqAll (ops.map B)) s
    rw [DeqPool.bind_run, DeqPool.bind_run, h1]
    rcases e : B op s with _ | e' | ⟨_, s1⟩
    · rfl
    · rfl
    · refine ih fun pre op' post w hp hr => h (op :: pre) op' post w (by rw [hp]; rfl) ?_
      show (do B op; seqAll (pre.map B)) s = _
      rw [bind_returns e]
      exact hr

theorem seqAll_faults {pre post : List (Prog σ Unit)} {p : Prog σ Unit} {s w : σ} {e : Fault}
    (h1 : Returns (seqAll pre) s () w) (h2 : Faults p w e) : Faults (seqAll (pre ++ p :: post)) s e := by
  induction pre generalizing s with
  | nil =>
    cases h1
    exact bind_faults h2
  | cons q pre ih =>
    have h1' : (do q; seqAll pre) s = some (.ok ((), w)) := h1
    show (do q; seqAll (pre ++ p :: post)) s = _
    rw [DeqPool.bind_run] at h1' ⊢
    rcases e : q s with _ | e' | ⟨_, s1⟩
    · rw [e] at h1'; cases h1'
    · rw [e] at h1'; cases h1'
    · rw [e] at h1'; exact ih h1'

theorem seqAll_returns {pre : List (Prog σ Unit)} {p : Prog σ Unit} {s w t : σ}
    (h1 : Returns (seqAll pre) s () w) (h2 : Returns p w () t) : Returns (seqAll (pre ++ [p])) s () t := by
  induction pre generalizing s with
  | nil =>
    cases h1
    exact (bind_returns h2 ..).trans rfl
  | cons q pre ih =>
    have h1' : (do q; seqAll pre) s = some (.ok ((), w)) := h1
    show (do q; seqAll (pre ++ [p])) s = _
    rw [DeqPool.bind_run] at h1' ⊢
    rcases e : q s with _ | e' | ⟨_, s1⟩
    · rw [e] at h1'; cases h1'
    · rw [e] at h1'; cases h1'
    · rw [e] at h1'; exact ih h1'

theorem specRun_split {W : Type} {f : β → W → Option W} {g : List β → W → Option W} (h0 : ∀ w, g [] w = some w)
    (h1 : ∀ op ops w, g (op :: ops) w = (f op w).bind (g ops)) {pre : List β} {op : β} {post : List β} {w w' : W}
    (h : g (pre ++ op :: post) w = some w') : ∃ w1 w2, g pre w = some w1 ∧ f op w1 = some w2 := by
  induction pre generalizing w with
  | nil =>
    simp only [List.nil_append, h1, Option.bind_eq_some_iff] at h
    obtain ⟨w2, h2, _⟩ := h
    exact ⟨w, w2, h0 w, h2⟩
  | cons o pre ih =>
    simp only [List.cons_append, h1, Option.bind_eq_some_iff] at h
    obtain ⟨w1, h2, h3⟩ := h
    obtain ⟨w2, w3, h4, h5⟩ := ih h3
    exact ⟨w2, w3, by rw [h1, h2]; exact h4, h5⟩

namespace Deq

theorem AvoidsAll.prefix {pre post : List (Op α)} {w : SWorld α} (h : AvoidsAll (pre ++ post) w) : AvoidsAll pre w := by
  induction pre generalizing w with
  | nil => trivial
  | cons op pre ih => exact ⟨h.1, fun w' hw => ih (h.2 w' hw)⟩

theorem AvoidsAll.at_ {pre post : List (Op α)} {op : Op α} {w w1 : SWorld α} (h : AvoidsAll (pre ++ op :: post) w)
    (hs : specRun pre w = some w1) : Avoids op w1 := by
  induction pre generalizing w with
  | nil => cases hs; exact h.1
  | cons o pre ih =>
    simp only [specRun, Option.bind_eq_some_iff] at hs
    obtain ⟨w2, h1, h2⟩ := hs
    exact ih (h.2 w2 h1) h2

/-- A deque with elements is in use, or was the target of a move. -/
def Busy (w : SWorld α) : Prop := ∀ k s, w k = some s → s.l ≠ [] → s.ph = .used ∨ s.ph = .stale

theorem Busy.put {w : SWorld α} (h : Busy w) {k : Nat} {v : Option (SD α)}
    (hv : ∀ s, v = some s → s.l ≠ [] → s.ph = .used ∨ s.ph = .stale) : Busy (w.put k v) := by
  intro j s hj
  simp only [SWorld.put] at hj
  split at hj
  · exact hv s hj
  · exact h j s hj

theorem Busy.step {op : Op α} {w w' : SWorld α} (h : Busy w) (hs : specStep op w = some w') : Busy w' := by
  cases op <;> simp only [specStep, Option.bind_eq_some_iff] at hs
  case new k =>
    split at hs
    · cases hs; exact h.put fun s e hl => by cases e; exact absurd rfl hl
    · cases hs
  case pushBack k x | pushFront k x =>
    obtain ⟨s, hk, hs⟩ := hs
    cases hs
    exact h.put fun s e _ => by cases e; exact .inl rfl
  case pushBackElem k j i | pushFrontElem k j i =>
    obtain ⟨s, hk, t, ht, x, hx, hs⟩ := hs
    cases hs
    exact h.put fun s e _ => by cases e; exact .inl rfl
  case popBack k | popFront k =>
    obtain ⟨s, hk, hs⟩ := hs
    split at hs
    · cases hs
    · rename_i hne
      cases hs
      exact h.put fun t e _ => by cases e; exact h k s hk hne
  case clear k =>
    obtain ⟨s, hk, hs⟩ := hs
    cases hs
    exact h.put fun t e hl => by cases e; exact absurd rfl hl
  case set k i x =>
    obtain ⟨s, hk, hs⟩ := hs
    split at hs
    · cases hs
      exact h.put fun t e hl => by cases e; exact h k s hk (by rintro e; simp [e] at hl)
    · cases hs
  case copy d s =>
    obtain ⟨t, hd, u, hu, hs⟩ := hs
    split at hs
    · cases hs; exact h
    · cases hs
      refine h.put fun t e hl => ?_
      split at e
      · cases e; exact absurd rfl hl
      · cases e; exact .inl rfl
  case move d s =>
    obtain ⟨t, hd, u, hu, hs⟩ := hs
    split at hs
    · cases hs; exact h
    · cases hs
      refine (h.put fun t e hl => ?_).put fun t e hl => by cases e; exact absurd rfl hl
      cases e
      rcases h s u hu hl with e | e <;> simp [e]
  case drop k =>
    obtain ⟨t, hd, hs⟩ := hs
    cases hs
    exact h.put fun t e hl => by cases e

theorem Busy.run {ops : List (Op α)} {w w' : SWorld α} (h : Busy w) (hs : specRun ops w = some w') : Busy w' := by
  induction ops generalizing w with
  | nil => cases hs; exact h
  | cons op ops ih =>
    simp only [specRun, Option.bind_eq_some_iff] at hs
    obtain ⟨w2, h1, h2⟩ := hs
    exact ih (h.step h1) h2

end Deq

theorem DeqPool.Shows.full {P : DeqPool.Cfg α} {m : DeqPool.PWorld α} {ops : List (Deq.Op α)} {dw : Deq.SWorld α}
    (h : DeqPool.Shows P m dw) (hs : Deq.specRun ops (fun _ => none) = some dw) {k : Nat} {s : Deq.SD α}
    (hk : dw k = some s) (hne : s.l ≠ []) (hsd : Deq.Sound dw k) : DeqPool.ShowsSeq P m k s.l := by
  have hb : Deq.Busy dw := Deq.Busy.run (fun _ _ h => by cases h) hs
  exact ((h k).2 s hk).2.2 (Or.inl ((hb k s hk hne).resolve_right (hsd s hk)))

/-! ## Queues over lists -/

namespace Queue

variable {md : Sma.Mode} {c : Sma.Cfg} {K : Pool.Layout α} {E : LPool.PtrRep}

theorem pl_run (dflt : Option α) (ops : List (Op α)) :
    run (poolList md c K E dflt) ops = LPool.D.run (LPool.poolNodes md c .doubly K E) dflt (ops.map Op.dl) := by
  unfold run LPool.D.run
  rw [List.map_map]
  congr 1
  refine List.map_congr_left fun op _ => ?_
  cases op <;> rfl

/-- After every operation of the history the queues have at most `cap` elements in all. -/
def FitsAll (cap : Nat) : List (Op α) → Spec α → Prop
  | [], _ => True
  | op :: ops, w => ∀ w', specStep op w = some w' → (∃ n, LPool.Total w' n ∧ n ≤ cap) ∧ FitsAll cap ops w'

theorem fitsAll_dl {cap : Nat} {ops : List (Op α)} {w : Spec α} :
    FitsAll cap ops w ↔ LPool.D.FitsAll cap (ops.map Op.dl) w := by
  induction ops generalizing w with
  | nil => exact Iff.rfl
  | cons op ops ih =>
    simp only [FitsAll, List.map_cons, LPool.D.FitsAll, dl_specStep]
    exact forall_congr' fun w' => imp_congr_right fun _ => and_congr_right fun _ => ih

/-- **C112**, linked-list-backed queues (partial: no move from an empty queue into another one, as in C83).  In a new
pool, a history of construction, push, pop (not on empty), copying, moving and destruction of any number of queues
runs without fault if the elements of all queues never exceed the nodes the pool has room for; then every queue shows
its elements, the oldest first, and `free_mem_size()` is the pool minus one node per element.  Otherwise the history
stops with the process at the request that finds no room. -/
theorem queue_pool_list_partial (hc : Sma.Legal c) (hfit : 8 * LPool.nodeWords .doubly K + 8 < 2 ^ 31) {s0 s : Sma.St}
    (h0 : Returns (Sma.construct c) s0 () s) (dflt : Option α) (ops : List (Op α)) {w : Spec α}
    (hs : specRun ops (fun _ => none) = some w) (ha : AvoidsAll ops (fun _ => none)) :
    (FitsAll (c.M / (8 * LPool.nodeWords .doubly K)) ops (fun _ => none) →
      ∃ m, Returns (run (poolList md c K E dflt) ops) (.init s) () m ∧ Shows (poolList md c K E dflt) m w ∧
        (∀ k q, w k = some q → Returns (iterate (poolList md c K E dflt) k) m q m) ∧
        LPool.Accounted c K .doubly m w) ∧
    (¬ FitsAll (c.M / (8 * LPool.nodeWords .doubly K)) ops (fun _ => none) →
      Faults (run (poolList md c K E dflt) ops) (.init s) .crash) := by
  rw [dl_specRun] at hs
  rw [fitsAll_dl, pl_run]
  refine ⟨fun hf => ?_, fun hf => LPool.dlist_pool_full hc hfit h0 dflt _ hs ha.dl hf⟩
  obtain ⟨m, h1, h2, h3⟩ := LPool.dlist_pool (md := md) (E := E) hc hfit h0 dflt _ hs ha.dl hf
  refine ⟨m, h1, fun k q hk => ?_, fun k q hk => ((h2 k).2 q hk).1, h3⟩
  obtain ⟨_, _, e3, e4, e5, e6⟩ := (h2 k).2 q hk
  exact ⟨e3, e4, e5, e6⟩

/-! ## Queues over deques -/

theorem pd_step (P : DeqPool.Cfg α) (op : Op α) : step (poolDeque P) op = DeqPool.step P op.dq := by
  cases op <;> rfl

theorem pd_run (P : DeqPool.Cfg α) (ops : List (Op α)) :
    run (poolDeque P) ops = DeqPool.run P (ops.map Op.dq) := by
  unfold run DeqPool.run
  rw [List.map_map]
  congr 1
  exact List.map_congr_left fun op _ => pd_step P op

/-- The history stops at one of its operations, which finds no room. -/
def OutOfRoom (P : DeqPool.Cfg α) (m0 : DeqPool.PWorld α) (ops : List (Op α)) : Prop :=
  ∃ before op after m, ops = before ++ op :: after ∧ Returns (run (poolDeque P) before) m0 () m ∧
    DeqPool.NoRoom P m op.dq ∧ Faults (step (poolDeque P) op) m .crash

/-- What the observers show of the queues: sizes always, the elements of every queue that was not the target of a
move (C35). -/
def ShowsD (P : DeqPool.Cfg α) (m : DeqPool.PWorld α) (dw : Deq.SWorld α) (w : Spec α) : Prop :=
  ∀ k q, w k = some q →
    Returns (size (poolDeque P) k) m q.length m ∧ Returns (empty (poolDeque P) k) m (q.length == 0) m ∧
    (Deq.Sound dw k → q ≠ [] →
      (∀ x, q.head? = some x → Returns (front (poolDeque P) k) m x m) ∧
      (∀ x, q.getLast? = some x → Returns (back (poolDeque P) k) m x m) ∧
      (∀ i x, Deq.elemAt q i = some x → Returns (DeqPool.index P k i) m x m) ∧
      Returns (iterate (poolDeque P) k) m q m)

theorem showsD_of {P : DeqPool.Cfg α} {m : DeqPool.PWorld α} {ops : List (Deq.Op α)} {dw : Deq.SWorld α} {w : Spec α}
    (h : DeqPool.Shows P m dw) (hs : Deq.specRun ops (fun _ => none) = some dw) (habs : Abs dw w) : ShowsD P m dw w := by
  intro k q hk
  rw [habs k] at hk
  cases hd : dw k with
  | none => rw [hd] at hk; cases hk
  | some t =>
    rw [hd] at hk
    cases hk
    obtain ⟨e1, e2, _⟩ := (h k).2 t hd
    refine ⟨e1, e2, fun hsd hne => ?_⟩
    have hf := h.full hs hd hne hsd
    exact ⟨hf.front, hf.back, hf.index, hf.iter⟩

/-- **C112**, deque-backed queues (partial: blocks whose size is no multiple of eight, see `queue_pool_wrong`; no
defective copy or move of C33 and C35).  In a pool in any state, with any blocks `L` of other clients, a history of
operations on any number of queues runs to its end or stops at an operation that finds no room.  In the first case
every queue shows its elements, the oldest first; blocks and tables lie in the pool without overlapping each other or
`L`; and if no queue is left, `free_mem_size()` is what it was. -/
theorem queue_pool_deque_partial (P : DeqPool.Cfg α) (hc : Sma.Legal P.sma) (hM : P.sma.M + 16 < 2 ^ 31) (hA : 0 < P.A)
    (hsz : 0 < P.size) (hfit : P.size * P.A + 8 < 2 ^ 31) (hodd : P.size * P.A % 8 ≠ 0) {s : Sma.St}
    {L : List (Nat × Int)} (h0 : Sma.Reach P.sma ⟨s, L⟩) (ops : List (Op α)) {w : Spec α}
    (hs : specRun ops (fun _ => none) = some w) (ha : Deq.AvoidsAll (ops.map Op.dq) (fun _ => none)) :
    (∃ m dw, Returns (run (poolDeque P) ops) (.init s) () m ∧
      Deq.specRun (ops.map Op.dq) (fun _ => none) = some dw ∧ ShowsD P m dw w ∧ DeqPool.Placed P s L m ∧
      ((∀ k, w k = none) → ∀ n, Returns Sma.freeMemSize s n s → Returns Sma.freeMemSize m.pool n m.pool)) ∨
    OutOfRoom P (.init s) ops := by
  obtain ⟨dw, h1, h2⟩ := dq_specRun' (dw := fun _ => none) (fun _ => rfl) hs
  rcases DeqPool.deque_pool_partial P hc hM hA hsz hfit hodd h0 _ h1 ha with ⟨m, g1, g2, g3, g4⟩ | h
  · refine .inl ⟨m, dw, by rw [pd_run]; exact g1, h1, showsD_of g2 h1 h2, g3, fun hn => g4 fun k => ?_⟩
    have := hn k
    rw [h2 k] at this
    simpa using this
  · obtain ⟨before, op, after, m, e, g1, g2, g3⟩ := h
    obtain ⟨b, r, rfl, rfl, hr⟩ := List.map_eq_append_iff.1 e
    obtain ⟨o, a, rfl, rfl, rfl⟩ := List.map_eq_cons_iff.1 hr
    exact .inr ⟨b, o, a, m, rfl, by rw [pd_run]; exact g1, g2, by rw [pd_step]; exact g3⟩

/-- **C112**, deque-backed queues with blocks of any size (partial: only histories during which no block of elements
was placed directly in front of one in use, see `queue_pool_wrong`). -/
theorem queue_pool_unhit_partial (P : DeqPool.Cfg α) (hc : Sma.Legal P.sma) (hM : P.sma.M + 16 < 2 ^ 31) (hA : 0 < P.A)
    (hsz : 0 < P.size) (hfit : P.size * P.A + 8 < 2 ^ 31) {s : Sma.St} {L : List (Nat × Int)}
    (h0 : Sma.Reach P.sma ⟨s, L⟩) (ops : List (Op α)) {w : Spec α}
    (hs : specRun ops (fun _ => none) = some w) (ha : Deq.AvoidsAll (ops.map Op.dq) (fun _ => none))
    {m : DeqPool.PWorld α} (hr : Returns (run (poolDeque P) ops) (.init s) () m) (hhit : m.hit = false) :
    ∃ dw, Deq.specRun (ops.map Op.dq) (fun _ => none) = some dw ∧ ShowsD P m dw w ∧ DeqPool.Placed P s L m ∧
      ((∀ k, w k = none) → ∀ n, Returns Sma.freeMemSize s n s → Returns Sma.freeMemSize m.pool n m.pool) := by
  obtain ⟨dw, h1, h2⟩ := dq_specRun' (dw := fun _ => none) (fun _ => rfl) hs
  rw [pd_run] at hr
  obtain ⟨g2, g3, g4⟩ := DeqPool.deque_pool_unhit_partial P hc hM hA hsz hfit h0 _ h1 ha hr hhit
  refine ⟨dw, h1, showsD_of g2 h1 h2, g3, fun hn => g4 fun k => ?_⟩
  have := hn k
  rw [h2 k] at this
  simpa using this

theorem pushes_trace {c : Sma.Cfg} (hc : Sma.Legal c) (hmax : c.max = 128) (hM : 832 < c.M) :
    ∃ s s3 s11, Sma.Reach c ⟨s, []⟩ ∧ c.base ≠ 0 ∧
      DeqPool.Knows c s11
        [(c.base + 448, 128), (c.base + 320, 128), (c.base + 192, 128), (c.base + 160, 32), (c.base + 576, 128)]
        [(c.base, 16), (c.base + 16, 128), (c.base + 144, 16), (c.base + 704, c.M - 704)] ∧
      ∀ (d : α) (k : Nat) (xs : List α), xs.length = 96 →
        ∃ m, Returns (run (poolDeque ⟨c, 32, 4, d⟩) (.new k :: xs.map (.push k))) (.init s) () m ∧
          DeqPool.After c s3 s11 k 96 m := by
  obtain ⟨s0, h0⟩ := Sma.sma_construct hc ⟨fun _ => .raw 0, 0⟩
  obtain ⟨s, hk⟩ := DeqPool.fragments hc hM h0
  obtain ⟨s1, s2, s3, s4, s5, s6, s7, s8, s9, s10, s11, e1, e2, e3, e4, e5, e6, e7, e8, e9, e10, e11, k11⟩ :=
    DeqPool.pool_trace32 hc hmax hM hk
  have hb : c.base ≠ 0 := by
    have := hc.obj
    unfold Sma.Cfg.base
    omega
  refine ⟨s, s3, s11, hk.reach, hb, k11, fun d k xs hx => ?_⟩
  cases xs with
  | nil => cases hx
  | cons x xs =>
    obtain ⟨_, m1, r1, g1⟩ := DeqPool.first32 d x k e1 e2 e3
    obtain ⟨_, m2, r2, g2⟩ := DeqPool.pushes_ok (P := DeqPool.cfg32 c d) (k := k) (N := 96)
      (Q := DeqPool.After c s3 s11 k) (fun n y w hn hw => DeqPool.after_push d y k hb e4 e5 e6 e7 e8 e9 e10 e11 hn hw)
      xs (n := 1) (w := m1) (by simp only [List.length_cons] at hx; omega) g1
    rw [show 1 + xs.length = 96 by simp only [List.length_cons] at hx; omega] at g2
    refine ⟨m2, ?_, g2⟩
    show (do DeqPool.step (DeqPool.cfg32 c d) (.new k); seqAll _) (DeqPool.PWorld.init s) = _
    rw [bind_returns (DeqPool.new32 c s d k)]
    show (do DeqPool.step (DeqPool.cfg32 c d) (.pushBack k x); seqAll _) _ = _
    refine (bind_returns r1 ..).trans ?_
    rw [List.map_map]
    exact r2

/-- **C112, failing case.**  `dstruct::Queue<int>` (32 elements of four bytes per block) in any pool of more than 832
bytes with the lists for blocks of up to 128 bytes that is the default.  The pool is in a state in which nothing is in
use, but some blocks have been requested and given back.  After 96 pushes the queue has 96 elements by `size()`, and
iterating it yields none of them: when the table grew, the new last block was placed directly in front of the block
that holds the oldest element, so once it is full the end iterator and the begin iterator hold the same address. -/
theorem queue_pool_wrong (c : Sma.Cfg) (hc : Sma.Legal c) (hmax : c.max = 128) (hM : 832 < c.M) :
    ∃ s, Sma.Reach c ⟨s, []⟩ ∧ ∀ (d : α) (k : Nat) (xs : List α), xs.length = 96 →
      ∃ m, Returns (run (poolDeque ⟨c, 32, 4, d⟩) (.new k :: xs.map (.push k))) (.init s) () m ∧
        Returns (size (poolDeque ⟨c, 32, 4, d⟩) k) m 96 m ∧
        Returns (iterate (poolDeque ⟨c, 32, 4, d⟩) k) m [] m := by
  obtain ⟨s, s3, s11, hr, _, _, h⟩ := pushes_trace (α := α) hc hmax hM
  refine ⟨s, hr, fun d k xs hx => ?_⟩
  obtain ⟨m, h1, h2⟩ := h d k xs hx
  exact ⟨m, h1, DeqPool.size32 h2, DeqPool.iterate32 d h2⟩

/-- **C112, failing case.**  In the same situation, with a pool of more than 1344 bytes, the next push loses the 96
elements: `size()` is 97, and the element at the front is the one pushed last.  `_resize` takes the begin iterator for
one at the end of the last block and moves it together with the end iterator. -/
theorem queue_pool_loses (c : Sma.Cfg) (hc : Sma.Legal c) (hmax : c.max = 128) (hM : 1344 < c.M) :
    ∃ s, Sma.Reach c ⟨s, []⟩ ∧ ∀ (d : α) (k : Nat) (xs : List α) (y : α), xs.length = 96 →
      ∃ m, Returns (run (poolDeque ⟨c, 32, 4, d⟩) (.new k :: (xs ++ [y]).map (.push k))) (.init s) () m ∧
        Returns (size (poolDeque ⟨c, 32, 4, d⟩) k) m 97 m ∧
        Returns (front (poolDeque ⟨c, 32, 4, d⟩) k) m y m := by
  obtain ⟨s, s3, s11, hr, hb, hk, h⟩ := pushes_trace (α := α) hc hmax (by omega)
  obtain ⟨s1, s2, s12, s4, s5, s6, s7, s8, s9, s10, e1, e2, e3, e4, e5, e6, e7, e8, e9, e10⟩ :=
    DeqPool.pool_trace32_next hc hmax hM hk
  refine ⟨s, hr, fun d k xs y hx => ?_⟩
  obtain ⟨m, h1, h2⟩ := h d k xs hx
  obtain ⟨_, m', r, g1, g2⟩ := DeqPool.lose32 d y k hb e1 e2 e3 e4 e5 e6 e7 e8 e9 e10 h2
  refine ⟨m', ?_, g1, g2⟩
  have : run (poolDeque ⟨c, 32, 4, d⟩) (.new k :: (xs ++ [y]).map (.push k)) =
      seqAll ((Op.new k :: xs.map (.push k)).map (step (poolDeque ⟨c, 32, 4, d⟩)) ++
        [step (poolDeque ⟨c, 32, 4, d⟩) (.push k y)]) := by
    simp [run]
  rw [this]
  exact seqAll_returns h1 r

/-- The pool of `dstruct-static.hpp` (10 KiB) and the default pool are such pools. -/
example : Sma.Legal ⟨4096, 10240, 128⟩ ∧ (1344 : Nat) < 10240 ∧ Sma.Legal (Sma.defaultSMA 4096) ∧
    (Sma.defaultSMA 4096).max = 128 ∧ 1344 < (Sma.defaultSMA 4096).M :=
  ⟨⟨by decide, by decide, by decide, by decide, by decide, by decide, by decide⟩, by decide, Sma.defaultSMA_legal, rfl,
    by decide⟩

end Queue

/-! ## Stacks -/

namespace StackOn

open Stack (Op Spec specStep specRun)

variable {md : Sma.Mode} {c : Sma.Cfg} {K : Pool.Layout α} {E : LPool.PtrRep}

/-- After every operation of the history the stacks have at most `cap` elements in all. -/
def FitsAll (cap : Nat) : List (Op α) → Spec α → Prop
  | [], _ => True
  | op :: ops, w => ∀ w', specStep op w = some w' → (∃ n, LPool.Total w' n ∧ n ≤ cap) ∧ FitsAll cap ops w'

theorem dl_specRun {ops : List (Op α)} {dw : DL.SWorld α} {w w' : Spec α} (h : AbsL dw w) (hs : specRun ops w = some w') :
    ∃ dw', DL.specRun (ops.map dlOp) dw = some dw' ∧ AbsL dw' w' := by
  induction ops generalizing dw w with
  | nil => cases hs; exact ⟨dw, rfl, h⟩
  | cons op ops ih =>
    simp only [specRun, Option.bind_eq_some_iff] at hs
    obtain ⟨w1, h1, h2⟩ := hs
    obtain ⟨dw1, h3, h4⟩ := dl_specStep h h1
    obtain ⟨dw2, h5, h6⟩ := ih h4 h2
    exact ⟨dw2, by simp only [List.map_cons, DL.specRun, h3, Option.bind_some]; exact h5, h6⟩

theorem total_abs {dw : DL.SWorld α} {w : Spec α} (h : AbsL dw w) {n : Nat} : LPool.Total w n ↔ LPool.Total dw n := by
  have e1 : ∀ k, w k ≠ none ↔ dw k ≠ none := fun k => by rw [h k]; simp
  have e2 : ∀ k, ((w k).getD []).length = ((dw k).getD []).length := fun k => by
    rw [h k]
    cases dw k <;> simp
  simp only [LPool.Total, e1, e2]

theorem AvoidsAll.prefix {pre post : List (Op α)} {w : Spec α} (h : AvoidsAll (pre ++ post) w) : AvoidsAll pre w := by
  induction pre generalizing w with
  | nil => trivial
  | cons op pre ih => exact ⟨h.1, fun w' hw => ih (h.2 w' hw)⟩

theorem fitsAll_dl {cap : Nat} {ops : List (Op α)} {dw : DL.SWorld α} {w w' : Spec α} (h : AbsL dw w)
    (hs : specRun ops w = some w') : FitsAll cap ops w ↔ LPool.D.FitsAll cap (ops.map dlOp) dw := by
  induction ops generalizing dw w with
  | nil => exact Iff.rfl
  | cons op ops ih =>
    simp only [specRun, Option.bind_eq_some_iff] at hs
    obtain ⟨w1, h1, h2⟩ := hs
    obtain ⟨dw1, h3, h4⟩ := dl_specStep h h1
    simp only [FitsAll, List.map_cons, LPool.D.FitsAll, h1, h3, Option.some.injEq, forall_eq', total_abs h4, ih h4 h2]

theorem AvoidsAll.dl {ops : List (Op α)} {dw : DL.SWorld α} {w w' : Spec α} (habs : AbsL dw w)
    (hs : specRun ops w = some w') (h : AvoidsAll ops w) : DL.AvoidsAll (ops.map dlOp) dw := by
  induction ops generalizing dw w with
  | nil => trivial
  | cons op ops ih =>
    simp only [specRun, Option.bind_eq_some_iff] at hs
    obtain ⟨w1, h1, h2⟩ := hs
    obtain ⟨dw1, h3, h4⟩ := dl_specStep habs h1
    refine ⟨?_, fun dw' hd => ?_⟩
    · have := h.1
      cases op with
      | move d s =>
        refine this.imp id fun hn he => hn ?_
        rw [habs s, he]; rfl
      | _ => trivial
    · rw [h3] at hd
      cases hd
      exact ih h4 h2 (h.2 w1 h1)

theorem pop_spec {pre post : List (Op α)} {k : Nat} {w : Spec α}
    (hs : specRun (pre ++ .pop k :: post) (fun _ => none) = some w) :
    ∃ w1 x q, specRun pre (fun _ => none) = some w1 ∧ w1 k = some (x :: q) := by
  obtain ⟨w1, w2, h1, h2⟩ := specRun_split (f := specStep) (fun _ => rfl) (fun _ _ _ => rfl) hs
  simp only [specStep] at h2
  split at h2
  · rename_i x q e
    exact ⟨w1, x, q, h1, e⟩
  · cases h2

theorem pl_run (hc : Sma.Legal c) (hfit : 8 * LPool.nodeWords .doubly K + 8 < 2 ^ 31) {s0 s : Sma.St}
    (h0 : Returns (Sma.construct c) s0 () s) (dflt : Option α) (ops : List (Op α)) {w : Spec α}
    (hs : specRun ops (fun _ => none) = some w) (ha : AvoidsAll ops (fun _ => none)) :
    run (poolList md c K E dflt) ops (.init s) =
      LPool.D.run (LPool.poolNodes md c .doubly K E) dflt (ops.map dlOp) (.init s) := by
  unfold run LPool.D.run
  rw [List.map_map]
  refine run_same fun pre op post m he hr => ?_
  cases op with
  | pop k =>
    subst he
    obtain ⟨w1, x, q, h1, h2⟩ := pop_spec hs
    obtain ⟨dw, h3, h4⟩ := dl_specRun (dw := fun _ => none) (fun _ => rfl) h1
    have ha' := ha.prefix.dl (dw := fun _ => none) (fun _ => rfl) h1
    have hr' : Returns (LPool.D.run (LPool.poolNodes md c .doubly K E) dflt (pre.map dlOp)) (.init s) () m := by
      unfold LPool.D.run
      rw [List.map_map]
      exact hr
    by_cases hf : LPool.D.FitsAll (c.M / (8 * LPool.nodeWords .doubly K)) (pre.map dlOp) (fun _ => none)
    · obtain ⟨m1, g1, g2, _⟩ := LPool.dlist_pool (md := md) (E := E) hc hfit h0 dflt _ h3 ha' hf
      obtain ⟨_, rfl⟩ := hr'.det g1
      rw [h4 k] at h2
      cases hd : dw k with
      | none => rw [hd] at h2; cases h2
      | some l =>
        rw [hd] at h2
        have hb := ((g2 k).2 l hd).2.2.2.2.2 x (by
          have : l.reverse = x :: q := by simpa using h2
          rw [← List.head?_reverse, this]; rfl)
        show (LPool.D.back _ k >>= fun _ => LPool.D.popBack _ k) m = _
        rw [bind_returns hb]
        rfl
    · have := LPool.dlist_pool_full (md := md) (E := E) hc hfit h0 dflt _ h3 ha' hf
      exact absurd (hr'.symm.trans this) (by simp)
  | _ => rfl

/-- **C112**, linked-list-backed stacks (partial: no move from an empty stack into another one, as in C80).  In a new
pool, a history of construction, push, pop (not on empty), clear, copying, moving and destruction of any number of
stacks runs without fault if the elements of all stacks never exceed the nodes the pool has room for; then every
stack shows its elements, and `free_mem_size()` is the pool minus one node per element.  Otherwise the history stops
with the process at the request that finds no room. -/
theorem stack_pool_list_partial (hc : Sma.Legal c) (hfit : 8 * LPool.nodeWords .doubly K + 8 < 2 ^ 31) {s0 s : Sma.St}
    (h0 : Returns (Sma.construct c) s0 () s) (dflt : Option α) (ops : List (Op α)) {w : Spec α}
    (hs : specRun ops (fun _ => none) = some w) (ha : AvoidsAll ops (fun _ => none)) :
    (FitsAll (c.M / (8 * LPool.nodeWords .doubly K)) ops (fun _ => none) →
      ∃ m, Returns (run (poolList md c K E dflt) ops) (.init s) () m ∧ Shows (poolList md c K E dflt) m w ∧
        (∀ k q, w k = some q → Returns (iterate (poolList md c K E dflt) k) m q.reverse m) ∧
        LPool.Accounted c K .doubly m w) ∧
    (¬ FitsAll (c.M / (8 * LPool.nodeWords .doubly K)) ops (fun _ => none) →
      Faults (run (poolList md c K E dflt) ops) (.init s) .crash) := by
  obtain ⟨dw, h1, h2⟩ := dl_specRun (dw := fun _ => none) (fun _ => rfl) hs
  have ha' := AvoidsAll.dl (dw := fun _ => none) (fun _ => rfl) hs ha
  have hrun := pl_run (md := md) (E := E) hc hfit h0 dflt ops hs ha
  rw [fitsAll_dl (dw := fun _ => none) (w := fun _ => none) (fun _ => rfl) hs]
  refine ⟨fun hf => ?_, fun hf => hrun.trans (LPool.dlist_pool_full hc hfit h0 dflt _ h1 ha' hf)⟩
  obtain ⟨m, g1, g2, g3⟩ := LPool.dlist_pool (md := md) (E := E) hc hfit h0 dflt _ h1 ha' hf
  have key : ∀ k s, w k = some s → ∃ l, dw k = some l ∧ s = l.reverse := by
    intro k s hk
    rw [h2 k] at hk
    cases hd : dw k with
    | none => rw [hd] at hk; cases hk
    | some l => rw [hd] at hk; exact ⟨l, rfl, by simpa using hk.symm⟩
  refine ⟨m, hrun.trans g1, fun k q hk => ?_, fun k q hk => ?_, ?_⟩
  · obtain ⟨l, hl, rfl⟩ := key k q hk
    obtain ⟨_, _, e3, e4, _, e6⟩ := (g2 k).2 l hl
    rw [List.length_reverse]
    refine ⟨e3, e4, fun x hx => e6 x ?_⟩
    rwa [List.head?_reverse] at hx
  · obtain ⟨l, hl, rfl⟩ := key k q hk
    rw [List.reverse_reverse]
    exact ((g2 k).2 l hl).1
  · obtain ⟨n, t1, t2, t3⟩ := g3
    exact ⟨n, (total_abs h2).2 t1, t2, t3⟩

/-! ### Over deques -/

theorem dq_specRun {ops : List (Op α)} {dw : Deq.SWorld α} {w w' : Spec α} (h : AbsD dw w)
    (hs : specRun ops w = some w') : ∃ dw', Deq.specRun (ops.map dqOp) dw = some dw' ∧ AbsD dw' w' := by
  induction ops generalizing dw w with
  | nil => cases hs; exact ⟨dw, rfl, h⟩
  | cons op ops ih =>
    simp only [specRun, Option.bind_eq_some_iff] at hs
    obtain ⟨w1, h1, h2⟩ := hs
    obtain ⟨dw1, h3, h4⟩ := dq_specStep h h1
    obtain ⟨dw2, h5, h6⟩ := ih h4 h2
    exact ⟨dw2, by simp only [List.map_cons, Deq.specRun, h3, Option.bind_some]; exact h5, h6⟩

/-- The history stops at one of its operations, which finds no room. -/
def OutOfRoom (P : DeqPool.Cfg α) (m0 : DeqPool.PWorld α) (ops : List (Op α)) : Prop :=
  ∃ before op after m, ops = before ++ op :: after ∧ Returns (run (poolDeque P) before) m0 () m ∧
    DeqPool.NoRoom P m (dqOp op) ∧ Faults (step (poolDeque P) op) m .crash

open DeqPool in
theorem mono_back {P : DeqPool.Cfg α} (k : Nat) : DeqPool.Mono (DeqPool.back P k) := by
  unfold DeqPool.back
  repeat' with_reducible first | exact mono_plus _ _ | mono1

/-- `top()` before `pop_back()` changes nothing. -/
theorem pop_same {P : DeqPool.Cfg α} {pre : List (Op α)} {op : Op α} {post : List (Op α)} {w : Spec α}
    {m : DeqPool.PWorld α} (hs : specRun (pre ++ op :: post) (fun _ => none) = some w)
    (ha : Deq.AvoidsAll ((pre ++ op :: post).map dqOp) (fun _ => none))
    (hsh : ∀ dw, Deq.specRun (pre.map dqOp) (fun _ => none) = some dw → DeqPool.Shows P m dw) :
    step (poolDeque P) op m = DeqPool.step P (dqOp op) m := by
  cases op with
  | pop k =>
    obtain ⟨w1, x, q, h1, h2⟩ := pop_spec hs
    obtain ⟨dw, h3, h4⟩ := dq_specRun (dw := fun _ => none) (fun _ => rfl) h1
    rw [List.map_append, List.map_cons] at ha
    have hsd : Deq.Sound dw k := ha.at_ h3
    rw [h4 k] at h2
    cases hd : dw k with
    | none => rw [hd] at h2; cases h2
    | some t =>
      rw [hd] at h2
      have hl : t.l.reverse = x :: q := by simpa using h2
      have hb := ((hsh dw h3).full h3 hd (by rintro e; simp [e] at hl) hsd).back x (by
        rw [← List.head?_reverse, hl]; rfl)
      show (DeqPool.back P k >>= fun _ => DeqPool.popBack P k) m = _
      rw [bind_returns hb]
      rfl
  | _ => rfl

/-- What the observers show of the stacks: sizes always, the elements of every stack that was not the target of a
move (C35). -/
def ShowsD (P : DeqPool.Cfg α) (m : DeqPool.PWorld α) (dw : Deq.SWorld α) (w : Spec α) : Prop :=
  ∀ k q, w k = some q →
    Returns (size (poolDeque P) k) m q.length m ∧ Returns (empty (poolDeque P) k) m (q.length == 0) m ∧
    (Deq.Sound dw k → q ≠ [] → (∀ x, q.head? = some x → Returns (top (poolDeque P) k) m x m) ∧
      Returns (iterate (poolDeque P) k) m q.reverse m)

theorem showsD_of {P : DeqPool.Cfg α} {m : DeqPool.PWorld α} {ops : List (Deq.Op α)} {dw : Deq.SWorld α} {w : Spec α}
    (h : DeqPool.Shows P m dw) (hs : Deq.specRun ops (fun _ => none) = some dw) (habs : AbsD dw w) :
    ShowsD P m dw w := by
  intro k q hk
  rw [habs k] at hk
  cases hd : dw k with
  | none => rw [hd] at hk; cases hk
  | some t =>
    rw [hd] at hk
    cases hk
    obtain ⟨e1, e2, _⟩ := (h k).2 t hd
    rw [List.length_reverse]
    refine ⟨e1, e2, fun hsd hne => ?_⟩
    have hf := h.full hs hd (by simpa using hne) hsd
    refine ⟨fun x hx => hf.back x ?_, ?_⟩
    · rwa [List.head?_reverse] at hx
    · rw [List.reverse_reverse]
      exact hf.iter

/-- **C112**, deque-backed stacks (partial: blocks whose size is no multiple of eight; no defective copy or move of C33
and C35).  As `Queue.queue_pool_deque_partial`. -/
theorem stack_pool_deque_partial (P : DeqPool.Cfg α) (hc : Sma.Legal P.sma) (hM : P.sma.M + 16 < 2 ^ 31) (hA : 0 < P.A)
    (hsz : 0 < P.size) (hfit : P.size * P.A + 8 < 2 ^ 31) (hodd : P.size * P.A % 8 ≠ 0) {s : Sma.St}
    {L : List (Nat × Int)} (h0 : Sma.Reach P.sma ⟨s, L⟩) (ops : List (Op α)) {w : Spec α}
    (hs : specRun ops (fun _ => none) = some w) (ha : Deq.AvoidsAll (ops.map dqOp) (fun _ => none)) :
    (∃ m dw, Returns (run (poolDeque P) ops) (.init s) () m ∧
      Deq.specRun (ops.map dqOp) (fun _ => none) = some dw ∧
      ShowsD P m dw w ∧ DeqPool.Placed P s L m ∧
      ((∀ k, w k = none) → ∀ n, Returns Sma.freeMemSize s n s → Returns Sma.freeMemSize m.pool n m.pool)) ∨
    OutOfRoom P (.init s) ops := by
  obtain ⟨dw, h1, h2⟩ := dq_specRun (dw := fun _ => none) (fun _ => rfl) hs
  have hD : ∀ {pre : List (Deq.Op α)} {d : Deq.SWorld α}, Deq.specRun pre (fun _ => none) = some d →
      Deq.AvoidsAll pre (fun _ => none) → ∀ {m}, Returns (DeqPool.run P pre) (.init s) () m → DeqPool.Shows P m d := by
    intro pre d e1 e2 m hr
    rcases DeqPool.deque_pool_partial P hc hM hA hsz hfit hodd h0 _ e1 e2 with ⟨m', g1, g2, _⟩ | ⟨b, o, a, m', e, g1, _, g3⟩
    · obtain ⟨_, rfl⟩ := hr.det g1
      exact g2
    · exfalso
      subst e
      have : Faults (DeqPool.run P (b ++ o :: a)) (.init s) .crash := by
        unfold DeqPool.run
        rw [List.map_append]
        exact seqAll_faults g1 g3
      exact absurd (hr.symm.trans this) (by simp)
  have hsame : ∀ pre op post m, ops = pre ++ op :: post → Returns (DeqPool.run P (pre.map dqOp)) (.init s) () m →
      step (poolDeque P) op m = DeqPool.step P (dqOp op) m := by
    intro pre op post m he hr
    subst he
    refine pop_same hs ha fun d hd => hD hd ?_ hr
    rw [List.map_append] at ha
    exact ha.prefix
  have hpre : ∀ pre post, ops = pre ++ post →
      run (poolDeque P) pre (.init s) = DeqPool.run P (pre.map dqOp) (.init s) := by
    intro pre post he
    unfold run DeqPool.run
    rw [List.map_map]
    refine run_same fun p o q m hp hr => hsame p o (q ++ post) m (by rw [he, hp]; simp) ?_
    unfold DeqPool.run
    rw [List.map_map]
    exact hr
  rcases DeqPool.deque_pool_partial P hc hM hA hsz hfit hodd h0 _ h1 ha with ⟨m, g1, g2, g3, g4⟩ | h
  · refine .inl ⟨m, dw, (hpre ops [] (by simp)).trans g1, h1, showsD_of g2 h1 h2, g3, fun hn => g4 fun k => ?_⟩
    have := hn k
    rw [h2 k] at this
    simpa using this
  · obtain ⟨before, op, after, m, e, g1, g2, g3⟩ := h
    obtain ⟨b, r, rfl, rfl, hr⟩ := List.map_eq_append_iff.1 e
    obtain ⟨o, a, rfl, rfl, rfl⟩ := List.map_eq_cons_iff.1 hr
    refine .inr ⟨b, o, a, m, rfl, (hpre b (o :: a) rfl).trans g1, g2, ?_⟩
    exact (hsame b o a m rfl g1).trans g3

/-- **C112**, deque-backed stacks with blocks of any size (partial: only histories during which no block of elements
was placed directly in front of one in use, see `stack_pool_wrong`). -/
theorem stack_pool_unhit_partial (P : DeqPool.Cfg α) (hc : Sma.Legal P.sma) (hM : P.sma.M + 16 < 2 ^ 31) (hA : 0 < P.A)
    (hsz : 0 < P.size) (hfit : P.size * P.A + 8 < 2 ^ 31) {s : Sma.St} {L : List (Nat × Int)}
    (h0 : Sma.Reach P.sma ⟨s, L⟩) (ops : List (Op α)) {w : Spec α}
    (hs : specRun ops (fun _ => none) = some w) (ha : Deq.AvoidsAll (ops.map dqOp) (fun _ => none))
    {m : DeqPool.PWorld α} (hr : Returns (run (poolDeque P) ops) (.init s) () m) (hhit : m.hit = false) :
    ∃ dw, Deq.specRun (ops.map dqOp) (fun _ => none) = some dw ∧ ShowsD P m dw w ∧ DeqPool.Placed P s L m ∧
      ((∀ k, w k = none) → ∀ n, Returns Sma.freeMemSize s n s → Returns Sma.freeMemSize m.pool n m.pool) := by
  obtain ⟨dw, h1, h2⟩ := dq_specRun (dw := fun _ => none) (fun _ => rfl) hs
  have hmono : ∀ op : Op α, DeqPool.Mono (step (poolDeque P) op) := by
    intro op
    cases op with
    | pop k => exact DeqPool.Pres.bind DeqPool.Pre.later (mono_back k) fun _ => DeqPool.mono_popBack k
    | new k => exact DeqPool.mono_step (P := P) (.new k)
    | push k x => exact DeqPool.mono_step (P := P) (.pushBack k x)
    | clear k => exact DeqPool.mono_step (P := P) (.clear k)
    | copy d t => exact DeqPool.mono_step (P := P) (.copy d t)
    | move d t => exact DeqPool.mono_step (P := P) (.move d t)
    | drop k => exact DeqPool.mono_step (P := P) (.drop k)
  have key : ∀ post pre m1, ops = pre ++ post → Returns (DeqPool.run P (pre.map dqOp)) (.init s) () m1 →
      Returns (run (poolDeque P) post) m1 () m → Returns (DeqPool.run P (post.map dqOp)) m1 () m := by
    intro post
    induction post with
    | nil => intro pre m1 _ _ h; exact h
    | cons op post ih =>
      intro pre m1 he hp hq
      have hm1 : m1.hit = false := by
        have := (DeqPool.Pres.seqAll DeqPool.Pre.later (l := (op :: post).map (step (poolDeque P)))
          (fun p hp => by obtain ⟨o, _, rfl⟩ := List.mem_map.1 hp; exact hmono o) _ _ _ hq).2.2
        cases e : m1.hit with
        | false => rfl
        | true => rw [this e] at hhit; cases hhit
      have hsame : step (poolDeque P) op m1 = DeqPool.step P (dqOp op) m1 := by
        subst he
        refine pop_same hs ha fun d hd => ?_
        rw [List.map_append] at ha
        exact (DeqPool.deque_pool_unhit_partial P hc hM hA hsz hfit h0 _ hd ha.prefix hp hm1).1
      obtain ⟨_, m2, q1, q2⟩ := Pool.returns_bind (p := step (poolDeque P) op) hq
      rw [Returns, hsame] at q1
      have := ih (pre ++ [op]) m2 (by rw [he]; simp) (by
        rw [List.map_append]
        unfold DeqPool.run at hp ⊢
        rw [List.map_append]
        exact seqAll_returns hp q1) q2
      exact (bind_returns q1 ..).trans this
  have hr' := key ops [] _ rfl rfl hr
  obtain ⟨g2, g3, g4⟩ := DeqPool.deque_pool_unhit_partial P hc hM hA hsz hfit h0 _ h1 ha hr' hhit
  refine ⟨dw, h1, showsD_of g2 h1 h2, g3, fun hn => g4 fun k => ?_⟩
  have := hn k
  rw [h2 k] at this
  simpa using this

/-- **C112, failing case.**  A stack over a deque with the default blocks: in the situation of `Queue.queue_pool_wrong`
a stack of 96 elements shows none of them to iteration. -/
theorem stack_pool_wrong (c : Sma.Cfg) (hc : Sma.Legal c) (hmax : c.max = 128) (hM : 832 < c.M) :
    ∃ s, Sma.Reach c ⟨s, []⟩ ∧ ∀ (d : α) (k : Nat) (xs : List α), xs.length = 96 →
      ∃ m, Returns (run (poolDeque ⟨c, 32, 4, d⟩) (.new k :: xs.map (.push k))) (.init s) () m ∧
        Returns (size (poolDeque ⟨c, 32, 4, d⟩) k) m 96 m ∧
        Returns (iterate (poolDeque ⟨c, 32, 4, d⟩) k) m [] m := by
  obtain ⟨s, h1, h2⟩ := Queue.queue_pool_wrong (α := α) c hc hmax hM
  refine ⟨s, h1, fun d k xs hx => ?_⟩
  obtain ⟨m, g1, g2, g3⟩ := h2 d k xs hx
  refine ⟨m, ?_, g2, g3⟩
  have : run (poolDeque ⟨c, 32, 4, d⟩) (.new k :: xs.map (.push k)) =
      Queue.run (Queue.poolDeque ⟨c, 32, 4, d⟩) (.new k :: xs.map (.push k)) := by
    unfold run Queue.run
    simp only [List.map_cons, List.map_map]
    rfl
  rw [this]
  exact g1

end StackOn

/-! ## The hypotheses can be met -/

/-- Two queues of numbers in the small pool: never more than three elements in all. -/
example : ∃ w, Queue.specRun [Queue.Op.new 0, .push 0 1, .push 0 2, .push 0 3, .pop 0, .new 1, .move 1 0, .push 0 9]
      (fun _ => none) = some w ∧ w 0 = some [9] ∧ w 1 = some [2, 3] ∧
    Queue.AvoidsAll [Queue.Op.new 0, .push 0 1, .push 0 2, .push 0 3, .pop 0, .new 1, .move 1 0, .push 0 9]
      (fun _ => none) ∧ Sma.smallSMA.M / (8 * LPool.nodeWords .doubly Pool.natLayout) = 42 :=
  ⟨_, rfl, rfl, rfl, by simp [Queue.AvoidsAll, Queue.Avoids, Queue.specStep, Queue.Spec.put], by decide⟩

/-- One queue that fits into the small pool and one that does not. -/
example : Queue.FitsAll 42 [Queue.Op.new 0, .push 0 7] (fun _ => none) ∧
    ¬ Queue.FitsAll 0 [Queue.Op.new 0, .push 0 7] (fun _ => none) := by
  have h : ∀ w', Queue.specStep (Queue.Op.push 0 7) (Queue.Spec.put (fun _ => none) 0 (some [])) = some w' →
      w' = DL.SWorld.put (fun _ => none) 0 (some [7]) := by
    rintro w' h
    cases h
    exact DL.SWorld.put_put ..
  refine ⟨fun w' h1 => ?_, fun hf => ?_⟩
  · cases h1
    refine ⟨⟨0, LPool.total_one 0 [], by decide⟩, fun w'' h2 => ?_⟩
    rw [h w'' h2]
    exact ⟨⟨1, LPool.total_one 0 [7], by decide⟩, trivial⟩
  · obtain ⟨⟨n, h1, h2⟩, _⟩ := (hf _ rfl).2 _ rfl
    rw [h _ rfl] at h1
    have := h1.det (LPool.total_one 0 [7])
    simp at this
    omega

/-- Queues and stacks over deques of 12-byte elements, five per block, in a pool of which another client has taken a
block of 100 bytes. -/
example : ∃ s a w v, Sma.Reach Sma.smallSMA ⟨s, [(a, 100)]⟩ ∧ 12 * 5 % 8 ≠ 0 ∧
    Queue.specRun [Queue.Op.new 0, .push 0 1, .push 0 2, .pop 0, .new 1, .push 1 4] (fun _ => none) = some w ∧
    Deq.AvoidsAll ([Queue.Op.new 0, .push 0 1, .push 0 2, .pop 0, .new 1, .push 1 4].map Queue.Op.dq) (fun _ => none) ∧
    w 0 = some [2] ∧ w 1 = some [4] ∧
    Stack.specRun [Stack.Op.new 0, .push 0 1, .push 0 2, .push 0 3, .pop 0] (fun _ => none) = some v ∧
    Deq.AvoidsAll ([Stack.Op.new 0, .push 0 1, .push 0 2, .push 0 3, .pop 0].map StackOn.dqOp) (fun _ => none) ∧
    StackOn.AvoidsAll [Stack.Op.new 0, .push 0 1, .push 0 2, .push 0 3, .pop 0] (fun _ => none) ∧
    v 0 = some [2, 1] := by
  obtain ⟨⟨s, L⟩, h, ⟨a, e⟩, _⟩ := Sma.example_state
  cases e
  exact ⟨s, a, _, _, h, by decide, rfl, Deq.avoidsAll_of_plain (by simp [Queue.Op.dq, Deq.Op.plain]) _ Deq.sound_nil,
    rfl, rfl, rfl, Deq.avoidsAll_of_plain (by simp [StackOn.dqOp, Deq.Op.plain]) _ Deq.sound_nil,
    by simp [StackOn.AvoidsAll, StackOn.Avoids], rfl⟩

end Verif
