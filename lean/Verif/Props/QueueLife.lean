import Verif.Props.AdapterPool
import Verif.Props.DequeCost

/-! # How long a queue in the static pool can be used (C113) -/

namespace Verif

open Prog

variable {α : Type}

namespace DeqPool

open Deq (Op Act window SWorld specStep specRun AvoidsAll WInv)

/-- A run in the pool that returns is a run of the deques alone, unless a block was not placed as foreseen. -/
theorem run_deq {C : Ctx α} (hC : C.Ok) {w w' : PWorld α} (h : Rel0 C w) {sw sw' : SWorld α}
    (hI : WInv C.acfg w.deq sw) {ops : List (Op α)} (hs : specRun ops sw = some sw') (ha : AvoidsAll ops sw)
    (hr : Returns (run C.P ops) w () w') :
    (Returns (Deq.run C.acfg ops) w.deq () w'.deq ∧ Rel0 C w') ∨ ∃ f, C.fin = some f ∧ Bad f w' := by
  induction ops generalizing w sw with
  | nil =>
    cases hr
    exact Or.inl ⟨rfl, h⟩
  | cons op ops ih =>
    simp only [specRun] at hs
    obtain ⟨sw1, hs1, hs⟩ := Option.bind_eq_some_iff.1 hs
    obtain ⟨ha1, ha⟩ := ha
    obtain ⟨a, m, r1, hI1⟩ := Deq.step_ok hC.A (adjUp C) hI hs1 ha1
    have hnew : ∀ k, op = .new k → w.deq.obj k = none := by
      rintro k rfl
      have h1 := hI.obj k
      simp only [specStep] at hs1
      split at hs1
      · rename_i hn
        rw [Option.isNone_iff_eq_none] at hn
        rw [hn] at h1
        cases ho : w.deq.obj k with
        | none => rfl
        | some d =>
          rw [ho] at h1
          exact absurd h1 (by simp [Deq.ObjOpt])
      · cases hs1
    obtain ⟨a', w1, q1, q2⟩ := Pool.returns_bind hr
    rcases step_sim hC h op hnew a m r1 with ⟨w2, e1, rfl, h1, _⟩ | ⟨e, _⟩ | ⟨f, hf, e⟩
    · obtain ⟨_, rfl⟩ := q1.det e1
      rcases ih h1 hI1 hs (ha _ hs1) q2 with ⟨g1, g2⟩ | g
      · exact Or.inl ⟨(bind_returns r1).trans g1, g2⟩
      · exact Or.inr g
    · exact absurd (q1.symm.trans e) (by simp)
    · exact Or.inr ⟨f, hf, (e a' w1 q1).later (mono_run ops w1 _ w' q2)⟩

theorem spec_seq {acts : List (Act α)} {sw sw' : SWorld α} {l : List α} {ph : Deq.Phase}
    (hs : specRun (acts.map (Act.op 0)) sw = some sw') (h : sw 0 = some ⟨l, ph⟩) : ∃ l', Deq.seqRun acts l = some l' := by
  induction acts generalizing sw l ph with
  | nil => exact ⟨l, rfl⟩
  | cons a acts ih =>
    obtain ⟨sw1, h1, h2⟩ := Option.bind_eq_some_iff.1 hs
    cases a with
    | pushBack x =>
      simp only [Act.op, specStep, h, Option.bind_some, Option.some.injEq] at h1
      subst h1
      exact ih h2 (if_pos rfl)
    | pushFront x =>
      simp only [Act.op, specStep, h, Option.bind_some, Option.some.injEq] at h1
      subst h1
      exact ih h2 (if_pos rfl)
    | popBack =>
      simp only [Act.op, specStep, h, Option.bind_some] at h1
      split at h1
      · cases h1
      · rename_i hl
        cases h1
        simp only [Deq.seqRun, if_neg hl]
        exact ih h2 (if_pos rfl)
    | popFront =>
      simp only [Act.op, specStep, h, Option.bind_some] at h1
      split at h1
      · cases h1
      · rename_i hl
        cases h1
        simp only [Deq.seqRun, if_neg hl]
        exact ih h2 (if_pos rfl)

theorem acts_avoid (acts : List (Act α)) : AvoidsAll (.new 0 :: acts.map (Act.op 0)) (fun _ => none) := by
  refine Deq.avoidsAll_of_plain (fun op hop => ?_) _ Deq.sound_nil
  rcases List.mem_cons.1 hop with rfl | h
  · trivial
  · obtain ⟨a, _, rfl⟩ := List.mem_map.1 h
    cases a <;> trivial

theorem total_blocks (f : Nat → Nat) (n : Int) (bs : List Nat) :
    Sma.total (Sma.taken (bs.map fun b => (f b, n))) = bs.length * Sma.up8 n := by
  induction bs with
  | nil => simp [Sma.taken, Sma.total]
  | cons b bs ih =>
    show Sma.up8 n + Sma.total (Sma.taken (bs.map fun b => (f b, n))) = (bs.length + 1) * Sma.up8 n
    rw [ih, Nat.add_mul, Nat.one_mul, Nat.add_comm]

/-- The blocks of a deque and its table are in the pool at the same time. -/
theorem Rel0.bytes {C : Ctx α} (hC : C.Ok) {w : PWorld α} (h : Rel0 C w) {d : Deq.Deque} {k : Nat}
    (hd : w.deq.obj k = some d) (hO : Deq.OwnOk w.deq d.tbl) :
    (C.P.size * C.P.A + 8) * d.tbl.length ≤ C.P.sma.M := by
  obtain ⟨bs, ts, h1, h2, h3, h4, ⟨L, hp, hr⟩, _⟩ := h.holds
  obtain ⟨F, hF⟩ := (Sma.sma_accounting hC.legal hr).1
  obtain ⟨f, _, e1, e2⟩ := (Sma.sma_accounting hC.legal hr).2.1 F hF
  have hf : 0 ≤ f := by
    rw [e2]
    generalize List.range _ = is
    induction is with
    | nil => simp
    | cons i is ih => rw [List.map_cons, List.sum_cons]; omega
  have ht : Sma.total (Sma.taken L) ≤ C.P.sma.M := by
    simp only at e1
    omega
  by_cases hne : d.tbl = []
  · rw [hne]; simp
  have hlen : lenOf w.deq k = d.tbl.length := by simp [lenOf, hd]
  have hk : k ∈ ts := (h4 k).2 (by rw [hlen]; exact fun e => hne (List.length_eq_zero_iff.1 e))
  have hle : d.tbl.length ≤ bs.length := by
    refine List.Nodup.length_le_of_subset hO.1 fun b hb => ?_
    obtain ⟨_, _, g, e⟩ := hO.2 b hb
    exact (h2 b).2 (by rw [e]; rfl)
  have e := Sma.total_perm (hp.map fun b : Nat × Int => (b.1, Sma.up8 b.2))
  simp only [List.map_append, ownOf, Sma.total_append] at e
  have e3 : Sma.total (Sma.taken L) = Sma.total (L.map fun b : Nat × Int => (b.1, Sma.up8 b.2)) := rfl
  have e4 := total_blocks w.blk ((C.P.size * C.P.A : Nat) : Int) bs
  have e5 : Sma.up8 ((8 * d.tbl.length : Nat) : Int) ≤ Sma.total ((ts.map fun k => (w.tab k, ((8 * lenOf w.deq k : Nat) : Int))).map
      fun b : Nat × Int => (b.1, Sma.up8 b.2)) := by
    refine Sma.total_mem (b := (w.tab k, Sma.up8 ((8 * d.tbl.length : Nat) : Int))) ?_
    exact List.mem_map.2 ⟨_, List.mem_map.2 ⟨k, hk, rfl⟩, by rw [hlen]⟩
  have h8 := (up8_nat (8 * d.tbl.length)).1
  have h9 := (up8_nat (C.P.size * C.P.A)).1
  have h10 := Nat.mul_le_mul hle h9
  unfold Sma.taken at e4
  rw [Nat.add_mul, Nat.mul_comm (C.P.size * C.P.A)]
  omega

/-- The storage of a deque into which so many elements were pushed at the back is too large for the pool. -/
theorem fifo_full {C : Ctx α} (hC : C.Ok) {s : Sma.St} (h : Rel0 C (.init s)) {acts : List (Act α)} (hne : acts ≠ [])
    (hf : ∀ a ∈ acts, a.isFifo = true) {sw : SWorld α}
    (hs : specRun (.new 0 :: acts.map (Act.op 0)) (fun _ => none) = some sw)
    (hn : C.P.A * C.P.sma.M < (Deq.pushes acts + C.P.A) * (C.P.size * C.P.A + 8)) {w : PWorld α}
    (hr : Returns (run C.P (.new 0 :: acts.map (Act.op 0))) (.init s) () w) :
    ∃ f, C.fin = some f ∧ Bad f w := by
  rcases run_deq hC h Deq.WInv.init hs (acts_avoid _) hr with ⟨g1, g2⟩ | g
  · exfalso
    obtain ⟨l, hl⟩ : ∃ l', Deq.seqRun acts [] = some l' := by
      obtain ⟨sw1, h1, h2⟩ := Option.bind_eq_some_iff.1 hs
      cases h1
      exact spec_seq (ph := .fresh) h2 rfl
    obtain ⟨_, m, e, nb, P, ⟨⟨d, hd, hO, _, rfl⟩, _⟩, h2⟩ := Deq.fifo_ok (cfg := C.acfg) hC.A (adjUp C) acts hne hf hl
    obtain ⟨_, rfl⟩ := g1.det e
    have hb := g2.bytes hC hd hO
    have hA : C.acfg.A = C.P.A := rfl
    rw [hA] at h2
    have := Nat.mul_le_mul_right (C.P.size * C.P.A + 8) h2
    have := Nat.mul_le_mul_left C.P.A hb
    have e8 : C.P.A * ((C.P.size * C.P.A + 8) * d.tbl.length) = d.tbl.length * C.P.A * (C.P.size * C.P.A + 8) := by
      rw [Nat.mul_comm d.tbl.length, Nat.mul_assoc, Nat.mul_comm d.tbl.length]
    omega
  · exact g

end DeqPool

namespace Queue

/-- What is done to the queue `k`: push an element, or (`none`) pop one. -/
def use (k : Nat) : Option α → Op α
  | some x => .push k x
  | none => .pop k

/-- The number of elements pushed. -/
def pushed (us : List (Option α)) : Nat := us.countP Option.isSome

/-- The number of times an element was popped. -/
def popped (us : List (Option α)) : Nat := us.countP Option.isNone

/-- `n` times: push an element, pop it. -/
def rounds (x : α) : Nat → List (Option α)
  | 0 => []
  | n + 1 => some x :: none :: rounds x n

/-- `use` in terms of the deque. -/
def act : Option α → Deq.Act α
  | some x => .pushBack x
  | none => .popFront

theorem use_dq (us : List (Option α)) : (us.map (use 0)).map Op.dq = (us.map act).map (Deq.Act.op 0) := by
  rw [List.map_map, List.map_map]
  exact List.map_congr_left fun u _ => by cases u <;> rfl

theorem run_use (P : DeqPool.Cfg α) (us : List (Option α)) :
    run (poolDeque P) (.new 0 :: us.map (use 0)) = DeqPool.run P (.new 0 :: (us.map act).map (Deq.Act.op 0)) := by
  rw [pd_run, ← use_dq]
  rfl

theorem act_fifo (us : List (Option α)) : ∀ a ∈ us.map act, a.isFifo = true := by
  intro a ha
  obtain ⟨u, _, rfl⟩ := List.mem_map.1 ha
  cases u <;> rfl

theorem pushes_act (us : List (Option α)) : Deq.pushes (us.map act) = pushed us := by
  unfold Deq.pushes pushed
  rw [List.countP_map]
  congr 1
  funext u
  cases u <;> rfl

theorem use_spec {us : List (Option α)} {w : Spec α} (hs : specRun (.new 0 :: us.map (use 0)) (fun _ => none) = some w) :
    ∃ sw, Deq.specRun (.new 0 :: (us.map act).map (Deq.Act.op 0)) (fun _ => none) = some sw := by
  obtain ⟨dw, h1, _⟩ := dq_specRun' (dw := fun _ => none) (fun _ => rfl) hs
  rw [← use_dq]
  exact ⟨dw, h1⟩

/-- **C113, failing case.**  A queue over a deque in a pool of `M` bytes, in whatever state: however short the queue is
kept, the program has stopped for lack of memory by the time `M / (size + 8 / ARR_SIZE) - ARR_SIZE` elements have been
pushed in all.  (Blocks whose size is no multiple of eight, so that it does not matter where the pool places them.) -/
theorem queue_pool_exhausts (P : DeqPool.Cfg α) (hc : Sma.Legal P.sma) (hM : P.sma.M + 16 < 2 ^ 31) (hA : 0 < P.A)
    (hsz : 0 < P.size) (hfit : P.size * P.A + 8 < 2 ^ 31) (hodd : P.size * P.A % 8 ≠ 0) {s : Sma.St}
    {L : List (Nat × Int)} (h0 : Sma.Reach P.sma ⟨s, L⟩) (us : List (Option α)) (hne : us ≠ []) {w : Spec α}
    (hs : specRun (.new 0 :: us.map (use 0)) (fun _ => none) = some w)
    (hn : P.A * P.sma.M < (pushed us + P.A) * (P.size * P.A + 8)) :
    Faults (run (poolDeque P) (.new 0 :: us.map (use 0))) (.init s) .crash := by
  have hC : DeqPool.Ctx.Ok (⟨P, none, ⟨L, s.mem⟩⟩ : DeqPool.Ctx α) := ⟨hc, hA, hsz, hfit, hM, fun _ => hodd⟩
  have hR := DeqPool.Rel.init (fin := none) h0 fun f hf => by cases hf
  rw [run_use]
  obtain ⟨sw, hs'⟩ := use_spec hs
  rcases DeqPool.run_sim hC hR Deq.WInv.init hs' (DeqPool.acts_avoid _) with ⟨w, h1, _⟩ | h | ⟨f, hf, _⟩
  · obtain ⟨f, hf, _⟩ := DeqPool.fifo_full hC hR (by simpa using hne) (act_fifo us) hs' (by rw [pushes_act]; exact hn) h1
    cases hf
  · exact h.1
  · cases hf

/-- **C113, failing case.**  With blocks of any size: no program comes so far unless a block of elements was placed
directly in front of one in use (C111). -/
theorem queue_pool_exhausts_unhit (P : DeqPool.Cfg α) (hc : Sma.Legal P.sma) (hM : P.sma.M + 16 < 2 ^ 31) (hA : 0 < P.A)
    (hsz : 0 < P.size) (hfit : P.size * P.A + 8 < 2 ^ 31) {s : Sma.St}
    {L : List (Nat × Int)} (h0 : Sma.Reach P.sma ⟨s, L⟩) (us : List (Option α)) (hne : us ≠ []) {w : Spec α}
    (hs : specRun (.new 0 :: us.map (use 0)) (fun _ => none) = some w)
    (hn : P.A * P.sma.M < (pushed us + P.A) * (P.size * P.A + 8)) {m : DeqPool.PWorld α}
    (hr : Returns (run (poolDeque P) (.new 0 :: us.map (use 0))) (.init s) () m) : m.hit = true := by
  have hC : DeqPool.Ctx.Ok (⟨P, some m.blk, ⟨L, s.mem⟩⟩ : DeqPool.Ctx α) := ⟨hc, hA, hsz, hfit, hM, fun h => by cases h⟩
  rw [run_use] at hr
  obtain ⟨sw, hs'⟩ := use_spec hs
  have hl := DeqPool.mono_run _ _ _ _ hr
  have hR := DeqPool.Rel.init (fin := some m.blk) h0 fun f hf => by cases hf; exact hl.2.1 0 Nat.zero_lt_one
  obtain ⟨f, hf, hb⟩ := DeqPool.fifo_full hC hR (by simpa using hne) (act_fifo us) hs' (by rw [pushes_act]; exact hn) hr
  cases hf
  rcases hb with e | ⟨b, _, e⟩
  · exact e
  · exact absurd rfl e

/-- Only the queue `k` exists. -/
abbrev only (k : Nat) (l : List α) : Spec α := DL.SWorld.put (fun _ => none) k (some l)

/-- The queue, with `n` elements at first, is never popped when it is empty and never has more than `cap` elements. -/
def Within (cap n : Nat) (us : List (Option α)) : Prop :=
  ∀ before, before <+: us → popped before ≤ n + pushed before ∧ n + pushed before ≤ popped before + cap

theorem Within.tail {cap n : Nat} {u : Option α} {us : List (Option α)} (h : Within cap n (u :: us)) :
    Within cap (if u.isSome then n + 1 else n - 1) us := by
  intro b hb
  have h0 := h [u] ⟨us, rfl⟩
  have h1 := h (u :: b) (List.cons_prefix_cons.2 ⟨rfl, hb⟩)
  cases u <;> simp [pushed, popped] at * <;> omega

theorem within_ok {cap : Nat} (k : Nat) (us : List (Option α)) {l : List α} (h : Within cap l.length us) :
    ∃ l', specRun (us.map (use k)) (only k l) = some (only k l') ∧ l'.length + popped us = l.length + pushed us ∧
      FitsAll cap (us.map (use k)) (only k l) ∧ AvoidsAll (us.map (use k)) (only k l) := by
  induction us generalizing l with
  | nil => exact ⟨l, rfl, rfl, trivial, trivial⟩
  | cons u us ih =>
    have h0 := h [u] ⟨us, rfl⟩
    have ht := h.tail
    obtain ⟨l1, h1, hl1⟩ : ∃ l1, specStep (use k u) (only k l) = some (only k l1) ∧
        l1.length = if u.isSome then l.length + 1 else l.length - 1 := by
      have hk : only k l k = some l := if_pos rfl
      cases u with
      | some x =>
        refine ⟨l ++ [x], ?_, by simp⟩
        simp only [use, specStep, hk]
        exact congrArg some (DL.SWorld.put_put ..)
      | none =>
        cases l with
        | nil => simp [pushed, popped] at h0
        | cons y l =>
          refine ⟨l, ?_, by simp⟩
          simp only [use, specStep, hk]
          exact congrArg some (DL.SWorld.put_put ..)
    rw [← hl1] at ht
    obtain ⟨l', i1, i2, i3, i4⟩ := ih ht
    refine ⟨l', ?_, ?_, fun w e => ?_, ?_, fun w e => ?_⟩
    · simp only [List.map_cons, specRun, h1, Option.bind_some]
      exact i1
    · cases u <;> simp [pushed, popped] at * <;> omega
    · rw [h1] at e
      cases e
      exact ⟨⟨_, LPool.total_one k l1, by cases u <;> simp [pushed, popped] at * <;> omega⟩, i3⟩
    · cases u <;> trivial
    · rw [h1] at e
      cases e
      exact i4

theorem new_within {us : List (Option α)} {cap : Nat} (h : Within cap 0 us) (k : Nat) :
    ∃ l, specRun (.new k :: us.map (use k)) (fun _ => none) = some (only k l) ∧ l.length + popped us = pushed us := by
  obtain ⟨l, h1, h2, _⟩ := within_ok k us (l := []) h
  have hnew : specStep (.new k) (fun _ => none) = some (only k ([] : List α)) := rfl
  refine ⟨l, ?_, by simpa using h2⟩
  simp only [specRun, hnew, Option.bind_some]
  exact h1

/-- **C113**, linked-list-backed queues: in a new pool with room for `cap` nodes every use that never has more than
`cap` elements in the queue runs to its end, however long it is; a queue emptied at the end holds no memory.
(Partial: false for queues over deques.) -/
theorem queue_pool_lasts_partial {md : Sma.Mode} {c : Sma.Cfg} {K : Pool.Layout α} {E : LPool.PtrRep} (hc : Sma.Legal c)
    (hfit : 8 * LPool.nodeWords .doubly K + 8 < 2 ^ 31) {cap : Nat} (hroom : cap * (8 * LPool.nodeWords .doubly K) ≤ c.M)
    {s0 s : Sma.St} (h0 : Returns (Sma.construct c) s0 () s) (dflt : Option α) (k : Nat) (us : List (Option α))
    (hu : Within cap 0 us) :
    ∃ m, Returns (run (poolList md c K E dflt) (.new k :: us.map (use k))) (.init s) () m ∧
      Returns (size (poolList md c K E dflt) k) m (pushed us - popped us) m ∧
      (pushed us = popped us → Returns Sma.freeMemSize m.pool c.M m.pool) := by
  have hpos : 0 < 8 * LPool.nodeWords .doubly K := by simp only [LPool.nodeWords, LPool.links]; omega
  have hcap : cap ≤ c.M / (8 * LPool.nodeWords .doubly K) := (Nat.le_div_iff_mul_le hpos).2 hroom
  obtain ⟨l, h1, hl, h2, h3⟩ := within_ok (α := α) (cap := c.M / (8 * LPool.nodeWords .doubly K)) k us (l := [])
    fun b hb => by
      have := hu b hb
      simp only [List.length_nil]
      omega
  have hnew : specStep (.new k) (fun _ => none) = some (only k ([] : List α)) := rfl
  obtain ⟨m, g1, g2, g3, g4⟩ := (queue_pool_list_partial (md := md) (E := E) hc hfit h0 dflt (.new k :: us.map (use k))
    (w := only k l) (by simp only [specRun, hnew, Option.bind_some]; exact h1)
    ⟨trivial, fun w' e => by rw [hnew] at e; cases e; exact h3⟩).1
    (fun w' e => by rw [hnew] at e; cases e; exact ⟨⟨0, LPool.total_one k [], by omega⟩, h2⟩)
  have hlen : l.length = pushed us - popped us := by simp only [List.length_nil] at hl; omega
  refine ⟨m, g1, hlen ▸ (g2 k l (if_pos rfl)).1, fun e => ?_⟩
  obtain ⟨j, t1, t2, t3⟩ := g4
  have hj := t1.det (LPool.total_one k l)
  have : j = 0 := by omega
  subst this
  simpa using t2

theorem rounds_within (x : α) (n : Nat) : Within 1 0 (rounds x n) := by
  induction n with
  | zero =>
    intro b hb
    rw [List.prefix_nil.1 hb]
    simp [pushed, popped]
  | succ n ih =>
    intro b hb
    match b, hb with
    | [], _ => simp [pushed, popped]
    | [u], hb =>
      obtain ⟨rfl, _⟩ := List.cons_prefix_cons.1 hb
      simp [pushed, popped]
    | u :: v :: b, hb =>
      obtain ⟨rfl, h1⟩ := List.cons_prefix_cons.1 hb
      obtain ⟨rfl, h2⟩ := List.cons_prefix_cons.1 h1
      have := ih b h2
      simp [pushed, popped] at this ⊢
      omega

theorem rounds_pushed (x : α) (n : Nat) : pushed (rounds x n) = n := by
  induction n with
  | zero => rfl
  | succ n ih => simp only [rounds, pushed, List.countP_cons, Option.isSome] at ih ⊢; simp [ih]

theorem rounds_ne (x : α) (n : Nat) : rounds x (n + 1) ≠ [] := nofun

/-- In a pool of 1024 bytes a queue of 12-byte elements, five per block, stops after 71 rounds at the latest, also if
another client holds a block; there is room for nodes of lists. -/
example : ∃ s a w, Sma.Reach Sma.smallSMA ⟨s, [(a, 100)]⟩ ∧ 12 * 5 % 8 ≠ 0 ∧ rounds 7 71 ≠ [] ∧
    specRun (.new 0 :: (rounds 7 71).map (use 0)) (fun _ => none) = some w ∧
    5 * Sma.smallSMA.M < (pushed (rounds 7 71) + 5) * (12 * 5 + 8) ∧
    Within 1 0 (rounds 7 71) ∧ 1 * (8 * LPool.nodeWords .doubly Pool.natLayout) ≤ Sma.smallSMA.M := by
  obtain ⟨⟨s, L⟩, h, ⟨a, e⟩, _⟩ := Sma.example_state
  cases e
  obtain ⟨l, hl, _⟩ := new_within (rounds_within 7 71) 0
  exact ⟨s, a, only 0 l, h, by decide, rounds_ne 7 70, hl, by rw [rounds_pushed]; decide, rounds_within 7 71, by decide⟩

end Queue
end Verif
