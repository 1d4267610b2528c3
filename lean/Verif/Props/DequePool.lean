import Verif.DequePoolTrace
import Verif.DequePoolRun
import Verif.Props.Deque
import Verif.Props.SMA

/-!
# Deques in the static pool (C111)
-/

namespace Verif.DeqPool

open Prog
open Deq (Op SWorld specRun AvoidsAll)

variable {α : Type}

/-- **C111, failing case.**  In any pool of more than 96 bytes with lists for blocks of up to 16 bytes, just
constructed, a deque of 8-byte elements with one element per block goes wrong at its third element:
after `push_front(x)`, `push_back(y)`, `push_back(z)` it has three elements by `size()`, but iterating it
yields none of them.  The table was freed when it grew, one of the two new blocks was placed in the
storage of the old table, directly in front of the block that holds `x`, and became the last block: the
end iterator and the begin iterator hold the same address. -/
theorem deque_pool_wrong (c : Sma.Cfg) (hc : Sma.Legal c) (hmax : 16 ≤ c.max) (hM : 96 < c.M)
    (d x y z : α) (k : Nat) {s0 s : Sma.St} (h0 : Returns (Sma.construct c) s0 () s) :
    ∃ w, Returns (run ⟨c, 1, 8, d⟩ [.new k, .pushFront k x, .pushBack k y, .pushBack k z]) (.init s) () w ∧
      Returns (on (Deq.size k)) w 3 w ∧ Returns (iterate ⟨c, 1, 8, d⟩ k) w [] w := by
  obtain ⟨s1, s2, s3, s4, s5, s6, s7, s8, s9, e1, e2, e3, e4, e5, e6, e7, e8, e9⟩ := pool_trace hc hmax hM h0
  have hb : c.base ≠ 0 := by
    have := hc.obj
    unfold Sma.Cfg.base
    omega
  refine ⟨wC c s9 d x y z k, ?_, size_trace .., iterate_trace ..⟩
  show (do step (oneCfg c d) (.new k); seqAll _) (PWorld.init s) = _
  rw [bind_returns (new_trace c s d k)]
  show (do step (oneCfg c d) (.pushFront k x); seqAll _) _ = _
  rw [bind_returns (first_trace d x k e1 e2 e3)]
  show (do step (oneCfg c d) (.pushBack k y); seqAll _) _ = _
  rw [bind_returns (second_trace d x y k)]
  show (do step (oneCfg c d) (.pushBack k z); seqAll _) _ = _
  rw [bind_returns (third_trace d x y z k hb e4 e5 e6 e7 e8 e9)]
  rfl

/-- The pool of the port is such a pool. -/
example : Sma.Legal (Sma.defaultSMA 4096) ∧ 16 ≤ (Sma.defaultSMA 4096).max ∧ 96 < (Sma.defaultSMA 4096).M ∧
    ∀ s0, ∃ s, Returns (Sma.construct (Sma.defaultSMA 4096)) s0 () s :=
  ⟨Sma.defaultSMA_legal, by decide, by decide, fun s0 => Sma.sma_construct Sma.defaultSMA_legal s0⟩

/-- **C111, for blocks that cannot touch.**  Let the number of bytes of a block be no multiple of eight.  In a pool
in any state, with any blocks `L` of other clients in it, a history of operations on any number of deques (one
that is legal for sequences and does without the uses that go wrong with any allocator, C31) runs to its end, or
it stops at an operation that requests memory when no free block has as many bytes as the operation needs
(`NoRoom`: pushes onto a full end, the first push, pops that shrink the table, copies).  In the first case every deque shows the sequence that the history
defines, blocks and tables lie in the pool without overlapping each other or `L`, the contents of `L` are as
before, and if no deque is left, `free_mem_size()` is what it was at the start. -/
theorem deque_pool_partial (P : Cfg α) (hc : Sma.Legal P.sma) (hM : P.sma.M + 16 < 2 ^ 31) (hA : 0 < P.A)
    (hsz : 0 < P.size) (hfit : P.size * P.A + 8 < 2 ^ 31) (hodd : P.size * P.A % 8 ≠ 0) {s : Sma.St}
    {L : List (Nat × Int)} (h0 : Sma.Reach P.sma ⟨s, L⟩) (ops : List (Op α)) {sw : SWorld α}
    (hs : specRun ops (fun _ => none) = some sw) (ha : AvoidsAll ops (fun _ => none)) :
    (∃ w, Returns (run P ops) (.init s) () w ∧ Shows P w sw ∧ Placed P s L w ∧
      ((∀ k, sw k = none) → ∀ n, Returns Sma.freeMemSize s n s → Returns Sma.freeMemSize w.pool n w.pool)) ∨
    OutOfRoom P (.init s) ops := by
  have hC : Ctx.Ok (⟨P, none, ⟨L, s.mem⟩⟩ : Ctx α) := ⟨hc, hA, hsz, hfit, hM, fun _ => hodd⟩
  rcases run_sim hC (Rel.init h0 fun f hf => by cases hf) Deq.WInv.init hs ha with ⟨w, h1, h2, h3⟩ | h | ⟨f, hf, _⟩
  · refine Or.inl ⟨w, h1, h3.shows hC h2, h3.placed hC rfl, fun hn n hfree => ?_⟩
    obtain ⟨L', g1, g2⟩ := h3.gone h2 hn
    exact free_reach hc h0 g2 g1 hfree
  · exact Or.inr (h.2 rfl)
  · cases hf

/-- **C111, when there is room.**  As in `deque_pool_partial`, let a history have run to its end.  An operation that is
legal next returns if it requests nothing, or if a free block has as many bytes as it needs.  For copies, `needs`
gives no number, and nothing is said. -/
theorem deque_pool_room_partial (P : Cfg α) (hc : Sma.Legal P.sma) (hM : P.sma.M + 16 < 2 ^ 31) (hA : 0 < P.A)
    (hsz : 0 < P.size) (hfit : P.size * P.A + 8 < 2 ^ 31) (hodd : P.size * P.A % 8 ≠ 0) {s : Sma.St}
    {L : List (Nat × Int)} (h0 : Sma.Reach P.sma ⟨s, L⟩) (ops : List (Op α)) {sw : SWorld α}
    (hs : specRun ops (fun _ => none) = some sw) (ha : AvoidsAll ops (fun _ => none)) {w : PWorld α}
    (hr : Returns (run P ops) (.init s) () w) {op : Op α} {sw' : SWorld α} (hs' : Deq.specStep op sw = some sw')
    (ha' : Deq.Avoids op sw) {n : Nat} (hn : needs P w op = some n)
    (hroom : n = 0 ∨ ∃ b, Sma.FreeBlock P.sma w.pool b ∧ n ≤ b.2) :
    ∃ w', Returns (step P op) w () w' ∧ Shows P w' sw' := by
  have hC : Ctx.Ok (⟨P, none, ⟨L, s.mem⟩⟩ : Ctx α) := ⟨hc, hA, hsz, hfit, hM, fun _ => hodd⟩
  rcases run_sim hC (Rel.init h0 fun f hf => by cases hf) Deq.WInv.init hs ha with ⟨w1, h1, h2, h3⟩ | h | ⟨f, hf, _⟩
  · obtain ⟨_, rfl⟩ := hr.det h1
    rcases step_any hC h3 h2 hs' ha' with ⟨w', g1, g2, g3⟩ | ⟨_, hno⟩ | ⟨f, hf, _⟩
    · exact ⟨w', g1, g2.shows hC g3⟩
    · obtain ⟨k1, k2⟩ := hno rfl n hn
      rcases hroom with rfl | hb
      · omega
      · exact absurd hb k2
    · cases hf
  · exact absurd (hr.symm.trans h.1) (by simp)
  · cases hf

/-- In a new pool of 1024 bytes there is room for the first push to a deque of 12-byte elements, five per block: it
needs 144 bytes. -/
example (d : α) (x : α) : ∃ s w, Sma.Reach Sma.smallSMA ⟨s, []⟩ ∧
    Returns (run ⟨Sma.smallSMA, 5, 12, d⟩ [.new 0]) (.init s) () w ∧
    needs ⟨Sma.smallSMA, 5, 12, d⟩ w (.pushBack 0 x) = some 144 ∧
    ∃ b, Sma.FreeBlock Sma.smallSMA w.pool b ∧ 144 ≤ b.2 := by
  obtain ⟨s, h⟩ := Sma.sma_construct Sma.smallSMA_legal ⟨fun _ => .raw 0, 0⟩
  refine ⟨s, _, .init h, rfl, ?_, _, ((Sma.sma_policy_new Sma.smallSMA_legal h).1 _).2 rfl, by decide⟩
  show some (pushRoom _ Deq.Deque.fresh _) = _
  unfold pushRoom
  rw [if_pos (show Deq.Deque.fresh.cap = 0 from rfl)]
  show some (Sma.up8 16 + 2 * Sma.up8 60) = some 144
  decide

/-- **C111, for histories during which no block was placed in front of another.**  Let the blocks have any size.  If
the history runs to its end and no block of elements was ever allocated directly in front of one that was in use
(`hit` records whether one was), then every deque shows the sequence that the history defines, and the rest is as in
`deque_pool_partial`. -/
theorem deque_pool_unhit_partial (P : Cfg α) (hc : Sma.Legal P.sma) (hM : P.sma.M + 16 < 2 ^ 31) (hA : 0 < P.A)
    (hsz : 0 < P.size) (hfit : P.size * P.A + 8 < 2 ^ 31) {s : Sma.St} {L : List (Nat × Int)}
    (h0 : Sma.Reach P.sma ⟨s, L⟩) (ops : List (Op α)) {sw : SWorld α}
    (hs : specRun ops (fun _ => none) = some sw) (ha : AvoidsAll ops (fun _ => none)) {w : PWorld α}
    (hr : Returns (run P ops) (.init s) () w) (hhit : w.hit = false) :
    Shows P w sw ∧ Placed P s L w ∧
      ((∀ k, sw k = none) → ∀ n, Returns Sma.freeMemSize s n s → Returns Sma.freeMemSize w.pool n w.pool) := by
  have hC : Ctx.Ok (⟨P, some w.blk, ⟨L, s.mem⟩⟩ : Ctx α) := ⟨hc, hA, hsz, hfit, hM, fun h => by cases h⟩
  have hl := mono_run ops _ _ _ hr
  rcases run_sim hC (Rel.init h0 fun f hf => by cases hf; exact hl.2.1 0 Nat.zero_lt_one) Deq.WInv.init hs ha with
    ⟨w', h1, h2, h3⟩ | h | ⟨f, hf, h⟩
  · obtain ⟨_, rfl⟩ := hr.det h1
    refine ⟨h3.shows hC h2, h3.placed hC rfl, fun hn n hfree => ?_⟩
    obtain ⟨L', g1, g2⟩ := h3.gone h2 hn
    exact free_reach hc h0 g2 g1 hfree
  · exact absurd (hr.symm.trans h.1) (by simp)
  · cases hf
    rcases h w hr with e | ⟨b, _, e⟩
    · rw [hhit] at e
      cases e
    · exact absurd rfl e

/-- Elements of 12 bytes, five per block, in a pool of which another client has taken a block of 100 bytes: a
history with two deques. -/
example : ∃ s a sw, Sma.Reach Sma.smallSMA ⟨s, [(a, 100)]⟩ ∧ Sma.Legal Sma.smallSMA ∧
    Sma.smallSMA.M + 16 < 2 ^ 31 ∧ 12 * 5 % 8 ≠ 0 ∧
    specRun [Op.new 0, .pushBack 0 1, .pushFront 0 2, .popFront 0, .new 1, .pushFront 1 4] (fun _ => none) = some sw ∧
    AvoidsAll [Op.new 0, .pushBack 0 1, .pushFront 0 2, .popFront 0, .new 1, .pushFront 1 4] (fun _ => none) ∧
    sw 0 = some ⟨[1], .used⟩ ∧ sw 1 = some ⟨[4], .used⟩ := by
  obtain ⟨⟨s, L⟩, h, ⟨a, e⟩, _⟩ := Sma.example_state
  cases e
  exact ⟨s, a, _, h, Sma.smallSMA_legal, by decide, by decide, rfl,
    Deq.avoidsAll_of_plain (by simp [Op.plain]) _ Deq.sound_nil, rfl, rfl⟩

/-- Blocks of 8 bytes, which can touch: after `push_front(x)` and `push_back(y)` none was placed in front of another. -/
example (c : Sma.Cfg) (hc : Sma.Legal c) (hmax : 16 ≤ c.max) (hM : 96 < c.M) (d x y : α) {s0 s : Sma.St}
    (h0 : Returns (Sma.construct c) s0 () s) :
    ∃ w sw, Sma.Reach c ⟨s, []⟩ ∧ Returns (run ⟨c, 1, 8, d⟩ [.new 0, .pushFront 0 x, .pushBack 0 y]) (.init s) () w ∧
      w.hit = false ∧ specRun [Op.new 0, .pushFront 0 x, .pushBack 0 y] (fun _ => none) = some sw ∧
      AvoidsAll [Op.new 0, .pushFront 0 x, .pushBack 0 y] (fun _ => none) ∧ sw 0 = some ⟨[x, y], .used⟩ := by
  obtain ⟨s1, s2, s3, _, _, _, _, _, _, e1, e2, e3, _⟩ := pool_trace hc hmax hM h0
  refine ⟨wB c s3 d x y 0, _, .init h0, ?_, rfl, rfl, Deq.avoidsAll_of_plain (by simp [Op.plain]) _ Deq.sound_nil, rfl⟩
  show (do step (oneCfg c d) (.new 0); seqAll _) (PWorld.init s) = _
  rw [bind_returns (new_trace c s d 0)]
  show (do step (oneCfg c d) (.pushFront 0 x); seqAll _) _ = _
  rw [bind_returns (first_trace d x 0 e1 e2 e3)]
  show (do step (oneCfg c d) (.pushBack 0 y); seqAll _) _ = _
  rw [bind_returns (second_trace d x y 0)]
  rfl

end Verif.DeqPool
