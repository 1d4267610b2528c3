import Verif.DequePool
import Verif.Props.SMAPolicy

/-!
# A history of a deque in the pool, step by step
-/

namespace Verif.DeqPool

open Prog
open Sma (FreeBlock LargeBlock up8 Block)

variable {c : Sma.Cfg}

/-- The blocks clients hold and the free blocks of a pool. -/
structure Knows (c : Sma.Cfg) (s : Sma.St) (own : List (Nat × Int)) (free : List Block) : Prop where
  reach : Sma.Reach c ⟨s, own⟩
  free : ∀ f, FreeBlock c s f ↔ f ∈ free

/-- A request served from the block `b`, which is the only free block or the smallest one. -/
theorem Knows.take (hc : Sma.Legal c) {s : Sma.St} {own : List (Nat × Int)} {b : Block} {rest : List Block}
    (h : Knows c s own (b :: rest)) {n : Int} (hn : 0 < n) (hm : n + 8 < 2 ^ 31) (hle : up8 n ≤ b.2)
    (hbest : rest = [] ∨ (b.2 ≤ c.max ∧ b.2 < c.M ∧ n ≤ c.max ∧ ∀ f ∈ rest, b.2 < f.2)) :
    ∃ s', Returns (Sma.portAlloc c n) s b.1 s' ∧
      Knows c s' ((b.1, n) :: own) ((if up8 n < b.2 then [(b.1 + up8 n, b.2 - up8 n)] else []) ++ rest) := by
  obtain ⟨a, s', h1, h2, _⟩ := Sma.sma_success_partial hc h.reach hn hm
  have hb : FreeBlock c s b := (h.free b).2 (by simp)
  have ha : a ≠ 0 := fun e => h2.1 e ⟨b, hb, hle⟩
  obtain ⟨d, d1, d2, d3, d4, d5⟩ := Sma.sma_policy hc h.reach hn hm h1 ha
  have hnb : ∀ f ∈ rest, f ≠ b := by
    rintro f hf rfl
    rcases hbest with rfl | ⟨_, _, _, h⟩
    · cases hf
    · exact absurd (h f hf) (Nat.lt_irrefl _)
  have hd : d = b := by
    rcases List.mem_cons.1 ((h.free d).1 d1) with e | hd
    · exact e
    · exfalso
      rcases hbest with rfl | ⟨g1, g2, g3, g4⟩
      · cases hd
      · have hs : ¬ LargeBlock c s b := by
          intro hl
          rcases (Sma.sma_large hc h.reach hb).2 hl with e | e <;> omega
        have := g4 d hd
        rcases d4 with ⟨_, _, e⟩ | ⟨_, _, e⟩
        · rcases e b hb hs hle with e | e <;> omega
        · exact hs (e g3 b hb hle)
  subst hd
  subst d2
  refine ⟨s', ?_, Sma.reach_alloc h.reach hn hm h1 ha, fun f => ?_⟩
  · unfold Returns Sma.portAlloc
    rw [bind_returns h1, if_neg ha]
    rfl
  · rw [d5, h.free, List.mem_append, List.mem_cons]
    constructor
    · rintro (⟨rfl | h, hne⟩ | ⟨h, rfl⟩)
      · exact absurd rfl hne
      · exact Or.inr h
      · rw [if_pos h]; simp
    · rintro (h | h)
      · by_cases hlt : up8 n < d.2
        · rw [if_pos hlt, List.mem_singleton] at h
          exact Or.inr ⟨hlt, h⟩
        · rw [if_neg hlt] at h
          cases h
      · exact Or.inl ⟨Or.inr h, hnb f h⟩

/-- Giving a block back. -/
theorem Knows.give (hc : Sma.Legal c) {s : Sma.St} {own : List (Nat × Int)} {free : List Block}
    (h : Knows c s own free) {a : Nat} {n : Int} (hl : (a, n) ∈ own) :
    ∃ s', Returns (Sma.portDealloc c a n) s () s' ∧ Knows c s' (own.erase (a, n)) ((a, up8 n) :: free) := by
  obtain ⟨s', h1, h2⟩ := Sma.sma_policy_free hc h.reach hl
  refine ⟨s', ?_, Sma.reach_free h.reach hl h1, fun f => ?_⟩
  · unfold Returns Sma.portDealloc
    rw [bind_returns h1]
    rfl
  · rw [h2, h.free, List.mem_cons, or_comm]

/-- What the pool does for the tables and blocks of a deque that grows once. -/
theorem pool_trace (hc : Sma.Legal c) (hmax : 16 ≤ c.max) (hM : 96 < c.M) {s0 s : Sma.St}
    (h0 : Returns (Sma.construct c) s0 () s) :
    ∃ s1 s2 s3 s4 s5 s6 s7 s8 s9,
      Sma.portAlloc c 16 s = some (.ok (c.base, s1)) ∧
      Sma.portAlloc c 8 s1 = some (.ok (c.base + 16, s2)) ∧
      Sma.portAlloc c 8 s2 = some (.ok (c.base + 24, s3)) ∧
      Sma.portAlloc c 16 s3 = some (.ok (c.base + 32, s4)) ∧
      Sma.portAlloc c 32 s4 = some (.ok (c.base + 48, s5)) ∧
      Sma.portDealloc c c.base 16 s5 = some (.ok ((), s6)) ∧
      Sma.portAlloc c 8 s6 = some (.ok (c.base, s7)) ∧
      Sma.portAlloc c 8 s7 = some (.ok (c.base + 8, s8)) ∧
      Sma.portDealloc c (c.base + 32) 16 s8 = some (.ok ((), s9)) := by
  have u8 : up8 8 = 8 := by decide
  have u16 : up8 16 = 16 := by decide
  have u32 : up8 32 = 32 := by decide
  have k0 : Knows c s [] [(c.base, c.M)] :=
    ⟨.init h0, fun f => by rw [(Sma.sma_policy_new hc h0).1, List.mem_singleton]⟩
  obtain ⟨s1, e1, k1⟩ := k0.take hc (n := 16) (by omega) (by omega) (by rw [u16]; show 16 ≤ c.M; omega) (.inl rfl)
  rw [u16, if_pos (by show 16 < c.M; omega)] at k1
  obtain ⟨s2, e2, k2⟩ := Knows.take hc k1 (n := 8) (by omega) (by omega) (by rw [u8]; show 8 ≤ c.M - 16; omega) (.inl rfl)
  rw [u8, if_pos (by show 8 < c.M - 16; omega)] at k2
  obtain ⟨s3, e3, k3⟩ := Knows.take hc k2 (n := 8) (by omega) (by omega) (by rw [u8]; show 8 ≤ c.M - 16 - 8; omega) (.inl rfl)
  rw [u8, if_pos (by show 8 < c.M - 16 - 8; omega)] at k3
  obtain ⟨s4, e4, k4⟩ := Knows.take hc k3 (n := 16) (by omega) (by omega) (by rw [u16]; show 16 ≤ c.M - 16 - 8 - 8; omega) (.inl rfl)
  rw [u16, if_pos (by show 16 < c.M - 16 - 8 - 8; omega)] at k4
  obtain ⟨s5, e5, k5⟩ := Knows.take hc k4 (n := 32) (by omega) (by omega) (by rw [u32]; show 32 ≤ c.M - 16 - 8 - 8 - 16; omega) (.inl rfl)
  rw [u32, if_pos (by show 32 < c.M - 16 - 8 - 8 - 16; omega)] at k5
  obtain ⟨s6, e6, k6⟩ := Knows.give hc k5 (a := c.base) (n := 16) (by simp)
  rw [u16] at k6
  have hrest : ∀ f ∈ [(c.base + 16 + 8 + 8 + 16 + 32, c.M - 16 - 8 - 8 - 16 - 32)] ++ ([] : List Block), 16 < f.2 := by
    intro f hf
    simp only [List.append_nil, List.mem_singleton] at hf
    subst hf
    show 16 < c.M - 16 - 8 - 8 - 16 - 32
    have := hc.M8
    omega
  obtain ⟨s7, e7, k7⟩ := Knows.take hc k6 (n := 8) (by omega) (by omega) (by rw [u8]; show 8 ≤ 16; omega)
    (.inr ⟨hmax, by show 16 < c.M; omega, by omega, hrest⟩)
  rw [u8, if_pos (by show 8 < 16; omega)] at k7
  obtain ⟨s8, e8, k8⟩ := Knows.take hc k7 (n := 8) (by omega) (by omega) (by rw [u8]; show 8 ≤ 16 - 8; omega)
    (.inr ⟨by show 16 - 8 ≤ c.max; omega, by show 16 - 8 < c.M; omega, by omega,
      fun f hf => by show 16 - 8 < f.2; have := hrest f hf; omega⟩)
  obtain ⟨s9, e9, _⟩ := Knows.give hc k8 (a := c.base + 16 + 8 + 8) (n := 16) (by
    have hne : (c.base + 16 + 8 + 8, (16 : Int)) ≠ (c.base, 16) := by
      intro h
      have := congrArg Prod.fst h
      dsimp only at this
      omega
    exact List.mem_cons_of_mem _ (List.mem_cons_of_mem _ ((List.mem_erase_of_ne hne).2 (by simp))))
  exact ⟨s1, s2, s3, s4, s5, s6, s7, s8, s9, e1, e2, e3, e4, e5, e6, e7, e8, e9⟩

/-! ## The deque -/

open Deq (CPtr Iter Deque Arg Op)

variable {α : Type}

/-- One element per block, eight bytes each. -/
def oneCfg (c : Sma.Cfg) (d : α) : Cfg α := ⟨c, 1, 8, d⟩

theorem bind_run {σ β γ : Type} (p : Prog σ β) (f : β → Prog σ γ) (s : σ) :
    (p >>= f) s = match p s with
      | none => none
      | some (.error e) => some (.error e)
      | some (.ok (a, s')) => f a s' := Eq.trans rfl rfl

theorem pure_run {σ β : Type} (a : β) (s : σ) : (pure a : Prog σ β) s = some (.ok (a, s)) := Eq.trans rfl rfl

theorem access_run (cfg : Deq.Cfg α) (b o : Nat) (w : Deq.World α) : Deq.access cfg (.at b o) w =
    match w.blk b with
    | none => some (.error .useAfterFree)
    | some f => if o < cfg.A then some (.ok ((b, o, f), w)) else some (.error .outOfBounds) := Eq.trans rfl rfl

theorem ite_again {β : Type} (p : Prop) [Decidable p] (a b c : β) :
    (if p then a else if p then b else c) = if p then a else c := by split <;> rfl

/-- A block with one element. -/
def blk1 (d x : α) : Nat → Deq.Slot α := fun y => if y = 0 then .elem x else .dflt d

/-- After `push_front(x)`. -/
def wA (c : Sma.Cfg) (s : Sma.St) (d x : α) (k : Nat) : PWorld α where
  deq :=
    { blk := fun b => if b = 1 then some (blk1 d x) else if b = 2 then some fun _ => .dflt d else none
      next := 3, lostElem := 0, lostDflt := 1
      obj := fun j => if j = k then
        some { sz := 1, cap := 2, tbl := [1, 2]
               beg := { idx := some 0, cur := some (.at 1 0), tbl := some k }
               fin := { idx := some 1, cur := some (.at 2 0), tbl := some k } } else none }
  pool := s
  blk := fun b => if b = 2 then c.base + 24 else if b = 1 then c.base + 16 else 0
  tab := fun j => if j = k then c.base else 0
  hit := false

/-- After `push_back(y)`. -/
def wB (c : Sma.Cfg) (s : Sma.St) (d x y : α) (k : Nat) : PWorld α where
  deq :=
    { blk := fun b => if b = 2 then some (blk1 d y) else if b = 1 then some (blk1 d x) else none
      next := 3, lostElem := 0, lostDflt := 2
      obj := fun j => if j = k then
        some { sz := 2, cap := 2, tbl := [1, 2]
               beg := { idx := some 0, cur := some (.at 1 0), tbl := some k }
               fin := { idx := some 1, cur := some (.at 2 1), tbl := some k } } else none }
  pool := s
  blk := fun b => if b = 2 then c.base + 24 else if b = 1 then c.base + 16 else 0
  tab := fun j => if j = k then c.base else 0
  hit := false

/-- After `push_back(z)`. -/
def wC (c : Sma.Cfg) (s : Sma.St) (d x y z : α) (k : Nat) : PWorld α where
  deq :=
    { blk := fun b => if b = 4 then some (blk1 d z) else if b = 3 then some fun _ => .dflt d else
        if b = 2 then some (blk1 d y) else if b = 1 then some (blk1 d x) else none
      next := 5, lostElem := 0, lostDflt := 3
      obj := fun j => if j = k then
        some { sz := 3, cap := 4, tbl := [3, 1, 2, 4]
               beg := { idx := some 1, cur := some (.at 1 0), tbl := some k }
               fin := { idx := some 3, cur := some (.at 4 1), tbl := some k } } else none }
  pool := s
  blk := fun b => if b = 4 then c.base + 8 else if b = 3 then c.base else
    if b = 2 then c.base + 24 else if b = 1 then c.base + 16 else 0
  tab := fun j => if j = k then c.base + 48 else 0
  hit := true

theorem oneCfg_bytes (c : Sma.Cfg) (d : α) : blockBytes (⟨c, 1, 8, d⟩ : Cfg α) = 8 := by
  show AllocSpec.byteCount (1 * 8) 1 = 8
  decide

theorem bytes_two : AllocSpec.byteCount 8 2 = 16 := by decide

theorem bytes_four : AllocSpec.byteCount 8 4 = 32 := by decide

theorem new_trace (c : Sma.Cfg) (s : Sma.St) (d : α) (k : Nat) :
    Returns (step (oneCfg c d) (.new k)) (PWorld.init s) ()
      ⟨⟨fun _ => none, 1, 0, 0, fun j => if j = k then some .fresh else none⟩, s, fun _ => 0, fun _ => 0, false⟩ := by
  simp [Returns, -bind_pure_comp, bind_run, step, on, Deq.putObj, setTab, Prog.modify, PWorld.init, Deq.World.init]

theorem first_trace {c : Sma.Cfg} {s s1 s2 s3 : Sma.St} (d x : α) (k : Nat)
    (e1 : Sma.portAlloc c 16 s = some (.ok (c.base, s1)))
    (e2 : Sma.portAlloc c 8 s1 = some (.ok (c.base + 16, s2)))
    (e3 : Sma.portAlloc c 8 s2 = some (.ok (c.base + 24, s3))) :
    Returns (step (oneCfg c d) (.pushFront k x))
      ⟨⟨fun _ => none, 1, 0, 0, fun j => if j = k then some .fresh else none⟩, s, fun _ => 0, fun _ => 0, false⟩ ()
      (wA c s3 d x k) := by
  simp [-bind_pure_comp, bind_run, pure_run, step, on, Deq.putObj, setTab, pushFront, onlyInit, Deq.getObj,
    Prog.modify, dassert, check, resizeTable, newTable, freeTable, inPool, Sma.getBlock, Prog.when, Prog.get,
    Deq.Deque.fresh, Deq.updObj, oneCfg, Cfg.deq, forRange, newBlock, startsAt, List.range_succ, Deq.newBlock, Deq.setTbl, Deq.tblAt,
    Deq.table, Deq.listAt, Deq.arrBegin, Deq.arrEnd, decr, cmp, Deq.Iter.getCur, Deq.Iter.getIdx,
    Deq.CPtr.decr, Deq.construct, Deq.Arg.get, access_run, Deq.World.put, Deq.Slot.isElem, Deq.Slot.isDflt,
    ite_again, Returns, oneCfg_bytes, bytes_two, e1, e2, e3, wA]
  funext b
  unfold blk1
  split
  · rfl
  · simp

theorem second_trace {c : Sma.Cfg} {s : Sma.St} (d x y : α) (k : Nat) :
    Returns (step (oneCfg c d) (.pushBack k y)) (wA c s d x k) () (wB c s d x y k) := by
  simp [-bind_pure_comp, bind_run, pure_run, step, on, Deq.putObj, Deq.getObj,
    Prog.modify, dassert, check, Prog.when, Deq.updObj, oneCfg, Cfg.deq, Deq.tblAt,
    Deq.table, Deq.listAt, Deq.arrBegin, Deq.arrEnd, cmp, addr, Deq.Iter.getCur, Deq.Iter.getIdx, Deq.CPtr.live,
    Deq.construct, Deq.Arg.get, access_run, Deq.World.put, Deq.Slot.isElem, Deq.Slot.isDflt,
    ite_again, Returns, wA, wB, pushBack, incr, Deq.CPtr.incr]
  funext b
  unfold blk1
  repeat' split
  all_goals first | rfl | omega

theorem third_trace {c : Sma.Cfg} {s3 s4 s5 s6 s7 s8 s9 : Sma.St} (d x y z : α) (k : Nat) (hb : c.base ≠ 0)
    (e4 : Sma.portAlloc c 16 s3 = some (.ok (c.base + 32, s4)))
    (e5 : Sma.portAlloc c 32 s4 = some (.ok (c.base + 48, s5)))
    (e6 : Sma.portDealloc c c.base 16 s5 = some (.ok ((), s6)))
    (e7 : Sma.portAlloc c 8 s6 = some (.ok (c.base, s7)))
    (e8 : Sma.portAlloc c 8 s7 = some (.ok (c.base + 8, s8)))
    (e9 : Sma.portDealloc c (c.base + 32) 16 s8 = some (.ok ((), s9))) :
    Returns (step (oneCfg c d) (.pushBack k z)) (wB c s3 d x y k) () (wC c s9 d x y z k) := by
  simp [-bind_pure_comp, bind_run, pure_run, step, on, Deq.putObj, setTab, Deq.getObj,
    Prog.modify, dassert, check, resizeTable, newTable, freeTable, inPool, Sma.getBlock, Prog.when, Prog.get,
    Deq.updObj, oneCfg, Cfg.deq, forRange, newBlock, startsAt, List.range_succ, Deq.newBlock, Deq.setTbl, Deq.tblAt,
    Deq.table, Deq.listAt, Deq.arrBegin, Deq.arrEnd, cmp, addr, Deq.Iter.getCur, Deq.Iter.getIdx, Deq.CPtr.live,
    Deq.construct, Deq.Arg.get, access_run, Deq.World.put, Deq.Slot.isElem, Deq.Slot.isDflt,
    ite_again, Returns, oneCfg_bytes, bytes_two, bytes_four, e4, e5, e6, e7, e8, e9, hb, wB, wC, pushBack, incr,
    Deq.CPtr.incr, resize, fillStep, releaseStep, resizeFix, Sma.giveBlock]
  rfl

theorem size_trace {c : Sma.Cfg} {s : Sma.St} (d x y z : α) (k : Nat) :
    Returns (on (Deq.size k)) (wC c s d x y z k) 3 (wC c s d x y z k) := by
  simp [-bind_pure_comp, Returns, bind_run, pure_run, on, Deq.size, Deq.getObj, wC]

theorem iterate_trace {c : Sma.Cfg} {s : Sma.St} (d x y z : α) (k : Nat) :
    Returns (iterate (oneCfg c d) k) (wC c s d x y z k) [] (wC c s d x y z k) := by
  have h : iterateFrom (oneCfg c d) { idx := some 1, cur := some (.at 1 0), tbl := some k }
      { idx := some 3, cur := some (.at 4 1), tbl := some k } (wC c s d x y z k) =
        some (.ok ([], wC c s d x y z k)) := by
    rw [iterateFrom]
    simp [-bind_pure_comp, bind_run, pure_run, on, wC, Deq.Iter.getCur, cmp, addr, Deq.CPtr.live, oneCfg, Cfg.deq]
  revert h
  unfold iterate
  simp [-bind_pure_comp, Returns, bind_run, pure_run, on, Deq.getObj, wC, Deq.copyIter, Deq.Iter.getCur,
    Deq.Iter.getIdx]

end Verif.DeqPool
