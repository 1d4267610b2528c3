import Verif.DequePoolTrace
import Verif.AdapterPool

/-!
# A history of `dstruct::Queue<int>` in the static pool, step by step
-/

namespace Verif.DeqPool

open Prog
open Sma (FreeBlock LargeBlock up8 Block)

variable {c : Sma.Cfg}

/-- A request served from the block `b`, which is the one that the policy of the pool selects among the free blocks. -/
theorem Knows.pick (hc : Sma.Legal c) {s : Sma.St} {own : List (Nat × Int)} {free rest : List Block}
    (h : Knows c s own free) (b : Block) {n : Int} (hn : 0 < n) (hm : n + 8 < 2 ^ 31) (hle : up8 n ≤ b.2)
    (hmem : ∀ f, f ∈ free ↔ f = b ∨ f ∈ rest) (hnot : b ∉ rest)
    (hbest : ∀ f ∈ rest, up8 n ≤ f.2 →
      (b.2 ≤ c.max ∧ b.2 < c.M ∧ n ≤ c.max ∧ (c.max < f.2 ∨ b.2 < f.2 ∨ (b.2 = f.2 ∧ b.1 < f.1))) ∨
      (c.max < f.2 ∧ c.max < b.2 ∧ b.1 < f.1)) :
    ∃ s', Returns (Sma.portAlloc c n) s b.1 s' ∧
      Knows c s' ((b.1, n) :: own) ((if up8 n < b.2 then [(b.1 + up8 n, b.2 - up8 n)] else []) ++ rest) := by
  obtain ⟨a, s', h1, h2, _⟩ := Sma.sma_success_partial hc h.reach hn hm
  have hb : FreeBlock c s b := (h.free b).2 ((hmem b).2 (.inl rfl))
  have ha : a ≠ 0 := fun e => h2.1 e ⟨b, hb, hle⟩
  obtain ⟨d, d1, d2, d3, d4, d5⟩ := Sma.sma_policy hc h.reach hn hm h1 ha
  have hd : d = b := by
    rcases (hmem d).1 ((h.free d).1 d1) with e | hd
    · exact e
    · exfalso
      have ld := Sma.sma_large hc h.reach d1
      have lb := Sma.sma_large hc h.reach hb
      rcases hbest d hd d3 with ⟨g1, g2, g3, g4⟩ | ⟨g1, g2, g3⟩
      · have hs : ¬ LargeBlock c s b := by
          intro hl
          rcases lb.2 hl with e | e <;> omega
        rcases d4 with ⟨k1, _, e⟩ | ⟨_, _, e⟩
        · have := ld.1 k1
          rcases e b hb hs hle with e | e <;> omega
        · exact hs (e g3 b hb hle)
      · have hs : LargeBlock c s b := by
          refine Classical.byContradiction fun hl => ?_
          have := lb.1 hl
          omega
        rcases d4 with ⟨k1, _, _⟩ | ⟨_, e, _⟩
        · have := ld.1 k1
          omega
        · have := e b hs hle
          omega
  subst hd
  subst d2
  refine ⟨s', ?_, Sma.reach_alloc h.reach hn hm h1 ha, fun f => ?_⟩
  · unfold Returns Sma.portAlloc
    rw [bind_returns h1, if_neg ha]
    rfl
  · rw [d5, h.free, List.mem_append, hmem]
    constructor
    · rintro (⟨rfl | h, hne⟩ | ⟨h, rfl⟩)
      · exact absurd rfl hne
      · exact Or.inr h
      · rw [if_pos h]; simp
    · rintro (h | h)
      · by_cases hlt : up8 n < d.2
        · rw [if_pos hlt, List.mem_singleton] at h
          exact Or.inr ⟨hlt, h⟩
        · rw [if_neg hlt] at h
          cases h
      · exact Or.inl ⟨Or.inr h, fun e => hnot (e ▸ h)⟩

/-- The same with the blocks given in any form. -/
theorem Knows.same {s : Sma.St} {own own' : List (Nat × Int)} {free free' : List Block} (h : Knows c s own free)
    (h1 : own = own') (h2 : ∀ f, f ∈ free ↔ f ∈ free') : Knows c s own' free' :=
  ⟨h1 ▸ h.reach, fun f => (h.free f).trans (h2 f)⟩

/-- The pool after a client has requested blocks of 16, 128, 432 and 128 bytes and given all of them back: nothing is
in use. -/
theorem fragments (hc : Sma.Legal c) (hM : 832 < c.M) {s0 s : Sma.St} (h0 : Returns (Sma.construct c) s0 () s) :
    ∃ s', Knows c s' [] [(c.base, 16), (c.base + 16, 128), (c.base + 144, 432), (c.base + 576, 128),
      (c.base + 704, c.M - 704)] := by
  have u16 : up8 16 = 16 := by decide
  have u128 : up8 128 = 128 := by decide
  have u432 : up8 432 = 432 := by decide
  have k0 : Knows c s [] [(c.base, c.M)] :=
    ⟨.init h0, fun f => by rw [(Sma.sma_policy_new hc h0).1, List.mem_singleton]⟩
  obtain ⟨s1, _, k1⟩ := k0.take hc (n := 16) (by omega) (by omega) (by rw [u16]; show 16 ≤ c.M; omega) (.inl rfl)
  rw [u16, if_pos (by show 16 < c.M; omega)] at k1
  obtain ⟨s2, _, k2⟩ := Knows.take hc k1 (n := 128) (by omega) (by omega) (by rw [u128]; show 128 ≤ c.M - 16; omega) (.inl rfl)
  rw [u128, if_pos (by show 128 < c.M - 16; omega)] at k2
  obtain ⟨s3, _, k3⟩ := Knows.take hc k2 (n := 432) (by omega) (by omega) (by rw [u432]; show 432 ≤ c.M - 16 - 128; omega) (.inl rfl)
  rw [u432, if_pos (by show 432 < c.M - 16 - 128; omega)] at k3
  obtain ⟨s4, _, k4⟩ := Knows.take hc k3 (n := 128) (by omega) (by omega) (by rw [u128]; show 128 ≤ c.M - 16 - 128 - 432; omega) (.inl rfl)
  rw [u128, if_pos (by show 128 < c.M - 16 - 128 - 432; omega)] at k4
  obtain ⟨s5, _, k5⟩ := Knows.give hc k4 (a := c.base + 16 + 128 + 432) (n := 128) (by simp)
  obtain ⟨s6, _, k6⟩ := Knows.give hc k5 (a := c.base + 16 + 128) (n := 432) (by simp)
  obtain ⟨s7, _, k7⟩ := Knows.give hc k6 (a := c.base + 16) (n := 128) (by simp)
  obtain ⟨s8, _, k8⟩ := Knows.give hc k7 (a := c.base) (n := 16) (by simp)
  refine ⟨s8, k8.same (by simp) fun f => ?_⟩
  rw [u16, u128, u432]
  simp [Nat.add_assoc, Nat.sub_sub]

/-- What the pool in that state does for the tables and blocks of a queue that grows once. -/
theorem pool_trace32 (hc : Sma.Legal c) (hmax : c.max = 128) (hM : 832 < c.M) {s : Sma.St}
    (k0 : Knows c s [] [(c.base, 16), (c.base + 16, 128), (c.base + 144, 432), (c.base + 576, 128),
      (c.base + 704, c.M - 704)]) :
    ∃ s1 s2 s3 s4 s5 s6 s7 s8 s9 s10 s11,
      Sma.portAlloc c 16 s = some (.ok (c.base, s1)) ∧
      Sma.portAlloc c 128 s1 = some (.ok (c.base + 16, s2)) ∧
      Sma.portAlloc c 128 s2 = some (.ok (c.base + 576, s3)) ∧
      Sma.portAlloc c 16 s3 = some (.ok (c.base + 144, s4)) ∧
      Sma.portAlloc c 32 s4 = some (.ok (c.base + 160, s5)) ∧
      Sma.portDealloc c c.base 16 s5 = some (.ok ((), s6)) ∧
      Sma.portAlloc c 128 s6 = some (.ok (c.base + 192, s7)) ∧
      Sma.portAlloc c 128 s7 = some (.ok (c.base + 320, s8)) ∧
      Sma.portAlloc c 128 s8 = some (.ok (c.base + 448, s9)) ∧
      Sma.portDealloc c (c.base + 16) 128 s9 = some (.ok ((), s10)) ∧
      Sma.portDealloc c (c.base + 144) 16 s10 = some (.ok ((), s11)) ∧
      Knows c s11 [(c.base + 448, 128), (c.base + 320, 128), (c.base + 192, 128), (c.base + 160, 32), (c.base + 576, 128)]
        [(c.base, 16), (c.base + 16, 128), (c.base + 144, 16), (c.base + 704, c.M - 704)] := by
  have u16 : up8 16 = 16 := by decide
  have u32 : up8 32 = 32 := by decide
  have u128 : up8 128 = 128 := by decide
  have m8 := hc.M8
  obtain ⟨s1, e1, k1⟩ := k0.pick hc (c.base, 16) (n := 16)
    (rest := [(c.base + 16, 128), (c.base + 144, 432), (c.base + 576, 128), (c.base + 704, c.M - 704)])
    (by omega) (by omega) (by rw [u16]; exact Nat.le_refl _) (fun f => by simp) (by simp) (by simp [u16, hmax]; omega)
  simp only [u16, Nat.lt_irrefl, if_false, List.nil_append] at k1
  obtain ⟨s2, e2, k2⟩ := k1.pick hc (c.base + 16, 128) (n := 128)
    (rest := [(c.base + 144, 432), (c.base + 576, 128), (c.base + 704, c.M - 704)])
    (by omega) (by omega) (by rw [u128]; exact Nat.le_refl _) (fun f => by simp) (by simp) (by simp [u128, hmax]; omega)
  simp only [u128, Nat.lt_irrefl, if_false, List.nil_append] at k2
  obtain ⟨s3, e3, k3⟩ := k2.pick hc (c.base + 576, 128) (n := 128)
    (rest := [(c.base + 144, 432), (c.base + 704, c.M - 704)])
    (by omega) (by omega) (by rw [u128]; exact Nat.le_refl _) (fun f => by simp [or_left_comm]) (by simp) (by simp [u128, hmax]; omega)
  simp only [u128, Nat.lt_irrefl, if_false, List.nil_append] at k3
  obtain ⟨s4, e4, k4⟩ := k3.pick hc (c.base + 144, 432) (n := 16)
    (rest := [(c.base + 704, c.M - 704)])
    (by omega) (by omega) (by rw [u16]; dsimp only; omega) (fun f => by simp) (by simp) (by simp [u16, hmax]; omega)
  simp only [u16, Nat.reduceLT, if_true, List.cons_append, List.nil_append, Nat.add_assoc, Nat.reduceAdd, Nat.reduceSub] at k4
  obtain ⟨s5, e5, k5⟩ := k4.pick hc (c.base + 160, 416) (n := 32)
    (rest := [(c.base + 704, c.M - 704)])
    (by omega) (by omega) (by rw [u32]; dsimp only; omega) (fun f => by simp) (by simp) (by simp [u32, hmax]; omega)
  simp only [u32, Nat.reduceLT, if_true, List.cons_append, List.nil_append, Nat.add_assoc, Nat.reduceAdd, Nat.reduceSub] at k5
  obtain ⟨s6, e6, k6⟩ := Knows.give hc k5 (a := c.base) (n := 16) (by simp)
  obtain ⟨s7, e7, k7⟩ := k6.pick hc (c.base + 192, 384) (n := 128)
    (rest := [(c.base, 16), (c.base + 704, c.M - 704)])
    (by omega) (by omega) (by rw [u128]; dsimp only; omega) (fun f => by simp [u16, or_left_comm]) (by simp) (by simp [u128, hmax]; omega)
  simp only [u128, Nat.reduceLT, if_true, List.cons_append, List.nil_append, Nat.add_assoc, Nat.reduceAdd, Nat.reduceSub] at k7
  obtain ⟨s8, e8, k8⟩ := k7.pick hc (c.base + 320, 256) (n := 128)
    (rest := [(c.base, 16), (c.base + 704, c.M - 704)])
    (by omega) (by omega) (by rw [u128]; dsimp only; omega) (fun f => by simp) (by simp) (by simp [u128, hmax]; omega)
  simp only [u128, Nat.reduceLT, if_true, List.cons_append, List.nil_append, Nat.add_assoc, Nat.reduceAdd, Nat.reduceSub] at k8
  obtain ⟨s9, e9, k9⟩ := k8.pick hc (c.base + 448, 128) (n := 128)
    (rest := [(c.base, 16), (c.base + 704, c.M - 704)])
    (by omega) (by omega) (by rw [u128]; exact Nat.le_refl _) (fun f => by simp) (by simp) (by simp [u128, hmax]; omega)
  simp only [u128, Nat.lt_irrefl, if_false, List.nil_append] at k9
  obtain ⟨s10, e10, k10⟩ := Knows.give hc k9 (a := c.base + 16) (n := 128) (by simp)
  obtain ⟨s11, e11, k11⟩ := Knows.give hc k10 (a := c.base + 144) (n := 16) (by simp)
  refine ⟨s1, s2, s3, s4, s5, s6, s7, s8, s9, s10, s11, e1, e2, e3, e4, e5, e6, e7, e8, e9, e10, e11, k11.same ?_ ?_⟩
  · simp [List.erase_cons]
  · simp [u16, u128, or_left_comm]

/-- What it does when the queue grows once more. -/
theorem pool_trace32_next (hc : Sma.Legal c) (hmax : c.max = 128) (hM : 1344 < c.M) {s : Sma.St}
    (k0 : Knows c s
      [(c.base + 448, 128), (c.base + 320, 128), (c.base + 192, 128), (c.base + 160, 32), (c.base + 576, 128)]
      [(c.base, 16), (c.base + 16, 128), (c.base + 144, 16), (c.base + 704, c.M - 704)]) :
    ∃ s1 s2 s3 s4 s5 s6 s7 s8 s9 s10,
      Sma.portAlloc c 32 s = some (.ok (c.base + 16, s1)) ∧
      Sma.portAlloc c 64 s1 = some (.ok (c.base + 48, s2)) ∧
      Sma.portDealloc c (c.base + 160) 32 s2 = some (.ok ((), s3)) ∧
      Sma.portAlloc c 128 s3 = some (.ok (c.base + 704, s4)) ∧
      Sma.portAlloc c 128 s4 = some (.ok (c.base + 832, s5)) ∧
      Sma.portAlloc c 128 s5 = some (.ok (c.base + 960, s6)) ∧
      Sma.portAlloc c 128 s6 = some (.ok (c.base + 1088, s7)) ∧
      Sma.portAlloc c 128 s7 = some (.ok (c.base + 1216, s8)) ∧
      Sma.portDealloc c (c.base + 192) 128 s8 = some (.ok ((), s9)) ∧
      Sma.portDealloc c (c.base + 16) 32 s9 = some (.ok ((), s10)) := by
  have u32 : up8 32 = 32 := by decide
  have u64 : up8 64 = 64 := by decide
  have u128 : up8 128 = 128 := by decide
  have m8 := hc.M8
  obtain ⟨s1, e1, k1⟩ := k0.pick hc (c.base + 16, 128) (n := 32)
    (rest := [(c.base, 16), (c.base + 144, 16), (c.base + 704, c.M - 704)])
    (by omega) (by omega) (by rw [u32]; dsimp only; omega) (fun f => by simp [or_left_comm]) (by simp)
    (by simp [u32, hmax]; omega)
  simp only [u32, Nat.reduceLT, if_true, List.cons_append, List.nil_append, Nat.add_assoc, Nat.reduceAdd, Nat.reduceSub] at k1
  obtain ⟨s2, e2, k2⟩ := k1.pick hc (c.base + 48, 96) (n := 64)
    (rest := [(c.base, 16), (c.base + 144, 16), (c.base + 704, c.M - 704)])
    (by omega) (by omega) (by rw [u64]; dsimp only; omega) (fun f => by simp) (by simp) (by simp [u64, hmax]; omega)
  simp only [u64, Nat.reduceLT, if_true, List.cons_append, List.nil_append, Nat.add_assoc, Nat.reduceAdd, Nat.reduceSub] at k2
  obtain ⟨s3, e3, k3⟩ := Knows.give hc k2 (a := c.base + 160) (n := 32) (by simp)
  obtain ⟨s4, e4, k4⟩ := k3.pick hc (c.base + 704, c.M - 704) (n := 128)
    (rest := [(c.base + 160, 32), (c.base + 112, 32), (c.base, 16), (c.base + 144, 16)])
    (by omega) (by omega) (by rw [u128]; dsimp only; omega) (fun f => by simp [u32, or_left_comm, or_comm, or_assoc]) (by simp)
    (by simp [u128])
  simp only [u128, if_pos (show 128 < c.M - 704 by omega), List.cons_append, List.nil_append, Nat.add_assoc,
    Nat.reduceAdd, Nat.sub_sub] at k4
  obtain ⟨s5, e5, k5⟩ := k4.pick hc (c.base + 832, c.M - 832) (n := 128)
    (rest := [(c.base + 160, 32), (c.base + 112, 32), (c.base, 16), (c.base + 144, 16)])
    (by omega) (by omega) (by rw [u128]; dsimp only; omega) (fun f => by simp) (by simp) (by simp [u128])
  simp only [u128, if_pos (show 128 < c.M - 832 by omega), List.cons_append, List.nil_append, Nat.add_assoc,
    Nat.reduceAdd, Nat.sub_sub] at k5
  obtain ⟨s6, e6, k6⟩ := k5.pick hc (c.base + 960, c.M - 960) (n := 128)
    (rest := [(c.base + 160, 32), (c.base + 112, 32), (c.base, 16), (c.base + 144, 16)])
    (by omega) (by omega) (by rw [u128]; dsimp only; omega) (fun f => by simp) (by simp) (by simp [u128])
  simp only [u128, if_pos (show 128 < c.M - 960 by omega), List.cons_append, List.nil_append, Nat.add_assoc,
    Nat.reduceAdd, Nat.sub_sub] at k6
  obtain ⟨s7, e7, k7⟩ := k6.pick hc (c.base + 1088, c.M - 1088) (n := 128)
    (rest := [(c.base + 160, 32), (c.base + 112, 32), (c.base, 16), (c.base + 144, 16)])
    (by omega) (by omega) (by rw [u128]; dsimp only; omega) (fun f => by simp) (by simp) (by simp [u128])
  simp only [u128, if_pos (show 128 < c.M - 1088 by omega), List.cons_append, List.nil_append, Nat.add_assoc,
    Nat.reduceAdd, Nat.sub_sub] at k7
  obtain ⟨s8, e8, k8⟩ := k7.pick hc (c.base + 1216, c.M - 1216) (n := 128)
    (rest := [(c.base + 160, 32), (c.base + 112, 32), (c.base, 16), (c.base + 144, 16)])
    (by omega) (by omega) (by rw [u128]; dsimp only; omega) (fun f => by simp) (by simp) (by simp [u128])
  obtain ⟨s9, e9, k9⟩ := Knows.give hc k8 (a := c.base + 192) (n := 128) (by simp [List.erase_cons])
  obtain ⟨s10, e10, _⟩ := Knows.give hc k9 (a := c.base + 16) (n := 32) (by simp [List.erase_cons])
  exact ⟨s1, s2, s3, s4, s5, s6, s7, s8, s9, s10, e1, e2, e3, e4, e5, e6, e7, e8, e9, e10⟩

/-! ## The queue -/

open Deq (CPtr Iter Deque Arg Op)

variable {α : Type}

/-- The deque inside `dstruct::Queue<int>` (dstruct.hpp:77): 32 elements per block, four bytes each. -/
def cfg32 (c : Sma.Cfg) (d : α) : Cfg α := ⟨c, 32, 4, d⟩

theorem cfg32_bytes (c : Sma.Cfg) (d : α) : blockBytes (⟨c, 32, 4, d⟩ : Cfg α) = 128 := by
  show AllocSpec.byteCount (32 * 4) 1 = 128
  decide

/-- The deque `k` begins at the start of block 2; `t` is its table and its end is at offset `o` of block `b`.  `ad`
tells the addresses. -/
structure G (k : Nat) (t : List Nat) (j i : Int) (b o sz cap tab n : Nat) (ad : Nat → Nat) (s : Sma.St)
    (w : PWorld α) : Prop where
  obj : w.deq.obj k = some { sz := sz, cap := cap, tbl := t
                             beg := { idx := some j, cur := some (.at 2 0), tbl := some k }
                             fin := { idx := some i, cur := some (.at b o), tbl := some k } }
  live : ∀ x ∈ t, ∃ f, w.deq.blk x = some f
  next : w.deq.next = n
  adr : ∀ x ∈ t, w.blk x = ad x
  tab : w.tab k = tab
  pool : w.pool = s

/-- The addresses before the deque grows. -/
def ad1 (c : Sma.Cfg) (x : Nat) : Nat := if x = 1 then c.base + 16 else c.base + 576

/-- The addresses afterwards. -/
def ad2 (c : Sma.Cfg) (x : Nat) : Nat :=
  if x = 3 then c.base + 192 else if x = 4 then c.base + 320 else if x = 5 then c.base + 448 else c.base + 576

theorem new32 (c : Sma.Cfg) (s : Sma.St) (d : α) (k : Nat) :
    Returns (step (cfg32 c d) (.new k)) (PWorld.init s) ()
      ⟨⟨fun _ => none, 1, 0, 0, fun j => if j = k then some .fresh else none⟩, s, fun _ => 0, fun _ => 0, false⟩ := by
  simp [Returns, -bind_pure_comp, bind_run, step, on, Deq.putObj, setTab, Prog.modify, PWorld.init, Deq.World.init]

theorem first32 {s s1 s2 s3 : Sma.St} (d x : α) (k : Nat)
    (e1 : Sma.portAlloc c 16 s = some (.ok (c.base, s1)))
    (e2 : Sma.portAlloc c 128 s1 = some (.ok (c.base + 16, s2)))
    (e3 : Sma.portAlloc c 128 s2 = some (.ok (c.base + 576, s3))) :
    wp (step (cfg32 c d) (.pushBack k x)) (fun _ w => G k [1, 2] 1 1 2 1 1 64 c.base 3 (ad1 c) s3 w)
      ⟨⟨fun _ => none, 1, 0, 0, fun j => if j = k then some .fresh else none⟩, s, fun _ => 0, fun _ => 0, false⟩ := by
  simp [-bind_pure_comp, wp, bind_run, pure_run, step, on, Deq.putObj, setTab, pushBack, onlyInit, Deq.getObj,
    Prog.modify, dassert, check, resizeTable, newTable, freeTable, inPool, Sma.getBlock, Prog.when, Prog.get,
    Deq.Deque.fresh, Deq.updObj, cfg32, Cfg.deq, forRange, newBlock, startsAt, List.range_succ, Deq.newBlock, Deq.setTbl, Deq.tblAt,
    Deq.table, Deq.listAt, Deq.arrBegin, Deq.arrEnd, incr, cmp, addr, Deq.CPtr.live, Deq.Iter.getCur, Deq.Iter.getIdx,
    Deq.CPtr.incr, Deq.construct, Deq.Arg.get, access_run, Deq.World.put, Deq.Slot.isElem, Deq.Slot.isDflt,
    ite_again, cfg32_bytes, bytes_two, e1, e2, e3]
  constructor <;> simp [ad1]

/-- A push into the block 2. -/
theorem push2 {s : Sma.St} (d x : α) (k o sz : Nat) (ho : o + 1 < 32) {w : PWorld α}
    (h : G k [1, 2] 1 1 2 o sz 64 c.base 3 (ad1 c) s w) :
    wp (step (cfg32 c d) (.pushBack k x)) (fun _ w => G k [1, 2] 1 1 2 (o + 1) (sz + 1) 64 c.base 3 (ad1 c) s w) w := by
  obtain ⟨f, hf⟩ := h.live 2 (by simp)
  have h1 := h.obj
  have h2 := h.live
  have h3 := h.next
  have h4 := h.adr
  have h5 := h.tab
  have h6 := h.pool
  have a2 : w.blk 2 = c.base + 576 := h4 2 (by simp)
  have n1 : o ≠ 32 := by omega
  have n2 : 4 * o ≠ 128 := by omega
  have n3 : o ≠ 31 := by omega
  have n4 : 4 * (o + 1) ≠ 128 := by omega
  have n5 : o ≤ 32 := by omega
  have n6 : o < 32 := by omega
  have n7 : o + 1 ≤ 32 := by omega
  simp [-bind_pure_comp, wp, bind_run, pure_run, step, on, Deq.getObj, h1, hf, a2, n1, n2, n3, n4, n5, n6, n7,
      Prog.modify, dassert, check, Prog.when, Deq.updObj, cfg32, Cfg.deq, Deq.tblAt,
      Deq.table, Deq.listAt, Deq.arrBegin, Deq.arrEnd, cmp, addr, Deq.Iter.getCur, Deq.Iter.getIdx, Deq.CPtr.live,
      Deq.construct, Deq.Arg.get, access_run, Deq.World.put, pushBack, incr, Deq.CPtr.incr, Deq.putObj]
  constructor <;> simp_all

/-- The last push into the block 2. -/
theorem push2_last {s : Sma.St} (d x : α) (k o sz : Nat) (ho : o = 31) {w : PWorld α}
    (h : G k [1, 2] 1 1 2 o sz 64 c.base 3 (ad1 c) s w) :
    wp (step (cfg32 c d) (.pushBack k x)) (fun _ w => G k [1, 2] 1 1 2 32 (sz + 1) 64 c.base 3 (ad1 c) s w) w := by
  obtain ⟨f, hf⟩ := h.live 2 (by simp)
  have h1 := h.obj
  have h2 := h.live
  have h3 := h.next
  have h4 := h.adr
  have h5 := h.tab
  have h6 := h.pool
  have a2 : w.blk 2 = c.base + 576 := h4 2 (by simp)
  subst ho
  simp [-bind_pure_comp, wp, bind_run, pure_run, step, on, Deq.getObj, h1, hf, a2,
      Prog.modify, dassert, check, Prog.when, Deq.updObj, cfg32, Cfg.deq, Deq.tblAt,
      Deq.table, Deq.listAt, Deq.arrBegin, Deq.arrEnd, cmp, addr, Deq.Iter.getCur, Deq.Iter.getIdx, Deq.CPtr.live,
      Deq.construct, Deq.Arg.get, access_run, Deq.World.put, pushBack, incr, Deq.CPtr.incr, Deq.putObj]
  constructor <;> simp_all

/-- A push into the block 4. -/
theorem push4 {s : Sma.St} (d x : α) (k o sz : Nat) (ho : o + 1 < 32) {w : PWorld α}
    (h : G k [3, 2, 4, 5] 1 2 4 o sz 128 (c.base + 160) 6 (ad2 c) s w) :
    wp (step (cfg32 c d) (.pushBack k x)) (fun _ w => G k [3, 2, 4, 5] 1 2 4 (o + 1) (sz + 1) 128 (c.base + 160) 6 (ad2 c) s w) w := by
  obtain ⟨f, hf⟩ := h.live 4 (by simp)
  obtain ⟨g, hg⟩ := h.live 5 (by simp)
  have h1 := h.obj
  have h2 := h.live
  have h3 := h.next
  have h4 := h.adr
  have h5 := h.tab
  have h6 := h.pool
  have a4 : w.blk 4 = c.base + 320 := h4 4 (by simp)
  have a5 : w.blk 5 = c.base + 448 := h4 5 (by simp)
  have n1 : o ≠ 32 := by omega
  have n3 : o ≠ 31 := by omega
  have n4 : 4 * (o + 1) ≠ 128 := by omega
  have n5 : o ≤ 32 := by omega
  have n6 : o < 32 := by omega
  have n7 : o + 1 ≤ 32 := by omega
  have n8 : c.base + 320 + 4 * o ≠ c.base + 448 + 128 := by omega
  simp [-bind_pure_comp, wp, bind_run, pure_run, step, on, Deq.getObj, h1, hf, hg, a4, a5, n1, n3, n4, n5, n6, n7, n8,
      Prog.modify, dassert, check, Prog.when, Deq.updObj, cfg32, Cfg.deq, Deq.tblAt,
      Deq.table, Deq.listAt, Deq.arrBegin, Deq.arrEnd, cmp, addr, Deq.Iter.getCur, Deq.Iter.getIdx, Deq.CPtr.live,
      Deq.construct, Deq.Arg.get, access_run, Deq.World.put, pushBack, incr, Deq.CPtr.incr, Deq.putObj]
  constructor <;> simp_all

/-- The last push into the block 4: the end moves on to the block 5. -/
theorem push4_last {s : Sma.St} (d x : α) (k o sz : Nat) (ho : o = 31) {w : PWorld α}
    (h : G k [3, 2, 4, 5] 1 2 4 o sz 128 (c.base + 160) 6 (ad2 c) s w) :
    wp (step (cfg32 c d) (.pushBack k x)) (fun _ w => G k [3, 2, 4, 5] 1 3 5 0 (sz + 1) 128 (c.base + 160) 6 (ad2 c) s w) w := by
  obtain ⟨f, hf⟩ := h.live 4 (by simp)
  obtain ⟨g, hg⟩ := h.live 5 (by simp)
  have h1 := h.obj
  have h2 := h.live
  have h3 := h.next
  have h4 := h.adr
  have h5 := h.tab
  have h6 := h.pool
  have a4 : w.blk 4 = c.base + 320 := h4 4 (by simp)
  have a5 : w.blk 5 = c.base + 448 := h4 5 (by simp)
  subst ho
  simp [-bind_pure_comp, wp, bind_run, pure_run, step, on, Deq.getObj, h1, hf, hg, a4, a5,
      Prog.modify, dassert, check, Prog.when, Deq.updObj, cfg32, Cfg.deq, Deq.tblAt,
      Deq.table, Deq.listAt, Deq.arrBegin, Deq.arrEnd, cmp, addr, Deq.Iter.getCur, Deq.Iter.getIdx, Deq.CPtr.live,
      Deq.construct, Deq.Arg.get, access_run, Deq.World.put, pushBack, incr, Deq.CPtr.incr, Deq.putObj]
  constructor <;> simp_all

/-- A push into the block 5. -/
theorem push5 {s : Sma.St} (d x : α) (k o sz : Nat) (ho : o + 1 < 32) {w : PWorld α}
    (h : G k [3, 2, 4, 5] 1 3 5 o sz 128 (c.base + 160) 6 (ad2 c) s w) :
    wp (step (cfg32 c d) (.pushBack k x)) (fun _ w => G k [3, 2, 4, 5] 1 3 5 (o + 1) (sz + 1) 128 (c.base + 160) 6 (ad2 c) s w) w := by
  obtain ⟨f, hf⟩ := h.live 5 (by simp)
  have h1 := h.obj
  have h2 := h.live
  have h3 := h.next
  have h4 := h.adr
  have h5 := h.tab
  have h6 := h.pool
  have a5 : w.blk 5 = c.base + 448 := h4 5 (by simp)
  have n1 : o ≠ 32 := by omega
  have n2 : 4 * o ≠ 128 := by omega
  have n3 : o ≠ 31 := by omega
  have n4 : 4 * (o + 1) ≠ 128 := by omega
  have n5 : o ≤ 32 := by omega
  have n6 : o < 32 := by omega
  have n7 : o + 1 ≤ 32 := by omega
  simp [-bind_pure_comp, wp, bind_run, pure_run, step, on, Deq.getObj, h1, hf, a5, n1, n2, n3, n4, n5, n6, n7,
      Prog.modify, dassert, check, Prog.when, Deq.updObj, cfg32, Cfg.deq, Deq.tblAt,
      Deq.table, Deq.listAt, Deq.arrBegin, Deq.arrEnd, cmp, addr, Deq.Iter.getCur, Deq.Iter.getIdx, Deq.CPtr.live,
      Deq.construct, Deq.Arg.get, access_run, Deq.World.put, pushBack, incr, Deq.CPtr.incr, Deq.putObj]
  constructor <;> simp_all

/-- The last push into the block 5. -/
theorem push5_last {s : Sma.St} (d x : α) (k o sz : Nat) (ho : o = 31) {w : PWorld α}
    (h : G k [3, 2, 4, 5] 1 3 5 o sz 128 (c.base + 160) 6 (ad2 c) s w) :
    wp (step (cfg32 c d) (.pushBack k x)) (fun _ w => G k [3, 2, 4, 5] 1 3 5 32 (sz + 1) 128 (c.base + 160) 6 (ad2 c) s w) w := by
  obtain ⟨f, hf⟩ := h.live 5 (by simp)
  have h1 := h.obj
  have h2 := h.live
  have h3 := h.next
  have h4 := h.adr
  have h5 := h.tab
  have h6 := h.pool
  have a5 : w.blk 5 = c.base + 448 := h4 5 (by simp)
  subst ho
  simp [-bind_pure_comp, wp, bind_run, pure_run, step, on, Deq.getObj, h1, hf, a5,
      Prog.modify, dassert, check, Prog.when, Deq.updObj, cfg32, Cfg.deq, Deq.tblAt,
      Deq.table, Deq.listAt, Deq.arrBegin, Deq.arrEnd, cmp, addr, Deq.Iter.getCur, Deq.Iter.getIdx, Deq.CPtr.live,
      Deq.construct, Deq.Arg.get, access_run, Deq.World.put, pushBack, incr, Deq.CPtr.incr, Deq.putObj]
  constructor <;> simp_all

/-- The push onto the full block 2: the table grows. -/
theorem grow32 {s3 s4 s5 s6 s7 s8 s9 s10 s11 : Sma.St} (d x : α) (k : Nat) (hb : c.base ≠ 0)
    (e4 : Sma.portAlloc c 16 s3 = some (.ok (c.base + 144, s4)))
    (e5 : Sma.portAlloc c 32 s4 = some (.ok (c.base + 160, s5)))
    (e6 : Sma.portDealloc c c.base 16 s5 = some (.ok ((), s6)))
    (e7 : Sma.portAlloc c 128 s6 = some (.ok (c.base + 192, s7)))
    (e8 : Sma.portAlloc c 128 s7 = some (.ok (c.base + 320, s8)))
    (e9 : Sma.portAlloc c 128 s8 = some (.ok (c.base + 448, s9)))
    (e10 : Sma.portDealloc c (c.base + 16) 128 s9 = some (.ok ((), s10)))
    (e11 : Sma.portDealloc c (c.base + 144) 16 s10 = some (.ok ((), s11))) {w : PWorld α}
    (h : G k [1, 2] 1 1 2 32 32 64 c.base 3 (ad1 c) s3 w) :
    wp (step (cfg32 c d) (.pushBack k x)) (fun _ w => G k [3, 2, 4, 5] 1 2 4 1 33 128 (c.base + 160) 6 (ad2 c) s11 w)
      w := by
  obtain ⟨f, hf⟩ := h.live 2 (by simp)
  obtain ⟨g, hg⟩ := h.live 1 (by simp)
  have h1 := h.obj
  have h3 := h.next
  have h5 := h.tab
  have h6 := h.pool
  have a1 : w.blk 1 = c.base + 16 := h.adr 1 (by simp)
  have a2 : w.blk 2 = c.base + 576 := h.adr 2 (by simp)
  simp [-bind_pure_comp, wp, bind_run, pure_run, step, on, Deq.putObj, setTab, Deq.getObj, h1, hf, hg, h3, h5, h6, a1, a2,
    Prog.modify, dassert, check, resizeTable, newTable, freeTable, inPool, Sma.getBlock, Prog.when, Prog.get,
    Deq.updObj, cfg32, Cfg.deq, forRange, newBlock, startsAt, List.range_succ, Deq.newBlock, Deq.setTbl, Deq.tblAt,
    Deq.table, Deq.listAt, Deq.arrBegin, Deq.arrEnd, cmp, addr, Deq.Iter.getCur, Deq.Iter.getIdx, Deq.CPtr.live,
    Deq.construct, Deq.Arg.get, access_run, Deq.World.put, Deq.Slot.isElem, Deq.Slot.isDflt,
    ite_again, cfg32_bytes, bytes_two, bytes_four, e4, e5, e6, e7, e8, e9, e10, e11, hb, pushBack, incr,
    Deq.CPtr.incr, resize, fillStep, releaseStep, resizeFix, Sma.giveBlock, freeBlock, Deq.freeBlock]
  constructor <;> simp [ad2, hf, a2]

/-- The queue after `n` pushes, from the first to the 96th. -/
def After (c : Sma.Cfg) (s3 s11 : Sma.St) (k n : Nat) (w : PWorld α) : Prop :=
  if n ≤ 32 then G k [1, 2] 1 1 2 n n 64 c.base 3 (ad1 c) s3 w
  else if n < 64 then G k [3, 2, 4, 5] 1 2 4 (n - 32) n 128 (c.base + 160) 6 (ad2 c) s11 w
  else G k [3, 2, 4, 5] 1 3 5 (n - 64) n 128 (c.base + 160) 6 (ad2 c) s11 w

theorem after_push {s3 s4 s5 s6 s7 s8 s9 s10 s11 : Sma.St} (d x : α) (k : Nat) (hb : c.base ≠ 0)
    (e4 : Sma.portAlloc c 16 s3 = some (.ok (c.base + 144, s4)))
    (e5 : Sma.portAlloc c 32 s4 = some (.ok (c.base + 160, s5)))
    (e6 : Sma.portDealloc c c.base 16 s5 = some (.ok ((), s6)))
    (e7 : Sma.portAlloc c 128 s6 = some (.ok (c.base + 192, s7)))
    (e8 : Sma.portAlloc c 128 s7 = some (.ok (c.base + 320, s8)))
    (e9 : Sma.portAlloc c 128 s8 = some (.ok (c.base + 448, s9)))
    (e10 : Sma.portDealloc c (c.base + 16) 128 s9 = some (.ok ((), s10)))
    (e11 : Sma.portDealloc c (c.base + 144) 16 s10 = some (.ok ((), s11))) {n : Nat} (hn : n < 96) {w : PWorld α}
    (h : After c s3 s11 k n w) :
    wp (step (cfg32 c d) (.pushBack k x)) (fun _ w => After c s3 s11 k (n + 1) w) w := by
  unfold After at h ⊢
  by_cases h1 : n ≤ 32
  · rw [if_pos h1] at h
    by_cases h2 : n = 32
    · subst h2
      exact grow32 d x k hb e4 e5 e6 e7 e8 e9 e10 e11 h
    · simp only [if_pos (show n + 1 ≤ 32 by omega)]
      by_cases h3 : n = 31
      · subst h3
        exact push2_last d x k 31 31 rfl h
      · exact push2 d x k n n (by omega) h
  · rw [if_neg h1] at h
    simp only [if_neg (show ¬ n + 1 ≤ 32 by omega)]
    by_cases h2 : n < 64
    · rw [if_pos h2] at h
      by_cases h3 : n = 63
      · subst h3
        exact push4_last d x k 31 63 rfl h
      · simp only [if_pos (show n + 1 < 64 by omega)]
        have := push4 d x k (n - 32) n (by omega) h
        rwa [show n - 32 + 1 = n + 1 - 32 by omega] at this
    · rw [if_neg h2] at h
      simp only [if_neg (show ¬ n + 1 < 64 by omega)]
      by_cases h3 : n = 95
      · subst h3
        exact push5_last d x k 31 95 rfl h
      · have := push5 d x k (n - 64) n (by omega) h
        rwa [show n - 64 + 1 = n + 1 - 64 by omega] at this

theorem pushes_ok {P : Cfg α} {k N : Nat} {Q : Nat → PWorld α → Prop}
    (h : ∀ n x w, n < N → Q n w → wp (step P (.pushBack k x)) (fun _ w => Q (n + 1) w) w) (xs : List α) {n : Nat}
    {w : PWorld α} (hn : n + xs.length ≤ N) (hw : Q n w) :
    wp (seqAll (xs.map fun x => step P (.pushBack k x))) (fun _ w => Q (n + xs.length) w) w := by
  induction xs generalizing n w with
  | nil => exact (wp_pure _ _ _).2 hw
  | cons x xs ih =>
    show wp (do step P (.pushBack k x); seqAll (xs.map fun x => step P (.pushBack k x))) _ w
    rw [wp_bind]
    simp only [List.length_cons] at hn ⊢
    refine wp_mono (h n x w (by omega) hw) fun _ w1 h1 => ?_
    have := ih (n := n + 1) (by omega) h1
    rwa [show n + 1 + xs.length = n + (xs.length + 1) by omega] at this

theorem size32 {s3 s11 : Sma.St} {k : Nat} {w : PWorld α} (h : After c s3 s11 k 96 w) :
    Returns (on (Deq.size k)) w 96 w := by
  have h1 := G.obj h
  simp [-bind_pure_comp, Returns, bind_run, pure_run, on, Deq.size, Deq.getObj, h1]

theorem iterate32 (d : α) {s3 s11 : Sma.St} {k : Nat} {w : PWorld α} (h : After c s3 s11 k 96 w) :
    Returns (iterate (cfg32 c d) k) w [] w := by
  have h1 := G.obj h
  obtain ⟨f, hf⟩ := G.live h 2 (by simp)
  obtain ⟨g, hg⟩ := G.live h 5 (by simp)
  have a2 : w.blk 2 = c.base + 576 := G.adr h 2 (by simp)
  have a5 : w.blk 5 = c.base + 448 := G.adr h 5 (by simp)
  have h2 : iterateFrom (cfg32 c d) { idx := some 1, cur := some (.at 2 0), tbl := some k }
      { idx := some 3, cur := some (.at 5 32), tbl := some k } w = some (.ok ([], w)) := by
    rw [iterateFrom]
    simp [-bind_pure_comp, bind_run, pure_run, on, Deq.Iter.getCur, cmp, addr, Deq.CPtr.live, cfg32, Cfg.deq, hf, hg,
      a2, a5]
  unfold iterate
  simp [-bind_pure_comp, Returns, bind_run, pure_run, on, Deq.getObj, h1, Deq.copyIter, Deq.Iter.getCur,
    Deq.Iter.getIdx, h2]

theorem bytes_eight : AllocSpec.byteCount 8 8 = 64 := by decide

/-- The 97th push: the table grows again, and the begin iterator is taken for the end iterator of the full block. -/
theorem lose32 {s3 s11 s1 s2 s4 s5 s6 s7 s8 s9 s10 s12 : Sma.St} (d x : α) (k : Nat) (hb : c.base ≠ 0)
    (e1 : Sma.portAlloc c 32 s11 = some (.ok (c.base + 16, s1)))
    (e2 : Sma.portAlloc c 64 s1 = some (.ok (c.base + 48, s2)))
    (e3 : Sma.portDealloc c (c.base + 160) 32 s2 = some (.ok ((), s12)))
    (e4 : Sma.portAlloc c 128 s12 = some (.ok (c.base + 704, s4)))
    (e5 : Sma.portAlloc c 128 s4 = some (.ok (c.base + 832, s5)))
    (e6 : Sma.portAlloc c 128 s5 = some (.ok (c.base + 960, s6)))
    (e7 : Sma.portAlloc c 128 s6 = some (.ok (c.base + 1088, s7)))
    (e8 : Sma.portAlloc c 128 s7 = some (.ok (c.base + 1216, s8)))
    (e9 : Sma.portDealloc c (c.base + 192) 128 s8 = some (.ok ((), s9)))
    (e10 : Sma.portDealloc c (c.base + 16) 32 s9 = some (.ok ((), s10))) {w : PWorld α}
    (h : After c s3 s11 k 96 w) :
    wp (step (cfg32 c d) (.pushBack k x)) (fun _ w =>
      Returns (on (Deq.size k)) w 97 w ∧ Returns (on (Deq.front (cfg32 c d).deq k)) w x w) w := by
  obtain ⟨f2, l2⟩ := G.live h 2 (by simp)
  obtain ⟨f3, l3⟩ := G.live h 3 (by simp)
  obtain ⟨f4, l4⟩ := G.live h 4 (by simp)
  obtain ⟨f5, l5⟩ := G.live h 5 (by simp)
  have h1 := G.obj h
  have h3 := G.next h
  have h5 := G.tab h
  have h6 := G.pool h
  have a2 : w.blk 2 = c.base + 576 := G.adr h 2 (by simp)
  have a3 : w.blk 3 = c.base + 192 := G.adr h 3 (by simp)
  have a4 : w.blk 4 = c.base + 320 := G.adr h 4 (by simp)
  have a5 : w.blk 5 = c.base + 448 := G.adr h 5 (by simp)
  simp [-bind_pure_comp, wp, bind_run, pure_run, step, on, Deq.putObj, setTab, Deq.getObj, h1, l2, l3, l4, l5, h3, h5, h6,
    a2, a3, a4, a5,
    Prog.modify, dassert, check, resizeTable, newTable, freeTable, inPool, Sma.getBlock, Prog.when, Prog.get,
    Deq.updObj, cfg32, Cfg.deq, forRange, newBlock, startsAt, List.range_succ, Deq.newBlock, Deq.setTbl, Deq.tblAt,
    Deq.table, Deq.listAt, Deq.arrBegin, Deq.arrEnd, cmp, addr, Deq.Iter.getCur, Deq.Iter.getIdx, Deq.CPtr.live,
    Deq.construct, Deq.Arg.get, access_run, Deq.World.put, Deq.Slot.isElem, Deq.Slot.isDflt,
    ite_again, cfg32_bytes, bytes_four, bytes_eight, e1, e2, e3, e4, e5, e6, e7, e8, e9, e10, hb, pushBack, incr,
    Deq.CPtr.incr, resize, fillStep, releaseStep, resizeFix, Sma.giveBlock, freeBlock, Deq.freeBlock, Returns,
    Deq.size, Deq.front, Deq.readPtr]

end Verif.DeqPool
