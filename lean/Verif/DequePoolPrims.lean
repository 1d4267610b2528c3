import Verif.DequePoolPres
import Verif.Spec.DequePool

/-!
# Deques in the pool: blocks and tables
-/

namespace Verif.DeqPool

open Prog Pool
open Deq (CPtr Iter Deque Arg Op)

variable {α β γ : Type} {C : Ctx α} {T T' : List (Nat × Int)} {X X' : Nat → Prop} {w : PWorld α} {κ : ℕ∞}

/-! ## What blocks hold -/

theorem ownOf_congr {w w' : PWorld α} {bs ts : List Nat} (h1 : ∀ b ∈ bs, w'.blk b = w.blk b)
    (h2 : ∀ k ∈ ts, w'.tab k = w.tab k ∧ lenOf w'.deq k = lenOf w.deq k) : ownOf C w' bs ts = ownOf C w bs ts := by
  unfold ownOf
  congr 1
  · exact List.map_congr_left fun b hb => by rw [h1 b hb]
  · exact List.map_congr_left fun k hk => by rw [(h2 k hk).1, (h2 k hk).2]

theorem Rel.upd (h : Rel C T X w) {m : Deq.World α} (hb : ∀ b, (m.blk b).isSome = (w.deq.blk b).isSome)
    (hn : m.next = w.deq.next) (hl : ∀ k, lenOf m k = lenOf w.deq k)
    (hcap : ∀ k, ¬ X' k → capOf m k / C.P.A ≤ lenOf w.deq k) : Rel C T X' { w with deq := m } where
  old b h1 := by rw [hn]; exact h.old b ((hb b).symm.trans h1)
  holds := by
    obtain ⟨bs, ts, h1, h2, h3, h4, h5⟩ := h.holds
    refine ⟨bs, ts, h1, fun b => (h2 b).trans (by rw [hb b]), h3, fun k => (h4 k).trans (by rw [hl k]), ?_⟩
    rw [ownOf_congr (w := w) (w' := { w with deq := m }) (fun _ _ => rfl) fun k _ => ⟨rfl, hl k⟩]
    exact h5
  none k h1 := h.none k ((hl k).symm.trans h1)
  small k := by rw [hl k]; exact h.small k
  cap k hk := by rw [hl k]; exact hcap k hk
  hit := h.hit
  up b c h1 h2 := h.up b c ((hb b).symm.trans h1) ((hb c).symm.trans h2)
  agree f hf b h1 := h.agree f hf b (by rw [← hn]; exact h1)

theorem Rel.keep (h : Rel C T X w) {m : Deq.World α} (hk : KeepR w.deq m) : Rel C T X { w with deq := m } :=
  h.upd hk.blk hk.next hk.len fun k hx => by rw [hk.cap k]; exact h.cap k hx

theorem sim_keep {p : Prog (Deq.World α) β} (hp : Pres KeepR p) (h : Rel C T X w) : Sim C κ T X w p (on p) :=
  fun _ _ hr => Or.inl ⟨_, on_returns hr, rfl, h.keep (hp _ _ _ hr), fun _ => Room.drop⟩

theorem sim_upd (h : Rel C T X w) {k : Nat} {f : Deque → Deque}
    (hf : ∀ d, w.deq.obj k = some d → (f d).tbl.length = d.tbl.length ∧ (¬ X' k → (f d).cap / C.P.A ≤ d.tbl.length))
    (hX : ∀ j, j ≠ k → ¬ X' j → ¬ X j) : Sim C κ T X' w (Deq.updObj k f) (on (Deq.updObj k f)) := by
  intro a m hr
  refine Or.inl ⟨_, on_returns hr, rfl, ?_, fun _ => Room.drop⟩
  obtain ⟨d, hd, rfl⟩ := returns_updObj hr
  obtain ⟨g1, g2⟩ := hf d hd
  refine h.upd (fun _ => rfl) rfl (fun j => ?_) fun j hj => ?_
  · rw [lenOf_put]
    split
    · rename_i e
      subst e
      rw [lenOf_some hd]
      exact g1
    · rfl
  · rw [capOf_put]
    split
    · rename_i e
      subst e
      rw [lenOf_some hd]
      exact g2 hj
    · rename_i e
      exact h.cap j (hX j e hj)

/-! ## Blocks -/

theorem byteCount_nat {s n : Nat} (h : s * n + 8 < 2 ^ 31) : AllocSpec.byteCount s n = ((s * n : Nat) : Int) := by
  rw [AllocSpec.byteCount_eq]
  have e : ((n : Int) * (s : Int)) = ((s * n : Nat) : Int) := by
    rw [← Int.natCast_mul, Nat.mul_comm]
  rw [e]
  generalize s * n = z at *
  exact Vec.bmod32 _ (by omega) (by omega)

theorem block_bytes (hC : C.Ok) : blockBytes C.P = ((C.P.size * C.P.A : Nat) : Int) := by
  have := hC.fit
  unfold blockBytes
  have e := byteCount_nat (s := C.P.A * C.P.size) (n := 1) (by rw [Nat.mul_one, Nat.mul_comm]; exact this)
  rw [Nat.mul_one] at e
  rw [Nat.mul_comm C.P.size]
  exact e

theorem block_pos (hC : C.Ok) : 0 < C.P.size * C.P.A := Nat.mul_pos hC.size hC.A

theorem newBlock_sim (hC : C.Ok) (h : Rel C T X w) :
    Sim C (blockRoom C.P : ℕ∞) T X w (Deq.newBlock C.acfg) (newBlock C.P) := by
  intro a m hr
  cases hr
  have hpos := block_pos hC
  have hfit := hC.fit
  obtain ⟨bs, ts, h1, h2, h3, h4, h5⟩ := h.holds
  rcases h5.get hC.legal (n := ((C.P.size * C.P.A : Nat) : Int)) (by omega) (by omega) with ⟨hf, hno⟩ | ⟨x, s', e1, e2, e3, hroom⟩
  · refine Or.inr (Or.inl ⟨bind_faults (inPool_faults ?_), hno⟩)
    rw [block_bytes hC]; exact hf
  have hret : Returns (newBlock C.P) w w.deq.next
      { deq := { w.deq with
          blk := fun b => if b = w.deq.next then some (fun _ => .dflt C.P.d) else w.deq.blk b
          next := w.deq.next + 1 }
        pool := s'
        blk := fun y => if y = w.deq.next then x else w.blk y
        tab := w.tab
        hit := w.hit || startsAt w (x + C.P.size * C.P.A) } := by
    unfold newBlock Returns
    rw [block_bytes hC, bind_returns (inPool_returns e1)]
    rfl
  have hnew : w.deq.next ∉ bs := fun hb => Nat.lt_irrefl _ (h.old _ ((h2 _).1 hb))
  have hx := e3.at hC.legal (p := (x, ((C.P.size * C.P.A : Nat) : Int))) (by simp)
  by_cases hgood : startsAt w (x + C.P.size * C.P.A) = false ∧ ∀ f, C.fin = some f → x = f w.deq.next
  · refine Or.inl ⟨_, hret, rfl, ?_, fun r hr => hroom r hr⟩
    have hold : ∀ b, b < w.deq.next → (if b = w.deq.next then x else w.blk b) = w.blk b := fun b hb =>
      if_neg (Nat.ne_of_lt hb)
    constructor
    · intro b hb
      simp only at hb ⊢
      split at hb
      · omega
      · exact Nat.lt_succ_of_lt (h.old b hb)
    · refine ⟨w.deq.next :: bs, ts, List.nodup_cons.2 ⟨hnew, h1⟩, fun b => ?_, h3, h4, ?_⟩
      · simp only [List.mem_cons]
        split
        · rename_i e
          subst e
          simp
        · rename_i e
          simp only [e, false_or]
          exact h2 b
      · refine e3.perm (List.Perm.of_eq ?_)
        unfold ownOf
        simp only [List.map_cons, List.cons_append, if_true]
        have e : bs.map (fun b => ((if b = w.deq.next then x else w.blk b), ((C.P.size * C.P.A : Nat) : Int))) =
            bs.map fun b => (w.blk b, ((C.P.size * C.P.A : Nat) : Int)) :=
          List.map_congr_left fun b hb => by rw [hold b (h.old b ((h2 b).1 hb))]
        rw [e]
        rfl
    · exact h.none
    · exact h.small
    · exact h.cap
    · show (w.hit || startsAt w (x + C.P.size * C.P.A)) = false
      rw [h.hit, hgood.1]
      rfl
    · intro b c hb hc he
      simp only at hb hc he
      by_cases eb : b = w.deq.next
      · subst eb
        by_cases ec : c = w.deq.next
        · subst ec
          rw [if_pos rfl] at he
          omega
        · exfalso
          rw [if_pos rfl, if_neg ec] at he
          rw [if_neg ec] at hc
          have hs := hgood.1
          unfold startsAt at hs
          rw [List.any_eq_false] at hs
          refine hs c (List.mem_range.2 (h.old c hc)) ?_
          rw [hc, he]
          simp
      · by_cases ec : c = w.deq.next
        · subst ec
          rw [if_neg eb] at hb
          exact h.old b hb
        · rw [if_neg eb, if_neg ec] at he
          rw [if_neg eb] at hb
          rw [if_neg ec] at hc
          exact h.up b c hb hc he
    · intro f hf b hb
      simp only at hb ⊢
      by_cases eb : b = w.deq.next
      · subst eb
        rw [if_pos rfl]
        exact hgood.2 f hf
      · rw [if_neg eb]
        exact h.agree f hf b (by omega)
  · refine Or.inr (Or.inr ?_)
    cases hfin : C.fin with
    | none =>
      exfalso
      refine hgood ⟨?_, fun f hf => by rw [hfin] at hf; cases hf⟩
      unfold startsAt
      rw [List.any_eq_false]
      intro b _ hb
      simp only [Bool.and_eq_true, beq_iff_eq] at hb
      obtain ⟨_, g1, g2⟩ := h.block hC hb.1
      have g3 := hC.apart hfin
      obtain ⟨_, g4, _, g5⟩ := hx
      simp only at g4 g5
      omega
    | some f =>
      refine ⟨f, rfl, fun a' w' hq => ?_⟩
      obtain ⟨_, rfl⟩ := hret.det hq
      by_cases hs : startsAt w (x + C.P.size * C.P.A) = false
      · refine Or.inr ⟨w.deq.next, Nat.lt_succ_self _, ?_⟩
        simp only [if_true]
        intro e
        refine hgood ⟨hs, fun f' hf' => ?_⟩
        rw [hfin] at hf'
        cases hf'
        exact e
      · refine Or.inl ?_
        show (w.hit || startsAt w (x + C.P.size * C.P.A)) = true
        rw [Bool.not_eq_false] at hs
        rw [hs, Bool.or_true]

theorem freeBlock_sim (hC : C.Ok) (h : Rel C T X w) (b : Nat) :
    Sim C κ T X w (Deq.freeBlock C.acfg b) (freeBlock C.P b) := by
  intro a m hr
  unfold Returns Deq.freeBlock at hr
  split at hr
  · cases hr
  rename_i f hf
  have hlive : (w.deq.blk b).isSome = true := by rw [hf]; rfl
  have hret : Returns (Deq.freeBlock C.P.deq b) w.deq () m := by
    unfold Returns Deq.freeBlock
    simp only [hf]
    cases hr
    rfl
  cases hr
  obtain ⟨bs, ts, h1, h2, h3, h4, h5⟩ := h.holds
  have hb : b ∈ bs := (h2 b).2 hlive
  have hperm : (ownOf C w bs ts ++ T).Perm
      ((w.blk b, ((C.P.size * C.P.A : Nat) : Int)) :: (ownOf C w (bs.erase b) ts ++ T)) := by
    have := (List.perm_cons_erase hb).map fun b => (w.blk b, ((C.P.size * C.P.A : Nat) : Int))
    unfold ownOf
    refine ((this.append_right _).append_right _).trans ?_
    rfl
  obtain ⟨s', e1, e2, hroom⟩ := (h5.perm hperm).give hC.legal
  refine Or.inl ⟨{ w with deq := _, pool := s' }, ?_, rfl, ?_, fun r hr => hroom r hr.drop⟩
  · unfold freeBlock Returns
    rw [bind_returns (on_returns hret), bind_returns (show Returns Prog.get _ _ _ from rfl), block_bytes hC]
    exact inPool_returns (w := { w with deq := _ }) e1
  · constructor
    · intro x hx
      simp only at hx ⊢
      split at hx
      · cases hx
      · exact h.old x hx
    · refine ⟨bs.erase b, ts, h1.erase b, fun x => ?_, h3, h4, ?_⟩
      · rw [h1.mem_erase_iff, h2 x]
        simp only
        by_cases e : x = b
        · simp [e]
        · simp [e]
      · exact e2
    · exact h.none
    · exact h.small
    · exact h.cap
    · exact h.hit
    · intro x y hx hy he
      simp only at hx hy
      split at hx
      · cases hx
      · split at hy
        · cases hy
        · exact h.up x y hx hy he
    · exact h.agree

/-! ## Tables -/

/-- The block of a table with `n` entries. -/
def entry (a n : Nat) : List (Nat × Int) := if n = 0 then [] else [(a, ((8 * n : Nat) : Int))]

/-- Everything but the table of `k`. -/
structure Split (C : Ctx α) (w : PWorld α) (k : Nat) (bs ts : List Nat) : Prop where
  nd : bs.Nodup
  blocks : ∀ b, b ∈ bs ↔ (w.deq.blk b).isSome = true
  nd' : ts.Nodup
  tabs : ∀ j, j ∈ ts ↔ j ≠ k ∧ lenOf w.deq j ≠ 0

theorem Holds.split (h : Holds C T w) (k : Nat) : ∃ bs ts, Split C w k bs ts ∧
    Has C.P.sma C.F (entry (w.tab k) (lenOf w.deq k) ++ (ownOf C w bs ts ++ T)) w.pool := by
  obtain ⟨bs, ts, h1, h2, h3, h4, h5⟩ := h
  refine ⟨bs, ts.erase k, ⟨h1, h2, h3.erase k, fun j => by rw [h3.mem_erase_iff, h4 j]⟩, ?_⟩
  refine h5.perm ?_
  by_cases hk : k ∈ ts
  · unfold entry ownOf
    rw [if_neg ((h4 k).1 hk)]
    have := ((List.perm_cons_erase hk).map fun j => (w.tab j, ((8 * lenOf w.deq j : Nat) : Int)))
    refine ((this.append_left _).append_right _).trans ?_
    simp only [List.map_cons, List.append_assoc, List.cons_append, List.nil_append]
    exact List.perm_middle
  · unfold entry
    rw [if_pos (Classical.not_not.1 fun e => hk ((h4 k).2 e)), List.erase_of_not_mem hk]
    exact List.Perm.refl _

theorem Split.join {w : PWorld α} {k : Nat} {bs ts : List Nat} (h : Split C w k bs ts)
    (hh : Has C.P.sma C.F (entry (w.tab k) (lenOf w.deq k) ++ (ownOf C w bs ts ++ T)) w.pool) : Holds C T w := by
  by_cases hk : lenOf w.deq k = 0
  · refine ⟨bs, ts, h.nd, h.blocks, h.nd', fun j => ?_, ?_⟩
    · rw [h.tabs j]
      exact ⟨fun e => e.2, fun e => ⟨fun e' => e (by rw [e']; exact hk), e⟩⟩
    · unfold entry at hh
      rw [if_pos hk] at hh
      exact hh
  · refine ⟨bs, k :: ts, h.nd, h.blocks, List.nodup_cons.2 ⟨fun e => ((h.tabs k).1 e).1 rfl, h.nd'⟩, fun j => ?_, ?_⟩
    · rw [List.mem_cons, h.tabs j]
      constructor
      · rintro (rfl | e)
        · exact hk
        · exact e.2
      · intro e
        by_cases e' : j = k
        · exact Or.inl e'
        · exact Or.inr ⟨e', e⟩
    · refine hh.perm ?_
      unfold entry ownOf
      rw [if_neg hk]
      simp only [List.map_cons, List.append_assoc, List.cons_append, List.nil_append]
      exact List.perm_middle.symm

theorem Rel.tab_zero (hC : C.Ok) (h : Rel C T X w) (k : Nat) : w.tab k = 0 ↔ lenOf w.deq k = 0 := by
  refine ⟨fun e => Classical.byContradiction fun hne => ?_, h.none k⟩
  obtain ⟨bs, ts, _, hh⟩ := h.holds.split k
  refine (hh.at hC.legal (p := (w.tab k, ((8 * lenOf w.deq k : Nat) : Int))) ?_).1 e
  unfold entry
  rw [if_neg hne]
  simp

theorem freeTable_ok (hC : C.Ok) {w : PWorld α} {own : List (Nat × Int)} {a n : Nat}
    (h : Has C.P.sma C.F (entry a n ++ own) w.pool) (hz : a = 0 ↔ n = 0) (hn : 8 * n + 8 < 2 ^ 31) :
    ∃ s', Returns (freeTable C.P a n) w () { w with pool := s' } ∧ Has C.P.sma C.F own s' ∧
      ∀ r : ℕ∞, Room C.P.sma r w.pool → Room C.P.sma r s' := by
  unfold freeTable Prog.when entry at *
  by_cases h0 : n = 0
  · rw [if_pos h0] at h
    rw [if_neg (fun e => e (hz.2 h0))]
    exact ⟨w.pool, rfl, h, fun _ => id⟩
  · rw [if_neg h0] at h
    rw [if_pos (fun e => h0 (hz.1 e))]
    obtain ⟨s', e1, e2, e3⟩ := Has.give hC.legal h
    rw [byteCount_nat hn]
    exact ⟨s', inPool_returns e1, e2, e3⟩

theorem newTable_ok (hC : C.Ok) {w : PWorld α} {own : List (Nat × Int)} {n : Nat} (h : Has C.P.sma C.F own w.pool)
    (h0 : n ≠ 0) (hn : 8 * n + 8 < 2 ^ 31) :
    (Faults (newTable C.P n) w .crash ∧ ¬ Room C.P.sma (tableRoom n : ℕ∞) w.pool) ∨
    ∃ a s', Returns (newTable C.P n) w a { w with pool := s' } ∧ a ≠ 0 ∧ Has C.P.sma C.F (entry a n ++ own) s' ∧
      ∀ r : ℕ∞, Room C.P.sma ((tableRoom n : ℕ∞) + r) w.pool → Room C.P.sma r s' := by
  unfold newTable
  have hen : ∀ a, entry a n = [(a, ((8 * n : Nat) : Int))] := fun a => if_neg h0
  simp only [hen]
  rw [byteCount_nat hn]
  rcases h.get hC.legal (n := ((8 * n : Nat) : Int)) (by omega) (by omega) with ⟨hf, hno⟩ | ⟨a, s', e1, e2, e3, e4⟩
  · exact Or.inl ⟨inPool_faults hf, hno⟩
  · exact Or.inr ⟨a, s', inPool_returns e1, e2, e3, e4⟩

/-- Another table for `k`. -/
theorem Rel.retable (h : Rel C T X w) {k : Nat} {bs ts : List Nat} (hs : Split C w k bs ts) {v : Option Deque}
    {a n : Nat} {s' : Sma.St} (hv : (v.map fun d => d.tbl.length).getD 0 = n) (ha : n = 0 → a = 0)
    (hn : 8 * n + 8 < 2 ^ 31) (hX : ∀ j, j ≠ k → ¬ X' j → ¬ X j)
    (hcap : ¬ X' k → (v.map fun d => d.cap).getD 0 / C.P.A ≤ n)
    (hh : Has C.P.sma C.F (entry a n ++ (ownOf C w bs ts ++ T')) s') :
    Rel C T' X' { w with
      deq := { w.deq with obj := fun x => if x = k then v else w.deq.obj x }
      pool := s'
      tab := fun x => if x = k then a else w.tab x } where
  old := h.old
  holds := by
    have hlen : ∀ j, lenOf { w.deq with obj := fun x => if x = k then v else w.deq.obj x } j =
        if j = k then n else lenOf w.deq j := fun j => by rw [lenOf_put, hv]
    refine Split.join (k := k) (bs := bs) (ts := ts) ⟨hs.nd, hs.blocks, hs.nd', fun j => ?_⟩ ?_
    · rw [hs.tabs j]
      simp only
      rw [hlen j]
      by_cases e : j = k
      · simp [e]
      · simp [e]
    · simp only
      rw [hlen k, if_pos rfl, if_pos trivial]
      rw [ownOf_congr (w := w) (w' := { w with
          deq := { w.deq with obj := fun x => if x = k then v else w.deq.obj x }
          pool := s'
          tab := fun x => if x = k then a else w.tab x })
        (fun _ _ => rfl) fun j hj => ⟨if_neg ((hs.tabs j).1 hj).1, by
          simp only
          rw [hlen j, if_neg ((hs.tabs j).1 hj).1]⟩]
      exact hh
  none j hj := by
    simp only at hj ⊢
    rw [lenOf_put] at hj
    split
    · rename_i e
      rw [if_pos e, hv] at hj
      exact ha hj
    · rename_i e
      rw [if_neg e] at hj
      exact h.none j hj
  small j := by
    simp only
    rw [lenOf_put]
    split
    · rw [hv]; exact hn
    · exact h.small j
  cap j hj := by
    simp only
    rw [lenOf_put, capOf_put]
    split
    · rename_i e
      subst e
      rw [hv]
      exact hcap hj
    · rename_i e
      exact h.cap j (hX j e hj)
  hit := h.hit
  up := h.up
  agree := h.agree

theorem updObj_returns {k : Nat} {d : Deque} {m : Deq.World α} (f : Deque → Deque) (h : m.obj k = some d) :
    Returns (Deq.updObj k f) m () { m with obj := fun x => if x = k then some (f d) else m.obj x } := by
  unfold Deq.updObj Returns
  rw [bind_returns (a := d) (s' := m) (by unfold Returns Deq.getObj; rw [h])]
  rfl

theorem clearTable_sim (hC : C.Ok) (h : Rel C T X w) {k len : Nat} {f : Deque → Deque}
    (hlen : lenOf w.deq k = len) (hf : ∀ d, (f d).tbl.length = 0 ∧ (f d).cap = 0) :
    Sim C κ T X w (Deq.updObj k f) (clearTable C.P k len f) := by
  intro a m hr
  obtain ⟨d, hd, rfl⟩ := returns_updObj hr
  obtain ⟨bs, ts, hs, hh⟩ := h.holds.split k
  rw [hlen] at hh
  obtain ⟨s', e1, e2, e3⟩ := freeTable_ok hC (w := w) hh (by rw [h.tab_zero hC k, hlen]) (by rw [← hlen]; exact h.small k)
  have hR := h.retable (v := some (f d)) (a := 0) (n := 0) (s' := s') (X' := X) hs (hf d).1 (fun _ => rfl) (by omega)
    (fun _ _ e => e) (fun _ => by simp [(hf d).2]) e2
  refine Or.inl ⟨_, ?_, rfl, hR, fun r hr => e3 r hr.drop⟩
  show (freeTable C.P (w.tab k) len >>= fun _ => _) w = _
  rw [bind_returns e1]
  exact on_returns (w := { w with pool := s', tab := fun x => if x = k then 0 else w.tab x }) (updObj_returns f hd)

theorem resizeTable_sim (hC : C.Ok) (h : Rel C T X w) {k len n : Nat} {f : Deque → Deque}
    (hlen : lenOf w.deq k = len) (hn : 8 * n + 8 < 2 ^ 31) (hX : ∀ j, j ≠ k → ¬ X' j → ¬ X j)
    (hf : ∀ d, w.deq.obj k = some d → (f d).tbl.length = n ∧ (¬ X' k → (f d).cap / C.P.A ≤ n)) :
    Sim C (tableRoom n : ℕ∞) T X' w (Deq.updObj k f) (resizeTable C.P k len n f) := by
  intro a m hr
  obtain ⟨d, hd, rfl⟩ := returns_updObj hr
  obtain ⟨bs, ts, hs, hh⟩ := h.holds.split k
  rw [hlen] at hh
  have hz : w.tab k = 0 ↔ len = 0 := by rw [h.tab_zero hC k, hlen]
  have hsm : 8 * len + 8 < 2 ^ 31 := by rw [← hlen]; exact h.small k
  obtain ⟨g1, g2⟩ := hf d hd
  by_cases h0 : n = 0
  · obtain ⟨s', e1, e2, e3⟩ := freeTable_ok hC (w := w) hh hz hsm
    have hR := h.retable (v := some (f d)) (a := 0) (n := n) (s' := s') (X' := X') hs g1 (fun _ => rfl) hn
      hX g2 (by rw [h0]; exact e2)
    refine Or.inl ⟨_, ?_, rfl, hR, fun r hr => e3 r hr.drop⟩
    unfold resizeTable Returns
    have hq : Returns (do freeTable C.P ((← Prog.get).tab k) len; setTab k 0) w ()
        { w with pool := s', tab := fun x => if x = k then 0 else w.tab x } := by
      unfold Returns
      rw [bind_returns (show Returns Prog.get _ _ _ from rfl), bind_returns e1]
      rfl
    rw [if_pos h0, bind_returns hq]
    exact on_returns (w := { w with pool := s', tab := fun x => if x = k then 0 else w.tab x }) (updObj_returns f hd)
  · unfold resizeTable
    rw [if_neg h0]
    rcases newTable_ok hC hh h0 hn with ⟨e, hno⟩ | ⟨b, s1, e1, e2, e3, hroom⟩
    · exact Or.inr (Or.inl ⟨bind_faults (bind_faults e), hno⟩)
    have hh2 : Has C.P.sma C.F (entry (w.tab k) len ++ (entry b n ++ (ownOf C w bs ts ++ T))) s1 := by
      refine e3.perm ?_
      rw [← List.append_assoc (entry b n), ← List.append_assoc (entry (w.tab k) len)]
      exact List.perm_append_comm.append_right _
    obtain ⟨s', e4, e5, e6⟩ := freeTable_ok hC (w := { w with pool := s1 }) hh2 hz hsm
    have hR := h.retable (v := some (f d)) (a := b) (n := n) (s' := s') (X' := X') hs g1 (fun e => absurd e h0) hn
      hX g2 e5
    refine Or.inl ⟨_, ?_, rfl, hR, fun r hr => e6 r (hroom r hr)⟩
    have hq : Returns (do
        let a ← DeqPool.newTable C.P n
        freeTable C.P ((← Prog.get).tab k) len
        setTab k a) w ()
        { w with pool := s', tab := fun x => if x = k then b else w.tab x } := by
      unfold Returns
      rw [bind_returns e1, bind_returns (show Returns Prog.get _ _ _ from rfl), bind_returns e4]
      rfl
    unfold Returns
    rw [bind_returns hq]
    exact on_returns (w := { w with pool := s', tab := fun x => if x = k then b else w.tab x }) (updObj_returns f hd)

theorem dropTable_sim (hC : C.Ok) (h : Rel C T X w) (k : Nat) :
    Sim C κ T X w (Deq.getObj k >>= fun _ => Deq.putObj k none) (dropTable C.P k) := by
  refine Sim.reads (reads_on (ro_getObj k)) fun d hd => ?_
  obtain ⟨hd, _⟩ := returns_getObj hd
  intro a m hr
  cases hr
  obtain ⟨bs, ts, hs, hh⟩ := h.holds.split k
  rw [lenOf_some hd] at hh
  obtain ⟨s', e1, e2, e3⟩ := freeTable_ok hC (w := w) hh (by rw [h.tab_zero hC k, lenOf_some hd])
    (by rw [← lenOf_some hd]; exact h.small k)
  have hR := h.retable (v := none) (a := 0) (n := 0) (s' := s') (X' := X) hs rfl (fun _ => rfl) (by omega)
    (fun _ _ e => e) (fun _ => by simp) e2
  refine Or.inl ⟨_, ?_, rfl, hR, fun r hr => e3 r hr.drop⟩
  show (freeTable C.P (w.tab k) d.tbl.length >>= fun _ => _) w = _
  rw [bind_returns e1]
  rfl

theorem new_sim (h : Rel C T X w) {k : Nat} (hk : w.deq.obj k = none) :
    Sim C κ T X w (Deq.putObj k (some .fresh)) (step C.P (.new k)) := by
  intro a m hr
  cases hr
  obtain ⟨bs, ts, hs, hh⟩ := h.holds.split k
  have hl : lenOf w.deq k = 0 := by unfold lenOf; rw [hk]; rfl
  rw [hl] at hh
  have hR := h.retable (v := some .fresh) (a := 0) (n := 0) (s' := w.pool) (X' := X) hs rfl (fun _ => rfl) (by omega)
    (fun _ _ e => e) (fun _ => by simp [Deque.fresh]) hh
  exact Or.inl ⟨_, rfl, rfl, hR, fun _ => Room.drop⟩

/-- A block outside the deques. -/
theorem Sim.newTable (hC : C.Ok) (h : Rel C T X w) {n : Nat} (h0 : n ≠ 0) (hn : 8 * n + 8 < 2 ^ 31)
    {p : Prog (Deq.World α) β} {q : Nat → Prog (PWorld α) β}
    (h2 : ∀ a w1, w1.deq = w.deq → a ≠ 0 → Rel C (entry a n ++ T) X w1 → Sim C κ T' X' w1 p (q a)) :
    Sim C (tableRoom n + κ) T' X' w p (newTable C.P n >>= q) := by
  obtain ⟨bs, ts, h1, h2', h3, h4, h5⟩ := h.holds
  intro a m hr
  rcases newTable_ok hC h5 h0 hn with ⟨e, hno⟩ | ⟨b, s1, e1, e2, e3, hroom⟩
  · exact Or.inr (Or.inl ⟨bind_faults e, fun hr => hno (hr.mono (le_add_of_nonneg_right zero_le))⟩)
  have hR : Rel C (entry b n ++ T) X { w with pool := s1 } :=
    ⟨h.old, ⟨bs, ts, h1, h2', h3, h4, e3.perm (by
      rw [← List.append_assoc, ← List.append_assoc]
      exact List.perm_append_comm.append_right _)⟩, h.none, h.small, h.cap, h.hit, h.up, h.agree⟩
  rcases h2 b { w with pool := s1 } rfl e2 hR a m hr with ⟨w2, g1, g2, g3, g4⟩ | ⟨e, e'⟩ | ⟨f, hf, e⟩
  · exact Or.inl ⟨w2, (bind_returns e1).trans g1, g2, g3, fun r hr => g4 r (hroom _ (by rwa [← add_assoc]))⟩
  · exact Or.inr (Or.inl ⟨(bind_returns e1).trans e, fun hr => e' (hroom _ hr)⟩)
  · refine Or.inr (Or.inr ⟨f, hf, fun a' w' hq => ?_⟩)
    exact e a' w' ((bind_returns e1).symm.trans hq)

/-- Giving it back. -/
theorem Sim.freeTable (hC : C.Ok) {n b : Nat} (hz : b = 0 ↔ n = 0) (hn : 8 * n + 8 < 2 ^ 31)
    {p : Prog (Deq.World α) Unit} {q : Prog (PWorld α) Unit} (h1 : Sim C κ (entry b n ++ T) X w p q) :
    Sim C κ T X w p (q >>= fun _ => DeqPool.freeTable C.P b n) := by
  intro a m hr
  rcases h1 a m hr with ⟨w1, e1, rfl, h, hroom⟩ | ⟨e, hno⟩ | ⟨f, hf, e⟩
  · obtain ⟨bs, ts, h1, h2, h3, h4, h5⟩ := h.holds
    have hh : Has C.P.sma C.F (entry b n ++ (ownOf C w1 bs ts ++ T)) w1.pool := h5.perm (by
      rw [← List.append_assoc, ← List.append_assoc]
      exact List.perm_append_comm.append_right _)
    obtain ⟨s', k1, k2, k3⟩ := freeTable_ok hC (w := w1) hh hz hn
    refine Or.inl ⟨_, (bind_returns e1).trans k1, rfl, ?_, fun r hr => k3 r (hroom r hr)⟩
    exact ⟨h.old, ⟨bs, ts, h1, h2, h3, h4, k2⟩, h.none, h.small, h.cap, h.hit, h.up, h.agree⟩
  · exact Or.inr (Or.inl ⟨bind_faults e, hno⟩)
  · refine Or.inr (Or.inr ⟨f, hf, fun a' w' hq => ?_⟩)
    obtain ⟨a1, w1, q1, q2⟩ := returns_bind hq
    exact (e a1 w1 q1).later (mono_freeTable b n w1 a' w' q2)

/-- A table in use is not large. -/
theorem Rel.two_tables (hC : C.Ok) {k b n : Nat} (h : Rel C (entry b n ++ T) X w) (hn : lenOf w.deq k = n) :
    16 * n ≤ C.P.sma.M := by
  by_cases h0 : n = 0
  · omega
  obtain ⟨bs, ts, _, hh⟩ := h.holds.split k
  rw [hn] at hh
  have e : ∀ a, entry a n = [(a, ((8 * n : Nat) : Int))] := fun a => by unfold entry; rw [if_neg h0]
  rw [e, e] at hh
  have hu : Sma.up8 ((8 * n : Nat) : Int) = 8 * n := by unfold Sma.up8 Sma.roundUp; omega
  have h1 := hh.at hC.legal (p := (w.tab k, ((8 * n : Nat) : Int))) (by simp)
  have h2 := hh.at hC.legal (p := (b, ((8 * n : Nat) : Int))) (by simp)
  have h3 := (List.pairwise_cons.1 (hh.apart hC.legal)).1 (b, ((8 * n : Nat) : Int)) (by simp)
  unfold Sma.Disj at h3
  simp only [hu] at h1 h2 h3
  omega

end Verif.DeqPool
