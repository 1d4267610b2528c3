import Verif.DequePool
import Verif.PoolSlots
import Verif.Partial
import Verif.Props.SMAPolicy
import Mathlib.Data.ENat.Basic

/-!
# Deques in the pool: blocks of the model and blocks of the pool
-/

namespace Verif.DeqPool

open Prog Pool
open Deq (CPtr Iter Deque Arg Op)

/-! ## What a program preserves -/

section
variable {σ β γ : Type} {R : σ → σ → Prop}

/-- If the program returns, the state before and the state after are related. -/
def Pres (R : σ → σ → Prop) (p : Prog σ β) : Prop := ∀ s, wlp p (fun _ t => R s t) s

/-- Reflexive and transitive. -/
structure Pre (R : σ → σ → Prop) : Prop where
  refl : ∀ s, R s s
  trans : ∀ {s t u}, R s t → R t u → R s u

theorem Pres.bind (hR : Pre R) {p : Prog σ β} {f : β → Prog σ γ} (h1 : Pres R p) (h2 : ∀ a, Pres R (f a)) :
    Pres R (p >>= f) := fun s => wlp_bind fun a t h => fun b u h' => hR.trans (h1 s a t h) (h2 a t b u h')

theorem Pres.pure (hR : Pre R) (a : β) : Pres R (Pure.pure a : Prog σ β) := fun s => wlp_pure (hR.refl s)

theorem Pres.fail (e : Fault) : Pres R (fail e : Prog σ β) := fun _ _ _ h => by cases h

theorem Pres.get (hR : Pre R) : Pres R (Prog.get : Prog σ σ) := fun s _ _ h => by cases h; exact hR.refl s

theorem Pres.check (hR : Pre R) (c : Prop) [Decidable c] (e : Fault) : Pres R (check c e : Prog σ Unit) :=
  fun s => wlp_check fun _ => hR.refl s

theorem Pres.dassert (hR : Pre R) (c : Prop) [Decidable c] : Pres R (dassert c : Prog σ Unit) :=
  Pres.check hR c _

theorem Pres.modify {f : σ → σ} (h : ∀ s, R s (f s)) : Pres R (modify f) := fun s => wlp_modify (h s)

theorem Pres.ite {c : Prop} [Decidable c] {p q : Prog σ β} (h1 : Pres R p) (h2 : Pres R q) :
    Pres R (if c then p else q) := by split <;> assumption

theorem Pres.when (hR : Pre R) {c : Prop} [Decidable c] {p : Prog σ Unit} (h : Pres R p) : Pres R (when c p) :=
  Pres.ite h (Pres.pure hR ())

theorem Pres.forRange (hR : Pre R) {f : Nat → γ → Prog σ γ} (h : ∀ i a, Pres R (f i a)) (n lo : Nat) (acc : γ) :
    Pres R (forRange n lo acc f) := by
  induction n generalizing lo acc with
  | zero => exact Pres.pure hR _
  | succ n ih => exact Pres.bind hR (h _ _) fun _ => ih _ _

theorem Pres.seqAll (hR : Pre R) {l : List (Prog σ Unit)} (h : ∀ p ∈ l, Pres R p) : Pres R (seqAll l) := by
  induction l with
  | nil => exact Pres.pure hR _
  | cons p l ih =>
    exact Pres.bind hR (h p List.mem_cons_self) fun _ => ih fun q hq => h q (List.mem_cons_of_mem _ hq)

theorem Pres.mono {R' : σ → σ → Prop} (h : ∀ s t, R s t → R' s t) {p : Prog σ β} (hp : Pres R p) : Pres R' p :=
  fun s a t hr => h s t (hp s a t hr)

end

theorem Pre.eq {σ : Type} : Pre (fun s t : σ => t = s) := ⟨fun _ => rfl, fun h1 h2 => h2.trans h1⟩

/-! ## Blocks in the pool -/

section
variable {c : Sma.Cfg} {F : Rest} {own : List (Nat × Int)} {s : Sma.St}

/-- The blocks `own` are in use besides those of others, whose contents are untouched. -/
def Has (c : Sma.Cfg) (F : Rest) (own : List (Nat × Int)) (s : Sma.St) : Prop :=
  Owned c F own s ∧ ∀ p ∈ F.live, ∀ x, p.1 ≤ x → x < p.1 + Sma.up8 p.2 → s.mem x = F.mem x

theorem Has.perm (h : Has c F own s) {own' : List (Nat × Int)} (hp : own.Perm own') : Has c F own' s :=
  ⟨h.1.perm hp, h.2⟩

/-- Some free block has at least so many bytes, unless none are needed. -/
def Room (c : Sma.Cfg) (k : ℕ∞) (s : Sma.St) : Prop := k = 0 ∨ ∃ b, Sma.FreeBlock c s b ∧ k ≤ (b.2 : ℕ∞)

theorem Room.mono {k k' : ℕ∞} (h : k ≤ k') (hr : Room c k' s) : Room c k s := by
  rcases hr with rfl | ⟨b, h1, h2⟩
  · exact Or.inl (le_antisymm h zero_le)
  · exact Or.inr ⟨b, h1, h.trans h2⟩

theorem Room.drop {k r : ℕ∞} (hr : Room c (k + r) s) : Room c r s := hr.mono (le_add_of_nonneg_left zero_le)

/-- A request that fits is served, and the rest stays free. -/
theorem Room.get (hc : Sma.Legal c) {L : List (Nat × Int)} (hr : Sma.Reach c ⟨s, L⟩) {n : Int} (hn : 0 < n)
    (hm : n + 8 < 2 ^ 31) {k : ℕ∞} (h : Room c ((Sma.up8 n : ℕ∞) + k) s) :
    ∃ a s', Returns (Sma.getBlock .port c n) s a s' ∧ Room c k s' := by
  have hup := (Sma.up8_pos hn).1
  obtain ⟨b, hb, hle⟩ : ∃ b, Sma.FreeBlock c s b ∧ ((Sma.up8 n : ℕ∞) + k) ≤ (b.2 : ℕ∞) := by
    rcases h with h | h
    · rw [add_eq_zero] at h
      have := ENat.natCast_inj.1 (h.1.trans ENat.natCast_zero.symm)
      omega
    · exact h
  lift k to ℕ using fun e => by
    rw [e, add_top] at hle
    exact absurd (top_le_iff.1 hle) (ENat.natCast_ne_top _)
  norm_cast at hle
  obtain ⟨a, s', e1, e2, _⟩ := Sma.sma_success_partial hc hr hn hm
  have ha : a ≠ 0 := fun e => e2.1 e ⟨b, hb, by omega⟩
  obtain ⟨b0, _, _, g1, _, g2⟩ := Sma.sma_policy hc hr hn hm e1 ha
  refine ⟨a, s', ?_, ?_⟩
  · show Sma.portAlloc c n s = _
    unfold Sma.portAlloc
    rw [bind_returns e1, if_neg ha]
    rfl
  · by_cases h0 : k = 0
    · exact Or.inl (by rw [h0]; rfl)
    · refine Or.inr ?_
      by_cases e : b = b0
      · subst e
        exact ⟨_, (g2 _).2 (Or.inr ⟨by omega, rfl⟩), by norm_cast; show k ≤ b.2 - _; omega⟩
      · exact ⟨b, (g2 _).2 (Or.inl ⟨hb, e⟩), by norm_cast; omega⟩

/-- A request: it is served, or there is no room and the program stops. -/
theorem Has.get (hc : Sma.Legal c) (h : Has c F own s) {n : Int} (hn : 0 < n) (hm : n + 8 < 2 ^ 31) :
    (Faults (Sma.getBlock .port c n) s .crash ∧ ¬ Room c (Sma.up8 n) s) ∨
    ∃ a s', Returns (Sma.getBlock .port c n) s a s' ∧ a ≠ 0 ∧ Has c F ((a, n) :: own) s' ∧
      ∀ k : ℕ∞, Room c ((Sma.up8 n : ℕ∞) + k) s → Room c k s' := by
  obtain ⟨⟨L, hp, hr⟩, hk⟩ := h
  obtain ⟨t, ht, _⟩ := Sma.sma_merge hc hr
  obtain ⟨g1, g2⟩ := Sma.sma_port_alloc_partial hc hr hn hm ht
  by_cases hroom : ∃ b, Sma.FreeBlock c t b ∧ Sma.up8 n ≤ b.2
  · obtain ⟨a, s', k1, k2, k3, _⟩ := g1 hroom
    refine Or.inr ⟨a, s', k1, k2, ⟨⟨_, hp.cons _, k3⟩, fun p hpm x h1 h2 => ?_⟩, fun k h => ?_⟩
    · rw [← hk p hpm x h1 h2]
      exact portAlloc_contents hc hr hn hm k1 p (hp.mem_iff.2 (List.mem_append_right _ hpm)) x h1 h2
    · obtain ⟨a', s1, e1, e2⟩ := Room.get hc hr hn hm h
      obtain ⟨_, rfl⟩ := e1.det k1
      exact e2
  · refine Or.inl ⟨g2 hroom, fun h => ?_⟩
    obtain ⟨a', s1, e1, _⟩ := Room.get (k := 0) hc hr hn hm (by rwa [add_zero])
    exact absurd (e1.symm.trans (g2 hroom)) (by simp)

/-- Giving a block back. -/
theorem Has.give (hc : Sma.Legal c) {a : Nat} {n : Int} (h : Has c F ((a, n) :: own) s) :
    ∃ s', Returns (Sma.giveBlock .port c a n) s () s' ∧ Has c F own s' ∧ ∀ k : ℕ∞, Room c k s → Room c k s' := by
  obtain ⟨⟨L, hp, hr⟩, hk⟩ := h
  have hml : (a, n) ∈ L := hp.mem_iff.2 (by simp)
  obtain ⟨s', e1, e2, _⟩ := Sma.sma_port_dealloc hc hr hml
  obtain ⟨s1, d1, d2⟩ := Sma.sma_policy_free hc hr hml
  have hpe : (L.erase (a, n)).Perm (own ++ F.live) := by
    have := hp.erase (a, n)
    rwa [List.cons_append, List.erase_cons_head] at this
  refine ⟨s', e1, ⟨⟨_, hpe, e2⟩, fun p hpm x h1 h2 => ?_⟩, fun k h => ?_⟩
  · rw [← hk p hpm x h1 h2]
    exact portDealloc_contents hc hr hml e1 p (hpe.mem_iff.2 (List.mem_append_right _ hpm)) x h1 h2
  · have e : Returns (Sma.portDealloc c a n) s () s1 := by
      unfold Sma.portDealloc Returns
      rw [bind_returns d1]
      rfl
    obtain ⟨_, rfl⟩ := e1.det e
    rcases h with h | ⟨b, h1, h2⟩
    · exact Or.inl h
    · exact Or.inr ⟨b, (d2 b).2 (Or.inl h1), h2⟩

/-- Blocks in use lie in the pool, at multiples of eight from its start. -/
theorem Has.at (hc : Sma.Legal c) (h : Has c F own s) {p : Nat × Int} (hp : p ∈ own) :
    p.1 ≠ 0 ∧ c.base ≤ p.1 ∧ p.1 + Sma.up8 p.2 ≤ c.base + c.M ∧ (p.1 - c.base) % 8 = 0 := by
  obtain ⟨⟨L, hpm, hr⟩, _⟩ := h
  have hl : p ∈ L := hpm.mem_iff.2 (List.mem_append_left _ hp)
  obtain ⟨h1, _, _, h2⟩ := (Sma.sma_blocks_partial hc hr).1 p hl
  obtain ⟨L', hL⟩ := Sma.reach_inv hc hr
  have hf := hL.1.fitsV (b := (p.1, Sma.up8 p.2)) (List.mem_map.2 ⟨p, hl, rfl⟩)
  exact ⟨h1, h2.1, h2.2, hf.2.1⟩

theorem Has.apart (hc : Sma.Legal c) (h : Has c F own s) :
    own.Pairwise fun a b => Sma.Disj (a.1, Sma.up8 a.2) (b.1, Sma.up8 b.2) :=
  (List.pairwise_append.1 (h.1.apart hc)).1

end

/-! ## The relation -/

variable {α β γ : Type}

/-- The number of entries of the table of `k`. -/
def lenOf (m : Deq.World α) (k : Nat) : Nat := ((m.obj k).map fun d => d.tbl.length).getD 0

/-- `mCapacity_d` of `k`. -/
def capOf (m : Deq.World α) (k : Nat) : Nat := ((m.obj k).map fun d => d.cap).getD 0

/-- A pool with deques, what else is in the pool, and, unless blocks cannot touch each other, the addresses of
all blocks there will ever be. -/
structure Ctx (α : Type) where
  P : Cfg α
  fin : Option (Nat → Nat)
  F : Rest

/-- The configuration of the deques that compare pointers accordingly. -/
def Ctx.acfg (C : Ctx α) : Deq.Cfg α :=
  { A := C.P.A
    d := C.P.d
    adj := fun b c => match C.fin with
      | none => false
      | some f => decide (f b + C.P.size * C.P.A = f c) && decide (b < c) }

/-- What is assumed of the configuration. -/
structure Ctx.Ok (C : Ctx α) : Prop where
  legal : Sma.Legal C.P.sma
  A : 0 < C.P.A
  size : 0 < C.P.size
  fit : C.P.size * C.P.A + 8 < 2 ^ 31
  M : C.P.sma.M + 16 < 2 ^ 31
  apart : C.fin = none → C.P.size * C.P.A % 8 ≠ 0

variable (C : Ctx α)

/-- The blocks of the pool held by the blocks `bs` and the tables of `ts`. -/
def ownOf (w : PWorld α) (bs ts : List Nat) : List (Nat × Int) :=
  bs.map (fun b => (w.blk b, ((C.P.size * C.P.A : Nat) : Int))) ++
    ts.map fun k => (w.tab k, ((8 * lenOf w.deq k : Nat) : Int))

/-- The blocks of the pool that are in use are those of blocks and tables, those in `T`, and those of others. -/
def Holds (T : List (Nat × Int)) (w : PWorld α) : Prop :=
  ∃ bs ts, bs.Nodup ∧ (∀ b, b ∈ bs ↔ (w.deq.blk b).isSome = true) ∧ ts.Nodup ∧
    (∀ k, k ∈ ts ↔ lenOf w.deq k ≠ 0) ∧ Has C.P.sma C.F (ownOf C w bs ts ++ T) w.pool

/-- The invariant; deques in `X` are being changed. -/
structure Rel (T : List (Nat × Int)) (X : Nat → Prop) (w : PWorld α) : Prop where
  old : ∀ b, (w.deq.blk b).isSome = true → b < w.deq.next
  holds : Holds C T w
  none : ∀ k, lenOf w.deq k = 0 → w.tab k = 0
  small : ∀ k, 8 * lenOf w.deq k + 8 < 2 ^ 31
  cap : ∀ k, ¬ X k → capOf w.deq k / C.P.A ≤ lenOf w.deq k
  hit : w.hit = false
  up : ∀ b c, (w.deq.blk b).isSome = true → (w.deq.blk c).isSome = true →
    w.blk b + C.P.size * C.P.A = w.blk c → b < c
  agree : ∀ f, C.fin = some f → ∀ b, b < w.deq.next → w.blk b = f b

/-- A block was placed directly in front of an older one, or not where it was foreseen. -/
def Bad (f : Nat → Nat) (w : PWorld α) : Prop := w.hit = true ∨ ∃ b, b < w.deq.next ∧ w.blk b ≠ f b

/-- The state afterwards, as far as addresses are concerned. -/
def Later (w w' : PWorld α) : Prop :=
  w.deq.next ≤ w'.deq.next ∧ (∀ b, b < w.deq.next → w'.blk b = w.blk b) ∧ (w.hit = true → w'.hit = true)

theorem Pre.later : Pre (Later (α := α)) :=
  ⟨fun _ => ⟨Nat.le_refl _, fun _ _ => rfl, id⟩, fun h1 h2 =>
    ⟨Nat.le_trans h1.1 h2.1, fun b hb => (h2.2.1 b (Nat.lt_of_lt_of_le hb h1.1)).trans (h1.2.1 b hb),
      fun h => h2.2.2 (h1.2.2 h)⟩⟩

theorem Bad.later {f : Nat → Nat} {w w' : PWorld α} (h : Bad f w) (hl : Later w w') : Bad f w' := by
  rcases h with h | ⟨b, h1, h2⟩
  · exact Or.inl (hl.2.2 h)
  · exact Or.inr ⟨b, Nat.lt_of_lt_of_le h1 hl.1, by rw [hl.2.1 b h1]; exact h2⟩

variable {C} {T T' T'' : List (Nat × Int)} {X X' X'' : Nat → Prop} {w : PWorld α}

theorem up8_nat (n : Nat) : n ≤ Sma.up8 (n : Int) ∧ Sma.up8 (n : Int) < n + 8 := by
  unfold Sma.up8 Sma.roundUp; omega

theorem mem_blocks {bs ts : List Nat} {b : Nat} (hb : b ∈ bs) :
    (w.blk b, ((C.P.size * C.P.A : Nat) : Int)) ∈ ownOf C w bs ts ++ T :=
  List.mem_append_left _ (List.mem_append_left _ (List.mem_map.2 ⟨b, hb, rfl⟩))

/-- Two blocks of the model do not overlap. -/
theorem Rel.disj (hC : C.Ok) (h : Rel C T X w) {b b' : Nat} (hb : (w.deq.blk b).isSome = true)
    (hb' : (w.deq.blk b').isSome = true) (hne : b ≠ b') :
    w.blk b + Sma.up8 ((C.P.size * C.P.A : Nat) : Int) ≤ w.blk b' ∨
      w.blk b' + Sma.up8 ((C.P.size * C.P.A : Nat) : Int) ≤ w.blk b := by
  obtain ⟨bs, ts, h1, h2, _, _, h5⟩ := h.holds
  have hp := h5.apart hC.legal
  have hp1 := (List.pairwise_append.1 (List.pairwise_append.1 hp).1).1
  rw [List.pairwise_map] at hp1
  exact pairwise_mem (fun a b h => disj_symm _ _ h) hp1 ((h2 b).2 hb) ((h2 b').2 hb') hne

theorem Rel.block (hC : C.Ok) (h : Rel C T X w) {b : Nat} (hb : (w.deq.blk b).isSome = true) :
    w.blk b ≠ 0 ∧ C.P.sma.base ≤ w.blk b ∧ (w.blk b - C.P.sma.base) % 8 = 0 := by
  obtain ⟨bs, ts, h1, h2, _, _, h5⟩ := h.holds
  obtain ⟨g1, g2, _, g4⟩ := h5.at hC.legal (mem_blocks (T := T) (C := C) (w := w) (ts := ts) ((h2 b).2 hb))
  exact ⟨g1, g2, g4⟩

/-- The end of a block is the begin of another exactly where the model of the deques has it so. -/
theorem Rel.touch (hC : C.Ok) (h : Rel C T X w) {b c : Nat} (hb : (w.deq.blk b).isSome = true)
    (hc : (w.deq.blk c).isSome = true) :
    w.blk b + C.P.size * C.P.A = w.blk c ↔ C.acfg.adj b c = true := by
  unfold Ctx.acfg
  simp only
  cases hf : C.fin with
  | none =>
    simp only [Bool.false_eq_true, iff_false]
    have := hC.apart hf
    obtain ⟨_, g1, g2⟩ := h.block hC hb
    obtain ⟨_, g3, g4⟩ := h.block hC hc
    omega
  | some f =>
    simp only [Bool.and_eq_true, decide_eq_true_eq]
    rw [← h.agree f hf b (h.old b hb), ← h.agree f hf c (h.old c hc)]
    exact ⟨fun e => ⟨e, h.up b c hb hc e⟩, fun e => e.1⟩

/-! ## Programs that only read -/

/-- The program on deques changes nothing and the program on deques in the pool does the same. -/
def Reads (w : PWorld α) (p : Prog (Deq.World α) β) (q : Prog (PWorld α) β) : Prop :=
  ∀ a m, Returns p w.deq a m → m = w.deq ∧ Returns q w a w

theorem on_returns {p : Prog (Deq.World α) β} {a : β} {m : Deq.World α} (h : Returns p w.deq a m) :
    Returns (on p) w a { w with deq := m } := by
  unfold Returns at *
  unfold on
  rw [h]

theorem returns_on {p : Prog (Deq.World α) β} {a : β} {w' : PWorld α} (h : Returns (on p) w a w') :
    ∃ m, Returns p w.deq a m ∧ w' = { w with deq := m } := by
  unfold Returns on at h
  split at h
  · cases h
  · cases h
  · rename_i b m e
    cases h
    exact ⟨m, e, rfl⟩

theorem inPool_returns {p : Prog Sma.St β} {a : β} {s : Sma.St} (h : Returns p w.pool a s) :
    Returns (inPool p) w a { w with pool := s } := by
  unfold Returns at *
  unfold inPool
  rw [h]

theorem inPool_faults {p : Prog Sma.St β} {e : Fault} (h : Faults p w.pool e) : Faults (inPool p) w e := by
  unfold Faults at *
  unfold inPool
  rw [h]

theorem returns_inPool {p : Prog Sma.St β} {a : β} {w' : PWorld α} (h : Returns (inPool p) w a w') :
    ∃ s, Returns p w.pool a s ∧ w' = { w with pool := s } := by
  unfold Returns inPool at h
  split at h
  · cases h
  · cases h
  · rename_i b m e
    cases h
    exact ⟨m, e, rfl⟩

theorem reads_on {p : Prog (Deq.World α) β} (h : Pres (fun s t => t = s) p) : Reads w p (on p) := by
  intro a m hr
  have := h _ _ _ hr
  subst this
  exact ⟨rfl, on_returns hr⟩

theorem Reads.pure (a : β) : Reads w (Pure.pure a) (Pure.pure a) := by
  intro b m hr
  obtain ⟨rfl, rfl⟩ := returns_pure hr
  exact ⟨rfl, rfl⟩

theorem Reads.bind {p1 : Prog (Deq.World α) β} {q1 : Prog (PWorld α) β} {p2 : β → Prog (Deq.World α) γ}
    {q2 : β → Prog (PWorld α) γ} (h1 : Reads w p1 q1)
    (h2 : ∀ a, Returns p1 w.deq a w.deq → Reads w (p2 a) (q2 a)) : Reads w (p1 >>= p2) (q1 >>= q2) := by
  intro b m hr
  obtain ⟨a, m1, r1, r2⟩ := returns_bind hr
  obtain ⟨rfl, e1⟩ := h1 a m1 r1
  obtain ⟨rfl, e2⟩ := h2 a r1 b m r2
  exact ⟨rfl, (bind_returns e1).trans e2⟩

theorem Reads.ite {c : Prop} [Decidable c] {p1 p2 : Prog (Deq.World α) β} {q1 q2 : Prog (PWorld α) β}
    (h1 : c → Reads w p1 q1) (h2 : ¬ c → Reads w p2 q2) : Reads w (if c then p1 else p2) (if c then q1 else q2) := by
  split
  · exact h1 ‹_›
  · exact h2 ‹_›

theorem Reads.check (c : Prop) [Decidable c] (e : Fault) : Reads w (check c e) (check c e) := by
  intro b m hr
  obtain ⟨h, rfl⟩ := returns_check hr
  exact ⟨rfl, check_ok _ h⟩

theorem Reads.dassert (c : Prop) [Decidable c] : Reads w (dassert c) (dassert c) := Reads.check c _

/-- Pointers are compared by address just as in the model of the deques. -/
theorem Rel.cmp (hC : C.Ok) (h : Rel C T X w) (p q : CPtr) : Reads w (Deq.cmp C.acfg p q) (cmp C.P p q) := by
  intro a m hr
  unfold Returns Deq.cmp at hr
  unfold Returns DeqPool.cmp
  split at hr
  · rename_i hpq
    cases hr
    rw [if_pos hpq]
    exact ⟨rfl, rfl⟩
  rename_i hpq
  rw [if_neg hpq]
  have hlive : ∀ p : CPtr, p.live C.P.deq w.deq = p.live C.acfg w.deq := fun p => by cases p <;> rfl
  rw [hlive, hlive]
  split at hr
  · rename_i hl
    rw [if_pos hl]
    cases hr
    refine ⟨rfl, ?_⟩
    congr 3
    rw [Bool.and_eq_true] at hl
    obtain ⟨hl1, hl2⟩ := hl
    have key : ∀ b o c o', (CPtr.at b o).live C.acfg w.deq = true → (CPtr.at c o').live C.acfg w.deq = true →
        CPtr.at b o ≠ CPtr.at c o' → w.blk b + C.P.size * o = w.blk c + C.P.size * o' → b ≠ c ∧
          (o = C.P.A ∧ o' = 0 ∧ w.blk b + C.P.size * C.P.A = w.blk c ∨
            o' = C.P.A ∧ o = 0 ∧ w.blk c + C.P.size * C.P.A = w.blk b) := by
      intro b o c o' l1 l2 hne he
      have l1 : ((w.deq.blk b).isSome && decide (o ≤ C.P.A)) = true := l1
      have l2 : ((w.deq.blk c).isSome && decide (o' ≤ C.P.A)) = true := l2
      simp only [Bool.and_eq_true, decide_eq_true_eq] at l1 l2
      have hbc : b ≠ c := by
        rintro rfl
        have : C.P.size * o = C.P.size * o' := by omega
        exact hne (by rw [Nat.eq_of_mul_eq_mul_left hC.size this])
      refine ⟨hbc, ?_⟩
      have hd := h.disj hC l1.1 l2.1 hbc
      have hu := up8_nat (C.P.size * C.P.A)
      have m1 : C.P.size * o ≤ C.P.size * C.P.A := Nat.mul_le_mul_left _ l1.2
      have m2 : C.P.size * o' ≤ C.P.size * C.P.A := Nat.mul_le_mul_left _ l2.2
      rcases hd with hd | hd
      · left
        have e1 : C.P.size * o' = 0 := by omega
        have e2 : C.P.size * o = C.P.size * C.P.A := by omega
        refine ⟨Nat.eq_of_mul_eq_mul_left hC.size e2, ?_, by omega⟩
        rcases Nat.mul_eq_zero.1 e1 with e | e
        · have := hC.size; omega
        · exact e
      · right
        have e1 : C.P.size * o = 0 := by omega
        have e2 : C.P.size * o' = C.P.size * C.P.A := by omega
        refine ⟨Nat.eq_of_mul_eq_mul_left hC.size e2, ?_, by omega⟩
        rcases Nat.mul_eq_zero.1 e1 with e | e
        · have := hC.size; omega
        · exact e
    cases p with
    | null =>
      cases q with
      | null => exact absurd rfl hpq
      | «at» c o' =>
        have l2 : ((w.deq.blk c).isSome && decide (o' ≤ C.P.A)) = true := hl2
        simp only [Bool.and_eq_true] at l2
        have := (h.block hC l2.1).1
        refine decide_eq_false ?_
        simp only [addr]
        omega
    | «at» b o =>
      cases q with
      | null =>
        have l1 : ((w.deq.blk b).isSome && decide (o ≤ C.P.A)) = true := hl1
        simp only [Bool.and_eq_true] at l1
        have := (h.block hC l1.1).1
        refine decide_eq_false ?_
        simp only [addr]
        omega
      | «at» c o' =>
        have l1 : ((w.deq.blk b).isSome && decide (o ≤ C.P.A)) = true := hl1
        have l2 : ((w.deq.blk c).isSome && decide (o' ≤ C.P.A)) = true := hl2
        simp only [Bool.and_eq_true] at l1 l2
        rw [Bool.eq_iff_iff, decide_eq_true_iff]
        simp only [addr, Deq.ptrEq, Bool.or_eq_true, Bool.and_eq_true, beq_iff_eq]
        rw [← h.touch hC l1.1 l2.1, ← h.touch hC l2.1 l1.1]
        show _ ↔ ((b = c ∧ o = o') ∨ (o = C.P.A ∧ o' = 0) ∧ _) ∨ (o' = C.P.A ∧ o = 0) ∧ _
        constructor
        · intro he
          rcases (key b o c o' hl1 hl2 hpq he).2 with ⟨e1, e2, e3⟩ | ⟨e1, e2, e3⟩
          · exact Or.inl (Or.inr ⟨⟨e1, e2⟩, e3⟩)
          · exact Or.inr ⟨⟨e1, e2⟩, e3⟩
        · rintro ((⟨rfl, rfl⟩ | ⟨⟨rfl, rfl⟩, e⟩) | ⟨⟨rfl, rfl⟩, e⟩)
          · rfl
          · omega
          · omega
  · cases hr

/-! ## Simulation -/

variable (C)

/-- The program on deques in the pool returns this result with this effect and leaves free what it does not need;
or it runs out of memory, although it needs no more than `k` bytes, or one of its blocks is
placed badly. -/
def Fits (k : ℕ∞) (T : List (Nat × Int)) (X : Nat → Prop) (w : PWorld α) (q : Prog (PWorld α) β) (a : β)
    (m : Deq.World α) : Prop :=
  (∃ w', Returns q w a w' ∧ w'.deq = m ∧ Rel C T X w' ∧
    ∀ r : ℕ∞, Room C.P.sma (k + r) w.pool → Room C.P.sma r w'.pool) ∨
    (Faults q w .crash ∧ ¬ Room C.P.sma k w.pool) ∨
    ∃ f, C.fin = some f ∧ ∀ a' w', Returns q w a' w' → Bad f w'

/-- If the program on deques returns, then the program on deques in the pool does the same, as far as there is
memory. -/
def Sim (k : ℕ∞) (T : List (Nat × Int)) (X : Nat → Prop) (w : PWorld α) (p : Prog (Deq.World α) β)
    (q : Prog (PWorld α) β) : Prop :=
  ∀ a m, Returns p w.deq a m → Fits C k T X w q a m

variable {C} {k : ℕ∞}

/-- More memory than needed. -/
theorem Fits.cost {k' : ℕ∞} (hk : k ≤ k') {q : Prog (PWorld α) β} {a : β} {m : Deq.World α}
    (h : Fits C k T X w q a m) : Fits C k' T X w q a m := by
  rcases h with ⟨w', e1, e2, e3, e4⟩ | ⟨e1, e2⟩ | e
  · exact Or.inl ⟨w', e1, e2, e3, fun r hr => e4 r (hr.mono (add_le_add_left hk r))⟩
  · exact Or.inr (Or.inl ⟨e1, fun hr => e2 (hr.mono hk)⟩)
  · exact Or.inr (Or.inr e)

theorem Sim.cost {k' : ℕ∞} (hk : k ≤ k') {p : Prog (Deq.World α) β} {q : Prog (PWorld α) β}
    (h : Sim C k T X w p q) : Sim C k' T X w p q := fun a m hr => (h a m hr).cost hk

/-- The cost of two programs. -/
theorem Sim.add {k1 k2 : ℕ∞} {p1 : Prog (Deq.World α) β} {q1 : Prog (PWorld α) β} {p2 : β → Prog (Deq.World α) γ}
    {q2 : β → Prog (PWorld α) γ} (h1 : Sim C k1 T X w p1 q1) (hm : ∀ a, Pres Later (q2 a))
    (h2 : ∀ a w1, Rel C T X w1 → Returns p1 w.deq a w1.deq → Sim C k2 T' X' w1 (p2 a) (q2 a)) :
    Sim C (k1 + k2) T' X' w (p1 >>= p2) (q1 >>= q2) := by
  intro b m hr
  obtain ⟨a, m1, r1, r2⟩ := returns_bind hr
  rcases h1 a m1 r1 with ⟨w1, e1, rfl, e3, e4⟩ | ⟨e, e'⟩ | ⟨f, hf, e⟩
  · rcases h2 a w1 e3 r1 b m r2 with ⟨w2, g1, g2, g3, g4⟩ | ⟨e, e'⟩ | ⟨f, hf, e⟩
    · exact Or.inl ⟨w2, (bind_returns e1).trans g1, g2, g3, fun r hr => g4 r (e4 _ (by rwa [← add_assoc]))⟩
    · exact Or.inr (Or.inl ⟨(bind_returns e1).trans e, fun hr => e' (e4 _ hr)⟩)
    · refine Or.inr (Or.inr ⟨f, hf, fun a' w' hq => ?_⟩)
      exact e a' w' ((bind_returns e1).symm.trans hq)
  · exact Or.inr (Or.inl ⟨bind_faults e, fun hr => e' (hr.mono (le_add_of_nonneg_right zero_le))⟩)
  · refine Or.inr (Or.inr ⟨f, hf, fun a' w' hq => ?_⟩)
    obtain ⟨a1, w1, q1, q2⟩ := returns_bind hq
    exact (e a1 w1 q1).later (hm a1 w1 a' w' q2)

/-- Only the second program costs something. -/
theorem Sim.bind {p1 : Prog (Deq.World α) β} {q1 : Prog (PWorld α) β} {p2 : β → Prog (Deq.World α) γ}
    {q2 : β → Prog (PWorld α) γ} (h1 : Sim C 0 T X w p1 q1) (hm : ∀ a, Pres Later (q2 a))
    (h2 : ∀ a w1, Rel C T X w1 → Returns p1 w.deq a w1.deq → Sim C k T' X' w1 (p2 a) (q2 a)) :
    Sim C k T' X' w (p1 >>= p2) (q1 >>= q2) :=
  (Sim.add h1 hm h2).cost (by rw [zero_add])

/-- Only the first program costs something. -/
theorem Sim.then {p1 : Prog (Deq.World α) β} {q1 : Prog (PWorld α) β} {p2 : β → Prog (Deq.World α) γ}
    {q2 : β → Prog (PWorld α) γ} (h1 : Sim C k T X w p1 q1) (hm : ∀ a, Pres Later (q2 a))
    (h2 : ∀ a w1, Rel C T X w1 → Returns p1 w.deq a w1.deq → Sim C 0 T' X' w1 (p2 a) (q2 a)) :
    Sim C k T' X' w (p1 >>= p2) (q1 >>= q2) :=
  (Sim.add h1 hm h2).cost (by rw [add_zero])

theorem Sim.reads {p1 : Prog (Deq.World α) β} {q1 : Prog (PWorld α) β} {p2 : β → Prog (Deq.World α) γ}
    {q2 : β → Prog (PWorld α) γ} (h1 : Reads w p1 q1)
    (h2 : ∀ a, Returns p1 w.deq a w.deq → Sim C k T' X' w (p2 a) (q2 a)) :
    Sim C k T' X' w (p1 >>= p2) (q1 >>= q2) := by
  intro b m hr
  obtain ⟨a, m1, r1, r2⟩ := returns_bind hr
  obtain ⟨rfl, e1⟩ := h1 a m1 r1
  rcases h2 a r1 b m r2 with ⟨w2, g1, g2, g3, g4⟩ | ⟨e, e'⟩ | ⟨f, hf, e⟩
  · exact Or.inl ⟨w2, (bind_returns e1).trans g1, g2, g3, g4⟩
  · exact Or.inr (Or.inl ⟨(bind_returns e1).trans e, e'⟩)
  · refine Or.inr (Or.inr ⟨f, hf, fun a' w' hq => ?_⟩)
    exact e a' w' ((bind_returns e1).symm.trans hq)

theorem Sim.of_reads (h : Rel C T X w) {p : Prog (Deq.World α) β} {q : Prog (PWorld α) β} (h1 : Reads w p q) :
    Sim C k T X w p q := by
  intro a m hr
  obtain ⟨rfl, e⟩ := h1 a m hr
  exact Or.inl ⟨w, e, rfl, h, fun _ => Room.drop⟩

theorem Sim.pure (h : Rel C T X w) (a : β) : Sim C k T X w (Pure.pure a) (Pure.pure a) :=
  Sim.of_reads h (Reads.pure a)

theorem Sim.ite {c : Prop} [Decidable c] {p1 p2 : Prog (Deq.World α) β} {q1 q2 : Prog (PWorld α) β}
    (h1 : c → Sim C k T X w p1 q1) (h2 : ¬ c → Sim C k T X w p2 q2) :
    Sim C k T X w (if c then p1 else p2) (if c then q1 else q2) := by
  split
  · exact h1 ‹_›
  · exact h2 ‹_›

theorem Sim.when (h : Rel C T X w) {c : Prop} [Decidable c] {p : Prog (Deq.World α) Unit}
    {q : Prog (PWorld α) Unit} (h1 : c → Sim C k T X w p q) :
    Sim C k T X w (Prog.when c p) (Prog.when c q) :=
  Sim.ite h1 fun _ => Sim.pure h ()

theorem Sim.forRange {p : Nat → γ → Prog (Deq.World α) γ} {q : Nat → γ → Prog (PWorld α) γ}
    (hf : ∀ i (g : γ) w, Rel C T X w → Sim C k T X w (p i g) (q i g)) (hm : ∀ i g, Pres Later (q i g))
    (n lo : Nat) (g : γ) (h : Rel C T X w) :
    Sim C (n * k) T X w (Prog.forRange n lo g p) (Prog.forRange n lo g q) := by
  induction n generalizing lo g w with
  | zero => exact Sim.pure h _
  | succ n ih =>
    refine (Sim.add (hf lo g w h) (fun a => Pres.forRange Pre.later hm _ _ _) fun a w1 h1 _ => ih _ _ h1).cost ?_
    rw [Nat.cast_succ, add_mul, one_mul, add_comm]

theorem Sim.forRange0 {p : Nat → γ → Prog (Deq.World α) γ} {q : Nat → γ → Prog (PWorld α) γ}
    (hf : ∀ i (g : γ) w, Rel C T X w → Sim C 0 T X w (p i g) (q i g)) (hm : ∀ i g, Pres Later (q i g))
    (n lo : Nat) (g : γ) (h : Rel C T X w) :
    Sim C 0 T X w (Prog.forRange n lo g p) (Prog.forRange n lo g q) :=
  (Sim.forRange hf hm n lo g h).cost (by rw [mul_zero])

theorem Sim.seqAll {ι : Type} {p : ι → Prog (Deq.World α) Unit} {q : ι → Prog (PWorld α) Unit}
    (hf : ∀ i w, Rel C T X w → Sim C 0 T X w (p i) (q i)) (hm : ∀ i, Pres Later (q i)) (l : List ι)
    (h : Rel C T X w) : Sim C 0 T X w (Prog.seqAll (l.map p)) (Prog.seqAll (l.map q)) := by
  induction l generalizing w with
  | nil => exact Sim.pure h _
  | cons i l ih =>
    refine Sim.bind (hf i w h) (fun a => Pres.seqAll Pre.later fun r hr => ?_) fun a w1 h1 _ => ih h1
    obtain ⟨j, _, rfl⟩ := List.mem_map.1 hr
    exact hm j

end Verif.DeqPool
