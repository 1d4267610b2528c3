import Verif.Props.SMAUniform
import Verif.VectorPoolSim
import Verif.SMAMode

/-! Helper lemmas: nodes of one size in the static pool. -/

namespace Verif.Slots

open Prog Verif.Pool

/-- The size of a node of `N` times eight bytes. -/
def size (N : Nat) : Int := ((8 * N : Nat) : Int)

theorem up8_size (N : Nat) : Sma.up8 (size N) = 8 * N := by
  unfold size Sma.up8 Sma.roundUp; omega

/-- What the nodes share the pool with; `solo` means with nothing, so that the pool is cut into nodes
only. -/
structure Env where
  rest : Rest
  solo : Prop

/-- Nothing else is in the pool. -/
def Env.own : Env := ⟨Rest.nil, True⟩

/-- `bs` are the nodes alive, node `n` is at address `f n`, and the rest of the pool is as `G` says. -/
structure Held (c : Sma.Cfg) (N : Nat) (G : Env) (f : Nat → Nat) (bs : List Nat) (s : Sma.St) : Prop where
  nodup : bs.Nodup
  owned : Owned c G.rest (bs.map fun n => (f n, size N)) s
  kept : ∀ p ∈ G.rest.live, ∀ x, p.1 ≤ x → x < p.1 + Sma.up8 p.2 → s.mem x = G.rest.mem x
  only : G.solo → G.rest.live = [] ∧
    Sma.ReachOnly c (fun n => Sma.up8 n = 8 * N) ⟨s, bs.map fun n => (f n, size N)⟩

variable {md : Sma.Mode} {c : Sma.Cfg} {N : Nat} {G : Env} {f : Nat → Nat} {bs : List Nat} {s : Sma.St}

theorem Held.init {s0 : Sma.St} (h : Returns (Sma.construct c) s0 () s) : Held c N Env.own f [] s :=
  ⟨List.nodup_nil, ⟨[], .refl _, .init h⟩, fun _ h => (by cases h), fun _ => ⟨rfl, .init h⟩⟩

theorem Held.inPool (hc : Sma.Legal c) (h : Held c N G f bs s) {n : Nat} (hn : n ∈ bs) :
    c.base ≤ f n ∧ f n + 8 * N ≤ c.base + c.M ∧ (f n - c.base) % 8 = 0 ∧ 0 < N := by
  obtain ⟨l, hp, hr⟩ := h.owned
  obtain ⟨L, hL⟩ := Sma.reach_inv hc hr
  have hm : (f n, size N) ∈ l := hp.mem_iff.2 (List.mem_append_left _ (List.mem_map.2 ⟨n, hn, rfl⟩))
  have hf := hL.1.fitsV (b := (f n, Sma.up8 (size N))) (List.mem_map.2 ⟨_, hm, rfl⟩)
  rw [up8_size] at hf
  obtain ⟨⟨g1, g2⟩, g3, _, g4⟩ := hf
  exact ⟨g1, g2, g3, by simp only at g4; omega⟩

theorem Held.disj (hc : Sma.Legal c) (h : Held c N G f bs s) {n n' : Nat} (hn : n ∈ bs) (hn' : n' ∈ bs)
    (hne : n ≠ n') : Sma.Disj (f n, 8 * N) (f n', 8 * N) := by
  have hp := (List.pairwise_append.1 (h.owned.apart hc)).1
  rw [List.pairwise_map] at hp
  have := pairwise_mem (fun a b h => disj_symm _ _ h) hp hn hn' hne
  simpa [up8_size] using this

/-- Blocks in other hands lie elsewhere. -/
theorem Held.away (hc : Sma.Legal c) (h : Held c N G f bs s) {n : Nat} (hn : n ∈ bs) {p : Nat × Int}
    (hp : p ∈ G.rest.live) : Sma.Disj (f n, 8 * N) (p.1, Sma.up8 p.2) := by
  have := (List.pairwise_append.1 (h.owned.apart hc)).2.2 (f n, size N) (List.mem_map.2 ⟨n, hn, rfl⟩) p hp
  simpa [up8_size] using this

theorem Held.inj (hc : Sma.Legal c) (h : Held c N G f bs s) {n n' : Nat} (hn : n ∈ bs) (hn' : n' ∈ bs)
    (he : f n = f n') : n = n' := by
  refine Classical.byContradiction fun hne => ?_
  have := h.disj hc hn hn' hne
  have := h.inPool hc hn
  unfold Sma.Disj at *
  simp only at *
  omega

/-- Writing to a block that is in use. -/
theorem reach_write {P : Int → Prop} {l : List (Nat × Int)} {a N : Nat} (hm : (a, size N) ∈ l) {o t : Nat}
    (ht : o + t ≤ N) (g : Nat → Sma.Cell) (h : Sma.ReachOnly c P ⟨s, l⟩) :
    Sma.ReachOnly c P ⟨{ s with mem := pokeN t s.mem (a + 8 * o) g }, l⟩ := by
  induction t with
  | zero => rw [pokeN_zero]; exact h
  | succ t ih =>
    rw [pokeN_succ]
    have hlt : 8 * ((o + t : Nat) : Int) < size N := by unfold size; omega
    refine Sma.ReachOnly.step (ih (by omega)) (op := .write a (size N) (o + t) (g t)) (a := 0)
      ⟨hm, hlt⟩ (by intro _ e; cases e) ?_
    have e : a + 8 * o + 8 * t = a + 8 * (o + t) := by omega
    rw [e]; rfl

theorem reach_any {w : Sma.World} (h : Sma.Reach c w) : Sma.ReachOnly c (fun _ => True) w := by
  induction h with
  | init h => exact .init h
  | step _ h1 h2 ih => exact .step ih h1 (fun _ _ => trivial) h2

/-- Writing to a node. -/
theorem Held.write (hc : Sma.Legal c) (h : Held c N G f bs s) {n : Nat} (hn : n ∈ bs) {o t : Nat} (ht : o + t ≤ N)
    (g : Nat → Sma.Cell) : Held c N G f bs { s with mem := pokeN t s.mem (f n + 8 * o) g } := by
  have hm : (f n, size N) ∈ bs.map fun n => (f n, size N) := List.mem_map.2 ⟨n, hn, rfl⟩
  refine ⟨h.nodup, ?_, fun p hp x h1 h2 => ?_, fun hs => ⟨(h.only hs).1, reach_write hm ht g (h.only hs).2⟩⟩
  · obtain ⟨l, hp, hr⟩ := h.owned
    exact ⟨l, hp, (reach_write (hp.mem_iff.2 (List.mem_append_left _ hm)) ht g (reach_any hr)).reach⟩
  · rw [← h.kept p hp x h1 h2]
    have := h.away hc hn hp
    unfold Sma.Disj at this
    show pokeN _ _ _ _ _ = _
    unfold pokeN
    simp only at this
    rw [if_neg]
    omega

theorem pokeN_other {mem : Nat → Sma.Cell} {t p y : Nat} {g : Nat → Sma.Cell}
    (h : ∀ j, j < t → y ≠ p + 8 * j) : pokeN t mem p g y = mem y := by
  unfold pokeN
  rw [if_neg]
  rintro ⟨h1, h2, h3⟩
  exact h ((y - p) / 8) (by omega) (by omega)

theorem pokeN_in {mem : Nat → Sma.Cell} {t p j : Nat} {g : Nat → Sma.Cell} (h : j < t) :
    pokeN t mem p g (p + 8 * j) = g j := by
  unfold pokeN
  rw [if_pos (by omega)]
  congr 1; omega

theorem upd_eq (mem : Nat → Sma.Cell) (p : Nat) (x : Sma.Cell) :
    Sma.upd mem p x = pokeN 1 mem p fun _ => x := by
  rw [pokeN_succ, pokeN_zero]; rfl

/-- Writing to a node leaves the others as they are. -/
theorem Held.write_other (hc : Sma.Legal c) (h : Held c N G f bs s) {n n' : Nat} (hn : n ∈ bs)
    (hn' : n' ∈ bs) (hne : n' ≠ n) {o t : Nat} (ht : o + t ≤ N) (g : Nat → Sma.Cell) {j : Nat}
    (hj : j < N) : pokeN t s.mem (f n + 8 * o) g (f n' + 8 * j) = s.mem (f n' + 8 * j) := by
  refine pokeN_other fun i hi e => ?_
  have := h.disj hc hn hn' (Ne.symm hne)
  unfold Sma.Disj at this
  simp only at this
  omega

theorem total_nodes (l : List Nat) :
    Sma.total (Sma.taken (l.map fun n => (f n, size N))) = l.length * (8 * N) := by
  induction l with
  | nil => simp [Sma.taken, Sma.total]
  | cons n l ih =>
    show Sma.up8 (size N) + Sma.total (Sma.taken (l.map fun n => (f n, size N))) = (l.length + 1) * (8 * N)
    rw [ih, up8_size, Nat.add_mul]
    omega

/-- The number of nodes. -/
theorem Held.count (hc : Sma.Legal c) (hG : G.solo) (h : Held c N G f bs s) :
    Returns Sma.freeMemSize s ((c.M : Int) - ((bs.length * (8 * N) : Nat) : Int)) s ∧
    bs.length * (8 * N) ≤ c.M := by
  obtain ⟨⟨K, hK⟩, hacc, _⟩ := Sma.sma_accounting hc (h.only hG).2.reach
  obtain ⟨f', g1, g2, g3⟩ := hacc K hK
  rw [total_nodes bs] at g2
  subst g2
  refine ⟨g1, ?_⟩
  have hsum : ∀ ks : List Nat, 0 ≤ (ks.map fun i => (Sma.total (K i) : Int)).sum := by
    intro ks
    induction ks with
    | nil => simp
    | cons k ks ih => rw [List.map_cons, List.sum_cons]; omega
  have := hsum (List.range (c.max / 8 + 1))
  omega

theorem Held.le (hc : Sma.Legal c) (hG : G.solo) (hN : 0 < N) (h : Held c N G f bs s) :
    bs.length ≤ c.M / (8 * N) :=
  (Nat.le_div_iff_mul_le (by omega)).2 (h.count hc hG).2

theorem byteCount_one (hfit : 8 * N + 8 < 2 ^ 31) : AllocSpec.byteCount (8 * N) 1 = size N := by
  rw [AllocSpec.byteCount_eq]
  rw [show ((1 : Int) * ((8 * N : Nat) : Int)) = ((8 * N : Nat) : Int) by omega]
  exact Vec.bmod32 _ (by omega) (by omega)

/-- The request was satisfied. -/
theorem Held.grow (h : Held c N G f bs s) {n0 a : Nat} (hn0 : n0 ∉ bs)
    {s' : Sma.St} (hstep : ∀ (P : Int → Prop) l, P (size N) → Sma.ReachOnly c P ⟨s, l⟩ →
      Sma.ReachOnly c P ⟨s', (a, size N) :: l⟩ ∧
      ∀ p ∈ l, ∀ x, p.1 ≤ x → x < p.1 + Sma.up8 p.2 → s'.mem x = s.mem x) :
    Held c N G (place f n0 a) (n0 :: bs) s' ∧ ∀ n ∈ bs, ∀ j, j < N → s'.mem (f n + 8 * j) = s.mem (f n + 8 * j) := by
  have e : (n0 :: bs).map (fun n => (place f n0 a n, size N)) =
      (a, size N) :: bs.map fun n => (f n, size N) := by
    rw [List.map_cons]
    congr 1
    · unfold place; rw [if_pos rfl]
    · refine List.map_congr_left fun n hn => ?_
      unfold place
      rw [if_neg]
      rintro rfl; exact hn0 hn
  obtain ⟨l, hp, hr⟩ := h.owned
  obtain ⟨r1, r2⟩ := hstep (fun _ => True) l trivial (reach_any hr)
  refine ⟨⟨List.nodup_cons.2 ⟨hn0, h.nodup⟩, ?_, fun p hm x h1 h2 => ?_, fun hsolo => ⟨(h.only hsolo).1, ?_⟩⟩, ?_⟩
  · rw [e]
    exact ⟨_, hp.cons _, r1.reach⟩
  · rw [← h.kept p hm x h1 h2]
    exact r2 p (hp.mem_iff.2 (List.mem_append_right _ hm)) x h1 h2
  · rw [e]
    exact (hstep _ _ (up8_size N) (h.only hsolo).2).1
  · intro n hn j hj
    refine r2 (f n, size N) (hp.mem_iff.2 (List.mem_append_left _ (List.mem_map.2 ⟨n, hn, rfl⟩))) _ ?_ ?_
    · simp only; omega
    · simp only [up8_size]; omega

theorem alloc_reach {P : Int → Prop} {n : Int} {a : Nat} {s s' : Sma.St} {l : List (Nat × Int)} (hP : P n)
    (hn : 0 < n) (hm : n + 8 < 2 ^ 31) (h : Sma.ReachOnly c P ⟨s, l⟩) (hr : Returns (Sma.alloc c n) s a s')
    (ha : a ≠ 0) : Sma.ReachOnly c P ⟨s', (a, n) :: l⟩ := by
  refine .step h (op := .alloc n) (a := a) ⟨hn, hm⟩ (fun _ e => by cases e; exact hP) ?_
  unfold Returns Sma.step
  refine (bind_returns (Sma.onSt_returns hr)).trans ?_
  rw [bind_returns (a := ()) (s' := ⟨s', (a, n) :: l⟩)]
  · rfl
  · unfold Returns Prog.modify
    simp only
    rw [if_neg ha]

theorem portAlloc_reach (hc : Sma.Legal c) {P : Int → Prop} {n : Int} {a : Nat} {s s' : Sma.St} {l : List (Nat × Int)} (hP : P n)
    (hn : 0 < n) (hm : n + 8 < 2 ^ 31) (h : Sma.ReachOnly c P ⟨s, l⟩) (hr : Returns (Sma.portAlloc c n) s a s') :
    Sma.ReachOnly c P ⟨s', (a, n) :: l⟩ := by
  obtain ⟨p1, s1, r1, r2⟩ := returns_bind hr
  split at r2
  · rename_i h0
    subst h0
    obtain ⟨a2, s2, e1, _, e2⟩ := Sma.sma_success_partial hc h.reach hn hm
    obtain ⟨rfl, rfl⟩ := r1.det e1
    have e2 := e2 rfl
    subst e2
    obtain ⟨_, s3, r3, r4⟩ := returns_bind r2
    obtain ⟨a4, s4, r5, r6⟩ := returns_bind r4
    obtain ⟨_, s5, r7, r8⟩ := returns_bind r6
    obtain ⟨h4, rfl⟩ := returns_check r7
    obtain ⟨rfl, rfl⟩ := returns_pure r8
    have hmg : Sma.ReachOnly c P ⟨s3, l⟩ := by
      refine .step h (op := .merge) (a := 0) trivial (fun _ e => by cases e) ?_
      unfold Returns Sma.step
      exact (bind_returns (Sma.onSt_returns r3)).trans rfl
    exact alloc_reach hP hn hm hmg r5 h4
  · rename_i h0
    obtain ⟨rfl, rfl⟩ := returns_pure r2
    exact alloc_reach hP hn hm h r1 h0

/-- A new node: the request fails exactly when there is no room for it, in a pool of nodes only when it is full
of nodes; the allocator itself then returns null. -/
theorem Held.alloc (hc : Sma.Legal c) (h : Held c N G f bs s) (hN : 0 < N) (hfit : 8 * N + 8 < 2 ^ 31)
    {n0 : Nat} (hn0 : n0 ∉ bs) :
    ((G.solo → c.M / (8 * N) ≤ bs.length) ∧ (md = .port → NoRoom c s (size N)) ∧
      (Faults (Sma.getBlock md c (AllocSpec.byteCount (8 * N) 1)) s .crash ∨
        Returns (Sma.getBlock md c (AllocSpec.byteCount (8 * N) 1)) s 0 s)) ∨
    ∃ a s', Returns (Sma.getBlock md c (AllocSpec.byteCount (8 * N) 1)) s a s' ∧ a ≠ 0 ∧
      Held c N G (place f n0 a) (n0 :: bs) s' ∧
      ∀ n ∈ bs, ∀ j, j < N → s'.mem (f n + 8 * j) = s.mem (f n + 8 * j) := by
  have hs : 0 < size N := by unfold size; omega
  have hs8 : size N + 8 < 2 ^ 31 := by unfold size; omega
  rw [byteCount_one hfit]
  obtain ⟨l, hp, hr⟩ := h.owned
  obtain ⟨a, s', e1, _, e2⟩ := Sma.sma_success_partial hc hr hs hs8
  simp only at e1 e2
  have hcount : G.solo → a = 0 → c.M / (8 * N) ≤ bs.length := by
    intro hG ha
    obtain ⟨a', t', k1, k2⟩ := Sma.sma_uniform_count hc (h.only hG).2 hs hs8 (up8_size N)
    obtain ⟨rfl, rfl⟩ := e1.det k1
    have hlen : (bs.map fun n => (f n, size N)).length = bs.length := List.length_map _
    simp only [hlen] at k2
    exact Nat.le_of_not_lt fun hlt => k2.2 hlt ha
  cases md with
  | direct =>
    by_cases ha : a = 0
    · refine Or.inl ⟨fun hG => hcount hG ha, fun e => (by cases e), Or.inr ?_⟩
      rw [e2 ha, ha] at e1
      exact e1
    · refine Or.inr ⟨a, s', e1, ha, ?_⟩
      exact h.grow hn0 fun P l hP hl => ⟨alloc_reach hP hs hs8 hl e1 ha, alloc_contents hc hl.reach hs hs8 e1 ha⟩
  | port =>
    obtain ⟨t, ht, _⟩ := Sma.sma_merge hc hr
    obtain ⟨g1, g2⟩ := Sma.sma_port_alloc_partial hc hr hs hs8 ht
    by_cases hroom : ∃ b, Sma.FreeBlock c t b ∧ Sma.up8 (size N) ≤ b.2
    · obtain ⟨a, s', k1, k2, _⟩ := g1 hroom
      refine Or.inr ⟨a, s', k1, k2, ?_⟩
      exact h.grow hn0 fun P l hP hl => ⟨portAlloc_reach hc hP hs hs8 hl k1, portAlloc_contents hc hl.reach hs hs8 k1⟩
    · have hf := g2 hroom
      refine Or.inl ⟨fun hG => hcount hG ?_, fun _ => ⟨t, ht, hroom⟩, Or.inl hf⟩
      refine Classical.byContradiction fun ha => ?_
      have : Returns (Sma.portAlloc c (size N)) s a s' := by
        unfold Returns Sma.portAlloc
        rw [bind_returns e1, if_neg ha]
        rfl
      unfold Faults Returns at *
      simp only at hf
      rw [hf] at this; cases this

/-- Giving a node back. -/
theorem Held.free (hc : Sma.Legal c) (h : Held c N G f bs s) (hfit : 8 * N + 8 < 2 ^ 31) {n : Nat} (hn : n ∈ bs) :
    ∃ s', Returns (Sma.giveBlock md c (f n) (AllocSpec.byteCount (8 * N) 1)) s () s' ∧
      Held c N G f (bs.erase n) s' ∧
      ∀ x ∈ bs, x ≠ n → ∀ j, j < N → s'.mem (f x + 8 * j) = s.mem (f x + 8 * j) := by
  rw [byteCount_one hfit]
  obtain ⟨l, hp, hr⟩ := h.owned
  have hmem : (f n, size N) ∈ bs.map fun n => (f n, size N) := List.mem_map.2 ⟨n, hn, rfl⟩
  have hml : (f n, size N) ∈ l := hp.mem_iff.2 (List.mem_append_left _ hmem)
  obtain ⟨s', e1, e2, _⟩ := Sma.sma_port_dealloc hc hr hml
  have hcont := portDealloc_contents hc hr hml e1
  have her : (bs.map fun n => (f n, size N)).erase (f n, size N) =
      (bs.erase n).map fun n => (f n, size N) := by
    refine map_erase_inj (fun n => (f n, size N)) bs n ?_
    intro x hx he
    simp only [Prod.mk.injEq, and_true] at he
    exact h.inj hc hx hn he
  have hpe : (l.erase (f n, size N)).Perm (((bs.erase n).map fun n => (f n, size N)) ++ G.rest.live) := by
    rw [← her, ← List.erase_append_left _ hmem]
    exact hp.erase _
  refine ⟨s', giveBlock_ok e1, ⟨h.nodup.erase n, ⟨_, hpe, e2⟩, fun p hm x h1 h2 => ?_, fun hG => ⟨(h.only hG).1, ?_⟩⟩, ?_⟩
  · rw [← h.kept p hm x h1 h2]
    exact hcont p (hpe.mem_iff.2 (List.mem_append_right _ hm)) x h1 h2
  · rw [← her]
    simp only at e1
    obtain ⟨ok, t, r1, r2⟩ := returns_bind e1
    obtain ⟨_, rfl⟩ := returns_check r2
    refine Sma.ReachOnly.step (h.only hG).2 (op := .free (f n) (size N)) (a := 0) hmem
      (by intro _ e; cases e) ?_
    unfold Returns Sma.step
    exact (bind_returns (Sma.onSt_returns (w := ⟨s, bs.map fun n => (f n, size N)⟩) r1)).trans rfl
  · intro x hx hxn j hj
    refine hcont (f x, size N) (hpe.mem_iff.2 (List.mem_append_left _
      (List.mem_map.2 ⟨x, h.nodup.mem_erase_iff.2 ⟨hxn, hx⟩, rfl⟩))) _ ?_ ?_
    · simp only; omega
    · simp only [up8_size]; omega

end Verif.Slots
