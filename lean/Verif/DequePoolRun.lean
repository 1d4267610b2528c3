import Verif.DequePoolOps
import Verif.Spec.DequePool
import Verif.DequeWorld

/-!
# Deques in the pool: histories
-/

namespace Verif.DeqPool

open Prog Pool
open Deq (CPtr Iter Deque Arg Op SWorld specStep specRun Avoids AvoidsAll AdjUp WInv)

variable {α : Type} {C : Ctx α} {w : PWorld α}

/-- No deque is being changed. -/
abbrev Rel0 (C : Ctx α) (w : PWorld α) : Prop := Rel C [] (fun _ => False) w

theorem adjUp (C : Ctx α) : AdjUp C.acfg := by
  intro b c h
  unfold Ctx.acfg at h
  simp only at h
  split at h
  · cases h
  · simp only [Bool.and_eq_true, decide_eq_true_eq] at h
    exact h.2

theorem Rel.init {P : Cfg α} {fin : Option (Nat → Nat)} {s : Sma.St} {L : List (Nat × Int)}
    (h : Sma.Reach P.sma ⟨s, L⟩) (h0 : ∀ f, fin = some f → f 0 = 0) : Rel0 ⟨P, fin, ⟨L, s.mem⟩⟩ (.init s) where
  old _ hb := by cases hb
  holds := ⟨[], [], List.nodup_nil, fun b => ⟨fun h => (by cases h), fun h => (by cases h)⟩, List.nodup_nil,
    fun b => ⟨fun h => (by cases h), fun h => absurd rfl h⟩, ⟨L, List.Perm.refl _, h⟩, fun _ _ _ _ _ => rfl⟩
  none _ _ := rfl
  small _ := by
    show 8 * 0 + 8 < 2 ^ 31
    omega
  cap k _ := by
    show 0 / _ ≤ 0
    rw [Nat.zero_div]
  hit := rfl
  up _ _ hb := by cases hb
  agree f hf b hb := by
    have : b < 1 := hb
    have : b = 0 := by omega
    subst this
    exact (h0 f hf).symm

/-- One operation of a history. -/
theorem step_any (hC : C.Ok) (h : Rel0 C w) {sw sw1 : SWorld α} (hI : WInv C.acfg w.deq sw) {op : Op α}
    (hs : specStep op sw = some sw1) (ha : Avoids op sw) :
    (∃ w1, Returns (step C.P op) w () w1 ∧ Rel0 C w1 ∧ WInv C.acfg w1.deq sw1) ∨
      (Faults (step C.P op) w .crash ∧ (C.fin = none → NoRoom C.P w op)) ∨
        ∃ f, C.fin = some f ∧ ∀ a' w', Returns (step C.P op) w a' w' → Bad f w' := by
  obtain ⟨a, m, r1, hI1⟩ := Deq.step_ok hC.A (adjUp C) hI hs ha
  have hnew : ∀ k, op = .new k → w.deq.obj k = none := by
    rintro k rfl
    have h1 := hI.obj k
    simp only [specStep] at hs
    split at hs
    · rename_i hn
      rw [Option.isNone_iff_eq_none] at hn
      rw [hn] at h1
      cases ho : w.deq.obj k with
      | none => rfl
      | some d =>
        rw [ho] at h1
        exact absurd h1 (by simp [Deq.ObjOpt])
    · cases hs
  rcases step_sim hC h op hnew a m r1 with ⟨w1, e1, rfl, h1, _⟩ | ⟨e, hno⟩ | e
  · exact Or.inl ⟨w1, e1, h1, hI1⟩
  · refine Or.inr (Or.inl ⟨e, fun hf n hn => ?_⟩)
    have hc : cost C w op = (n : ℕ∞) := by unfold cost; rw [hf, hn]; rfl
    rw [hc] at hno
    refine ⟨Nat.pos_of_ne_zero fun h0 => hno (Or.inl (by rw [h0]; rfl)), ?_⟩
    rintro ⟨b, h1, h2⟩
    exact hno (Or.inr ⟨b, h1, Nat.cast_le.2 h2⟩)
  · exact Or.inr (Or.inr e)

theorem run_sim (hC : C.Ok) (h : Rel0 C w) {sw sw' : SWorld α} (hI : WInv C.acfg w.deq sw) {ops : List (Op α)}
    (hs : specRun ops sw = some sw') (ha : AvoidsAll ops sw) :
    (∃ w', Returns (run C.P ops) w () w' ∧ WInv C.acfg w'.deq sw' ∧ Rel0 C w') ∨
      (Faults (run C.P ops) w .crash ∧ (C.fin = none → OutOfRoom C.P w ops)) ∨
      ∃ f, C.fin = some f ∧ ∀ w', Returns (run C.P ops) w () w' → Bad f w' := by
  induction ops generalizing w sw with
  | nil =>
    cases hs
    exact Or.inl ⟨w, rfl, hI, h⟩
  | cons op ops ih =>
    simp only [specRun] at hs
    obtain ⟨sw1, hs1, hs⟩ := Option.bind_eq_some_iff.1 hs
    obtain ⟨ha1, ha⟩ := ha
    rcases step_any hC h hI hs1 ha1 with ⟨w1, e1, h1, hI1⟩ | ⟨e, hno⟩ | ⟨f, hf, e⟩
    · have hrun : ∀ l, run C.P (op :: l) w = run C.P l w1 := fun l => bind_returns e1
      rcases ih h1 hI1 hs (ha _ hs1) with ⟨w', g1, g2, g3⟩ | ⟨g0, g⟩ | ⟨f, hf, g⟩
      · exact Or.inl ⟨w', (hrun _).trans g1, g2, g3⟩
      · refine Or.inr (Or.inl ⟨(hrun _).trans g0, fun hf => ?_⟩)
        obtain ⟨b, o, a, w', g1, g2, g3, g4⟩ := g hf
        exact ⟨op :: b, o, a, w', by rw [g1]; rfl, (hrun _).trans g2, g3, g4⟩
      · exact Or.inr (Or.inr ⟨f, hf, fun w' hw => g w' ((hrun _).symm.trans hw)⟩)
    · exact Or.inr (Or.inl ⟨bind_faults e, fun hf => ⟨[], op, ops, w, rfl, rfl, hno hf, e⟩⟩)
    · refine Or.inr (Or.inr ⟨f, hf, fun w' hw => ?_⟩)
      obtain ⟨a', w1, q1, q2⟩ := returns_bind hw
      exact (e a' w1 q1).later (mono_run ops w1 _ w' q2)

theorem Rel.shows (hC : C.Ok) (h : Rel0 C w) {sw : SWorld α} (hI : WInv C.acfg w.deq sw) : Shows C.P w sw := by
  intro k
  obtain ⟨h1, h2⟩ := hI.shows hC.A (adjUp C) k
  refine ⟨h1, fun s hs => ?_⟩
  obtain ⟨g1, g2, g3⟩ := h2 s hs
  refine ⟨(rd_size k _ _ g1).2, (rd_empty k _ _ g2).2, fun hp => ?_⟩
  have g := g3 hp
  exact
    { iter := (rd_iterate hC h k _ _ g.iter).2
      size := (rd_size k _ _ g.size).2
      empty := (rd_empty k _ _ g.empty).2
      front := fun x hx => (rd_front (C := C) k _ _ (g.front x hx)).2
      back := fun x hx => (rd_back hC h k _ _ (g.back x hx)).2
      index := fun i x hx => (rd_index hC h k i _ _ (g.index i x hx)).2 }

/-- Where the items are listed. -/
theorem Rel.items (h : Rel0 C w) : ∃ own : List (Item × (Nat × Int)),
    Has C.P.sma C.F (own.map (·.2)) w.pool ∧ (own.map (·.1)).Nodup ∧
    ∀ i x, place C.P w i = some x → ∃ q, (i, q) ∈ own ∧ x = (q.1, Sma.up8 q.2) := by
  obtain ⟨bs, ts, h1, h2, h3, h4, h5⟩ := h.holds
  refine ⟨bs.map (fun b => (.block b, (w.blk b, ((C.P.size * C.P.A : Nat) : Int)))) ++
    ts.map (fun k => (.table k, (w.tab k, ((8 * lenOf w.deq k : Nat) : Int)))), ?_, ?_, ?_⟩
  · refine h5.perm (List.Perm.of_eq ?_)
    rw [List.append_nil, List.map_append, List.map_map, List.map_map]
    rfl
  · rw [List.map_append, List.map_map, List.map_map]
    refine List.nodup_append.2 ⟨?_, ?_, ?_⟩
    · refine List.pairwise_map.2 (h1.imp fun hne e => hne ?_)
      injection e
    · refine List.pairwise_map.2 (h3.imp fun hne e => hne ?_)
      injection e
    · intro a ha b hb
      obtain ⟨x, _, rfl⟩ := List.mem_map.1 ha
      obtain ⟨y, _, rfl⟩ := List.mem_map.1 hb
      intro e
      cases e
  · rintro (b | k) x hx
    · simp only [place, Option.map_eq_some_iff] at hx
      obtain ⟨f, hf, rfl⟩ := hx
      exact ⟨_, List.mem_append_left _ (List.mem_map.2 ⟨b, (h2 b).2 (by rw [hf]; rfl), rfl⟩), rfl⟩
    · simp only [place, Option.bind_eq_some_iff] at hx
      obtain ⟨d, hd, hx⟩ := hx
      split at hx
      · cases hx
      · rename_i hne
        cases hx
        have hl := lenOf_some hd
        refine ⟨_, List.mem_append_right _ (List.mem_map.2 ⟨k, (h4 k).2 ?_, rfl⟩), ?_⟩
        · rw [hl]
          exact fun e => hne (List.length_eq_zero_iff.1 e)
        · rw [hl]

theorem Rel.placed (hC : C.Ok) (h : Rel0 C w) {s : Sma.St} (hm : C.F.mem = s.mem) : Placed C.P s C.F.live w := by
  obtain ⟨own, h1, h2, h3⟩ := h.items
  have hp := h1.1.apart hC.legal
  obtain ⟨p1, _, p2⟩ := List.pairwise_append.1 hp
  have hown : own.Pairwise fun a b => Sma.Disj (a.2.1, Sma.up8 a.2.2) (b.2.1, Sma.up8 b.2.2) := 
    (List.pairwise_map (f := fun a : Item × (Nat × Int) => a.2)).1 p1
  constructor
  · intro i x hx
    obtain ⟨q, g1, rfl⟩ := h3 i x hx
    obtain ⟨_, g2, g3, _⟩ := h1.at hC.legal (p := q) (List.mem_map.2 ⟨_, g1, rfl⟩)
    exact ⟨g2, g3⟩
  · intro i j x y hx hy hne
    obtain ⟨q, g1, rfl⟩ := h3 i x hx
    obtain ⟨r, g2, rfl⟩ := h3 j y hy
    exact pairwise_mem (fun a b h => disj_symm _ _ h) hown g1 g2 fun e => hne (congrArg (·.1) e)
  · intro i x hx p hp
    obtain ⟨q, g1, rfl⟩ := h3 i x hx
    exact p2 q (List.mem_map.2 ⟨_, g1, rfl⟩) p hp
  · intro p hp a h4 h5
    rw [h1.2 p hp a h4 h5, hm]

theorem free_reach {c : Sma.Cfg} (hc : Sma.Legal c) {s t : Sma.St} {L L' : List (Nat × Int)}
    (h1 : Sma.Reach c ⟨s, L⟩) (h2 : Sma.Reach c ⟨t, L'⟩) (hp : L'.Perm L) {n : Int}
    (hn : Returns Sma.freeMemSize s n s) : Returns Sma.freeMemSize t n t := by
  obtain ⟨⟨K1, k1⟩, a1, _⟩ := Sma.sma_accounting hc h1
  obtain ⟨⟨K2, k2⟩, a2, _⟩ := Sma.sma_accounting hc h2
  obtain ⟨f1, r1, e1, _⟩ := a1 K1 k1
  obtain ⟨f2, r2, e2, _⟩ := a2 K2 k2
  obtain ⟨rfl, _⟩ := hn.det r1
  have : n = f2 := by
    rw [e1, e2]
    have hq : (Sma.taken L').Perm (Sma.taken L) := hp.map _
    have : Sma.total (Sma.taken L') = Sma.total (Sma.taken L) := by
      exact Sma.total_perm hq
    simp only [this]
  rw [this]
  exact r2

theorem Rel.gone (h : Rel0 C w) {sw : SWorld α} (hI : WInv C.acfg w.deq sw) (hn : ∀ k, sw k = Option.none) :
    ∃ L', L'.Perm C.F.live ∧ Sma.Reach C.P.sma ⟨w.pool, L'⟩ := by
  have hobj : ∀ k, w.deq.obj k = Option.none := fun k => by
    have h1 := hI.obj k
    rw [hn k] at h1
    cases ho : w.deq.obj k with
    | none => rfl
    | some d =>
      rw [ho] at h1
      exact absurd h1 (by simp [Deq.ObjOpt])
  obtain ⟨bs, ts, h1, h2, h3, h4, h5⟩ := h.holds
  have e1 : bs = [] := List.eq_nil_iff_forall_not_mem.2 fun b hb => by
    obtain ⟨f, hf⟩ := Option.isSome_iff_exists.1 ((h2 b).1 hb)
    obtain ⟨k, hk⟩ := hI.owned b f hf
    rw [hobj k] at hk
    cases hk
  have e2 : ts = [] := List.eq_nil_iff_forall_not_mem.2 fun k hk => by
    refine (h4 k).1 hk ?_
    unfold lenOf
    rw [hobj k]
    rfl
  subst e1
  subst e2
  obtain ⟨L', g1, g2⟩ := h5.1
  exact ⟨L', g1, g2⟩

end Verif.DeqPool
