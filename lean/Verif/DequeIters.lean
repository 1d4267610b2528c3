import Verif.DequeRefs
import Verif.DequeCost

/-! # Lemmas about the deque model: how long an iterator stays usable -/

namespace Verif.Deq

open Prog

variable {α : Type} {cfg : Cfg α}

/-- `it` is the iterator at position `i` of deque `k`, which is in use and has capacity `c`. -/
def ItPos (cfg : Cfg α) (m : World α) (w : SWorld α) (k i c : Nat) (it : Iter) : Prop :=
  ∃ d s P, m.obj k = some d ∧ w k = some s ∧ s.ph = .used ∧ Used cfg m k d s.l P ∧ i ≤ s.l.length ∧
    d.cap = c ∧ it = itAt cfg.A d.tbl k (P + i)

/-- What an operation does to the iterator: it is at the new position, and is the same as before
unless the capacity grew. -/
def ItNext (cfg : Cfg α) (m' : World α) (w' : SWorld α) (k i' c : Nat) (it : Iter) : Prop :=
  ∃ c' it', ItPos cfg m' w' k i' c' it' ∧ c ≤ c' ∧ (c' = c → it' = it)

theorem ItPos.next {m' : World α} {w' : SWorld α} {k i c : Nat} {it : Iter}
    (h : ItPos cfg m' w' k i c it) : ItNext cfg m' w' k i c it :=
  ⟨c, it, h, Nat.le_refl _, fun _ => rfl⟩

/-- Working on another deque. -/
theorem ItPos.other {m m' : World α} {w w' : SWorld α} (h : WInv cfg m w) {j k i c : Nat} {it : Iter}
    {own' : List Nat} (st : Step cfg m m' j (tblOf (m.obj j)) own') (hjk : k ≠ j) (hw : w' k = w k)
    (ha : ItPos cfg m w k i c it) : ItPos cfg m' w' k i c it := by
  obtain ⟨d, s, P, h1, h2, h3, h4, h5⟩ := ha
  refine ⟨d, s, P, by rw [st.objs k hjk]; exact h1, by rw [hw]; exact h2, h3, h4.congr ?_, h5⟩
  intro b hb
  have hb' : b ∈ tblOf (m.obj k) := by rw [h1]; exact hb
  exact st.keep b (h.disj k j hjk b hb') ((h.own k).2 b hb').2.1

theorem pushBack_it (hA : 0 < cfg.A) (hadj : AdjUp cfg) {m : World α} {w : SWorld α}
    (h : WInv cfg m w) {j : Nat} {s : SD α} (hs : w j = some s) (hp : s.ph ≠ .stale) {a : Arg α} {x : α}
    (hx : ArgLive cfg m a x) {k i c : Nat} {it : Iter} (ha : ItPos cfg m w k i c it) :
    wp (pushBack cfg j a) (fun _ m' => ItNext cfg m' (w.put j (some ⟨s.l ++ [x], .used⟩)) k i c it) m := by
  obtain ⟨d, hd, hI, hO⟩ := h.get hs
  refine wp_mono (pushBack_ok hA hadj hd h.bal.2.1 hO (hI.ready hp) hx) ?_
  rintro _ m' ⟨d', P', h1, h2, h3, h4, _⟩
  by_cases hk : k = j
  · subst hk
    obtain ⟨d0, s0, P, e1, e2, _, hU, hi, rfl, rfl⟩ := ha
    rw [hd] at e1; cases e1
    rw [hs] at e2; cases e2
    refine ⟨d'.cap, itAt cfg.A d'.tbl k (P' + i), ⟨d', _, P', h1, SWorld.put_self .., rfl, h2,
      by rw [List.length_append]; omega, rfl, rfl⟩, ?_⟩
    rcases h4 with ⟨e, _⟩ | ⟨P0, hU0, h4⟩
    · have := hU.two; rw [e] at this; simp at this
    · have e := hU.unique hA hadj hO hU0
      subst e
      rcases h4 with ⟨_, e2, e3, _⟩ | ⟨_, new, _, e3⟩
      · subst e3
        rw [h2.cap, hU.cap, e2]
        exact ⟨Nat.le_refl _, fun _ => rfl⟩
      · have hl := e3.len'
        have h20 := hU.two
        have hlt : d.tbl.length * cfg.A < d'.tbl.length * cfg.A := Nat.mul_lt_mul_of_pos_right (by omega) hA
        rw [h2.cap, hU.cap]
        exact ⟨Nat.le_of_lt hlt, fun e => by omega⟩
  · exact (ItPos.other h (own' := d'.tbl) (by rw [hd]; exact h3) hk (SWorld.put_other _ _ hk) ha).next

theorem pushFront_it (hA : 0 < cfg.A) (hadj : AdjUp cfg) {m : World α} {w : SWorld α}
    (h : WInv cfg m w) {j : Nat} {s : SD α} (hs : w j = some s) (hp : s.ph ≠ .stale) {a : Arg α} {x : α}
    (hx : ArgLive cfg m a x) {k i c : Nat} {it : Iter} (ha : ItPos cfg m w k i c it) :
    wp (pushFront cfg j a) (fun _ m' => ItNext cfg m' (w.put j (some ⟨x :: s.l, .used⟩)) k
      (if k = j then i + 1 else i) c it) m := by
  obtain ⟨d, hd, hI, hO⟩ := h.get hs
  refine wp_mono (pushFront_ok hA hadj hd h.bal.2.1 hO (hI.ready hp) hx) ?_
  rintro _ m' ⟨d', P', h1, h2, h3, h4, _⟩
  by_cases hk : k = j
  · subst hk
    rw [if_pos rfl]
    obtain ⟨d0, s0, P, e1, e2, _, hU, hi, rfl, rfl⟩ := ha
    rw [hd] at e1; cases e1
    rw [hs] at e2; cases e2
    refine ⟨d'.cap, itAt cfg.A d'.tbl k (P' + (i + 1)), ⟨d', _, P', h1, SWorld.put_self .., rfl, h2,
      by rw [List.length_cons]; omega, rfl, rfl⟩, ?_⟩
    rcases h4 with ⟨e, _⟩ | ⟨P0, hU0, h4⟩
    · have := hU.two; rw [e] at this; simp at this
    · have e := hU.unique hA hadj hO hU0
      subst e
      rcases h4 with ⟨_, e2, e3, _⟩ | ⟨_, new, _, e3⟩
      · rw [h2.cap, hU.cap, e2, show P' + (i + 1) = P + i by omega]
        exact ⟨Nat.le_refl _, fun _ => rfl⟩
      · have hl := e3.len'
        have h20 := hU.two
        have hlt : d.tbl.length * cfg.A < d'.tbl.length * cfg.A := Nat.mul_lt_mul_of_pos_right (by omega) hA
        rw [h2.cap, hU.cap]
        exact ⟨Nat.le_of_lt hlt, fun e => by omega⟩
  · rw [if_neg hk]
    exact (ItPos.other h (own' := d'.tbl) (by rw [hd]; exact h3) hk (SWorld.put_other _ _ hk) ha).next

theorem popBack_it (hA : 0 < cfg.A) (hadj : AdjUp cfg) {m : World α} {w : SWorld α}
    (h : WInv cfg m w) {j : Nat} {s : SD α} (hs : w j = some s) (hp : s.ph ≠ .stale) (hl : s.l ≠ [])
    {k i c : Nat} {it : Iter} (ha : ItPos cfg m w k i c it) (hne : ¬ (k = j ∧ s.l.length = i)) :
    wp (popBack cfg j) (fun _ m' => ItNext cfg m' (w.put j (some ⟨s.l.dropLast, s.ph⟩)) k i c it) m := by
  obtain ⟨d, hd, hI, hO⟩ := h.get hs
  obtain ⟨_, P, hU⟩ := hI.used hp hl
  refine wp_mono (popBack_ok hA hadj hd hO hU hl) ?_
  rintro _ m' ⟨d', h1, h2, h3, h4, h5, _⟩
  by_cases hk : k = j
  · subst hk
    obtain ⟨d0, s0, P0, e1, e2, e3, hU0, hi, rfl, rfl⟩ := ha
    rw [hd] at e1; cases e1
    rw [hs] at e2; cases e2
    have e := hU.unique hA hadj hO hU0
    subst e
    exact ItPos.next ⟨d', _, P, h1, SWorld.put_self .., e3, h2, by rw [List.length_dropLast]; omega, h5,
      by rw [h4]⟩
  · exact (ItPos.other h (own' := d'.tbl) (by rw [hd]; exact h3) hk (SWorld.put_other _ _ hk) ha).next

theorem popFront_it (hA : 0 < cfg.A) (hadj : AdjUp cfg) {m : World α} {w : SWorld α}
    (h : WInv cfg m w) {j : Nat} {s : SD α} (hs : w j = some s) (hp : s.ph ≠ .stale) (hl : s.l ≠ [])
    {k i c : Nat} {it : Iter} (ha : ItPos cfg m w k i c it) (hne : k = j → i ≠ 0) :
    wp (popFront cfg j) (fun _ m' => ItNext cfg m' (w.put j (some ⟨s.l.tail, s.ph⟩)) k
      (if k = j then i - 1 else i) c it) m := by
  obtain ⟨d, hd, hI, hO⟩ := h.get hs
  obtain ⟨_, P, hU⟩ := hI.used hp hl
  refine wp_mono (popFront_ok hA hadj hd hO hU hl) ?_
  rintro _ m' ⟨d', h1, h2, h3, h4, h5, _⟩
  by_cases hk : k = j
  · subst hk
    obtain ⟨d0, s0, P0, e1, e2, e3, hU0, hi, rfl, rfl⟩ := ha
    rw [hd] at e1; cases e1
    rw [hs] at e2; cases e2
    have e := hU.unique hA hadj hO hU0
    subst e
    have := hne rfl
    rw [if_pos rfl]
    exact ItPos.next ⟨d', _, P + 1, h1, SWorld.put_self .., e3, h2, by rw [List.length_tail]; omega, h5,
      by rw [h4, show P + 1 + (i - 1) = P + i by omega]⟩
  · rw [if_neg hk]
    exact (ItPos.other h (own' := d'.tbl) (by rw [hd]; exact h3) hk (SWorld.put_other _ _ hk) ha).next

theorem set_it (hA : 0 < cfg.A) (hadj : AdjUp cfg) {m : World α} {w : SWorld α}
    (h : WInv cfg m w) {j : Nat} {s : SD α} (hs : w j = some s) (hp : s.ph ≠ .stale) {n : Nat}
    (hn : n < s.l.length) (x : α) {k i c : Nat} {it : Iter} (ha : ItPos cfg m w k i c it) :
    wp (setElem cfg j n x) (fun _ m' => ItNext cfg m' (w.put j (some ⟨s.l.set n x, s.ph⟩)) k i c it) m := by
  obtain ⟨d, hd, hI, hO⟩ := h.get hs
  obtain ⟨_, P, hU⟩ := hI.used hp (fun h0 => by rw [h0] at hn; simp at hn)
  refine wp_mono (setElem_ok hA hadj hd hO hU hn x) ?_
  rintro _ m' ⟨h1, h2, h3⟩
  by_cases hk : k = j
  · subst hk
    obtain ⟨d0, s0, P0, e1, e2, e3, hU0, hi, rfl, rfl⟩ := ha
    rw [hd] at e1; cases e1
    rw [hs] at e2; cases e2
    have e := hU.unique hA hadj hO hU0
    subst e
    exact ItPos.next ⟨d, _, P, h1, SWorld.put_self .., e3, h2, by rw [List.length_set]; exact hi, rfl, rfl⟩
  · exact (ItPos.other h (own' := d.tbl) (by rw [hd]; exact h3) hk (SWorld.put_other _ _ hk) ha).next

/-- One operation. -/
theorem step_it (hA : 0 < cfg.A) (hadj : AdjUp cfg) {m : World α} {w w' : SWorld α} (h : WInv cfg m w)
    {op : Op α} (hspec : specStep op w = some w') (hav : Avoids op w) {k i i' c : Nat} {it : Iter}
    (ha : ItPos cfg m w k i c it) (hf : shift op w k i = some i') :
    wp (step cfg op) (fun _ m' => ItNext cfg m' w' k i' c it) m := by
  cases op with
  | new j =>
    simp only [shift, Option.some.injEq] at hf
    subst hf
    simp only [specStep] at hspec
    cases hw : w j with
    | some s => rw [hw] at hspec; simp at hspec
    | none =>
      rw [hw] at hspec; cases hspec
      have hm : m.obj j = none := by
        have := h.obj j
        rw [hw] at this
        cases hd : m.obj j with
        | none => rfl
        | some d => rw [hd] at this; exact absurd this (by simp [ObjOpt])
      have hkj : k ≠ j := by
        obtain ⟨d, _, _, h1, _⟩ := ha
        intro he; subst he; rw [hm] at h1; cases h1
      refine (wp_of_returns (putObj_ok ..) _).2
        (ItPos.other h (own' := []) ?_ hkj (SWorld.put_other _ _ hkj) ha).next
      rw [hm]; exact Step.setObj _
  | pushBack j x =>
    simp only [shift, Option.some.injEq] at hf
    subst hf
    simp only [specStep, Option.bind_eq_some_iff, Option.some.injEq] at hspec
    obtain ⟨s, hs, rfl⟩ := hspec
    exact pushBack_it hA hadj h hs (hav s hs) (Or.inl rfl) ha
  | pushFront j x =>
    simp only [specStep, Option.bind_eq_some_iff, Option.some.injEq] at hspec
    obtain ⟨s, hs, rfl⟩ := hspec
    have := pushFront_it hA hadj h hs (hav s hs) (a := .val x) (Or.inl rfl) ha
    simp only [shift] at hf
    split at hf <;> rename_i hk <;> cases hf
    · rwa [if_pos hk] at this
    · rwa [if_neg hk] at this
  | pushBackElem j n p =>
    simp only [shift, Option.some.injEq] at hf
    subst hf
    simp only [specStep, Option.bind_eq_some_iff, Option.some.injEq] at hspec
    obtain ⟨s, hs, t, ht, x, hx, rfl⟩ := hspec
    obtain ⟨c, h1, h2⟩ := argLive_elem hA hadj h ht (hav.2 t ht) hx
    show wp (indexRef cfg n p >>= fun c => pushBack cfg j (.ref c)) _ m
    rw [wp_bind, wp_of_returns h1]
    exact pushBack_it hA hadj h hs (hav.1 s hs) h2 ha
  | pushFrontElem j n p =>
    simp only [specStep, Option.bind_eq_some_iff, Option.some.injEq] at hspec
    obtain ⟨s, hs, t, ht, x, hx, rfl⟩ := hspec
    obtain ⟨c, h1, h2⟩ := argLive_elem hA hadj h ht (hav.2 t ht) hx
    show wp (indexRef cfg n p >>= fun c => pushFront cfg j (.ref c)) _ m
    rw [wp_bind, wp_of_returns h1]
    have := pushFront_it hA hadj h hs (hav.1 s hs) h2 ha
    simp only [shift] at hf
    split at hf <;> rename_i hk <;> cases hf
    · rwa [if_pos hk] at this
    · rwa [if_neg hk] at this
  | popBack j =>
    simp only [specStep, Option.bind_eq_some_iff] at hspec
    obtain ⟨s, hs, h1⟩ := hspec
    have hl : s.l ≠ [] := by intro h0; rw [if_pos h0] at h1; cases h1
    rw [if_neg hl] at h1; cases h1
    simp only [shift, hs, Option.map_some, Option.some.injEq] at hf
    split at hf <;> rename_i hk <;> cases hf
    exact popBack_it hA hadj h hs (hav s hs) hl ha hk
  | popFront j =>
    simp only [specStep, Option.bind_eq_some_iff] at hspec
    obtain ⟨s, hs, h1⟩ := hspec
    have hl : s.l ≠ [] := by intro h0; rw [if_pos h0] at h1; cases h1
    rw [if_neg hl] at h1; cases h1
    simp only [shift] at hf
    split at hf <;> rename_i hk
    · split at hf <;> rename_i hi <;> cases hf
      have := popFront_it hA hadj h hs (hav s hs) hl ha (fun _ => hi)
      rwa [if_pos hk] at this
    · cases hf
      have := popFront_it hA hadj h hs (hav s hs) hl ha (fun h => absurd h hk)
      rwa [if_neg hk] at this
  | clear j =>
    simp only [specStep, Option.bind_eq_some_iff, Option.some.injEq] at hspec
    obtain ⟨s, hs, rfl⟩ := hspec
    simp only [shift] at hf
    split at hf <;> rename_i hk <;> cases hf
    obtain ⟨d, hd, hI, hO⟩ := h.get hs
    refine wp_mono (clear_ok hA hadj hd hO hI (hav s hs)) ?_
    rintro _ m' ⟨d', _, h2, _⟩
    exact (ItPos.other h (own' := d'.tbl) (by rw [hd]; exact h2) hk (SWorld.put_other _ _ hk) ha).next
  | set j n x =>
    simp only [shift, Option.some.injEq] at hf
    subst hf
    simp only [specStep, Option.bind_eq_some_iff] at hspec
    obtain ⟨s, hs, h1⟩ := hspec
    have hn : n < s.l.length := by
      by_cases hn : n < s.l.length
      · exact hn
      · rw [if_neg hn] at h1; cases h1
    rw [if_pos hn] at h1; cases h1
    exact set_it hA hadj h hs (hav s hs) hn x ha
  | copy d s =>
    simp only [specStep, Option.bind_eq_some_iff] at hspec
    obtain ⟨t, ht, u, hu, hspec⟩ := hspec
    obtain ⟨x, hx, _⟩ := h.get ht
    obtain ⟨y, hy, _⟩ := h.get hu
    show wp (getObj d >>= fun _ => getObj s >>= fun _ => if d = s then pure () else copyAssign cfg d s) _ m
    rw [wp_bind, wp_of_returns (getObj_ok hx), wp_bind, wp_of_returns (getObj_ok hy), wp_ite]
    simp only [shift] at hf
    split at hf <;> rename_i hk <;> cases hf
    constructor
    · intro hds
      rw [if_pos hds] at hspec; cases hspec
      exact (wp_pure _ _ _).2 ha.next
    · intro hds
      rw [if_neg hds] at hspec; cases hspec
      rcases hav with hav | hav
      · exact absurd hav hds
      · have hkd : k ≠ d := fun h => hk ⟨h, hds⟩
        refine wp_mono (copy_world hA hadj h hds ht hu (hav.1 t ht) (hav.2 u hu)) ?_
        rintro _ m' ⟨_, own', st⟩
        exact (ItPos.other h st hkd (SWorld.put_other _ _ hkd) ha).next
  | move d s =>
    simp only [specStep, Option.bind_eq_some_iff] at hspec
    obtain ⟨t, ht, u, hu, hspec⟩ := hspec
    obtain ⟨x, hx, _⟩ := h.get ht
    obtain ⟨y, hy, _⟩ := h.get hu
    show wp (getObj d >>= fun _ => getObj s >>= fun _ => if d = s then pure () else moveAssign cfg d s) _ m
    rw [wp_bind, wp_of_returns (getObj_ok hx), wp_bind, wp_of_returns (getObj_ok hy), wp_ite]
    simp only [shift] at hf
    split at hf <;> rename_i hk <;> cases hf
    constructor
    · intro hds
      rw [if_pos hds] at hspec; cases hspec
      exact (wp_pure _ _ _).2 ha.next
    · intro hds
      rw [if_neg hds] at hspec; cases hspec
      rcases hav with hav | hav
      · exact absurd hav hds
      · have hkd : k ≠ d := fun h => hk ⟨hds, Or.inl h⟩
        have hks : k ≠ s := fun h => hk ⟨hds, Or.inr h⟩
        refine wp_mono (move_world hA hadj h hds ht hu (hav.1 t ht) (hav.2 u hu)) ?_
        rintro _ m' ⟨_, m1, src, rfl, hsrc, own', st⟩
        obtain ⟨d0, s0, P, h1, h2, h3, h4, h5⟩ := ItPos.other (w' := w) h st hkd rfl ha
        refine ItPos.next ⟨d0, s0, P, ?_, ?_, h3, h4.congr (fun _ _ => rfl), h5⟩
        · unfold movedW; rw [setObj_other _ _ hks, setObj_other _ _ hkd]; exact h1
        · rw [SWorld.put_other _ _ hks, SWorld.put_other _ _ hkd]; exact h2
  | drop j =>
    simp only [specStep, Option.bind_eq_some_iff, Option.some.injEq] at hspec
    obtain ⟨s, hs, rfl⟩ := hspec
    simp only [shift] at hf
    split at hf <;> rename_i hk <;> cases hf
    show wp (onlyClear cfg j >>= fun _ => putObj j none) _ m
    rw [wp_bind]
    obtain ⟨d, hd, hI, hO⟩ := h.get hs
    refine wp_mono (clear_ok hA hadj hd hO hI (hav s hs)) ?_
    rintro _ m' ⟨d', _, st, _⟩
    obtain ⟨d0, s0, P, h1, h2, h3, h4, h5⟩ :=
      ItPos.other (w' := w) h (own' := d'.tbl) (by rw [hd]; exact st) hk rfl ha
    rw [wp_of_returns (putObj_ok ..)]
    exact ItPos.next ⟨d0, s0, P, by rw [setObj_other _ _ hk]; exact h1,
      by rw [SWorld.put_other _ _ hk]; exact h2, h3, h4.congr (fun _ _ => rfl), h5⟩

theorem run_it (hA : 0 < cfg.A) (hadj : AdjUp cfg) {m : World α} {w w' : SWorld α} (h : WInv cfg m w)
    {ops : List (Op α)} (hspec : specRun ops w = some w') (hav : AvoidsAll ops w) {k i i' c : Nat}
    {it : Iter} (ha : ItPos cfg m w k i c it) (hf : shiftAll ops w k i = some i') :
    wp (run cfg ops) (fun _ m' => WInv cfg m' w' ∧ ItNext cfg m' w' k i' c it) m := by
  induction ops generalizing m w i c it with
  | nil =>
    cases hspec; cases hf
    exact (wp_pure _ _ _).2 ⟨h, ha.next⟩
  | cons op ops ih =>
    simp only [specRun, Option.bind_eq_some_iff] at hspec
    obtain ⟨w1, hs, hspec⟩ := hspec
    simp only [shiftAll, hs, Option.bind_some, Option.bind_eq_some_iff] at hf
    obtain ⟨i1, hf1, hf⟩ := hf
    show wp (step cfg op >>= fun _ => run cfg ops) _ m
    rw [wp_bind]
    refine wp_mono (wp_and (step_ok hA hadj h hs hav.1) (step_it hA hadj h hs hav.1 ha hf1)) ?_
    rintro _ m1 ⟨h1, c1, it1, h2, hc1, he1⟩
    refine wp_mono (ih h1 hspec (hav.2 w1 hs) h2 hf) ?_
    rintro _ m2 ⟨h3, c2, it2, h4, hc2, he2⟩
    exact ⟨h3, c2, it2, h4, by omega, fun e => by rw [he2 (by omega), he1 (by omega)]⟩

/-- Getting to the iterator from `begin()`, and reading through it. -/
theorem ItPos.reach (hA : 0 < cfg.A) (hadj : AdjUp cfg) {m : World α} {w : SWorld α} (h : WInv cfg m w)
    {k i c : Nat} {it : Iter} (ha : ItPos cfg m w k i c it) :
    ∃ b s, w k = some s ∧ s.ph = .used ∧ i ≤ s.l.length ∧ Returns (begin_ k) m b m ∧
      Returns (plus cfg b i) m it m ∧ Returns (capacity k) m c m ∧
      ∀ x, s.l[i]? = some x → Returns (deref cfg it) m x m := by
  obtain ⟨d, s, P, h1, h2, h3, hU, h5, rfl, rfl⟩ := ha
  have hO : OwnOk m d.tbl := by have := h.own k; rw [h1] at this; exact this
  have hfit := hU.fits
  refine ⟨itAt cfg.A d.tbl k P, s, h2, h3, h5, ?_, plus_pos hA hadj (hO.tbl h1 rfl) P i (by omega), ?_, ?_⟩
  · unfold begin_ Returns
    rw [bind_returns (getObj_ok h1), hU.beg]
    exact copyIter_itAt ..
  · unfold Deq.capacity Returns; rw [bind_returns (getObj_ok h1)]; rfl
  · intro x hx
    obtain ⟨hi, rfl⟩ := List.getElem?_eq_some_iff.1 hx
    unfold deref Returns
    rw [bind_returns (itAt_getCur ..)]
    exact readPtr_ok hA (by omega) (hU.inside i hi)

/-! ## An iterator with the wrong index of its block -/

theorem copyIter_mk (i : Int) (c : CPtr) (t : Option Nat) (w : World α) :
    Returns (copyIter ⟨some i, some c, t⟩) w ⟨some i, some c, t⟩ w := rfl

theorem incr_wrong {w : World α} {k i b b' o : Nat} {t : List Nat} (hT : Tbl w k t)
    (hb : t[i]? = some b') {fb : Nat → Slot α} (hlive : w.blk b = some fb) (hne : b ≠ b') (ho : o < cfg.A) :
    Returns (incr cfg { idx := some (i : Int), cur := some (.at b o), tbl := some k }) w
      { idx := some (i : Int), cur := some (.at b (o + 1)), tbl := some k } w := by
  obtain ⟨g1, f, g2⟩ := hT.live b' (List.mem_of_getElem? hb)
  have hi : Returns (CPtr.incr cfg (.at b o)) w (.at b (o + 1)) w := by
    show (check _ _ >>= fun _ => _) w = _
    simp only [check, bind, Prog.bind, if_pos ho]; rfl
  have hp : ptrEq cfg (.at b (o + 1)) (.at b' cfg.A) = false := by
    have h1 : (b == b') = false := by simpa using hne
    have h2 : (cfg.A == 0) = false := by simp; omega
    simp [ptrEq, h1, h2]
  unfold incr Returns
  rw [bind_returns (getCur_mk ..), bind_returns hi,
    bind_returns (getIdx_mk ..), bind_returns (tblAt_ok hT hb),
    bind_returns (arrEnd_ok g1 g2), bind_returns (cmp_ok (live_at hlive (by omega)) (live_at g2 (by omega))), hp]
  rfl

theorem incrN_wrong {w : World α} {k i b b' o : Nat} {t : List Nat} (hT : Tbl w k t)
    (hb : t[i]? = some b') {fb : Nat → Slot α} (hlive : w.blk b = some fb) (hne : b ≠ b') (n : Nat) (ho : o + n ≤ cfg.A) :
    Returns (incrN cfg n { idx := some (i : Int), cur := some (.at b o), tbl := some k }) w
      { idx := some (i : Int), cur := some (.at b (o + n)), tbl := some k } w := by
  induction n generalizing o with
  | zero => rfl
  | succ n ih =>
    show (incr cfg _ >>= fun it => incrN cfg n it) w = _
    rw [bind_returns (incr_wrong hT hb hlive hne (by omega)), show o + (n + 1) = o + 1 + n by omega]
    exact ih (by omega)

/-- A new deque that was filled up to the end of four blocks begins with the second one. -/
theorem filled_ok (hA : 0 < cfg.A) (hadj : AdjUp cfg) (l : List α) (hl : l.length = 3 * cfg.A) :
    wp (run cfg (.new 0 :: l.map (Op.pushBack 0))) (fun _ m => In cfg m 4 cfg.A l) World.init := by
  cases l with
  | nil => simp at hl; omega
  | cons x l =>
    have hseq : ∀ (l a : List α), seqRun (l.map Act.pushBack) a = some (a ++ l) := by
      intro l
      induction l with
      | nil => intro a; rw [List.append_nil]; rfl
      | cons y l ih => intro a; rw [List.map_cons]; simp only [seqRun]; rw [ih]; simp
    have key := history_ok hA hadj (I := fun as nb P (l : List α) _ =>
      (∀ a ∈ as, ∃ y, a = Act.pushBack y) ∧ l.length + as.length = 3 * cfg.A ∧ P = cfg.A ∧
        (nb = 2 ∨ nb = 4)) ?_ (.pushBack x) (l.map Act.pushBack) rfl ?_ (hseq l [x])
    · have e : (Act.pushBack x :: l.map Act.pushBack).map (Act.op 0) = (x :: l).map (Op.pushBack 0) := by
        rw [List.map_cons, List.map_map]; rfl
      rw [e] at key
      refine wp_mono key ?_
      rintro _ m ⟨nb, P, h1, _, h3, rfl, h4⟩
      rcases h4 with rfl | rfl
      · have := h1.fits.1
        simp only [List.length_nil] at h3
        omega
      · exact h1
    · rintro a as nb P l l' N nb' P' new h2 hev hfit ⟨q1, q2, rfl, q4⟩ hs hr
      obtain ⟨y, rfl⟩ := q1 a (List.mem_cons_self ..)
      cases hs
      refine ⟨fun b hb => q1 b (List.mem_cons_of_mem _ hb), ?_⟩
      rw [List.length_append, List.length_singleton]
      rw [List.length_cons] at q2
      rcases hr with ⟨_, rfl, rfl, _⟩ | ⟨r1, hg⟩
      · exact ⟨by omega, rfl, q4⟩
      · rcases q4 with rfl | rfl
        · have e1 := hg.len'
          have e2 := hg.pos
          have hlen : l.length = cfg.A := by omega
          have hbo : boff cfg.A 2 cfg.A = 0 := by simp [boff, hA]
          rw [hbo, hlen, Nat.add_zero] at e2
          have hd : (2 * cfg.A * 2 - cfg.A) / 2 / cfg.A = 1 := by
            refine Nat.div_eq_of_lt_le ?_ ?_ <;> omega
          rw [hd] at e2
          exact ⟨by omega, by omega, Or.inr e1⟩
        · omega
    · intro P hP hlen
      refine ⟨?_, ?_, ?_, Or.inl rfl⟩
      · intro a ha
        obtain ⟨y, _, rfl⟩ := List.mem_map.1 ha
        exact ⟨y, rfl⟩
      · rw [List.length_map]; rw [List.length_cons] at hl; omega
      · rcases hP with ⟨_, h⟩ | ⟨⟨y, h⟩, _⟩
        · exact h
        · cases h

end Verif.Deq
