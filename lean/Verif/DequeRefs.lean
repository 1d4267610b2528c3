import Verif.DequeWorld

/-! # Lemmas about the deque model: where elements live -/

namespace Verif.Deq

open Prog

variable {α : Type} {cfg : Cfg α}

/-- The element at position `i` of deque `k` is in the slot `c`. -/
def At (cfg : Cfg α) (m : World α) (k i : Nat) (c : CPtr) : Prop :=
  ∃ d own l P, m.obj k = some d ∧ Used cfg m own d l P ∧ i < l.length ∧ c = curAt cfg.A d.tbl (P + i)

/-- Working on another deque does not move the element. -/
theorem At.other {m m' : World α} {w : SWorld α} (h : WInv cfg m w) {j k i : Nat} {c : CPtr}
    {own' : List Nat} (st : Step cfg m m' j (tblOf (m.obj j)) own') (hjk : k ≠ j)
    (ha : At cfg m k i c) : At cfg m' k i c := by
  obtain ⟨d, own, l, P, h1, h2, h3, h4⟩ := ha
  refine ⟨d, own, l, P, by rw [st.objs k hjk]; exact h1, h2.congr ?_, h3, h4⟩
  intro b hb
  have hb' : b ∈ tblOf (m.obj k) := by rw [h1]; exact hb
  exact st.keep b (h.disj k j hjk b hb') ((h.own k).2 b hb').2.1

/-- The element of a deque that is not stale. -/
theorem At.used {m : World α} {w : SWorld α} (h : WInv cfg m w) {k i : Nat} {c : CPtr}
    (ha : At cfg m k i c) {s : SD α} (hs : w k = some s) (hp : s.ph ≠ .stale) (hA : 0 < cfg.A)
    (hadj : AdjUp cfg) :
    ∃ d P, m.obj k = some d ∧ OwnOk m d.tbl ∧ Used cfg m k d s.l P ∧ i < s.l.length ∧
      c = curAt cfg.A d.tbl (P + i) := by
  obtain ⟨d, own, l, P, h1, h2, h3, h4⟩ := ha
  obtain ⟨d', h5, hI, hO⟩ := h.get hs
  rw [h1] at h5; cases h5
  unfold ObjInv at hI
  have hlen : d.tbl ≠ [] := fun h0 => by have := h2.two; rw [h0] at this; simp at this
  cases hp' : s.ph <;> rw [hp'] at hI
  · exact absurd (by rw [hI.1]; rfl) hlen
  · obtain ⟨P', hU⟩ := hI
    have e := h2.unique hA hadj hO hU
    subst e
    exact ⟨d, P, h1, hO, hU, by rw [← hU.sz, h2.sz]; exact h3, h4⟩
  · exact absurd hI.1.tbl hlen
  · exact absurd hI.1.tbl hlen
  · exact absurd hp' hp

theorem pushBack_at (hA : 0 < cfg.A) (hadj : AdjUp cfg) {m : World α} {w : SWorld α}
    (h : WInv cfg m w) {j : Nat} {s : SD α} (hs : w j = some s) (hp : s.ph ≠ .stale) {a : Arg α} {x : α}
    (hx : ArgLive cfg m a x) {k i : Nat} {c : CPtr} (ha : At cfg m k i c) :
    wp (pushBack cfg j a) (fun _ m' => At cfg m' k i c) m := by
  obtain ⟨d, hd, hI, hO⟩ := h.get hs
  refine wp_mono (pushBack_ok hA hadj hd h.bal.2.1 hO (hI.ready hp) hx) ?_
  rintro _ m' ⟨d', P', h1, h2, h3, _, h4⟩
  by_cases hk : k = j
  · subst hk
    obtain ⟨d0, P, e1, _, hU, hi, rfl⟩ := ha.used h hs hp hA hadj
    rw [hd] at e1; cases e1
    exact ⟨d', k, _, P', h1, h2, by rw [List.length_append]; omega, (h4 P hU i hi).symm⟩
  · exact At.other h (own' := d'.tbl) (by rw [hd]; exact h3) hk ha

theorem pushFront_at (hA : 0 < cfg.A) (hadj : AdjUp cfg) {m : World α} {w : SWorld α}
    (h : WInv cfg m w) {j : Nat} {s : SD α} (hs : w j = some s) (hp : s.ph ≠ .stale) {a : Arg α} {x : α}
    (hx : ArgLive cfg m a x) {k i : Nat} {c : CPtr} (ha : At cfg m k i c) :
    wp (pushFront cfg j a) (fun _ m' => At cfg m' k (if k = j then i + 1 else i) c) m := by
  obtain ⟨d, hd, hI, hO⟩ := h.get hs
  refine wp_mono (pushFront_ok hA hadj hd h.bal.2.1 hO (hI.ready hp) hx) ?_
  rintro _ m' ⟨d', P', h1, h2, h3, _, h4⟩
  by_cases hk : k = j
  · subst hk
    obtain ⟨d0, P, e1, _, hU, hi, rfl⟩ := ha.used h hs hp hA hadj
    rw [hd] at e1; cases e1
    rw [if_pos rfl]
    exact ⟨d', k, _, P', h1, h2, by rw [List.length_cons]; omega, (h4 P hU i hi).symm⟩
  · rw [if_neg hk]
    exact At.other h (own' := d'.tbl) (by rw [hd]; exact h3) hk ha

theorem popBack_at (hA : 0 < cfg.A) (hadj : AdjUp cfg) {m : World α} {w : SWorld α}
    (h : WInv cfg m w) {j : Nat} {s : SD α} (hs : w j = some s) (hp : s.ph ≠ .stale) (hl : s.l ≠ [])
    {k i : Nat} {c : CPtr} (ha : At cfg m k i c) (hne : ¬ (k = j ∧ s.l.length = i + 1)) :
    wp (popBack cfg j) (fun _ m' => At cfg m' k i c) m := by
  obtain ⟨d, hd, hI, hO⟩ := h.get hs
  obtain ⟨_, P, hU⟩ := hI.used hp hl
  refine wp_mono (popBack_ok hA hadj hd hO hU hl) ?_
  rintro _ m' ⟨d', h1, h2, h3, h4, _⟩
  by_cases hk : k = j
  · subst hk
    obtain ⟨d0, P0, e1, _, hU0, hi, rfl⟩ := ha.used h hs hp hA hadj
    rw [hd] at e1; cases e1
    have e := hU.unique hA hadj hO hU0
    subst e
    exact ⟨d', k, _, P, h1, h2, by rw [List.length_dropLast]; omega, by rw [h4]⟩
  · exact At.other h (own' := d'.tbl) (by rw [hd]; exact h3) hk ha

theorem popFront_at (hA : 0 < cfg.A) (hadj : AdjUp cfg) {m : World α} {w : SWorld α}
    (h : WInv cfg m w) {j : Nat} {s : SD α} (hs : w j = some s) (hp : s.ph ≠ .stale) (hl : s.l ≠ [])
    {k i : Nat} {c : CPtr} (ha : At cfg m k i c) (hne : k = j → i ≠ 0) :
    wp (popFront cfg j) (fun _ m' => At cfg m' k (if k = j then i - 1 else i) c) m := by
  obtain ⟨d, hd, hI, hO⟩ := h.get hs
  obtain ⟨_, P, hU⟩ := hI.used hp hl
  refine wp_mono (popFront_ok hA hadj hd hO hU hl) ?_
  rintro _ m' ⟨d', h1, h2, h3, h4, _⟩
  by_cases hk : k = j
  · subst hk
    obtain ⟨d0, P0, e1, _, hU0, hi, rfl⟩ := ha.used h hs hp hA hadj
    rw [hd] at e1; cases e1
    have e := hU.unique hA hadj hO hU0
    subst e
    have := hne rfl
    rw [if_pos rfl]
    exact ⟨d', k, _, P + 1, h1, h2, by rw [List.length_tail]; omega,
      by rw [h4, show P + 1 + (i - 1) = P + i by omega]⟩
  · rw [if_neg hk]
    exact At.other h (own' := d'.tbl) (by rw [hd]; exact h3) hk ha

theorem set_at (hA : 0 < cfg.A) (hadj : AdjUp cfg) {m : World α} {w : SWorld α}
    (h : WInv cfg m w) {j : Nat} {s : SD α} (hs : w j = some s) (hp : s.ph ≠ .stale) {n : Nat}
    (hn : n < s.l.length) (x : α) {k i : Nat} {c : CPtr} (ha : At cfg m k i c) :
    wp (setElem cfg j n x) (fun _ m' => At cfg m' k i c) m := by
  obtain ⟨d, hd, hI, hO⟩ := h.get hs
  obtain ⟨_, P, hU⟩ := hI.used hp (fun h0 => by rw [h0] at hn; simp at hn)
  refine wp_mono (setElem_ok hA hadj hd hO hU hn x) ?_
  rintro _ m' ⟨h1, h2, h3⟩
  by_cases hk : k = j
  · subst hk
    obtain ⟨d0, P0, e1, _, hU0, hi, rfl⟩ := ha.used h hs hp hA hadj
    rw [hd] at e1; cases e1
    have e := hU.unique hA hadj hO hU0
    subst e
    exact ⟨d, k, _, P, h1, h2, by rw [List.length_set]; exact hi, rfl⟩
  · exact At.other h (own' := d.tbl) (by rw [hd]; exact h3) hk ha

theorem clear_at (hA : 0 < cfg.A) (hadj : AdjUp cfg) {m : World α} {w : SWorld α}
    (h : WInv cfg m w) {j : Nat} {s : SD α} (hs : w j = some s) (hp : s.ph ≠ .stale)
    {k i : Nat} {c : CPtr} (ha : At cfg m k i c) (hne : k ≠ j) :
    wp (onlyClear cfg j) (fun _ m' => At cfg m' k i c) m := by
  obtain ⟨d, hd, hI, hO⟩ := h.get hs
  refine wp_mono (clear_ok hA hadj hd hO hI hp) ?_
  rintro _ m' ⟨d', _, h2, _⟩
  exact At.other h (own' := d'.tbl) (by rw [hd]; exact h2) hne ha

theorem copy_at (hA : 0 < cfg.A) (hadj : AdjUp cfg) {m : World α} {w : SWorld α}
    (h : WInv cfg m w) {d s : Nat} (hds : d ≠ s) {t u : SD α} (ht : w d = some t) (hu : w s = some u)
    (hpt : t.ph ≠ .stale) (hpu : u.ph = .used ∨ u.ph = .null)
    {k i : Nat} {c : CPtr} (ha : At cfg m k i c) (hne : k ≠ d) :
    wp (copyAssign cfg d s) (fun _ m' => At cfg m' k i c) m := by
  refine wp_mono (copy_world hA hadj h hds ht hu hpt hpu) ?_
  rintro _ m' ⟨_, own', st⟩
  exact At.other h st hne ha

theorem move_at (hA : 0 < cfg.A) (hadj : AdjUp cfg) {m : World α} {w : SWorld α}
    (h : WInv cfg m w) {d s : Nat} (hds : d ≠ s) {t u : SD α} (ht : w d = some t) (hu : w s = some u)
    (hpt : t.ph ≠ .stale) (hpu : u.ph ≠ .fresh ∧ u.ph ≠ .stale)
    {k i : Nat} {c : CPtr} (ha : At cfg m k i c) (hne : k ≠ d) :
    wp (moveAssign cfg d s) (fun _ m' => At cfg m' (if k = s then d else k) i c) m := by
  refine wp_mono (move_world hA hadj h hds ht hu hpt hpu) ?_
  rintro _ m' ⟨_, m1, src, rfl, hsrc, own', st⟩
  obtain ⟨x, own, l, P, h1, h2, h3, h4⟩ := At.other h st hne ha
  by_cases hk : k = s
  · subst hk
    rw [if_pos rfl]
    rw [st.objs k hne, hsrc] at h1
    cases h1
    refine ⟨src, own, l, P, ?_, h2.congr (fun _ _ => rfl), h3, h4⟩
    unfold movedW; rw [setObj_other _ _ hds, setObj_obj]
  · rw [if_neg hk]
    refine ⟨x, own, l, P, ?_, h2.congr (fun _ _ => rfl), h3, h4⟩
    unfold movedW; rw [setObj_other _ _ hk, setObj_other _ _ hne]; exact h1

/-- One operation leaves the element where it is. -/
theorem step_at (hA : 0 < cfg.A) (hadj : AdjUp cfg) {m : World α} {w w' : SWorld α} (h : WInv cfg m w)
    {op : Op α} (hspec : specStep op w = some w') (hav : Avoids op w) {k i k' i' : Nat} {c : CPtr}
    (ha : At cfg m k i c) (hf : follow op w (k, i) = some (k', i')) :
    wp (step cfg op) (fun _ m' => At cfg m' k' i' c) m := by
  cases op with
  | new j =>
    simp only [follow, Option.some.injEq, Prod.mk.injEq] at hf
    obtain ⟨rfl, rfl⟩ := hf
    simp only [specStep] at hspec
    cases hw : w j with
    | some s => rw [hw] at hspec; simp at hspec
    | none =>
      have hm : m.obj j = none := by
        have := h.obj j
        rw [hw] at this
        cases hd : m.obj j with
        | none => rfl
        | some d => rw [hd] at this; exact absurd this (by simp [ObjOpt])
      have hkj : k ≠ j := by
        obtain ⟨d, _, _, _, h1, _⟩ := ha
        intro he; subst he; rw [hm] at h1; cases h1
      refine (wp_of_returns (putObj_ok ..) _).2 (At.other h (own' := []) ?_ hkj ha)
      rw [hm]; exact Step.setObj _
  | pushBack j x =>
    simp only [follow, Option.some.injEq, Prod.mk.injEq] at hf
    obtain ⟨rfl, rfl⟩ := hf
    simp only [specStep, Option.bind_eq_some_iff] at hspec
    obtain ⟨s, hs, _⟩ := hspec
    exact pushBack_at hA hadj h hs (hav s hs) (Or.inl rfl) ha
  | pushFront j x =>
    simp only [specStep, Option.bind_eq_some_iff] at hspec
    obtain ⟨s, hs, _⟩ := hspec
    have := pushFront_at hA hadj h hs (hav s hs) (a := .val x) (Or.inl rfl) ha
    simp only [follow] at hf
    split at hf <;> rename_i hk <;> cases hf
    · rwa [if_pos hk] at this
    · rwa [if_neg hk] at this
  | pushBackElem j n p =>
    simp only [follow, Option.some.injEq, Prod.mk.injEq] at hf
    obtain ⟨rfl, rfl⟩ := hf
    simp only [specStep, Option.bind_eq_some_iff] at hspec
    obtain ⟨s, hs, t, ht, x, hx, _⟩ := hspec
    obtain ⟨c, h1, h2⟩ := argLive_elem hA hadj h ht (hav.2 t ht) hx
    show wp (indexRef cfg n p >>= fun c => pushBack cfg j (.ref c)) _ m
    rw [wp_bind, wp_of_returns h1]
    exact pushBack_at hA hadj h hs (hav.1 s hs) h2 ha
  | pushFrontElem j n p =>
    simp only [specStep, Option.bind_eq_some_iff] at hspec
    obtain ⟨s, hs, t, ht, x, hx, _⟩ := hspec
    obtain ⟨c, h1, h2⟩ := argLive_elem hA hadj h ht (hav.2 t ht) hx
    show wp (indexRef cfg n p >>= fun c => pushFront cfg j (.ref c)) _ m
    rw [wp_bind, wp_of_returns h1]
    have := pushFront_at hA hadj h hs (hav.1 s hs) h2 ha
    simp only [follow] at hf
    split at hf <;> rename_i hk <;> cases hf
    · rwa [if_pos hk] at this
    · rwa [if_neg hk] at this
  | popBack j =>
    simp only [specStep, Option.bind_eq_some_iff] at hspec
    obtain ⟨s, hs, h1⟩ := hspec
    have hl : s.l ≠ [] := by intro h0; rw [if_pos h0] at h1; cases h1
    simp only [follow, hs, Option.map_some, Option.some.injEq] at hf
    split at hf <;> rename_i hk <;> cases hf
    exact popBack_at hA hadj h hs (hav s hs) hl ha hk
  | popFront j =>
    simp only [specStep, Option.bind_eq_some_iff] at hspec
    obtain ⟨s, hs, h1⟩ := hspec
    have hl : s.l ≠ [] := by intro h0; rw [if_pos h0] at h1; cases h1
    simp only [follow] at hf
    split at hf <;> rename_i hk
    · split at hf <;> rename_i hi <;> cases hf
      have := popFront_at hA hadj h hs (hav s hs) hl ha (fun _ => hi)
      rwa [if_pos hk] at this
    · cases hf
      have := popFront_at hA hadj h hs (hav s hs) hl ha (fun h => absurd h hk)
      rwa [if_neg hk] at this
  | clear j =>
    simp only [specStep, Option.bind_eq_some_iff] at hspec
    obtain ⟨s, hs, _⟩ := hspec
    simp only [follow] at hf
    split at hf <;> rename_i hk <;> cases hf
    exact clear_at hA hadj h hs (hav s hs) ha hk
  | set j n x =>
    simp only [follow, Option.some.injEq, Prod.mk.injEq] at hf
    obtain ⟨rfl, rfl⟩ := hf
    simp only [specStep, Option.bind_eq_some_iff] at hspec
    obtain ⟨s, hs, h1⟩ := hspec
    have hn : n < s.l.length := by
      by_cases hn : n < s.l.length
      · exact hn
      · rw [if_neg hn] at h1; cases h1
    exact set_at hA hadj h hs (hav s hs) hn x ha
  | copy d s =>
    simp only [specStep, Option.bind_eq_some_iff] at hspec
    obtain ⟨t, ht, u, hu, _⟩ := hspec
    obtain ⟨x, hx, _⟩ := h.get ht
    obtain ⟨y, hy, _⟩ := h.get hu
    show wp (getObj d >>= fun _ => getObj s >>= fun _ => if d = s then pure () else copyAssign cfg d s) _ m
    rw [wp_bind, wp_of_returns (getObj_ok hx), wp_bind, wp_of_returns (getObj_ok hy), wp_ite]
    simp only [follow] at hf
    split at hf <;> rename_i hk <;> cases hf
    refine ⟨fun _ => (wp_pure _ _ _).2 ha, fun hds => ?_⟩
    rcases hav with hav | hav
    · exact absurd hav hds
    · exact copy_at hA hadj h hds ht hu (hav.1 t ht) (hav.2 u hu) ha (fun h => hk ⟨h, hds⟩)
  | move d s =>
    simp only [specStep, Option.bind_eq_some_iff] at hspec
    obtain ⟨t, ht, u, hu, _⟩ := hspec
    obtain ⟨x, hx, _⟩ := h.get ht
    obtain ⟨y, hy, _⟩ := h.get hu
    show wp (getObj d >>= fun _ => getObj s >>= fun _ => if d = s then pure () else moveAssign cfg d s) _ m
    rw [wp_bind, wp_of_returns (getObj_ok hx), wp_bind, wp_of_returns (getObj_ok hy), wp_ite]
    simp only [follow] at hf
    constructor
    · intro hds
      rw [if_pos hds] at hf
      cases hf
      exact (wp_pure _ _ _).2 ha
    · intro hds
      rw [if_neg hds] at hf
      rcases hav with hav | hav
      · exact absurd hav hds
      · split at hf <;> rename_i hk
        · cases hf
        · have := move_at hA hadj h hds ht hu (hav.1 t ht) (hav.2 u hu) ha hk
          split at hf <;> rename_i hks <;> cases hf
          · rwa [if_pos hks] at this
          · rwa [if_neg hks] at this
  | drop j =>
    simp only [specStep, Option.bind_eq_some_iff] at hspec
    obtain ⟨s, hs, _⟩ := hspec
    simp only [follow] at hf
    split at hf <;> rename_i hk <;> cases hf
    show wp (onlyClear cfg j >>= fun _ => putObj j none) _ m
    rw [wp_bind]
    refine wp_mono (clear_at hA hadj h hs (hav s hs) ha hk) ?_
    rintro _ m' ⟨x, own, l, P, h1, h2, h3, h4⟩
    rw [wp_of_returns (putObj_ok ..)]
    exact ⟨x, own, l, P, by rw [setObj_other _ _ hk]; exact h1, h2.congr (fun _ _ => rfl), h3, h4⟩

theorem run_at (hA : 0 < cfg.A) (hadj : AdjUp cfg) {m : World α} {w w' : SWorld α} (h : WInv cfg m w)
    {ops : List (Op α)} (hspec : specRun ops w = some w') (hav : AvoidsAll ops w) {k i k' i' : Nat}
    {c : CPtr} (ha : At cfg m k i c) (hf : followAll ops w (k, i) = some (k', i')) :
    wp (run cfg ops) (fun _ m' => WInv cfg m' w' ∧ At cfg m' k' i' c) m := by
  induction ops generalizing m w k i with
  | nil =>
    cases hspec; cases hf
    exact (wp_pure _ _ _).2 ⟨h, ha⟩
  | cons op ops ih =>
    simp only [specRun, Option.bind_eq_some_iff] at hspec
    obtain ⟨w1, hs, hspec⟩ := hspec
    simp only [followAll, hs, Option.bind_some, Option.bind_eq_some_iff] at hf
    obtain ⟨⟨k1, i1⟩, hf1, hf⟩ := hf
    show wp (step cfg op >>= fun _ => run cfg ops) _ m
    rw [wp_bind]
    refine wp_mono (wp_and (step_ok hA hadj h hs hav.1) (step_at hA hadj h hs hav.1 ha hf1)) ?_
    rintro _ m1 ⟨h1, h2⟩
    exact ih h1 hspec (hav.2 w1 hs) h2 hf

/-- The slot of an element can be read, and indexing finds it while the deque is in use. -/
theorem At.read (hA : 0 < cfg.A) (hadj : AdjUp cfg) {m : World α} {w : SWorld α} (h : WInv cfg m w)
    {k i : Nat} {c : CPtr} (ha : At cfg m k i c) :
    ∃ s x, w k = some s ∧ s.l[i]? = some x ∧ Returns (readPtr cfg c) m x m ∧
      (s.ph = .used → Returns (indexRef cfg k i) m c m) := by
  obtain ⟨d, own, l, P, h1, h2, h3, h4⟩ := ha
  have hk := h.obj k
  rw [h1] at hk
  cases hw : w k with
  | none => rw [hw] at hk; exact absurd hk (by simp [ObjOpt])
  | some s =>
    rw [hw] at hk
    have hO : OwnOk m d.tbl := by have := h.own k; rw [h1] at this; exact this
    have hlen : d.tbl ≠ [] := fun h0 => by have := h2.two; rw [h0] at this; simp at this
    have key : ∃ own', Used cfg m own' d s.l P ∧ (s.ph = .used → own' = k) := by
      have hk : ObjInv cfg m k d s := hk
      unfold ObjInv at hk
      cases hp : s.ph <;> rw [hp] at hk
      · exact absurd (by rw [hk.1]; rfl) hlen
      · obtain ⟨P', hU⟩ := hk
        have e := h2.unique hA hadj hO hU
        subst e
        exact ⟨k, hU, fun _ => rfl⟩
      · exact absurd hk.1.tbl hlen
      · exact absurd hk.1.tbl hlen
      · obtain ⟨own', P', _, hU⟩ := hk
        have e := h2.unique hA hadj hO hU
        subst e
        exact ⟨own', hU, fun h => by cases h⟩
    obtain ⟨own', hU, hk'⟩ := key
    have hi : i < s.l.length := by rw [← hU.sz, h2.sz]; exact h3
    have hfit := hU.fits
    refine ⟨s, s.l[i], rfl, List.getElem?_eq_getElem hi, ?_, fun hp => ?_⟩
    · rw [h4]; exact readPtr_ok hA (by omega) (hU.inside i hi)
    · have := hk' hp
      subst this
      unfold indexRef Returns
      rw [bind_returns (getObj_ok h1), hU.beg, hU.fin, if_neg (by omega),
        bind_returns (plus_pos hA hadj (hO.tbl h1 rfl) P i (by omega)), h4]
      rfl

end Verif.Deq
