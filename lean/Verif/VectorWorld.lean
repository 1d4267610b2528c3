import Verif.VectorLemmas
import Verif.Spec.Vector

/-! Helper lemmas: the world invariant and its preservation by every operation. -/

namespace Verif.Vec

open Prog

variable {α : Type}

theorem wp_lift {β : Type} (p : Prog (Mem α) β) (Q : β → World α → Prop) (w : World α) :
    wp (lift p) Q w ↔ wp p (fun a m => Q a { w with mem := m }) w.mem := by
  unfold wp lift
  rcases h : p w.mem with _ | _ | ⟨a, m⟩
  · simp
  · simp
  · constructor
    · rintro ⟨b, t, h1, h2⟩; cases h1; exact ⟨a, m, rfl, h2⟩
    · rintro ⟨b, t, h1, h2⟩; cases h1; exact ⟨a, _, rfl, h2⟩

theorem faults_lift {β : Type} {p : Prog (Mem α) β} {w : World α} {e : Fault}
    (h : Faults p w.mem e) : Faults (lift p) w e := by
  unfold Faults lift at *; rw [h]

theorem wp_getObj {k : Nat} {w : World α} {v : Vec} (h : w.obj k = some v)
    (Q : Vec → World α → Prop) : wp (getObj k) Q w ↔ Q v w := by
  apply wp_of_returns; simp [Returns, getObj, h]

theorem wp_putObj (k : Nat) (v : Option Vec) (Q : Unit → World α → Prop) (w : World α) :
    wp (putObj k v) Q w ↔ Q () { w with obj := fun x => if x = k then v else w.obj x } :=
  wp_modify _ _ _

/-- The invariant tying a world of vector objects to its specification. -/
structure WInv (w : World α) (sw : SWorld α) : Prop where
  wf : w.mem.WF
  dead : ∀ k, sw k = none → w.obj k = none
  alive : ∀ k s, sw k = some s → ∃ v, w.obj k = some v ∧ Rep w.mem v s.data ∧ v.cap = s.cap
  sep : ∀ j k v u, j ≠ k → w.obj j = some v → w.obj k = some u → v.c ≠ 0 → v.c ≠ u.c
  owned : ∀ b, w.mem.blk b ≠ none → ∃ k v, w.obj k = some v ∧ v.c = b
  lost : w.mem.lost = 0

theorem WInv.init : WInv (World.init : World α) (fun _ => none) :=
  ⟨Mem.WF.init, fun _ _ => rfl, fun _ _ h => (by cases h), fun _ _ _ _ _ h => (by cases h),
    fun _ h => absurd rfl h, rfl⟩

theorem WInv.cap_le {w : World α} {sw : SWorld α} (h : WInv w sw) {k : Nat} {s : SVec α}
    (hs : sw k = some s) : s.data.length ≤ s.cap := by
  obtain ⟨v, _, hr, hc⟩ := h.alive k s hs
  rw [← hc]
  by_cases h0 : v.c = 0
  · rw [(hr.null h0).2]; simp
  · exact (hr.buf h0).2.1

/-- Replace one object. -/
theorem WInv.update {w : World α} {sw : SWorld α} (h : WInv w sw) {k : Nat} {v v' : Vec}
    {m' : Mem α} {l : List α} {cap : Nat}
    (hv : w.obj k = some v ∨ (w.obj k = none ∧ v = Vec.empty))
    (hr : Rep m' v' l) (hc : v'.cap = cap) (hf : Frame w.mem m' v v') (hw : m'.WF) :
    WInv { mem := m', obj := fun x => if x = k then some v' else w.obj x }
      (sw.put k (some ⟨l, cap⟩)) := by
  have hsepv : ∀ j u, j ≠ k → w.obj j = some u → u.c ≠ 0 → u.c ≠ v.c ∧ u.c < w.mem.next := by
    intro j u hj hu h0
    constructor
    · rcases hv with hv | ⟨_, rfl⟩
      · exact h.sep j k u v hj hu hv h0
      · exact h0
    · rcases hs : sw j with _ | s
      · rw [h.dead j hs] at hu; cases hu
      · obtain ⟨u', h1, h2, _⟩ := h.alive j s hs
        rw [hu] at h1; cases h1; exact h2.fresh
  have hsepv' : ∀ j u, j ≠ k → w.obj j = some u → u.c ≠ 0 → u.c ≠ v'.c := by
    intro j u hj hu h0
    obtain ⟨h1, h2⟩ := hsepv j u hj hu h0
    rcases hf.new with h3 | h3 | h3 <;> omega
  refine ⟨hw, ?_, ?_, ?_, ?_, ?_⟩
  · intro j hj
    simp only [SWorld.put] at hj ⊢
    split at hj
    · cases hj
    · rename_i hjk; rw [if_neg hjk]; exact h.dead j hj
  · intro j s hs
    simp only [SWorld.put] at hs
    by_cases hjk : j = k
    · simp only [hjk, if_true] at hs ⊢
      cases hs
      exact ⟨v', rfl, hr, hc⟩
    · simp only [if_neg hjk] at hs ⊢
      obtain ⟨u, h1, h2, h3⟩ := h.alive j s hs
      refine ⟨u, h1, ?_, h3⟩
      by_cases h0 : u.c = 0
      · obtain ⟨rfl, h4⟩ := h2.null h0
        rw [h4]; exact Rep.empty hw
      · exact h2.mono (hf.other _ (hsepv j u hjk h1 h0).1 (hsepv' j u hjk h1 h0)) hf.next
  · intro i j a b hij ha hb h0
    simp only at ha hb
    by_cases hi : i = k
    · rw [if_pos hi] at ha; cases ha
      have hj : j ≠ k := fun h => hij (hi.trans h.symm)
      rw [if_neg hj] at hb
      intro heq
      exact hsepv' j b hj hb (by rw [← heq]; exact h0) heq.symm
    · rw [if_neg hi] at ha
      by_cases hj : j = k
      · rw [if_pos hj] at hb; cases hb
        exact hsepv' i a hi ha h0
      · rw [if_neg hj] at hb
        exact h.sep i j a b hij ha hb h0
  · intro b hb
    simp only at hb ⊢
    by_cases h1 : b = v'.c
    · exact ⟨k, v', by simp, h1.symm⟩
    · by_cases h2 : b = v.c
      · exfalso
        apply hb
        subst h2
        by_cases h0 : v.c = 0
        · rw [h0]; exact hw.null
        · exact hf.gone (Ne.symm h1) h0
      · rw [hf.other b h2 h1] at hb
        obtain ⟨j, u, h3, h4⟩ := h.owned b hb
        by_cases hj : j = k
        · subst hj
          rcases hv with hv | ⟨hv, _⟩
          · rw [hv] at h3; cases h3; exact absurd h4.symm h2
          · rw [hv] at h3; cases h3
        · exact ⟨j, u, by simp [hj, h3], h4⟩
  · rw [hf.lost]; exact h.lost

/-- Drop one object whose buffer has been released. -/
theorem WInv.drop {w : World α} {sw : SWorld α} (h : WInv w sw) {k : Nat} {v : Vec}
    {m' : Mem α} (hv : w.obj k = some v) (hf : Frame w.mem m' v Vec.empty) (hw : m'.WF) :
    WInv { mem := m', obj := fun x => if x = k then none else w.obj x } (sw.put k none) := by
  have h' := h.update (Or.inl hv) (Rep.empty hw) rfl hf hw
  refine ⟨hw, ?_, ?_, ?_, ?_, h'.lost⟩
  · intro j hj
    simp only [SWorld.put] at hj ⊢
    by_cases hjk : j = k
    · simp [hjk]
    · simp only [if_neg hjk] at hj ⊢; exact h.dead j hj
  · intro j s hs
    simp only [SWorld.put] at hs
    by_cases hjk : j = k
    · simp [hjk] at hs
    · have := h'.alive j s (by simpa [SWorld.put, hjk] using hs)
      simpa [hjk] using this
  · intro i j a b hij ha hb h0
    simp only at ha hb
    by_cases hi : i = k
    · simp [hi] at ha
    · by_cases hj : j = k
      · simp [hj] at hb
      · simp only [if_neg hi, if_neg hj] at ha hb
        exact h.sep i j a b hij ha hb h0
  · intro b hb
    obtain ⟨j, u, h1, h2⟩ := h'.owned b hb
    simp only at h1
    by_cases hj : j = k
    · rw [if_pos hj] at h1; cases h1
      exfalso; apply hb; rw [← h2]; exact hw.null
    · exact ⟨j, u, by simpa [hj] using h1, h2⟩

theorem growCap_eq {len cap : Nat} : growCap len cap = capAfterPush len cap := by
  unfold growCap capAfterPush
  split
  · rfl
  · split <;> omega

/-- The situations in which the code is known to go wrong although the operation is
legal: copying a non-empty vector of a type with a non-trivial destructor, and
`k.push_back(k[i])` when `k` is full. -/
def Avoids (triv : Bool) : Op α → SWorld α → Prop
  | .copy d s, w => d = s ∨ triv = true ∨ ∀ u, w s = some u → u.data = []
  | .pushElem k j _, w => k ≠ j ∨ ∀ v, w k = some v → v.data.length < v.cap
  | _, _ => True

/-- Every operation of the history avoids the defective situations. -/
def AvoidsAll (triv : Bool) : List (Op α) → SWorld α → Prop
  | [], _ => True
  | op :: ops, w => Avoids triv op w ∧ ∀ w', specStep op w = some w' → AvoidsAll triv ops w'

theorem pyIndex_some {n : Nat} {i : Int} {p : Nat} (h : pyIndex n i = some p) :
    p < n ∧ (i = p ∨ i = (p : Int) - n) := by
  unfold pyIndex at h
  split at h
  · cases h; omega
  · split at h
    · cases h; omega
    · cases h

theorem step_ok {triv : Bool} {op : Op α} {w : World α} {sw sw' : SWorld α} (h : WInv w sw)
    (hs : specStep op sw = some sw') (ha : Avoids triv op sw) :
    wp (step triv op) (fun _ w' => WInv w' sw') w := by
  cases op with
  | new k =>
    simp only [specStep] at hs
    split at hs
    · rename_i hk
      cases hs
      have hk' := h.dead k (by simpa using hk)
      rw [step, stepWith, wp_putObj]
      exact h.update (Or.inr ⟨hk', rfl⟩) (Rep.empty h.wf) rfl
        ⟨fun _ _ _ => rfl, fun h => absurd rfl h, Or.inl rfl, Nat.le_refl _, rfl⟩ h.wf
    · cases hs
  | newFill k n x =>
    simp only [specStep] at hs
    split at hs
    · rename_i hk
      cases hs
      have hk' := h.dead k (by simpa using hk.1)
      rw [step, stepWith, wp_bind, wp_lift]
      refine wp_mono (ctorFill_ok h.wf n hk.2 x) ?_
      rintro v' m' ⟨h1, h2, h3, h4⟩
      rw [wp_putObj]
      exact h.update (Or.inr ⟨hk', rfl⟩) h1 h2 h3 h4
    · cases hs
  | push k x =>
    rcases hk : sw k with _ | s
    · simp [specStep, hk] at hs
    · simp only [specStep, hk, Option.bind_eq_bind, Option.bind_some, Option.some.injEq] at hs
      subst hs
      obtain ⟨v, h1, h2, h3⟩ := h.alive k s hk
      rw [step, stepWith, wp_bind, wp_getObj h1, wp_bind, wp_lift]
      refine wp_mono (pushBack_ok h.wf h2 (val_get x _) (fun _ => Or.inl rfl)) ?_
      rintro v' m' ⟨g1, g2, g3, g4⟩
      rw [wp_putObj]
      exact h.update (Or.inl h1) g1 (by rw [g2, growCap_eq, h3]) g3 g4
  | pushElem k j i =>
    rcases hk : sw k with _ | s
    · simp [specStep, hk] at hs
    rcases hj : sw j with _ | t
    · simp [specStep, hk, hj] at hs
    rcases hi : t.data[i]? with _ | x
    · simp [specStep, hk, hj, hi] at hs
    simp only [specStep, hk, hj, hi, Option.bind_eq_bind, Option.bind_some, Option.some.injEq] at hs
    subst hs
    obtain ⟨v, h1, h2, h3⟩ := h.alive k s hk
    obtain ⟨u, u1, u2, u3⟩ := h.alive j t hj
    obtain ⟨hil, hix⟩ := List.getElem?_eq_some_iff.1 hi
    have hread := u2.read_ok i hil
    rw [hix] at hread
    rw [step, stepWith, wp_bind, wp_getObj h1, wp_bind, wp_getObj u1, wp_bind, wp_dassert]
    refine ⟨by rw [u2.size]; exact hil, ?_⟩
    rw [wp_bind, wp_lift]
    refine wp_mono (pushBack_ok (x := x) h.wf h2 hread ?_) ?_
    · intro hfull
      right
      refine ⟨u.c, i, rfl, ?_, u2.fresh⟩
      rcases ha with ha | ha
      · have hu0 : u.c ≠ 0 := fun h0 => by rw [(u2.null h0).2] at hil; simp at hil
        exact h.sep j k u v (Ne.symm ha) u1 h1 hu0
      · have := ha s hk; omega
    · rintro v' m' ⟨g1, g2, g3, g4⟩
      rw [wp_putObj]
      exact h.update (Or.inl h1) g1 (by rw [g2, growCap_eq, h3]) g3 g4
  | pop k =>
    rcases hk : sw k with _ | s
    · simp [specStep, hk] at hs
    · simp only [specStep, hk, Option.bind_eq_bind, Option.bind_some] at hs
      split at hs
      · cases hs
      · rename_i hne
        cases hs
        obtain ⟨v, h1, h2, h3⟩ := h.alive k s hk
        rw [step, stepWith, wp_bind, wp_getObj h1, wp_bind, wp_lift]
        refine wp_mono (popBack_ok h.wf h2 hne) ?_
        rintro v' m' ⟨g1, g2, g3, g4⟩
        rw [wp_putObj]
        exact h.update (Or.inl h1) g1 (by rw [g2, h3]; rfl) g3 g4
  | set k i x =>
    rcases hk : sw k with _ | s
    · simp [specStep, hk] at hs
    rcases hp : pyIndex s.data.length i with _ | p
    · simp [specStep, hk, hp] at hs
    simp only [specStep, hk, hp, Option.bind_eq_bind, Option.bind_some] at hs
    split at hs
    · rename_i hlen
      cases hs
      obtain ⟨v, h1, h2, h3⟩ := h.alive k s hk
      obtain ⟨hp1, hp2⟩ := pyIndex_some hp
      rw [step, stepWith, wp_bind, wp_getObj h1, wp_lift]
      refine wp_mono (setIndex_ok h.wf h2 hlen i p hp1 hp2) ?_
      rintro _ m' ⟨g1, g3, g4⟩
      have := h.update (Or.inl h1) g1 h3 g3 g4
      have hobj : (fun x => if x = k then some v else w.obj x) = w.obj := by
        funext y; split
        · rename_i hy; rw [hy, h1]
        · rfl
      rw [hobj] at this
      exact this
    · cases hs
  | resize k n =>
    rcases hk : sw k with _ | s
    · simp [specStep, hk] at hs
    · simp only [specStep, hk, Option.bind_eq_bind, Option.bind_some, Option.some.injEq] at hs
      subst hs
      obtain ⟨v, h1, h2, h3⟩ := h.alive k s hk
      rw [step, stepWith, wp_bind, wp_getObj h1, wp_bind, wp_lift]
      refine wp_mono (resize_ok h.wf h2 n) ?_
      rintro v' m' ⟨g1, g2, g3, g4, _⟩
      rw [wp_putObj]
      exact h.update (Or.inl h1) g1 g2 g3 g4
  | resizeFill k n x =>
    rcases hk : sw k with _ | s
    · simp [specStep, hk] at hs
    · simp only [specStep, hk, Option.bind_eq_bind, Option.bind_some, Option.some.injEq] at hs
      subst hs
      obtain ⟨v, h1, h2, h3⟩ := h.alive k s hk
      rw [step, stepWith, wp_bind, wp_getObj h1, wp_bind, wp_lift]
      refine wp_mono (resizeFill_ok h.wf h2 n x) ?_
      rintro v' m' ⟨g1, g2, g3, g4⟩
      rw [wp_putObj]
      exact h.update (Or.inl h1) g1 g2 g3 g4
  | clear k =>
    rcases hk : sw k with _ | s
    · simp [specStep, hk] at hs
    · simp only [specStep, hk, Option.bind_eq_bind, Option.bind_some, Option.some.injEq] at hs
      subst hs
      obtain ⟨v, h1, h2, h3⟩ := h.alive k s hk
      rw [step, stepWith, wp_bind, wp_getObj h1, wp_bind, wp_lift]
      refine wp_mono (clear_ok h.wf h2) ?_
      rintro v' m' ⟨rfl, g3, g4, _⟩
      rw [wp_putObj]
      exact h.update (Or.inl h1) (Rep.empty g4) rfl g3 g4
  | copy d s =>
    rcases hd : sw d with _ | t
    · simp [specStep, hd] at hs
    rcases hk : sw s with _ | r
    · simp [specStep, hd, hk] at hs
    simp only [specStep, hd, hk, Option.bind_eq_bind, Option.bind_some, Option.some.injEq] at hs
    subst hs
    obtain ⟨v, h1, h2, h3⟩ := h.alive d t hd
    obtain ⟨u, u1, u2, u3⟩ := h.alive s r hk
    rw [step, stepWith, wp_bind, wp_getObj h1, wp_bind, wp_getObj u1, wp_ite]
    refine ⟨fun hds => ?_, fun hds => ?_⟩
    · subst hds
      rw [wp_pure]
      have : sw.put d (some r) = sw := by
        funext y; simp only [SWorld.put]; split
        · rename_i hy; rw [hy, hk]
        · rfl
      rw [this]; exact h
    · rw [wp_bind, wp_lift]
      refine wp_mono (copyAssign_ok h.wf h2 u2 (h.sep d s v u hds h1 u1) ?_) ?_
      · rcases ha with ha | ha | ha
        · exact absurd ha hds
        · exact Or.inl ha
        · exact Or.inr (ha r hk)
      · rintro v' m' ⟨g1, g2, g3, g4⟩
        rw [wp_putObj]
        exact h.update (Or.inl h1) g1 (by rw [g2, u3]) g3 g4
  | move d s =>
    rcases hd : sw d with _ | t
    · simp [specStep, hd] at hs
    rcases hk : sw s with _ | r
    · simp [specStep, hd, hk] at hs
    simp only [specStep, hd, hk, Option.bind_eq_bind, Option.bind_some] at hs
    obtain ⟨v, h1, h2, h3⟩ := h.alive d t hd
    obtain ⟨u, u1, u2, u3⟩ := h.alive s r hk
    rw [step, stepWith, wp_bind, wp_getObj h1, wp_bind, wp_getObj u1, wp_ite]
    refine ⟨fun hds => ?_, fun hds => ?_⟩
    · rw [if_pos hds] at hs; cases hs
      rw [wp_pure]; exact h
    · rw [if_neg hds] at hs; cases hs
      rw [wp_bind, wp_lift, moveAssign, wp_bind]
      refine wp_mono (clear_ok h.wf h2) ?_
      rintro v' m' ⟨rfl, g3, g4, _⟩
      rw [wp_pure]
      simp only
      rw [wp_bind, wp_putObj, wp_putObj]
      have hc := h.update (Or.inl h1) (Rep.empty g4) rfl g3 g4
      -- `hc`: the world with `d` cleared
      obtain ⟨u', k1, k2, k3⟩ := hc.alive s r (by simp [SWorld.put, Ne.symm hds, hk])
      simp only [if_neg (Ne.symm hds)] at k1
      rw [u1] at k1; cases k1
      refine ⟨g4, ?_, ?_, ?_, ?_, hc.lost⟩
      · intro j hj
        simp only [SWorld.put] at hj ⊢
        by_cases hjs : j = s
        · simp [hjs] at hj
        · by_cases hjd : j = d
          · simp [hjd, hds] at hj
          · simp only [if_neg hjs, if_neg hjd] at hj ⊢; exact h.dead j hj
      · intro j q hq
        simp only [SWorld.put] at hq ⊢
        by_cases hjs : j = s
        · simp only [hjs, if_true] at hq ⊢
          cases hq
          exact ⟨_, rfl, Rep.empty g4, rfl⟩
        · by_cases hjd : j = d
          · simp only [hjd, if_true, if_neg hds] at hq ⊢
            cases hq
            exact ⟨u, rfl, k2, u3⟩
          · simp only [if_neg hjs, if_neg hjd] at hq ⊢
            have := hc.alive j q (by simp [SWorld.put, hjd, hq])
            simpa [hjd] using this
      · intro i j a b hij ha' hb' h0
        simp only at ha' hb'
        by_cases his : i = s
        · simp only [his, if_true, Option.some.injEq] at ha'; subst ha'; exact absurd rfl h0
        · by_cases hjs : j = s
          · simp only [hjs, if_true, Option.some.injEq] at hb'; subst hb'; exact h0
          · simp only [if_neg his, if_neg hjs] at ha' hb'
            by_cases hid : i = d
            · simp only [hid, if_true, Option.some.injEq] at ha'; subst ha'
              have hjd : j ≠ d := fun h => hij (hid.trans h.symm)
              simp only [if_neg hjd] at hb'
              exact h.sep s j u b (Ne.symm hjs) u1 hb' h0
            · simp only [if_neg hid] at ha'
              by_cases hjd : j = d
              · simp only [hjd, if_true, Option.some.injEq] at hb'; subst hb'
                exact h.sep i s a u his ha' u1 h0
              · simp only [if_neg hjd] at hb'
                exact h.sep i j a b hij ha' hb' h0
      · intro b hb
        obtain ⟨j, a, p1, p2⟩ := hc.owned b hb
        simp only at p1
        by_cases hjd : j = d
        · simp only [hjd, if_true, Option.some.injEq] at p1; subst p1
          exfalso; apply hb; rw [← p2]; exact g4.null
        · simp only [if_neg hjd] at p1
          by_cases hjs : j = s
          · subst hjs; rw [u1] at p1; cases p1
            exact ⟨d, u, by simp [hds], p2⟩
          · exact ⟨j, a, by simp [hjs, hjd, p1], p2⟩
  | drop k =>
    rcases hk : sw k with _ | s
    · simp [specStep, hk] at hs
    · simp only [specStep, hk, Option.bind_eq_bind, Option.bind_some, Option.some.injEq] at hs
      subst hs
      obtain ⟨v, h1, h2, h3⟩ := h.alive k s hk
      rw [step, stepWith, wp_bind, wp_getObj h1, wp_bind, wp_lift]
      refine wp_mono (clear_ok h.wf h2) ?_
      rintro v' m' ⟨rfl, g3, g4, _⟩
      rw [wp_putObj]
      exact h.drop h1 g3 g4

theorem run_ok {triv : Bool} {ops : List (Op α)} {w : World α} {sw sw' : SWorld α} (h : WInv w sw)
    (hs : specRun ops sw = some sw') (ha : AvoidsAll triv ops sw) :
    wp (run triv ops) (fun _ w' => WInv w' sw') w := by
  induction ops generalizing w sw with
  | nil =>
    simp only [specRun, Option.some.injEq] at hs
    subst hs
    exact (wp_pure _ _ _).2 h
  | cons op ops ih =>
    simp only [specRun] at hs
    rcases h1 : specStep op sw with _ | s1
    · simp [h1] at hs
    · simp only [h1, Option.bind_some] at hs
      show wp (do step triv op; run triv ops) _ w
      rw [wp_bind]
      refine wp_mono (step_ok h h1 ha.1) ?_
      intro _ w1 hw1
      exact ih hw1 hs (ha.2 s1 h1)

theorem WInv.shows {w : World α} {sw : SWorld α} (h : WInv w sw) : Shows w sw := by
  intro k
  refine ⟨h.dead k, ?_⟩
  intro s hs
  obtain ⟨v, h1, h2, h3⟩ := h.alive k s hs
  exact ⟨v, h1, h2.size, h3, iterate_ok h2, fun hlen i hi => index_ok h2 hlen i hi,
    fun hne => ⟨front_ok h2 hne, back_ok h2 hne⟩⟩

/-- Copying a non-empty vector of a type with a non-trivial destructor destroys raw storage. -/
theorem copyAssign_faults {m : Mem α} {v r : Vec} {t u : List α} (hw : m.WF) (g2 : Rep m v t)
    (r2 : Rep m r u) (hne : u ≠ []) : Faults (copyAssign false v r) m .badDestroy := by
  have hr0 : r.c ≠ 0 := fun h => hne (r2.null h).2
  obtain ⟨c0, cle, f, cb, cf⟩ := r2.buf hr0
  have hpos : 0 < u.length := List.length_pos_iff.2 hne
  unfold copyAssign copyAssignWith
  refine faults_bind_of_wp (wp_mono (clear_ok hw g2) ?_)
  rintro v1 m1 ⟨rfl, f1, w1, n1⟩
  refine faults_bind_of_wp (wp_mono (resize_ok w1 (Rep.empty w1) r.cap) ?_)
  rintro v2 m2 ⟨q1, q2, q3, q4, q5⟩
  simp only
  refine bind_faults ?_
  have hsz := r2.size
  rw [show r.sz = (r.sz - 1) + 1 by omega]
  unfold forRange
  refine bind_faults (bind_faults ?_)
  have hv20 : v2.c ≠ 0 := by
    intro h
    have := (q1.null h).1
    rw [this] at q2
    exact c0 q2.symm
  obtain ⟨_, _, g, e1, e2⟩ := q1.buf hv20
  unfold destroy Faults
  have k1 : Returns (check (σ := Mem α) (v2.c ≠ 0 ∨ ((0 : Nat) : Int) ≠ 0) Fault.crash) m2 () m2 := by
    simp [Returns, check, hv20]
  rw [bind_returns k1, bind_returns (access_ok hv20 e1 (i := 0) (show 0 < v2.cap by omega))]
  simp only
  apply bind_faults
  simp [Faults, check, e2]

theorem step_copy_faults {w : World α} {sw : SWorld α} (h2 : WInv w sw) {d s : Nat} (hds : d ≠ s)
    {t u : SVec α} (hd : sw d = some t) (hsrc : sw s = some u) (hne : u.data ≠ []) :
    Faults (step false (.copy d s)) w .badDestroy := by
  obtain ⟨v, g1, g2, g3⟩ := h2.alive d t hd
  obtain ⟨r, r1, r2, r3⟩ := h2.alive s u hsrc
  rw [step, stepWith]
  refine faults_bind_of_wp ((wp_getObj g1 _).2 ?_)
  refine faults_bind_of_wp ((wp_getObj r1 _).2 ?_)
  rw [if_neg hds]
  exact bind_faults (faults_lift (copyAssign_faults h2.wf g2 r2 hne))

end Verif.Vec
