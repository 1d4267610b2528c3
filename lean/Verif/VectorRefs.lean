import Verif.VectorWorld

/-! Helper lemmas: what happens to the storage of a vector during a history. -/

namespace Verif.Vec

open Prog

variable {α : Type}

/-- Released blocks stay released. -/
def StaysDead (m m' : Mem α) : Prop :=
  m.next ≤ m'.next ∧ ∀ b, b < m.next → m.blk b = none → m'.blk b = none

theorem StaysDead.refl (m : Mem α) : StaysDead m m := ⟨Nat.le_refl _, fun _ _ h => h⟩

theorem StaysDead.trans {m m1 m2 : Mem α} (h1 : StaysDead m m1) (h2 : StaysDead m1 m2) :
    StaysDead m m2 :=
  ⟨Nat.le_trans h1.1 h2.1, fun b hb h => h2.2 b (Nat.lt_of_lt_of_le hb h1.1) (h1.2 b hb h)⟩

theorem Frame.staysDead {m m' : Mem α} {v v' : Vec} {l : List α} (hf : Frame m m' v v')
    (hr : Rep m v l) (hw : m'.WF) : StaysDead m m' := by
  refine ⟨hf.next, fun b hb h => ?_⟩
  by_cases h0 : b = 0
  · rw [h0]; exact hw.null
  by_cases h1 : b = v.c
  · subst h1
    obtain ⟨_, _, f, hf', _⟩ := hr.buf h0
    rw [h] at hf'; cases hf'
  by_cases h2 : b = v'.c
  · rcases hf.new with h3 | h3 | h3 <;> omega
  · rw [hf.other b h1 h2]; exact h

/-- The storage `c` of vector `k`, after operation `op` led to the world `w'`. -/
def Follows (o : Option Nat) (c : Nat) (w' : World α) : Prop :=
  match o with
  | some k' => ∃ v', w'.obj k' = some v' ∧ v'.c = c
  | none => w'.mem.blk c = none

/-- What a step does to storage. -/
def StepBuf (op : Op α) (sw : SWorld α) (w w' : World α) : Prop :=
  StaysDead w.mem w'.mem ∧
  ∀ k v, w.obj k = some v → v.c ≠ 0 → Follows (storage op sw k) v.c w'

/-- An update of one object `j`. -/
theorem stepBuf_update {op : Op α} {w : World α} {sw : SWorld α} {j : Nat} {v v' : Vec}
    {m' : Mem α} {l : List α} (h1 : w.obj j = some v) (hr : Rep w.mem v l)
    (hf : Frame w.mem m' v v') (hw : m'.WF)
    (hother : ∀ k, k ≠ j → storage op sw k = some k)
    (hself : (storage op sw j = some j ∧ v'.c = v.c) ∨
      (storage op sw j = none ∧ (v'.c ≠ v.c ∨ v'.c = 0))) :
    StepBuf op sw w { mem := m', obj := fun x => if x = j then some v' else w.obj x } := by
  refine ⟨hf.staysDead hr hw, fun k u hk h0 => ?_⟩
  by_cases hkj : k = j
  · subst hkj
    rw [h1] at hk; cases hk
    rcases hself with ⟨e1, e2⟩ | ⟨e1, e2⟩
    · rw [e1]; exact ⟨v', by simp, e2⟩
    · rw [e1]
      exact hf.gone (by rcases e2 with h | h; exact h; rw [h]; exact Ne.symm h0) h0
  · rw [hother k hkj]
    exact ⟨u, by simp [hkj, hk], rfl⟩

theorem step_buf {triv : Bool} {op : Op α} {w : World α} {sw sw' : SWorld α} (h : WInv w sw)
    (hs : specStep op sw = some sw') (ha : Avoids triv op sw) :
    wp (step triv op) (fun _ w' => StepBuf op sw w w') w := by
  cases op with
  | new k =>
    simp only [specStep] at hs
    split at hs
    · rename_i hk
      have hk' := h.dead k (by simpa using hk)
      rw [step, stepWith, wp_putObj]
      refine ⟨StaysDead.refl _, fun j u hj _ => ?_⟩
      have hjk : j ≠ k := by rintro rfl; rw [hk'] at hj; cases hj
      exact ⟨u, by simp [hjk, hj], rfl⟩
    · cases hs
  | newFill k n x =>
    simp only [specStep] at hs
    split at hs
    · rename_i hk
      have hk' := h.dead k (by simpa using hk.1)
      rw [step, stepWith, wp_bind, wp_lift]
      refine wp_mono (ctorFill_ok h.wf n hk.2 x) ?_
      rintro v' m' ⟨h1, h2, h3, h4⟩
      rw [wp_putObj]
      refine ⟨h3.staysDead (Rep.empty h.wf) h4, fun j u hj _ => ?_⟩
      have hjk : j ≠ k := by rintro rfl; rw [hk'] at hj; cases hj
      exact ⟨u, by simp [hjk, hj], rfl⟩
    · cases hs
  | push k x =>
    rcases hk : sw k with _ | s
    · simp [specStep, hk] at hs
    · obtain ⟨v, h1, h2, h3⟩ := h.alive k s hk
      have hle := h.cap_le hk
      rw [step, stepWith, wp_bind, wp_getObj h1, wp_bind, wp_lift]
      refine wp_mono (pushBack_full h.wf h2 (val_get x _) (fun _ => Or.inl rfl)) ?_
      rintro v' m' ⟨g1, g2, g3, g4, g5, g6⟩
      rw [wp_putObj]
      refine stepBuf_update h1 h2 g3 g4 (fun j hj => by simp [storage, Ne.symm hj]) ?_
      by_cases hfull : s.data.length = s.cap
      · right; exact ⟨by simp [storage, hk, hfull], g6 (by omega)⟩
      · left; exact ⟨by simp [storage, hk, hfull], g5 (by omega)⟩
  | pushElem k j i =>
    rcases hk : sw k with _ | s
    · simp [specStep, hk] at hs
    rcases hj : sw j with _ | t
    · simp [specStep, hk, hj] at hs
    rcases hi : t.data[i]? with _ | x
    · simp [specStep, hk, hj, hi] at hs
    obtain ⟨v, h1, h2, h3⟩ := h.alive k s hk
    obtain ⟨u, u1, u2, u3⟩ := h.alive j t hj
    have hle := h.cap_le hk
    obtain ⟨hil, hix⟩ := List.getElem?_eq_some_iff.1 hi
    have hread := u2.read_ok i hil
    rw [hix] at hread
    rw [step, stepWith, wp_bind, wp_getObj h1, wp_bind, wp_getObj u1, wp_bind, wp_dassert]
    refine ⟨by rw [u2.size]; exact hil, ?_⟩
    rw [wp_bind, wp_lift]
    refine wp_mono (pushBack_full (x := x) h.wf h2 hread ?_) ?_
    · intro hfull
      right
      refine ⟨u.c, i, rfl, ?_, u2.fresh⟩
      rcases ha with ha | ha
      · have hu0 : u.c ≠ 0 := fun h0 => by rw [(u2.null h0).2] at hil; simp at hil
        exact h.sep j k u v (Ne.symm ha) u1 h1 hu0
      · have := ha s hk; omega
    · rintro v' m' ⟨g1, g2, g3, g4, g5, g6⟩
      rw [wp_putObj]
      refine stepBuf_update h1 h2 g3 g4 (fun j hj => by simp [storage, Ne.symm hj]) ?_
      by_cases hfull : s.data.length = s.cap
      · right; exact ⟨by simp [storage, hk, hfull], g6 (by omega)⟩
      · left; exact ⟨by simp [storage, hk, hfull], g5 (by omega)⟩
  | pop k =>
    rcases hk : sw k with _ | s
    · simp [specStep, hk] at hs
    · simp only [specStep, hk, Option.bind_eq_bind, Option.bind_some] at hs
      split at hs
      · cases hs
      · rename_i hne
        obtain ⟨v, h1, h2, h3⟩ := h.alive k s hk
        rw [step, stepWith, wp_bind, wp_getObj h1, wp_bind, wp_lift]
        refine wp_mono (popBack_full h.wf h2 hne) ?_
        rintro v' m' ⟨g1, g2, g3, g4, g5, g6⟩
        rw [wp_putObj]
        rw [h3] at g5 g6
        refine stepBuf_update h1 h2 g3 g4 (fun j hj => by simp [storage, Ne.symm hj]) ?_
        by_cases hlow : s.data.length - 1 < s.cap / 3
        · right; exact ⟨by simp [storage, hk, hlow], g6 hlow⟩
        · left; exact ⟨by simp [storage, hk]; omega, g5 hlow⟩
  | set k i x =>
    rcases hk : sw k with _ | s
    · simp [specStep, hk] at hs
    rcases hp : pyIndex s.data.length i with _ | p
    · simp [specStep, hk, hp] at hs
    simp only [specStep, hk, hp, Option.bind_eq_bind, Option.bind_some] at hs
    split at hs
    · rename_i hlen
      obtain ⟨v, h1, h2, h3⟩ := h.alive k s hk
      obtain ⟨hp1, hp2⟩ := pyIndex_some hp
      rw [step, stepWith, wp_bind, wp_getObj h1, wp_lift]
      refine wp_mono (setIndex_ok h.wf h2 hlen i p hp1 hp2) ?_
      rintro _ m' ⟨g1, g3, g4⟩
      exact ⟨g3.staysDead h2 g4, fun j u hj _ => ⟨u, hj, rfl⟩⟩
    · cases hs
  | resize k n =>
    rcases hk : sw k with _ | s
    · simp [specStep, hk] at hs
    · obtain ⟨v, h1, h2, h3⟩ := h.alive k s hk
      rw [step, stepWith, wp_bind, wp_getObj h1, wp_bind, wp_lift]
      refine wp_mono (resize_ok h.wf h2 n) ?_
      rintro v' m' ⟨g1, g2, g3, g4, g5⟩
      rw [wp_putObj]
      exact stepBuf_update h1 h2 g3 g4 (fun j hj => by simp [storage, Ne.symm hj])
        (Or.inr ⟨by simp [storage], g5⟩)
  | resizeFill k n x =>
    rcases hk : sw k with _ | s
    · simp [specStep, hk] at hs
    · obtain ⟨v, h1, h2, h3⟩ := h.alive k s hk
      rw [step, stepWith, wp_bind, wp_getObj h1, wp_bind, wp_lift]
      refine wp_mono (resizeFill_full h.wf h2 n (val_get x _) (Or.inl rfl)) ?_
      rintro v' m' ⟨g1, g2, g3, g4, g5⟩
      rw [wp_putObj]
      exact stepBuf_update h1 h2 g3 g4 (fun j hj => by simp [storage, Ne.symm hj])
        (Or.inr ⟨by simp [storage], g5⟩)
  | clear k =>
    rcases hk : sw k with _ | s
    · simp [specStep, hk] at hs
    · obtain ⟨v, h1, h2, h3⟩ := h.alive k s hk
      rw [step, stepWith, wp_bind, wp_getObj h1, wp_bind, wp_lift]
      refine wp_mono (clear_ok h.wf h2) ?_
      rintro v' m' ⟨rfl, g3, g4, _⟩
      rw [wp_putObj]
      exact stepBuf_update h1 h2 g3 g4 (fun j hj => by simp [storage, Ne.symm hj])
        (Or.inr ⟨by simp [storage], Or.inr rfl⟩)
  | copy d s =>
    rcases hd : sw d with _ | t
    · simp [specStep, hd] at hs
    rcases hk : sw s with _ | r
    · simp [specStep, hd, hk] at hs
    obtain ⟨v, h1, h2, h3⟩ := h.alive d t hd
    obtain ⟨u, u1, u2, u3⟩ := h.alive s r hk
    rw [step, stepWith, wp_bind, wp_getObj h1, wp_bind, wp_getObj u1, wp_ite]
    refine ⟨fun hds => ?_, fun hds => ?_⟩
    · subst hds
      rw [wp_pure]
      exact ⟨StaysDead.refl _, fun j a hj _ => by simpa [storage, Follows] using ⟨a, hj, rfl⟩⟩
    · rw [wp_bind, wp_lift]
      refine wp_mono (copyAssign_full h.wf h2 u2 (h.sep d s v u hds h1 u1) ?_) ?_
      · rcases ha with ha | ha | ha
        · exact absurd ha hds
        · exact Or.inl ha
        · exact Or.inr (ha r hk)
      · rintro v' m' ⟨g1, g2, g3, g4, g5⟩
        rw [wp_putObj]
        exact stepBuf_update h1 h2 g3 g4 (fun j hj => by simp [storage, Ne.symm hj])
          (Or.inr ⟨by simp [storage, hds], g5⟩)
  | move d s =>
    rcases hd : sw d with _ | t
    · simp [specStep, hd] at hs
    rcases hk : sw s with _ | r
    · simp [specStep, hd, hk] at hs
    obtain ⟨v, h1, h2, h3⟩ := h.alive d t hd
    obtain ⟨u, u1, u2, u3⟩ := h.alive s r hk
    rw [step, stepWith, wp_bind, wp_getObj h1, wp_bind, wp_getObj u1, wp_ite]
    refine ⟨fun hds => ?_, fun hds => ?_⟩
    · rw [wp_pure]
      exact ⟨StaysDead.refl _, fun j a hj _ => by simpa [storage, hds, Follows] using ⟨a, hj, rfl⟩⟩
    · rw [wp_bind, wp_lift, moveAssign, wp_bind]
      refine wp_mono (clear_ok h.wf h2) ?_
      rintro v' m' ⟨rfl, g3, g4, _⟩
      rw [wp_pure]
      simp only
      rw [wp_bind, wp_putObj, wp_putObj]
      refine ⟨g3.staysDead h2 g4, fun j a hj h0 => ?_⟩
      simp only [storage, if_neg hds]
      by_cases hjd : j = d
      · rw [if_pos hjd]
        subst hjd
        rw [h1] at hj; cases hj
        exact g3.gone (Ne.symm h0) h0
      · rw [if_neg hjd]
        by_cases hjs : j = s
        · rw [if_pos hjs]
          subst hjs
          rw [u1] at hj; cases hj
          exact ⟨u, by simp [hds], rfl⟩
        · rw [if_neg hjs]
          exact ⟨a, by simp [hjd, hjs, hj], rfl⟩
  | drop k =>
    rcases hk : sw k with _ | s
    · simp [specStep, hk] at hs
    · obtain ⟨v, h1, h2, h3⟩ := h.alive k s hk
      rw [step, stepWith, wp_bind, wp_getObj h1, wp_bind, wp_lift]
      refine wp_mono (clear_ok h.wf h2) ?_
      rintro v' m' ⟨rfl, g3, g4, _⟩
      rw [wp_putObj]
      refine ⟨g3.staysDead h2 g4, fun j a hj h0 => ?_⟩
      by_cases hjk : j = k
      · subst hjk
        rw [h1] at hj; cases hj
        simp only [storage, if_true]
        exact g3.gone (Ne.symm h0) h0
      · simp only [storage, if_neg (Ne.symm hjk)]
        exact ⟨a, by simp [hjk, hj], rfl⟩

/-- A step that completes was none of the defective ones. -/
theorem avoids_of_returns {triv : Bool} {op : Op α} {w w' : World α} {sw sw' : SWorld α}
    (h : WInv w sw) (hs : specStep op sw = some sw') (hr : Returns (step triv op) w () w') :
    Avoids triv op sw := by
  cases op with
  | copy d s =>
    rcases hd : sw d with _ | t
    · simp [specStep, hd] at hs
    rcases hk : sw s with _ | r
    · simp [specStep, hd, hk] at hs
    by_cases hds : d = s
    · exact Or.inl hds
    · cases triv with
      | true => exact Or.inr (Or.inl rfl)
      | false =>
        refine Or.inr (Or.inr fun u hu => ?_)
        rw [hk] at hu; cases hu
        by_cases hne : r.data = []
        · exact hne
        · have := step_copy_faults h hds hd hk hne
          unfold Faults at this; unfold Returns at hr
          rw [this] at hr; cases hr
  | pushElem k j i =>
    by_cases hkj : k = j
    · subst hkj
      refine Or.inr fun s hk => ?_
      have hle := h.cap_le hk
      by_cases hfull : s.data.length < s.cap
      · exact hfull
      · exfalso
        rcases hi : s.data[i]? with _ | x
        · simp [specStep, hk, hi] at hs
        obtain ⟨hil, _⟩ := List.getElem?_eq_some_iff.1 hi
        obtain ⟨v, g1, g2, g3⟩ := h.alive k s hk
        have hsz := g2.size
        have hf : Faults (step triv (.pushElem k k i)) w .useAfterFree := by
          rw [step, stepWith]
          refine faults_bind_of_wp ((wp_getObj g1 _).2 ?_)
          refine faults_bind_of_wp ((wp_getObj g1 _).2 ?_)
          refine faults_bind_of_wp ((wp_dassert _ _ _).2 ⟨by omega, ?_⟩)
          refine bind_faults (faults_lift ?_)
          exact pushBack_self_faults h.wf g2 (fun h => by simp [h] at hil) (by omega) _
        unfold Faults at hf; unfold Returns at hr
        rw [hf] at hr; cases hr
    · exact Or.inl hkj
  | _ => trivial

/-- The invariant carried along a history for one piece of storage. -/
theorem run_buf {triv : Bool} {ops : List (Op α)} {w w' : World α} {sw sw' : SWorld α}
    (h : WInv w sw) (hs : specRun ops sw = some sw') (hr : Returns (run triv ops) w () w') :
    WInv w' sw' ∧ StaysDead w.mem w'.mem ∧
    ∀ k v, w.obj k = some v → v.c ≠ 0 → Follows (storageAll ops sw k) v.c w' := by
  induction ops generalizing w sw with
  | nil =>
    simp only [specRun, Option.some.injEq] at hs
    subst hs
    have : w = w' := by
      have hr : Returns (pure () : Prog (World α) Unit) w () w' := hr
      simpa [Returns, Prog.pure_apply] using hr
    subst this
    exact ⟨h, StaysDead.refl _, fun k v hk _ => ⟨v, hk, rfl⟩⟩
  | cons op ops ih =>
    simp only [specRun] at hs
    rcases h1 : specStep op sw with _ | s1
    · simp [h1] at hs
    · simp only [h1, Option.bind_some] at hs
      have hr : Returns (step triv op >>= fun _ => run triv ops) w () w' := hr
      have hw := hr.wp (Q := fun _ t => t = w') rfl
      rw [wp_bind] at hw
      obtain ⟨_, w1, e1, _, t, e2, rfl⟩ := hw
      have ha := avoids_of_returns h h1 e1
      obtain ⟨_, w2, e3, hw1⟩ := step_ok h h1 ha
      obtain ⟨_, w3, e4, hb1⟩ := step_buf h h1 ha
      obtain ⟨_, rfl⟩ := Returns.det e3 e1
      obtain ⟨_, rfl⟩ := Returns.det e4 e1
      obtain ⟨i1, i2, i3⟩ := ih hw1 hs e2
      refine ⟨i1, hb1.1.trans i2, fun k v hk h0 => ?_⟩
      have hf := hb1.2 k v hk h0
      simp only [storageAll, h1, Option.bind_some]
      rcases ho : storage op sw k with _ | k'
      · rw [ho] at hf
        refine i2.2 v.c ?_ hf
        rcases hsk : sw k with _ | s
        · rw [h.dead k hsk] at hk; cases hk
        · obtain ⟨u, u1, u2, _⟩ := h.alive k s hsk
          rw [hk] at u1; cases u1
          exact Nat.lt_of_lt_of_le u2.fresh hb1.1.1
      · rw [ho] at hf
        obtain ⟨v', q1, q2⟩ := hf
        rw [← q2]
        exact i3 k' v' q1 (by rw [q2]; exact h0)

/-- Writing through the address of an element. -/
theorem store_ok {m : Mem α} {v : Vec} {l : List α} {x : α} (hw : m.WF) (hr : Rep m v l)
    {i : Nat} (hi : i < l.length) :
    wp (store (elemAddr v i) (.val x)) (fun _ m' => Rep m' v (l.set i x) ∧ Frame m m' v v ∧ m'.WF) m := by
  have hv0 : v.c ≠ 0 := fun h => by rw [(hr.null h).2] at hi; simp at hi
  obtain ⟨c0, cle, f, cb, cf⟩ := hr.buf hv0
  have hput := assign_ok (obj := .val x) (x := x) (y := l[i]) hv0 (val_get x m) cb
    (show i < v.cap by omega) (by simp [cf, hi])
  unfold store elemAddr
  rw [wp_of_returns hput]
  refine ⟨⟨fun h => absurd h hv0, fun _ => ⟨c0, by simpa using cle,
    (fun y => if y = i then some x else f y), by simp [wrote_blk, put_blk], ?_⟩,
    by simpa using hr.size, hr.fresh⟩, ⟨?_, fun h => absurd rfl h, Or.inl rfl, Nat.le_refl _, rfl⟩, ?_⟩
  · intro j
    simp only [cf, List.getElem?_set]
    by_cases hj : j = i
    · subst hj; simp [hi]
    · simp [hj, Ne.symm hj]
  · intro b hb _; simp [hb]
  · refine ⟨hw.pos, ?_, ?_⟩
    · intro b hb
      simp only [wrote_next, put_next] at hb
      have := hr.fresh
      simp only [wrote_blk, put_blk, show b ≠ v.c by omega, if_false]; exact hw.unused b hb
    · simp only [wrote_blk, put_blk, Ne.symm hv0, if_false]; exact hw.null

end Verif.Vec
