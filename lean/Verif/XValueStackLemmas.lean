import Verif.Spec.XValueStack
import Verif.VectorWorld

/-! # Lemmas about `XValueStack` -/

namespace Verif.XStack

open Prog Vec
open Heap (Order)

variable {α : Type}

/-! ## How the two vecs are interleaved -/

/-- `Enc s x r`: with elements `s` (top first), the object holds extremum `x` and the raw stack
`r` (top first). -/
inductive Enc (cmp : α → α → Bool) : List α → α → List α → Prop
  | nil (x : α) : Enc cmp [] x []
  | save {s : List α} {x : α} {r : List α} (v : α) (h : Enc cmp s x r) (hc : s = [] ∨ cmp v x = true) :
      Enc cmp (v :: s) v (v :: x :: r)
  | plain {s : List α} {x : α} {r : List α} (v : α) (h : Enc cmp s x r) (hs : s ≠ [])
      (hc : cmp v x = false) (hne : x ≠ v) : Enc cmp (v :: s) x (v :: r)

theorem Enc.nil_iff {cmp : α → α → Bool} {s : List α} {x : α} {r : List α} (h : Enc cmp s x r) :
    r = [] ↔ s = [] := by cases h <;> simp

theorem Enc.top {cmp : α → α → Bool} {s : List α} {x v : α} {r : List α} (h : Enc cmp (v :: s) x r) :
    ∃ r', r = v :: r' := by cases h <;> exact ⟨_, rfl⟩

theorem Enc.ext {R : α → α → Prop} {cmp : α → α → Bool} (hc : Order R cmp) {s : List α} {x : α}
    {r : List α} (h : Enc cmp s x r) : s ≠ [] → Ext R s x := by
  induction h with
  | nil x => intro h; exact absurd rfl h
  | @save s x r v h hcmp ih =>
    intro _
    refine ⟨List.mem_cons_self .., ?_⟩
    intro y hy
    rcases List.mem_cons.1 hy with rfl | hy
    · exact hc.refl _
    · rcases hcmp with rfl | hcmp
      · cases hy
      · have := ih (List.ne_nil_of_mem hy)
        exact hc.trans _ _ _ (hc.pos _ _ hcmp) (this.2 y hy)
  | @plain s x r v h hs hcmp hne ih =>
    intro _
    obtain ⟨h1, h2⟩ := ih hs
    refine ⟨List.mem_cons_of_mem _ h1, ?_⟩
    intro y hy
    rcases List.mem_cons.1 hy with rfl | hy
    · exact hc.neg _ _ hcmp
    · exact h2 y hy

theorem Enc.sublist {cmp : α → α → Bool} {s : List α} {x : α} {r : List α} (h : Enc cmp s x r) :
    s.Sublist r := by
  induction h with
  | nil => exact .slnil
  | save v h hc ih => exact (ih.cons _).cons₂ _
  | plain v h hs hc hne ih => exact ih.cons₂ _

theorem Enc.longer {cmp : α → α → Bool} {s : List α} {x : α} {r : List α} (h : Enc cmp s x r) :
    s ≠ [] → s.length < r.length := by
  induction h with
  | nil => intro h; exact absurd rfl h
  | save v h hc ih =>
    intro _
    have := h.sublist.length_le
    simp only [List.length_cons]; omega
  | plain v h hs hc hne ih =>
    intro _
    have := ih hs
    simp only [List.length_cons]; omega

/-- The object `o` in memory `m` holds the elements `s`. -/
structure Inv (cmp : α → α → Bool) (m : Mem α) (o : XS α) (s : List α) : Prop where
  wf : m.WF
  ex : ∃ r, Rep m o.st r.reverse ∧ Enc cmp s o.x r

theorem push_st {triv : Bool} {m : Mem α} {v : Vec} {r : List α} (a : α) (hw : m.WF)
    (hr : Rep m v r.reverse) :
    wp (Stack.push triv v a) (fun v' m' => Rep m' v' (a :: r).reverse ∧ Frame m m' v v' ∧ m'.WF) m := by
  refine wp_mono (pushBack_ok hw hr (val_get a m) (fun _ => Or.inl rfl)) ?_
  rintro v' m' ⟨h1, _, h3, h4⟩
  exact ⟨by simpa using h1, h3, h4⟩

theorem top_st {m : Mem α} {v : Vec} {r : List α} {a : α} (hr : Rep m v (a :: r).reverse) :
    Returns (Stack.top v) m a m := by
  have := back_ok hr (by simp)
  simpa [Stack.top] using this

theorem pop_st {triv : Bool} {m : Mem α} {v : Vec} {r : List α} {a : α} (hw : m.WF)
    (hr : Rep m v (a :: r).reverse) :
    wp (Stack.pop triv v) (fun v' m' => Rep m' v' r.reverse ∧ Frame m m' v v' ∧ m'.WF) m := by
  unfold Stack.pop
  rw [wp_bind, wp_of_returns (back_ok hr (by simp))]
  refine wp_mono (popBack_ok hw hr (by simp)) ?_
  rintro v' m' ⟨h1, _, h3, h4⟩
  exact ⟨by simpa using h1, h3, h4⟩

theorem step_ok [DecidableEq α] {R : α → α → Prop} {cmp : α → α → Bool} (hc : Order R cmp) {triv : Bool}
    {m : Mem α} {o : XS α} {s s' : List α} {op : Op α} (h : Inv cmp m o s)
    (hs : specStep op s = some s') (ha : Avoids R cmp op s) :
    wp (step triv cmp o op) (fun o' m' => Inv cmp m' o' s' ∧ Frame m m' o.st o'.st) m := by
  obtain ⟨hw, r, hr, he⟩ := h
  have hsz : o.st.sz = r.length := by rw [hr.size]; simp
  cases op with
  | push v =>
    simp only [specStep, Option.some.injEq] at hs
    subst hs
    show wp (push triv cmp o v) _ m
    unfold push
    by_cases hcond : o.st.sz = 0 ∨ cmp v o.x = true
    · rw [if_pos hcond]
      simp only [bind_assoc, pure_bind]
      rw [wp_bind]
      refine wp_mono (push_st o.x hw hr) ?_
      rintro st1 m1 ⟨r1, f1, w1⟩
      rw [wp_bind]
      refine wp_mono (push_st v w1 r1) ?_
      rintro st2 m2 ⟨r2, f2, w2⟩
      rw [wp_pure]
      refine ⟨⟨w2, _, r2, Enc.save v he ?_⟩, f1.trans hw f2 w2.null⟩
      rcases hcond with h0 | h0
      · left
        rw [hsz] at h0
        exact he.nil_iff.1 (List.length_eq_zero_iff.1 h0)
      · exact Or.inr h0
    · rw [if_neg hcond, pure_bind, wp_bind]
      refine wp_mono (push_st v hw hr) ?_
      rintro st2 m2 ⟨r2, f2, w2⟩
      rw [wp_pure]
      have h1 : cmp v o.x = false := by
        have : ¬ cmp v o.x = true := fun h => hcond (Or.inr h)
        simpa using this
      have hsne : s ≠ [] := fun h => hcond (Or.inl (by rw [hsz, he.nil_iff.2 h]; rfl))
      refine ⟨⟨w2, _, r2, Enc.plain v he hsne h1 ?_⟩, f2⟩
      rintro rfl
      rcases ha with ha | ha
      · rw [h1] at ha; cases ha
      · exact ha (he.ext hc hsne)
  | pop =>
    rcases s with _ | ⟨v, s⟩
    · cases hs
    · simp only [specStep, Option.some.injEq] at hs
      subst hs
      show wp (pop triv o) _ m
      unfold pop
      obtain ⟨st, x⟩ := o
      cases he with
      | @save _ x _ _ h hcmp =>
        rw [wp_bind, wp_of_returns (top_st hr), wp_bind]
        refine wp_mono (pop_st hw hr) ?_
        rintro st1 m1 ⟨r1, f1, w1⟩
        rw [if_pos rfl, wp_bind, wp_of_returns (top_st r1), wp_bind]
        refine wp_mono (pop_st w1 r1) ?_
        rintro st2 m2 ⟨r2, f2, w2⟩
        rw [wp_pure]
        exact ⟨⟨w2, _, r2, h⟩, f1.trans hw f2 w2.null⟩
      | @plain _ _ _ _ h hsne hcmp hne =>
        rw [wp_bind, wp_of_returns (top_st hr), wp_bind]
        refine wp_mono (pop_st hw hr) ?_
        rintro st1 m1 ⟨r1, f1, w1⟩
        rw [if_neg hne, wp_pure]
        exact ⟨⟨w1, _, r1, h⟩, f1⟩
  | clear =>
    simp only [specStep, Option.some.injEq] at hs
    subst hs
    show wp (clear triv o) _ m
    unfold clear
    rw [wp_bind]
    refine wp_mono (clear_ok hw hr) ?_
    rintro v' m' ⟨rfl, f', w', _⟩
    rw [wp_pure]
    exact ⟨⟨w', [], Rep.empty w', Enc.nil _⟩, f'⟩

theorem run_ok [DecidableEq α] {R : α → α → Prop} {cmp : α → α → Bool} (hc : Order R cmp) {triv : Bool}
    {m : Mem α} {o : XS α} {s s' : List α} {ops : List (Op α)} (h : Inv cmp m o s)
    (hs : specRun ops s = some s') (ha : AvoidsAll R cmp ops s) :
    wp (run triv cmp o ops) (fun o' m' => Inv cmp m' o' s') m := by
  induction ops generalizing m o s with
  | nil =>
    simp only [specRun, Option.some.injEq] at hs
    subst hs
    exact (wp_pure _ _ _).2 h
  | cons op ops ih =>
    simp only [specRun] at hs
    rcases h1 : specStep op s with _ | s1
    · simp [h1] at hs
    · simp only [h1, Option.bind_some] at hs
      rw [run, wp_bind]
      refine wp_mono (step_ok hc h h1 ha.1) ?_
      rintro o1 m1 ⟨i1, _⟩
      exact ih i1 hs (ha.2 s1 h1)

theorem Inv.init (cmp : α → α → Bool) (x0 : α) : Inv cmp Mem.init (new x0) [] :=
  ⟨Mem.WF.init, [], Rep.empty Mem.WF.init, Enc.nil _⟩

/-! ## Several objects -/

section
variable {ι : Type}

theorem wp_lift {β : Type} (p : Prog (Mem α) β) (Q : β → World ι α → Prop) (w : World ι α) :
    wp (lift p) Q w ↔ wp p (fun a m => Q a { w with mem := m }) w.mem := by
  unfold wp lift
  rcases h : p w.mem with _ | _ | ⟨a, m⟩
  · simp
  · simp
  · constructor
    · rintro ⟨b, t, h1, h2⟩; cases h1; exact ⟨a, m, rfl, h2⟩
    · rintro ⟨b, t, h1, h2⟩; cases h1; exact ⟨a, _, rfl, h2⟩

theorem faults_lift {β : Type} {p : Prog (Mem α) β} {w : World ι α} {e : Fault}
    (h : Faults p w.mem e) : Faults (lift p) w e := by
  unfold Faults lift at *; rw [h]

theorem wp_getObj {k : Nat} {w : World ι α} {v : Obj ι α} (h : w.obj k = some v)
    (Q : Obj ι α → World ι α → Prop) : wp (getObj k) Q w ↔ Q v w := by
  apply wp_of_returns; simp [Returns, getObj, h]

theorem wp_putObj (k : Nat) (v : Option (Obj ι α)) (Q : Unit → World ι α → Prop) (w : World ι α) :
    wp (putObj k v) Q w ↔ Q () { w with obj := fun x => if x = k then v else w.obj x } :=
  wp_modify _ _ _

/-- The world of the wrapped vectors. -/
def vecs (w : World ι α) : Vec.World α := ⟨w.mem, fun k => (w.obj k).map fun v => v.o.st⟩

theorem vecs_put (w : World ι α) (m : Mem α) (k : Nat) (v : Option (Obj ι α)) :
    vecs { mem := m, obj := fun x => if x = k then v else w.obj x } =
      { mem := m, obj := fun x => if x = k then v.map (fun v => v.o.st) else (vecs w).obj x } := by
  simp only [vecs, Vec.World.mk.injEq, true_and]
  funext x
  split <;> rfl

/-- Objects, their vectors and their elements agree. -/
structure WInv (cmp : ι → α → α → Bool) (w : World ι α) (vw : Vec.SWorld α) (sw : SWorld ι α) : Prop where
  vec : Vec.WInv (vecs w) vw
  dead : ∀ k, sw k = none → vw k = none
  alive : ∀ k v, sw k = some v → ∃ u t r, w.obj k = some u ∧ u.c = v.c ∧ vw k = some t ∧
    t.data = r.reverse ∧ Enc (cmp v.c) v.s u.o.x r

variable {cmp : ι → α → α → Bool} {w : World ι α} {vw : Vec.SWorld α} {sw : SWorld ι α}

theorem WInv.init : WInv cmp (World.init : World ι α) (fun _ => none) (fun _ => none) :=
  ⟨Vec.WInv.init, fun _ _ => rfl, fun _ _ h => by cases h⟩

theorem WInv.rep (h : WInv cmp w vw sw) {k : Nat} {v : SObj ι α} (hk : sw k = some v) :
    ∃ u r, w.obj k = some u ∧ u.c = v.c ∧ Rep w.mem u.o.st r.reverse ∧ Enc (cmp v.c) v.s u.o.x r := by
  obtain ⟨u, t, r, h1, h2, h3, h4, h5⟩ := h.alive k v hk
  obtain ⟨st, g1, g2, _⟩ := h.vec.alive k t h3
  simp only [vecs, h1, Option.map_some, Option.some.injEq] at g1
  subst g1
  exact ⟨u, r, h1, h2, h4 ▸ g2, h5⟩

theorem WInv.none (h : WInv cmp w vw sw) {k : Nat} (hk : sw k = none) : w.obj k = none := by
  have := h.vec.dead k (h.dead k hk)
  simpa [vecs] using this

/-- Replace one object. -/
theorem WInv.update (h : WInv cmp w vw sw) {k : Nat} {st : Vec} {u : Obj ι α} {m' : Mem α} {s r : List α}
    (hv : (vecs w).obj k = some st ∨ ((vecs w).obj k = Option.none ∧ st = Vec.empty))
    (hr : Rep m' u.o.st r.reverse) (he : Enc (cmp u.c) s u.o.x r) (hf : Frame w.mem m' st u.o.st)
    (hw : m'.WF) :
    WInv cmp { mem := m', obj := fun x => if x = k then some u else w.obj x }
      (vw.put k (some ⟨r.reverse, u.o.st.cap⟩)) (sw.put k (some ⟨u.c, s⟩)) := by
  refine ⟨?_, ?_, ?_⟩
  · rw [vecs_put]
    exact h.vec.update hv hr rfl hf hw
  · intro j hj
    simp only [SWorld.put, Vec.SWorld.put] at hj ⊢
    split at hj
    · cases hj
    · rename_i hjk; rw [if_neg hjk]; exact h.dead j hj
  · intro j v hj
    simp only [SWorld.put, Vec.SWorld.put] at hj ⊢
    by_cases hjk : j = k
    · simp only [if_pos hjk] at hj ⊢
      cases hj
      exact ⟨u, _, r, rfl, rfl, rfl, rfl, he⟩
    · simp only [if_neg hjk] at hj ⊢
      exact h.alive j v hj

theorem wstep_ok [DecidableEq α] {R : ι → α → α → Prop} (hc : ∀ c, Order (R c) (cmp c)) {triv : Bool}
    {gone : α → α} {op : WOp ι α} {sw' : SWorld ι α} (h : WInv cmp w vw sw)
    (hs : wspecStep op sw = some sw') (ha : WAvoids R cmp triv op sw) :
    wp (wstep triv cmp gone op) (fun _ w' => ∃ vw', WInv cmp w' vw' sw') w := by
  have hst : ∀ {k u}, w.obj k = some u → (vecs w).obj k = some u.o.st := by
    intro k u hk; simp [vecs, hk]
  cases op with
  | new k c x0 =>
    simp only [wspecStep] at hs
    split at hs
    · rename_i hk
      cases hs
      rw [wstep, wp_putObj]
      have hn := h.none (k := k) (by simpa using hk)
      exact ⟨_, h.update (u := ⟨c, new x0⟩) (s := []) (r := []) (st := Vec.empty)
        (Or.inr ⟨by simp [vecs, hn], rfl⟩) (Rep.empty h.vec.wf) (Enc.nil _) (Frame.refl _ _) h.vec.wf⟩
    · cases hs
  | op k p =>
    rcases hk : sw k with _ | v
    · simp [wspecStep, hk] at hs
    rcases hp : specStep p v.s with _ | s
    · simp [wspecStep, hk, hp] at hs
    simp only [wspecStep, hk, hp, Option.bind_some, Option.some.injEq] at hs
    subst hs
    obtain ⟨u, r, h1, h2, h3, h4⟩ := h.rep hk
    rw [wstep, wp_bind, wp_getObj h1, wp_bind, wp_lift, h2]
    refine wp_mono (step_ok (hc v.c) ⟨h.vec.wf, r, h3, h4⟩ hp (ha v hk)) ?_
    rintro o' m' ⟨⟨i1, r', i2, i3⟩, i4⟩
    rw [wp_putObj]
    exact ⟨_, h.update (u := ⟨v.c, o'⟩) (Or.inl (hst h1)) i2 i3 i4 i1⟩
  | copy d s =>
    rcases hd : sw d with _ | t
    · simp [wspecStep, hd] at hs
    rcases hk : sw s with _ | v
    · simp [wspecStep, hd, hk] at hs
    simp only [wspecStep, hd, hk, Option.bind_some, Option.some.injEq] at hs
    subst hs
    obtain ⟨u, r, h1, h2, h3, h4⟩ := h.rep hd
    obtain ⟨u', r', g1, g2, g3, g4⟩ := h.rep hk
    rw [wstep, wp_bind, wp_getObj h1, wp_bind, wp_getObj g1, wp_ite]
    refine ⟨fun hds => ?_, fun hds => ?_⟩
    · subst hds
      rw [wp_pure]
      have : sw.put d (some v) = sw := by
        funext y; simp only [SWorld.put]; split
        · rename_i hy; rw [hy, hk]
        · rfl
      rw [this]; exact ⟨_, h⟩
    · rw [wp_bind, wp_lift, copyAssign, wp_bind]
      refine wp_mono (copyAssign_ok h.vec.wf h3 g3 (h.vec.sep d s _ _ hds (hst h1) (hst g1)) ?_) ?_
      · rcases ha with ha | ha | ha
        · exact absurd ha hds
        · exact Or.inl ha
        · refine Or.inr ?_
          have := ha v hk
          rw [g4.nil_iff.2 this]; rfl
      · rintro st m' ⟨e1, e2, e3, e4⟩
        rw [wp_pure, wp_putObj]
        have := h.update (k := d) (u := ⟨u'.c, ⟨u'.o.x, st⟩⟩) (s := v.s) (Or.inl (hst h1)) e1
          (by rw [g2]; exact g4) e3 e4
        rw [g2] at this ⊢
        exact ⟨_, this⟩
  | move d s =>
    rcases hd : sw d with _ | t
    · simp [wspecStep, hd] at hs
    rcases hk : sw s with _ | v
    · simp [wspecStep, hd, hk] at hs
    simp only [wspecStep, hd, hk, Option.bind_some] at hs
    obtain ⟨u, r, h1, h2, h3, h4⟩ := h.rep hd
    obtain ⟨u', t', r', g1, g2, g3, g4, g5⟩ := h.alive s v hk
    obtain ⟨_, td, _, _, _, d3, _⟩ := h.alive d t hd
    rw [wstep, wp_bind, wp_getObj h1, wp_bind, wp_getObj g1, wp_ite]
    refine ⟨fun hds => ?_, fun hds => ?_⟩
    · rw [if_pos hds] at hs; cases hs
      rw [wp_pure]; exact ⟨_, h⟩
    · rw [if_neg hds] at hs; cases hs
      -- the vectors follow `Vec.step (.move d s)`
      have hv := Vec.step_ok (triv := triv) (op := .move d s) h.vec
        (sw' := (vw.put d (some t')).put s (some ⟨[], 0⟩))
        (by simp [Vec.specStep, d3, g3, hds]) trivial
      rw [Vec.step, Vec.stepWith, wp_bind, Vec.wp_getObj (hst h1), wp_bind, Vec.wp_getObj (hst g1), wp_ite] at hv
      have hv := hv.2 hds
      rw [wp_bind, Vec.wp_lift] at hv
      rw [wp_bind, wp_lift, moveAssign, wp_bind]
      refine wp_mono hv ?_
      rintro ⟨st, st'⟩ m' hv
      simp only at hv
      rw [wp_bind, Vec.wp_putObj, Vec.wp_putObj] at hv
      rw [wp_pure]
      simp only
      rw [wp_bind, wp_putObj, wp_putObj]
      refine ⟨(vw.put d (some t')).put s (some ⟨[], 0⟩), ?_, ?_, ?_⟩
      · rw [vecs_put (w := { mem := m', obj := fun x => if x = d then _ else w.obj x }), vecs_put]
        exact hv
      · intro j hj
        simp only [SWorld.put, Vec.SWorld.put] at hj ⊢
        by_cases hjs : j = s
        · simp [hjs] at hj
        · by_cases hjd : j = d
          · simp [hjd, hds] at hj
          · simp only [if_neg hjs, if_neg hjd] at hj ⊢; exact h.dead j hj
      · intro j q hq
        simp only [SWorld.put, Vec.SWorld.put] at hq ⊢
        by_cases hjs : j = s
        · simp only [if_pos hjs] at hq ⊢
          cases hq
          exact ⟨_, _, [], rfl, g2, rfl, rfl, Enc.nil _⟩
        · by_cases hjd : j = d
          · simp only [if_neg hjs, if_pos hjd] at hq ⊢
            cases hq
            exact ⟨_, _, r', rfl, g2, rfl, g4, g5⟩
          · simp only [if_neg hjs, if_neg hjd] at hq ⊢
            exact h.alive j q hq
  | drop k =>
    rcases hk : sw k with _ | v
    · simp [wspecStep, hk] at hs
    simp only [wspecStep, hk, Option.bind_some, Option.some.injEq] at hs
    subst hs
    obtain ⟨u, r, h1, h2, h3, h4⟩ := h.rep hk
    rw [wstep, wp_bind, wp_getObj h1, wp_bind, wp_lift]
    refine wp_mono (clear_ok h.vec.wf h3) ?_
    rintro v' m' ⟨rfl, g3, g4, _⟩
    rw [wp_putObj]
    refine ⟨vw.put k Option.none, ?_, ?_, ?_⟩
    · rw [vecs_put]
      exact h.vec.drop (hst h1) g3 g4
    · intro j hj
      simp only [SWorld.put, Vec.SWorld.put] at hj ⊢
      split
      · rfl
      · rename_i hjk; rw [if_neg hjk] at hj; exact h.dead j hj
    · intro j v hj
      simp only [SWorld.put, Vec.SWorld.put] at hj ⊢
      by_cases hjk : j = k
      · simp only [if_pos hjk] at hj; cases hj
      · simp only [if_neg hjk] at hj ⊢
        exact h.alive j v hj

theorem wrun_ok [DecidableEq α] {R : ι → α → α → Prop} (hc : ∀ c, Order (R c) (cmp c)) {triv : Bool}
    {gone : α → α} {ops : List (WOp ι α)} {sw' : SWorld ι α} (h : WInv cmp w vw sw)
    (hs : wspecRun ops sw = some sw') (ha : WAvoidsAll R cmp triv ops sw) :
    wp (wrun triv cmp gone ops) (fun _ w' => ∃ vw', WInv cmp w' vw' sw') w := by
  induction ops generalizing w vw sw with
  | nil =>
    simp only [wspecRun, Option.some.injEq] at hs
    subst hs
    exact (wp_pure _ _ _).2 ⟨_, h⟩
  | cons op ops ih =>
    simp only [wspecRun] at hs
    rcases h1 : wspecStep op sw with _ | s1
    · simp [h1] at hs
    · simp only [h1, Option.bind_some] at hs
      rw [wrun, List.map_cons, seqAll, wp_bind]
      refine wp_mono (wstep_ok hc h h1 ha.1) ?_
      rintro _ w1 ⟨vw1, i1⟩
      exact ih i1 hs (ha.2 s1 h1)

theorem Enc.shows {R : α → α → Prop} {cmp : α → α → Bool} (hc : Order R cmp) {m : Mem α} {o : XS α}
    {s r : List α} (hr : Rep m o.st r.reverse) (he : Enc cmp s o.x r) : Shows R m o s := by
  refine ⟨?_, ?_, he.ext hc⟩
  · simp [empty, hr.size, he.nil_iff]
  · rintro y t rfl
    obtain ⟨r', rfl⟩ := he.top
    exact top_st hr

theorem WInv.shows {R : ι → α → α → Prop} (hc : ∀ c, Order (R c) (cmp c)) (h : WInv cmp w vw sw) :
    WShows R w sw := by
  intro k
  refine ⟨fun hk => h.none hk, fun v hv => ?_⟩
  obtain ⟨u, r, h1, h2, h3, h4⟩ := h.rep hv
  exact ⟨u, h1, h2, h4.shows (hc v.c) h3⟩

end

end Verif.XStack
