import Verif.DisjointSetLemmas
import Verif.VectorWorld
import Verif.VectorCost

/-! # Lemmas: several `DisjointSet` objects -/

namespace Verif.DSU

open Prog Vec

theorem wp_wlp {σ α : Type} {p : Prog σ α} {Q R : α → σ → Prop} {s : σ} (h1 : wp p Q s) (h2 : wlp p R s) :
    wp p (fun a t => Q a t ∧ R a t) s := by
  obtain ⟨a, t, e, h⟩ := h1
  exact ⟨a, t, e, h, h2 a t e⟩

/-- Only block `c` changed. -/
structure Only (c : Nat) (m m' : Mem Int) : Prop where
  other : ∀ b, b ≠ c → m'.blk b = m.blk b
  next : m'.next = m.next
  lost : m'.lost = m.lost

theorem Only.refl (c : Nat) (m : Mem Int) : Only c m m := ⟨fun _ _ => rfl, rfl, rfl⟩

theorem Only.trans {c : Nat} {m m1 m2 : Mem Int} (h : Only c m m1) (h' : Only c m1 m2) : Only c m m2 :=
  ⟨fun b hb => (h'.other b hb).trans (h.other b hb), h'.next.trans h.next, h'.lost.trans h.lost⟩

theorem Only.frame {v : Vec} {m m' : Mem Int} (h : Only v.c m m') : Frame m m' v v :=
  ⟨fun b hb _ => h.other b hb, fun h => absurd rfl h, Or.inl rfl, Nat.le_of_eq h.next.symm, h.lost⟩

/-- A program that changes nothing. -/
def Pure {α : Type} (p : Prog (Mem Int) α) : Prop := ∀ m a m', Returns p m a m' → m' = m

theorem Pure.wlp {α : Type} {p : Prog (Mem Int) α} (h : Pure p) {Q : α → Mem Int → Prop} {m : Mem Int}
    (hq : ∀ a, Q a m) : wlp p Q m := by
  intro a m' hr
  rw [h m a m' hr]; exact hq a

theorem pure_bind' {α β : Type} {p : Prog (Mem Int) α} {f : α → Prog (Mem Int) β} (hp : Pure p)
    (hf : ∀ a, Pure (f a)) : Pure (p >>= f) := by
  intro m b m' hr
  have := wlp_bind (p := p) (f := f) (Q := fun _ t => t = m) (s := m)
    (hp.wlp fun a => fun b t h => hf a m b t h)
  exact this b m' hr

theorem pure_pure {α : Type} (a : α) : Pure (pure a : Prog (Mem Int) α) := by
  intro m b m' hr; cases hr; rfl

theorem pure_check (c : Prop) [Decidable c] (e : Fault) : Pure (check c e) := by
  intro m b m' hr
  exact (wlp_check (Q := fun _ t => t = m) fun _ => rfl) b m' hr

theorem pure_access (b : Nat) (i : Int) : Pure (access b i) := by
  intro m a m' hr
  unfold Returns access at hr
  split at hr
  · cases hr
  · split at hr
    · cases hr
    · split at hr
      · cases hr; rfl
      · cases hr

theorem pure_read (b : Nat) (i : Int) : Pure (Vec.read b i) := by
  refine pure_bind' (pure_access _ _) ?_
  rintro ⟨k, j⟩
  simp only
  split
  · exact pure_pure _
  · intro m a m' hr; cases hr

theorem pure_get (a : Arg Int) : Pure a.get := by
  cases a with
  | val x => exact pure_pure _
  | ref b i => exact pure_read _ _

theorem pure_refAt (v : Vec) (i : Int) : Pure (refAt v i) :=
  pure_bind' (pure_check _ _) fun _ => pure_pure _

theorem pure_index (v : Vec) (i : Int) : Pure (index v i) :=
  pure_bind' (pure_check _ _) fun _ => pure_read _ _

theorem only_setIndex (v : Vec) (i : Int) (e : Arg Int) {m : Mem Int} :
    wlp (setIndex v i e) (fun _ m' => Only v.c m m') m := by
  unfold setIndex assign
  refine wlp_bind (wlp_dassert fun _ => wlp_bind ((pure_get e).wlp fun x => wlp_bind ?_))
  refine (pure_access _ _).wlp ?_
  rintro ⟨k, j⟩
  refine wlp_bind (wlp_check fun _ => wlp_modify ?_)
  refine ⟨fun b hb => ?_, rfl, rfl⟩
  simp [Mem.put, hb]

theorem only_find (v : Vec) : ∀ (a : Arg Int) (m : Mem Int),
    wlp (find v a) (fun _ m' => Only v.c m m') m := by
  refine find.fixpoint_induct v (fun f => ∀ a m, wlp (f a) (fun _ m' => Only v.c m m') m)
    (Prog.admissible_wlp _) ?_
  intro f ih a m
  refine wlp_bind ((pure_get a).wlp fun i => wlp_bind ((pure_refAt v i).wlp fun s =>
    wlp_bind ((pure_get s).wlp fun x => ?_)))
  refine wlp_ite (fun _ => wlp_pure (Only.refl _ _)) (fun _ => ?_)
  refine wlp_bind ((pure_get a).wlp fun i => wlp_bind ((pure_refAt v i).wlp fun s =>
    wlp_bind (wlp_mono (ih s m) fun r m1 h1 => ?_)))
  refine wlp_bind ((pure_get r).wlp fun y => wlp_bind ((pure_get a).wlp fun i =>
    wlp_bind (wlp_mono (only_setIndex v i (.val y)) fun _ m2 h2 => ?_)))
  exact (pure_refAt v i).wlp fun _ => h1.trans h2

theorem only_findVal (v : Vec) (i : Int) (m : Mem Int) :
    wlp (findVal v i) (fun _ m' => Only v.c m m') m :=
  wlp_bind (wlp_mono (only_find v _ m) fun r _ h => (pure_get r).wlp fun _ => h)

theorem only_connected (v : Vec) (i j : Int) (m : Mem Int) :
    wlp (connected v i j) (fun _ m' => Only v.c m m') m :=
  wlp_bind (wlp_mono (only_find v _ m) fun r1 m1 h1 => wlp_bind (wlp_mono (only_find v _ m1) fun r2 m2 h2 =>
    wlp_bind ((pure_get r1).wlp fun _ => wlp_bind ((pure_get r2).wlp fun _ => wlp_pure (h1.trans h2)))))

theorem only_unionSet (v : Vec) (i j : Int) (m : Mem Int) :
    wlp (unionSet v i j) (fun _ m' => Only v.c m m') m := by
  unfold unionSet
  refine wlp_ite (fun _ => only_setIndex _ _ _) (fun _ => ?_)
  refine wlp_bind ((pure_index v i).wlp fun x => wlp_bind ((pure_index v j).wlp fun y => wlp_bind ?_))
  refine wlp_when (fun _ => ?_) (fun _ => only_setIndex _ _ _)
  refine wlp_bind ((pure_index v i).wlp fun z => wlp_bind (wlp_check fun _ => ?_))
  refine wlp_mono (only_setIndex v _ _) fun _ m1 h1 => ?_
  exact wlp_mono (only_setIndex v _ _) fun _ m2 h2 => h1.trans h2

theorem only_step (v : Vec) (p : Op) (m : Mem Int) : wlp (step v p) (fun _ m' => Only v.c m m') m := by
  cases p with
  | find i => exact wlp_bind (wlp_mono (only_findVal v _ m) fun _ _ h => wlp_pure h)
  | connected i j => exact wlp_bind (wlp_mono (only_connected v _ _ m) fun _ _ h => wlp_pure h)
  | connect i j =>
    exact wlp_bind (wlp_mono (only_findVal v _ m) fun _ m1 h1 => wlp_bind (wlp_mono (only_findVal v _ m1)
      fun _ m2 h2 => wlp_mono (only_unionSet v _ _ m2) fun _ _ h3 => (h1.trans h2).trans h3))

/-- One operation on one object. -/
theorem step_ok {n : Nat} {ps : List (Nat × Nat)} {ρ : Nat → Nat} {v : Vec} {m : Mem Int} {p : Op}
    (h : Holds n ps ρ v m) (hv : p.Valid n) (hf : p.Fresh ps) :
    wp (step v p) (fun _ m' => (∃ ρ', Holds n (ps ++ p.pair) ρ' v m') ∧ Frame m m' v v) m := by
  have h1 := run_ok [p] h ⟨hv, hf, trivial⟩
  rw [run, List.map_cons, seqAll, wp_bind] at h1
  refine wp_mono (wp_wlp h1 (only_step v p m)) ?_
  rintro _ m' ⟨h2, h3⟩
  rw [List.map_nil, seqAll, wp_pure] at h2
  obtain ⟨ρ', h4, _⟩ := h2
  exact ⟨⟨ρ', by simpa [pairs] using h4⟩, h3.frame⟩

/-- Every object holds its classes. -/
structure WInv (w : World Int) (vw : Vec.SWorld Int) (sw : SWorld) : Prop where
  vec : Vec.WInv w vw
  dead : ∀ k, sw k = none → vw k = none
  alive : ∀ k o, sw k = some o → ∃ t ρ, vw k = some t ∧ Inv o.n o.ps ρ t.data

theorem WInv.init : WInv World.init (fun _ => none) (fun _ => none) :=
  ⟨Vec.WInv.init, fun _ _ => rfl, fun _ _ h => by cases h⟩

variable {w : World Int} {vw : Vec.SWorld Int} {sw : SWorld}

theorem WInv.holds (h : WInv w vw sw) {k : Nat} {o : SObj} (hk : sw k = some o) :
    ∃ v ρ, w.obj k = some v ∧ Holds o.n o.ps ρ v w.mem := by
  obtain ⟨t, ρ, h1, h2⟩ := h.alive k o hk
  obtain ⟨v, g1, g2, _⟩ := h.vec.alive k t h1
  exact ⟨v, ρ, g1, h.vec.wf, _, g2, h2⟩

theorem WInv.none (h : WInv w vw sw) {k : Nat} (hk : sw k = none) : w.obj k = none :=
  h.vec.dead k (h.dead k hk)

theorem WInv.put (h : WInv w vw sw) {w' : World Int} {k : Nat} {t : SVec Int} {o : SObj} {ρ : Nat → Nat}
    (hv : Vec.WInv w' (vw.put k (some t))) (hI : Inv o.n o.ps ρ t.data) :
    WInv w' (vw.put k (some t)) (sw.put k (some o)) := by
  refine ⟨hv, ?_, ?_⟩
  · intro j hj
    simp only [SWorld.put, Vec.SWorld.put] at hj ⊢
    split at hj
    · cases hj
    · rename_i hjk; rw [if_neg hjk]; exact h.dead j hj
  · intro j o' hj
    simp only [SWorld.put, Vec.SWorld.put] at hj ⊢
    by_cases hjk : j = k
    · simp only [if_pos hjk] at hj ⊢
      cases hj
      exact ⟨t, ρ, rfl, hI⟩
    · simp only [if_neg hjk] at hj ⊢
      exact h.alive j o' hj

theorem WInv.del (h : WInv w vw sw) {w' : World Int} {k : Nat} (hv : Vec.WInv w' (vw.put k Option.none)) :
    WInv w' (vw.put k Option.none) (sw.put k Option.none) := by
  refine ⟨hv, ?_, ?_⟩
  · intro j hj
    simp only [SWorld.put, Vec.SWorld.put] at hj ⊢
    split
    · rfl
    · rename_i hjk; rw [if_neg hjk] at hj; exact h.dead j hj
  · intro j o' hj
    simp only [SWorld.put, Vec.SWorld.put] at hj ⊢
    by_cases hjk : j = k
    · simp only [if_pos hjk] at hj; cases hj
    · simp only [if_neg hjk] at hj ⊢
      exact h.alive j o' hj

/-- `WInv.put` for two objects, the second empty. -/
theorem WInv.put2 (h : WInv w vw sw) {w' : World Int} {d s : Nat} {t : SVec Int} {o : SObj} {ρ : Nat → Nat}
    (hv : Vec.WInv w' ((vw.put d (some t)).put s (some ⟨[], 0⟩))) (hI : Inv o.n o.ps ρ t.data) :
    WInv w' ((vw.put d (some t)).put s (some ⟨[], 0⟩))
      ((sw.put d (some o)).put s (some ⟨0, []⟩)) := by
  refine ⟨hv, ?_, ?_⟩
  · intro j hj
    simp only [SWorld.put, Vec.SWorld.put] at hj ⊢
    split at hj
    · cases hj
    · split at hj
      · cases hj
      · rename_i h1 h2; rw [if_neg h1, if_neg h2]; exact h.dead j hj
  · intro j o' hj
    simp only [SWorld.put, Vec.SWorld.put] at hj ⊢
    by_cases hjs : j = s
    · simp only [if_pos hjs] at hj ⊢
      cases hj
      exact ⟨_, id, rfl, by simpa using Inv.init 0 (by decide)⟩
    · by_cases hjk : j = d
      · simp only [if_neg hjs, if_pos hjk] at hj ⊢
        cases hj
        exact ⟨t, ρ, rfl, hI⟩
      · simp only [if_neg hjs, if_neg hjk] at hj ⊢
        exact h.alive j o' hj

theorem wrun_ok {ops : List WOp} {sw' : SWorld} (hl : Legal ops sw sw') : ∀ {w : World Int}
    {vw : Vec.SWorld Int}, WInv w vw sw → wp (wrun ops) (fun _ w' => ∃ vw', WInv w' vw' sw') w := by
  induction hl with
  | nil sw => intro w vw h; exact (wp_pure _ _ _).2 ⟨_, h⟩
  | @new k n ops sw sw' hk hn hs hl ih =>
    intro w vw h
    rw [wrun, List.map_cons, seqAll, wp_bind, wstep, wp_bind, wp_lift, ctor]
    refine wp_mono (ctorFill_ok h.vec.wf n (by omega) (-1)) ?_
    rintro v m ⟨h1, h2, h3, h4⟩
    rw [wp_putObj]
    exact ih (h.put (o := ⟨n, []⟩) (h.vec.update (Or.inr ⟨h.none hk, rfl⟩) h1 h2 h3 h4) (Inv.init n hs))
  | @op k p v ops sw sw' hk hv hf hl ih =>
    intro w vw h
    obtain ⟨u, ρ, h1, h2⟩ := h.holds hk
    rw [wrun, List.map_cons, seqAll, wp_bind, wstep, wp_bind, wp_getObj h1, wp_lift]
    refine wp_mono (step_ok h2 hv hf) ?_
    rintro _ m' ⟨⟨ρ', w1, A, r1, i1⟩, f1⟩
    have hu := h.vec.update (cap := u.cap) (Or.inl h1) r1 rfl f1 w1
    have e : ({ mem := m', obj := fun x => if x = k then some u else w.obj x } : World Int) =
        { w with mem := m' } := by
      congr 1
      funext x
      split
      · rename_i hx; rw [hx, h1]
      · rfl
    rw [e] at hu
    exact ih (h.put (o := ⟨v.n, v.ps ++ p.pair⟩) hu i1)
  | @newCopy d s v ops sw sw' hd hs hl ih =>
    intro w vw h
    obtain ⟨t, ρ, t1, t2⟩ := h.alive s v hs
    have hds : d ≠ s := by rintro rfl; rw [hd] at hs; cases hs
    rw [wrun, List.map_cons, seqAll, wp_bind, wstep, wp_bind]
    refine wp_mono (Vec.step_ok (op := .new d) h.vec (sw' := vw.put d (some ⟨[], 0⟩))
      (by simp [Vec.specStep, h.dead d hd]) trivial) ?_
    intro _ w1 i1
    refine wp_mono (Vec.step_ok (op := .copy d s) i1 (sw' := (vw.put d (some ⟨[], 0⟩)).put d (some t))
      (by simp [Vec.specStep, Vec.SWorld.put, t1, Ne.symm hds]) (Or.inr (Or.inl rfl))) ?_
    intro _ w2 i2
    have e : (vw.put d (some ⟨[], 0⟩)).put d (some t) = vw.put d (some t) := by
      funext x; simp only [Vec.SWorld.put]; split <;> simp [*]
    rw [e] at i2
    exact ih (h.put i2 t2)
  | @newMove d s v ops sw sw' hd hs hl ih =>
    intro w vw h
    obtain ⟨t, ρ, t1, t2⟩ := h.alive s v hs
    have hds : d ≠ s := by rintro rfl; rw [hd] at hs; cases hs
    rw [wrun, List.map_cons, seqAll, wp_bind, wstep, wp_bind]
    refine wp_mono (Vec.step_ok (op := .new d) h.vec (sw' := vw.put d (some ⟨[], 0⟩))
      (by simp [Vec.specStep, h.dead d hd]) trivial) ?_
    intro _ w1 i1
    refine wp_mono (Vec.step_ok (op := .move d s) i1
      (sw' := ((vw.put d (some ⟨[], 0⟩)).put d (some t)).put s (some ⟨[], 0⟩))
      (by simp [Vec.specStep, Vec.SWorld.put, t1, Ne.symm hds, hds]) trivial) ?_
    intro _ w2 i2
    have e : (vw.put d (some ⟨[], 0⟩)).put d (some t) = vw.put d (some t) := by
      funext x; simp only [Vec.SWorld.put]; split <;> simp [*]
    rw [e] at i2
    exact ih (h.put2 i2 t2)
  | @copy d s u v ops sw sw' hd hs hl ih =>
    intro w vw h
    obtain ⟨t, ρ, t1, t2⟩ := h.alive s v hs
    obtain ⟨q, ρ', q1, q2⟩ := h.alive d u hd
    rw [wrun, List.map_cons, seqAll, wp_bind, wstep]
    refine wp_mono (Vec.step_ok (op := .copy d s) h.vec (sw' := vw.put d (some t))
      (by simp [Vec.specStep, t1, q1]) (Or.inr (Or.inl rfl))) ?_
    intro _ w2 i2
    exact ih (h.put i2 t2)
  | @moveSelf d v ops sw sw' hd hl ih =>
    intro w vw h
    obtain ⟨t, ρ, t1, t2⟩ := h.alive d v hd
    rw [wrun, List.map_cons, seqAll, wp_bind, wstep]
    refine wp_mono (Vec.step_ok (op := .move d d) h.vec (sw' := vw)
      (by simp [Vec.specStep, t1]) trivial) ?_
    intro _ w2 i2
    exact ih ⟨i2, h.dead, h.alive⟩
  | @move d s u v ops sw sw' hds hd hs hl ih =>
    intro w vw h
    obtain ⟨t, ρ, t1, t2⟩ := h.alive s v hs
    obtain ⟨q, ρ', q1, q2⟩ := h.alive d u hd
    rw [wrun, List.map_cons, seqAll, wp_bind, wstep]
    refine wp_mono (Vec.step_ok (op := .move d s) h.vec
      (sw' := (vw.put d (some t)).put s (some ⟨[], 0⟩))
      (by simp [Vec.specStep, t1, q1, hds]) trivial) ?_
    intro _ w2 i2
    exact ih (h.put2 i2 t2)
  | @drop k v ops sw sw' hk hl ih =>
    intro w vw h
    obtain ⟨t, ρ, t1, t2⟩ := h.alive k v hk
    rw [wrun, List.map_cons, seqAll, wp_bind, wstep]
    refine wp_mono (Vec.step_ok (op := .drop k) h.vec (sw' := vw.put k Option.none)
      (by simp [Vec.specStep, t1]) trivial) ?_
    intro _ w2 i2
    exact ih (h.del i2)

theorem WInv.shows (h : WInv w vw sw) : WShows w sw := by
  intro k
  refine ⟨fun hk => h.none hk, fun o ho => ?_⟩
  obtain ⟨v, ρ, h1, h2⟩ := h.holds ho
  have hsz : v.sz = o.n := by
    obtain ⟨_, A, hr, hI⟩ := h2
    rw [hr.size, hI.len]
  refine ⟨v, h1, hsz, by simp [empty, hsz], fun i j hi hj => ?_, ?_⟩
  · obtain ⟨c, m', h3, h4, _⟩ := connected_ok h2 hi hj
    obtain ⟨_, A, _, hI⟩ := h2
    exact ⟨c, m', h3, h4.trans (hI.conn i j hi hj)⟩
  · obtain ⟨k, m', h3, rfl, h4, h5⟩ := count_ok h2
    exact ⟨k, h3, h5⟩

end Verif.DSU
