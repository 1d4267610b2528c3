import Verif.DisjointSetPoolSim
import Verif.Spec.DisjointSetPool
import Verif.XStackPoolWorld

/-! Helper lemmas: worlds of disjoint sets in the static pool. -/

namespace Verif.DSUPool

open Prog Vec Pool
open DSU (Op WOp SObj Legal)

variable {c : Sma.Cfg} {F : Rest}

/-- The words of a vector of numbers. -/
def wordsOf (t : SVec Int) : SVec (BitVec 32) := ⟨t.data.map (BitVec.ofInt 32), t.cap⟩

/-- The words of all vectors. -/
def mapW (vw : Vec.SWorld Int) : Vec.SWorld (BitVec 32) := fun k => (vw k).map wordsOf

theorem mapW_put (vw : Vec.SWorld Int) (k : Nat) (t : Option (SVec Int)) :
    mapW (vw.put k t) = (mapW vw).put k (t.map wordsOf) := by
  funext x
  simp only [mapW, Vec.SWorld.put]
  split <;> rfl

/-- A state of the pool that disjoint sets have brought about. -/
structure PSt (c : Sma.Cfg) (F : Rest) (pw : PWorld) (sw : DSU.SWorld) : Prop where
  ex : ∃ f w vw wB, DSU.WInv w vw sw ∧ Vec.WInv wB (mapW vw) ∧ WR c intElem F f wB pw
  fin : ∃ ks : List Nat, ks.Nodup ∧ ∀ k, k ∈ ks ↔ sw k ≠ none

theorem PSt.init {s0 s : Sma.St} (h : Returns (Sma.construct c) s0 () s) :
    PSt c .nil ⟨s, fun _ => none⟩ (fun _ => none) :=
  ⟨⟨id, World.init, fun _ => none, World.init, DSU.WInv.init, Vec.WInv.init, WR.init h⟩, [],
    List.nodup_nil, by simp⟩

/-! ## Operations of vectors -/

/-- An operation of vectors on numbers, words and bytes. -/
theorem vstep (hc : Sma.Legal c) (hM : 2 * c.M + 8 < 2 ^ 31) {f : Nat → Nat} {w : World Int}
    {vw vw' : Vec.SWorld Int} {wB : World (BitVec 32)} {pw : PWorld} (hI : Vec.WInv w vw)
    (hB : Vec.WInv wB (mapW vw)) (hW : WR c intElem F f wB pw) {oI : Vec.Op Int} {oB : Vec.Op (BitVec 32)}
    (h1 : Vec.specStep oI vw = some vw') (a1 : Vec.Avoids true oI vw)
    (h2 : Vec.specStep oB (mapW vw) = some (mapW vw')) (a2 : Vec.Avoids true oB (mapW vw))
    (hz : Sized 4 oB) :
    (Lacks c intElem pw.pool (mapW vw) oB ∧ Faults (Pool.step .port c intElem oB) pw .crash) ∨
      ∃ pw' f' w' wB', Returns (Pool.step .port c intElem oB) pw () pw' ∧ Vec.WInv w' vw' ∧
        Vec.WInv wB' (mapW vw') ∧ WR c intElem F f' wB' pw' := by
  obtain ⟨_, w', _, i1⟩ := Vec.step_ok hI h1 a1
  obtain ⟨_, wB', r, i2⟩ := Vec.step_ok hB h2 a2
  rcases step_pool hc hM (K := intElem) (by decide) hB hW hz r with h | ⟨pw', f', e1, e2⟩
  · exact Or.inl h
  · exact Or.inr ⟨pw', f', w', wB', e1, i1, i2, e2⟩

/-- Copying into an empty vector stops only for lack of memory at the moment. -/
theorem copyEmpty_sim (hc : Sma.Legal c) {α : Type} {K : Elem α} {f : Nat → Nat} {m : Mem α} {s : Sma.St}
    (hR : R c K F f m s) (u : Vec) (hu : u.c < m.next) (hfit : Fit K u.cap) :
    Sim c K F (Short c K s u.cap) f m s (Vec.copyAssign K.triv Vec.empty u)
      (copyAssign (poolOps .port c K) Vec.empty (vmap f u)) VR := by
  show Sim c K F (Short c K s u.cap) f m s (Vec.resize K.triv Vec.empty u.cap >>= fun d => _)
    (Pool.resize (poolOps .port c K) Vec.empty u.cap >>= fun d => _) VR
  have hrs := resize_sim hc hR Vec.empty hR.wf.pos u.cap hfit
  rw [vmap_empty hR] at hrs
  refine Sim.bind (A := VR) hrs ?_
  rintro f2 m2 s2 d2 _ he2 hr2 ⟨rfl, hd2⟩ _
  have hu2 := Nat.lt_of_lt_of_le hu he2.next
  rw [← vmap_ext he2 hu]
  refine Sim.bind (A := Triv) ?_ ?_
  · refine Sim.forRange _ _ hr2 ?_
    intro i f' m' s' _ _ h hr'
    refine Sim.bind (A := Triv) ?_ ?_
    · have := destroy_sim (md := .port) (P := Short c K s u.cap) hc hr' d2.c i
      rwa [h.same _ hd2] at this
    · intro f3 m3 s3 _ _ he3 hr3 _ _
      have := construct_sim (md := .port) (P := Short c K s u.cap) hc hr3 d2.c i (.ref u.c i)
      rwa [argMap, (h.trans he3).same _ hu2, (h.trans he3).same _ hd2] at this
  · intro f3 m3 s3 _ _ he3 hr3 _ _
    refine Sim.pure hr3 ⟨?_, Nat.lt_of_lt_of_le hd2 he3.next⟩
    exact (vmap_ext he3 (v := { d2 with sz := u.sz }) hd2).symm

/-! ## One operation -/

theorem rep_unique {α : Type} {m : Mem α} {v : Vec} {A B : List α} (h1 : Rep m v A) (h2 : Rep m v B) : A = B := by
  by_cases h0 : v.c = 0
  · rw [(h1.null h0).2, (h2.null h0).2]
  · obtain ⟨_, _, g, hb, hg⟩ := h1.buf h0
    obtain ⟨_, _, g', hb', hg'⟩ := h2.buf h0
    rw [hb] at hb'
    cases hb'
    apply List.ext_getElem?
    intro i
    rw [← hg, ← hg']

theorem inv_range {n : Nat} {ps : List (Nat × Nat)} {ρ : Nat → Nat} {A : List Int} (h : DSU.Inv n ps ρ A) :
    ∀ x ∈ A, InRange x := by
  intro x hx
  obtain ⟨i, hi, rfl⟩ := List.getElem_of_mem hx
  have hs := h.small
  have hl := h.len
  refine ⟨?_, ?_⟩
  · have := h.rank i A[i] (by simp [hi])
    omega
  · obtain ⟨d, hd⟩ := h.root i (by omega)
    generalize ρ i = r at hd
    cases hd with
    | base h1 h2 =>
      rw [List.getElem?_eq_getElem hi] at h1
      cases h1
      omega
    | step h1 h2 =>
      rw [List.getElem?_eq_getElem hi] at h1
      have := h2.lt
      simp only [Option.some.injEq] at h1
      omega

/-- The state of one object. -/
theorem obj_st {f : Nat → Nat} {w : World Int} {vw : Vec.SWorld Int} {wB : World (BitVec 32)} {pw : PWorld}
    {sw : DSU.SWorld} (hI : DSU.WInv w vw sw) (hB : Vec.WInv wB (mapW vw)) (hW : WR c intElem F f wB pw)
    {k : Nat} {o : SObj} (ho : sw k = some o) :
    ∃ v vB, w.obj k = some v ∧ wB.obj k = some vB ∧ pw.obj k = some (vmap f vB) ∧
      St c F f v vB wB.mem w.mem pw.pool ∧ (∃ ρ, DSU.Holds o.n o.ps ρ v w.mem) ∧ o.n < 2 ^ 31 ∧
      ∃ t, mapW vw k = some t ∧ t.cap = vB.cap := by
  obtain ⟨t, ρ, h1, h2⟩ := hI.alive k o ho
  obtain ⟨v, g1, g2, g3⟩ := hI.vec.alive k t h1
  obtain ⟨vB, b1, b2, b3⟩ := hB.alive k (wordsOf t) (by simp [mapW, h1])
  refine ⟨v, vB, g1, b1, by rw [hW.obj k, b1]; rfl, ?_, ⟨ρ, hI.vec.wf, _, g2, h2⟩, h2.small,
    wordsOf t, by simp [mapW, h1], b3.symm⟩
  have := h2.small
  have := h2.len
  exact ⟨wB.mem, t.data, ⟨g2, hI.vec.wf, b2, hW.mem, inv_range h2, by omega⟩, Frame.refl _ _⟩

/-- What must be missing for an operation to stop. -/
def DLacks (c : Sma.Cfg) (pw : PWorld) : WOp → Prop
  | .new _ n => Short c intElem pw.pool n
  | .newCopy _ s => ∃ u, pw.obj s = some u ∧ Short c intElem pw.pool u.cap
  | .copy d s => d ≠ s ∧ ∃ u, pw.obj s = some u ∧ u.cap ≠ 0
  | _ => False

theorem legal_cons {op : WOp} {ops : List WOp} {sw sw' : DSU.SWorld} (h : Legal (op :: ops) sw sw') :
    ∃ sw1, Legal [op] sw sw1 ∧ Legal ops sw1 sw' := by
  cases h with
  | new hk hn hs h => exact ⟨_, .new hk hn hs (.nil _), h⟩
  | op hk hv hf h => exact ⟨_, .op hk hv hf (.nil _), h⟩
  | newCopy hd hs h => exact ⟨_, .newCopy hd hs (.nil _), h⟩
  | newMove hd hs h => exact ⟨_, .newMove hd hs (.nil _), h⟩
  | copy hd hs h => exact ⟨_, .copy hd hs (.nil _), h⟩
  | moveSelf hd h => exact ⟨_, .moveSelf hd (.nil _), h⟩
  | move hds hd hs h => exact ⟨_, .move hds hd hs (.nil _), h⟩
  | drop hk h => exact ⟨_, .drop hk (.nil _), h⟩

theorem new_eq (md : Sma.Mode) (k n : Nat) :
    wstep md c (.new k n) = Pool.step md c intElem (.newFill k n (BitVec.ofInt 32 (-1))) := rfl

theorem wstep_pool (hc : Sma.Legal c) (hM : 2 * c.M + 8 < 2 ^ 31) {op : WOp} {pw : PWorld} {sw sw1 : DSU.SWorld}
    (hl : Legal [op] sw sw1) (hz : Small [op]) (h : PSt c F pw sw) :
    (DLacks c pw op ∧ Faults (wstep .port c op) pw .crash) ∨
      ∃ pw', Returns (wstep .port c op) pw () pw' ∧ PSt c F pw' sw1 := by
  obtain ⟨⟨f, w, vw, wB, hI, hB, hW⟩, hfin⟩ := h
  cases hl with
  | @new k n _ _ _ hk hn hs hl =>
    cases hl
    rw [new_eq]
    have hd := hI.dead k hk
    rcases vstep hc hM hI.vec hB hW (oI := .newFill k n (-1)) (oB := .newFill k n (BitVec.ofInt 32 (-1)))
      (vw' := vw.put k (some ⟨List.replicate n (-1), n⟩))
      (by simp [Vec.specStep, hd]; omega) trivial
      (by
        rw [mapW_put]
        simp [Vec.specStep, mapW, hd, wordsOf]; omega) trivial (hz k n (by simp))
      with ⟨h1, h2⟩ | ⟨pw', f', w', wB', e1, i1, i2, e2⟩
    · exact Or.inl ⟨h1, h2⟩
    · exact Or.inr ⟨pw', e1, ⟨f', w', _, wB', hI.put (o := ⟨n, []⟩) i1 (DSU.Inv.init n hs), i2, e2⟩,
        XPool.finite_put _ _ hfin⟩
  | @op k p o _ _ _ hk hv hf hl =>
    cases hl
    obtain ⟨v, vB, g1, g2, g3, g4, ⟨ρ, g5⟩, g6, t', ht', hcap⟩ := obj_st hI hB hW hk
    obtain ⟨_, m', r1, ⟨ρ', w1, A, r2, i1⟩, f1⟩ := DSU.step_ok g5 hv hf
    obtain ⟨_, s', e1, ⟨mB', A', q1, q2⟩, _⟩ := step_sim (md := .port) hc hB.wf g6 hv w.mem pw.pool g4 _ m' r1
    have hAA := rep_unique r2 q1.rep
    subst hAA
    refine Or.inr ⟨{ pw with pool := s' }, (bind_returns (Pool.getObj_returns g3)).trans (Pool.lift_returns e1),
      ⟨f, { w with mem := m' }, vw.put k (some ⟨A, t'.cap⟩), { wB with mem := mB' }, ?_, ?_, ?_⟩,
      XPool.finite_put _ _ hfin⟩
    · obtain ⟨t, _, h1, _⟩ := hI.alive k o hk
      have hvc : v.cap = t'.cap := by
        obtain ⟨v', u1, u2, u3⟩ := hI.vec.alive k t h1
        rw [g1] at u1; cases u1
        rw [u3]
        simp only [mapW, h1, Option.map_some, Option.some.injEq] at ht'
        rw [← ht']; rfl
      have hu := hI.vec.update (cap := t'.cap) (Or.inl g1) r2 hvc f1 w1
      have e : ({ mem := m', obj := fun x => if x = k then some v else w.obj x } : World Int) =
          { w with mem := m' } := by
        congr 1
        funext x
        split
        · rename_i hx; rw [hx, g1]
        · rfl
      rw [e] at hu
      exact hI.put (o := ⟨o.n, o.ps ++ p.pair⟩) hu i1
    · have hu := hB.update (cap := t'.cap) (Or.inl g2) q1.repB hcap.symm q2 q1.bytes.wf
      have e : ({ mem := mB', obj := fun x => if x = k then some vB else wB.obj x } : World (BitVec 32)) =
          { wB with mem := mB' } := by
        congr 1
        funext x
        split
        · rename_i hx; rw [hx, g2]
        · rfl
      rw [e] at hu
      rw [mapW_put]
      exact hu
    · exact ⟨q1.bytes, hW.obj⟩
  | @newCopy d s o _ _ _ hd hs hl =>
    cases hl
    have hds : d ≠ s := by rintro rfl; rw [hd] at hs; cases hs
    have hdd := hI.dead d hd
    obtain ⟨t, ρ, t1, t2⟩ := hI.alive s o hs
    rcases vstep hc hM hI.vec hB hW (oI := .new d) (oB := .new d) (vw' := vw.put d (some ⟨[], 0⟩))
      (by simp [Vec.specStep, hdd]) trivial
      (by rw [mapW_put]; simp [Vec.specStep, mapW, hdd, wordsOf]) trivial trivial
      with ⟨h1, h2⟩ | ⟨pw1, f1, w1, wB1, e1, i1, i2, e2⟩
    · exact h1.elim
    have e : (vw.put d (some ⟨[], 0⟩)).put d (some t) = vw.put d (some t) := by
      funext x; simp only [Vec.SWorld.put]; split <;> simp [*]
    have hpw1 : pw1 = { pw with obj := fun x => if x = d then some Vec.empty else pw.obj x } := by
      have : Returns (Pool.step .port c intElem (.new d)) pw ()
        { pw with obj := fun x => if x = d then some Vec.empty else pw.obj x } := rfl
      exact (e1.det this).2
    obtain ⟨_, w2, _, j1⟩ := Vec.step_ok (op := .copy d s) (triv := true) i1
      (sw' := (vw.put d (some ⟨[], 0⟩)).put d (some t))
      (by simp [Vec.specStep, Vec.SWorld.put, t1, Ne.symm hds]) (Or.inr (Or.inl rfl))
    obtain ⟨_, wB2, r2, j2⟩ := Vec.step_ok (op := .copy d s) (triv := true) i2
      (sw' := mapW ((vw.put d (some ⟨[], 0⟩)).put d (some t)))
      (by
        simp only [mapW_put]
        simp [Vec.specStep, Vec.SWorld.put, mapW, t1, Ne.symm hds]) (Or.inr (Or.inl rfl))
    obtain ⟨vd, hvd, r2⟩ := getObj_bind r2
    obtain ⟨u, hu, r2⟩ := getObj_bind r2
    rw [if_neg hds] at r2
    obtain ⟨t', ht', h2, h3⟩ := WInv.fresh i2 hu
    have hvd0 : vd = Vec.empty := by
      obtain ⟨x, hx1, hx2, hx3⟩ := i2.alive d ⟨[], 0⟩ (by simp [mapW, Vec.SWorld.put, wordsOf])
      rw [hvd] at hx1; cases hx1
      rcases Nat.eq_zero_or_pos vd.c with h0 | h0
      · exact (hx2.null h0).1
      · exact absurd hx3 (hx2.buf (by omega)).1
    subst hvd0
    obtain ⟨c1, c2⟩ := cap_pool hc e2.mem h2
    have hss := store_sim (k := d) e2 (WInv.old i2) (copyEmpty_sim hc e2.mem u (WInv.old i2 s u hu) (by
      have hc1 : intElem.size = 4 := rfl
      unfold Fit; omega)) r2
    have hss' : StepSim c intElem F (Short c intElem pw1.pool u.cap) f1 pw1 wB2 (Pool.step .port c intElem (.copy d s)) := by
      refine StepSim.getObj e2 hvd ?_
      refine StepSim.getObj e2 hu ?_
      rw [if_neg hds, vmap_empty e2.mem]
      exact hss
    rcases hss' with ⟨h4, h5⟩ | ⟨pw2, f2, e3, e4⟩
    · refine Or.inl ⟨⟨vmap f1 u, ?_, ?_⟩, ?_⟩
      · have := e2.obj s
        rw [hu, hpw1] at this
        simpa [Ne.symm hds] using this
      · rw [hpw1] at h4; exact h4
      · exact (bind_returns e1).trans h5
    · rw [e] at j1 j2
      exact Or.inr ⟨pw2, (bind_returns e1).trans e3, ⟨f2, w2, _, wB2, hI.put j1 t2, j2, e4⟩,
        XPool.finite_put _ _ hfin⟩
  | @newMove d s o _ _ _ hd hs hl =>
    cases hl
    have hds : d ≠ s := by rintro rfl; rw [hd] at hs; cases hs
    have hdd := hI.dead d hd
    obtain ⟨t, ρ, t1, t2⟩ := hI.alive s o hs
    rcases vstep hc hM hI.vec hB hW (oI := .new d) (oB := .new d) (vw' := vw.put d (some ⟨[], 0⟩))
      (by simp [Vec.specStep, hdd]) trivial
      (by rw [mapW_put]; simp [Vec.specStep, mapW, hdd, wordsOf]) trivial trivial
      with ⟨h1, h2⟩ | ⟨pw1, f1, w1, wB1, e1, i1, i2, e2⟩
    · exact h1.elim
    rcases vstep hc hM i1 i2 e2 (oI := .move d s) (oB := .move d s)
      (vw' := ((vw.put d (some ⟨[], 0⟩)).put d (some t)).put s (some ⟨[], 0⟩))
      (by simp [Vec.specStep, Vec.SWorld.put, t1, Ne.symm hds, hds]) trivial
      (by
        simp only [mapW_put]
        simp [Vec.specStep, Vec.SWorld.put, mapW, t1, Ne.symm hds, hds, wordsOf]) trivial trivial
      with ⟨h1, h2⟩ | ⟨pw2, f2, w2, wB2, e3, j1, j2, e4⟩
    · exact h1.elim
    have e : (vw.put d (some ⟨[], 0⟩)).put d (some t) = vw.put d (some t) := by
      funext x; simp only [Vec.SWorld.put]; split <;> simp [*]
    rw [e] at j1 j2
    exact Or.inr ⟨pw2, (bind_returns e1).trans e3, ⟨f2, w2, _, wB2, hI.put2 j1 t2, j2, e4⟩,
      XPool.finite_put _ _ (XPool.finite_put _ _ hfin)⟩
  | @copy d s u o _ _ _ hd hs hl =>
    cases hl
    obtain ⟨t, ρ, t1, t2⟩ := hI.alive s o hs
    obtain ⟨q, ρ', q1, q2⟩ := hI.alive d u hd
    rcases vstep hc hM hI.vec hB hW (oI := .copy d s) (oB := .copy d s) (vw' := vw.put d (some t))
      (by simp [Vec.specStep, t1, q1]) (Or.inr (Or.inl rfl))
      (by rw [mapW_put]; simp [Vec.specStep, mapW, t1, q1]) (Or.inr (Or.inl rfl)) trivial
      with ⟨⟨h0, t', ht', h1⟩, h2⟩ | ⟨pw1, f1, w1, wB1, e1, i1, i2, e2⟩
    · obtain ⟨v, vB, g1, g2, g3, _, _, _, t'', ht'', g4⟩ := obj_st hI hB hW hs
      rw [ht'] at ht''; cases ht''
      exact Or.inl ⟨⟨h0, _, g3, by show vB.cap ≠ 0; rw [← g4]; exact h1⟩, h2⟩
    · exact Or.inr ⟨pw1, e1, ⟨f1, w1, _, wB1, hI.put i1 t2, i2, e2⟩, XPool.finite_put _ _ hfin⟩
  | @moveSelf d o _ _ _ hd hl =>
    cases hl
    obtain ⟨t, ρ, t1, t2⟩ := hI.alive d o hd
    rcases vstep hc hM hI.vec hB hW (oI := .move d d) (oB := .move d d) (vw' := vw)
      (by simp [Vec.specStep, t1]) trivial
      (by simp [Vec.specStep, mapW, t1]) trivial trivial
      with ⟨h1, h2⟩ | ⟨pw1, f1, w1, wB1, e1, i1, i2, e2⟩
    · exact h1.elim
    · exact Or.inr ⟨pw1, e1, ⟨f1, w1, _, wB1, ⟨i1, hI.dead, hI.alive⟩, i2, e2⟩, hfin⟩
  | @move d s u o _ _ _ hds hd hs hl =>
    cases hl
    obtain ⟨t, ρ, t1, t2⟩ := hI.alive s o hs
    obtain ⟨q, ρ', q1, q2⟩ := hI.alive d u hd
    rcases vstep hc hM hI.vec hB hW (oI := .move d s) (oB := .move d s)
      (vw' := (vw.put d (some t)).put s (some ⟨[], 0⟩))
      (by simp [Vec.specStep, t1, q1, hds]) trivial
      (by simp only [mapW_put]; simp [Vec.specStep, mapW, t1, q1, hds, wordsOf]) trivial trivial
      with ⟨h1, h2⟩ | ⟨pw1, f1, w1, wB1, e1, i1, i2, e2⟩
    · exact h1.elim
    · exact Or.inr ⟨pw1, e1, ⟨f1, w1, _, wB1, hI.put2 i1 t2, i2, e2⟩,
        XPool.finite_put _ _ (XPool.finite_put _ _ hfin)⟩
  | @drop k o _ _ _ hk hl =>
    cases hl
    obtain ⟨t, ρ, t1, t2⟩ := hI.alive k o hk
    rcases vstep hc hM hI.vec hB hW (oI := .drop k) (oB := .drop k) (vw' := vw.put k Option.none)
      (by simp [Vec.specStep, t1]) trivial
      (by rw [mapW_put]; simp [Vec.specStep, mapW, t1]) trivial trivial
      with ⟨h1, h2⟩ | ⟨pw1, f1, w1, wB1, e1, i1, i2, e2⟩
    · exact h1.elim
    · exact Or.inr ⟨pw1, e1, ⟨f1, w1, _, wB1, hI.del i1, i2, e2⟩, XPool.finite_put _ _ hfin⟩

theorem wrun_pool (hc : Sma.Legal c) (hM : 2 * c.M + 8 < 2 ^ 31) (ops : List WOp) {pw : PWorld}
    {sw sw' : DSU.SWorld} (hl : Legal ops sw sw') (hz : Small ops) (h : PSt c F pw sw) :
    Faults (wrun .port c ops) pw .crash ∨
      ∃ pw', Returns (wrun .port c ops) pw () pw' ∧ PSt c F pw' sw' := by
  induction ops generalizing pw sw with
  | nil => cases hl; exact Or.inr ⟨pw, rfl, h⟩
  | cons op ops ih =>
    obtain ⟨sw1, hl1, hl2⟩ := legal_cons hl
    rcases wstep_pool hc hM hl1 (fun k n hm => hz k n (by
      rw [List.mem_singleton] at hm; rw [hm]; exact List.mem_cons_self)) h with ⟨_, hf⟩ | ⟨pw1, e1, h1⟩
    · exact Or.inl (bind_faults hf)
    · have er : wrun .port c (op :: ops) pw = wrun .port c ops pw1 := bind_returns e1
      have := ih hl2 (fun k n hm => hz k n (List.mem_cons_of_mem _ hm)) h1
      unfold Faults Returns at *
      rw [er]
      exact this

/-! ## What a state shows -/

variable {pw : PWorld} {sw : DSU.SWorld} {md : Sma.Mode}

/-- Reading changes nothing. -/
theorem read_same {p : Nat} {i : Int} {s s' : Sma.St} {x : Int} (h : Returns ((ints md c).read p i) s x s') :
    s' = s := by
  obtain ⟨y, u, r1, r2⟩ := returns_bind h
  obtain ⟨_, rfl⟩ := returns_pure r2
  obtain ⟨_, u, r3, r4⟩ := returns_bind r1
  have hu : u = s := by
    obtain ⟨_, u', q1, q2⟩ := returns_bind r3
    obtain ⟨_, rfl⟩ := returns_check q1
    exact (returns_check q2).2
  subst hu
  obtain ⟨_, u, r5, r6⟩ := returns_bind r4
  cases r5
  split at r6
  · exact (returns_pure r6).2
  · cases r6

theorem count_same {v : Vec} {s s' : Sma.St} {n : Nat} (h : Returns (count (ints md c) v) s n s') : s' = s := by
  have : ∀ (k i a : Nat) (s s' : Sma.St) (n : Nat), Returns (Prog.forRange k i a fun i n => do
      let x ← (ints md c).read v.c i
      Pure.pure (if x < 0 then n + 1 else n)) s n s' → s' = s := by
    intro k
    induction k with
    | zero => intro i a s s' n h; exact (returns_pure h).2
    | succ k ih =>
      intro i a s s' n h
      obtain ⟨b, u, r1, r2⟩ := returns_bind h
      obtain ⟨x, u', r3, r4⟩ := returns_bind r1
      have := read_same r3
      subst this
      obtain ⟨_, rfl⟩ := returns_pure r4
      exact ih _ _ _ _ _ r2
  unfold count at h
  exact this v.sz 0 0 s s' n h

theorem PSt.shows (hc : Sma.Legal c) (h : PSt c F pw sw) : Shows md c pw sw := by
  obtain ⟨⟨f, w, vw, wB, hI, hB, hW⟩, _⟩ := h
  intro k
  refine ⟨fun hk => ?_, fun o ho => ?_⟩
  · rw [hW.obj k, hB.dead k (by simp [mapW, hI.dead k hk])]; rfl
  · obtain ⟨v, vB, g1, g2, g3, g4, ⟨ρ, g5⟩, g6, _⟩ := obj_st hI hB hW ho
    obtain ⟨v', u1, u2, u3, u4, n, u5, u6⟩ := hI.shows k |>.2 o ho
    rw [g1] at u1; cases u1
    have hsz : (vmap f vB).sz = v.sz := g4.sz
    refine ⟨vmap f vB, g3, ?_, ?_, ?_, ?_⟩
    · rw [← u2]; exact hsz
    · rw [← u3]; unfold DSU.empty; rw [hsz]
    · intro i j hi hj
      obtain ⟨b, m', r1, r2⟩ := u4 i j hi hj
      obtain ⟨_, s', e1, _, rfl⟩ := connected_sim (md := md) hc hB.wf (i := i) (j := j) ⟨by omega, by omega⟩
        ⟨by omega, by omega⟩ _ _ g4 _ _ r1
      exact ⟨_, s', e1, r2⟩
    · obtain ⟨s', e1⟩ := count_sim (md := md) hc g4 u5
      have := count_same e1
      subst this
      exact ⟨n, e1, u6⟩

theorem PSt.placed (hc : Sma.Legal c) (h : PSt c F pw sw) : XPool.Placed c 4 pw.pool pw.obj := by
  obtain ⟨⟨f, w, vw, wB, hI, hB, hW⟩, _⟩ := h
  have := XPool.placed_vec (K := intElem) hc hB hW
  exact this

theorem PSt.accounted (hc : Sma.Legal c) (h : PSt c .nil pw sw) :
    XPool.Accounted c 4 pw.pool pw.obj (fun k => sw k ≠ none) := by
  obtain ⟨⟨f, w, vw, wB, hI, hB, hW⟩, ks, h1, h2⟩ := h
  have hiff : ∀ k, mapW vw k ≠ none ↔ sw k ≠ none := by
    intro k
    rcases hk : sw k with _ | o
    · simp [mapW, hI.dead k hk]
    · obtain ⟨t, _, ht, _⟩ := hI.alive k o hk
      simp [mapW, ht]
  obtain ⟨ks', a1, a2, a3⟩ := XPool.accounted_vec (K := intElem) hc hB hW ⟨ks, h1, fun k => (h2 k).trans (hiff k).symm⟩
  exact ⟨ks', a1, fun k => (a2 k).trans (hiff k), a3⟩

end Verif.DSUPool
