import Verif.StringPoolSim
import Verif.Props.VectorPool
import Verif.Spec.StringPool

/-! Helper lemmas: worlds of strings in the static pool. -/

namespace Verif.SPool

open Prog Vec Pool

variable {α : Type} {c : Sma.Cfg} {K : Elem α} {F : Rest}

/-- Operations that may stop the program, and when. -/
def Lacks (w : World α) : Str.Op α → Prop
  | .push k _ | .pushElem k _ _ => ∃ v, w.obj k = some v ∧ v.sz = v.cap
  | .append d t => ∃ v u, w.obj d = some v ∧ w.obj t = some u ∧ d ≠ t ∧ v.cap < v.sz + (u.sz - 1)
  | .set _ _ _ | .move _ _ | .drop _ => False
  | _ => True

theorem step_sim [DecidableEq α] {nul : α} (ht : K.triv = true) (hc : Sma.Legal c) (hM : 2 * c.M + 8 < 2 ^ 31)
    (hK : 15 * K.size + 8 < 2 ^ 31) {op : Str.Op α} {f : Nat → Nat} {w w' : World α} {vw : SWorld α}
    {sw sw' : Str.Spec α} {pw : PWorld} (hI : Vec.WInv w vw) (habs : Str.Abs nul vw sw) (h : WR c K F f w pw)
    (hs : Str.specStep nul op sw = some sw') (hav : Str.Avoids nul op sw)
    (hr : Returns (Str.step nul op) w () w') :
    StepSim c K F (Lacks w op) f pw w' (step .port c K nul op) := by
  have ho := WInv.old hI
  have hwf := hI.wf
  have hK2 : 2 * K.size + 8 < 2 ^ 31 := by omega
  have h15 : Fit K 15 := by unfold Fit; omega
  have grow : ∀ {k : Nat} {v : Vec}, w.obj k = some v → Fit K (max 2 (2 * v.sz)) ∧ v.sz ≤ v.cap := by
    intro k v hv
    obtain ⟨t, _, h2, _⟩ := WInv.fresh hI hv
    obtain ⟨c1, c2⟩ := cap_pool hc h.mem h2
    rw [h2.size]
    exact ⟨fit_push hM hK2 (mul_le_of_le c1 c2), c2⟩
  have push : ∀ (k : Nat) (v : Vec) (e : Arg α), w.obj k = some v → ArgOld w.mem e →
      Returns (Vec.lift (Str.push nul v e) >>= fun v => Vec.putObj k (some v)) w () w' →
      StepSim c K F (∃ v, w.obj k = some v ∧ v.sz = v.cap) f pw w'
        (lift (push (poolOps .port c K) nul (vmap f v) (argMap f e)) >>= fun v => putObj k (some v)) := by
    intro k v e hv he hr
    obtain ⟨g1, g2⟩ := grow hv
    exact (store_sim h ho (push_sim ht hc h.mem nul v (ho k v hv) (fun _ => g1) e he) hr).mono
      (fun h => ⟨v, hv, by omega⟩)
  cases op with
  | new k => exact store_sim h ho (ctor_sim ht hc h.mem nul h15) hr
  | newC k str => exact store_sim h ho (ctorC_sim ht hc hM hK h.mem nul str hwf) hr
  | push k x =>
    obtain ⟨v, hv, hr⟩ := getObj_bind hr
    exact StepSim.getObj h hv (push k v (.val x) hv trivial hr)
  | pushElem k j i =>
    obtain ⟨v, hv, hr⟩ := getObj_bind hr
    refine StepSim.getObj h hv ?_
    obtain ⟨u, hu, hr⟩ := getObj_bind hr
    refine StepSim.getObj h hu ?_
    obtain ⟨⟨b, x⟩, w1, r1, r2⟩ := returns_bind hr
    obtain ⟨m, r3, rfl⟩ := returns_lift r1
    obtain ⟨_, m1, r4, r5⟩ := returns_bind r3
    obtain ⟨hi, rfl⟩ := returns_check r4
    obtain ⟨e, rfl⟩ := returns_pure r5
    cases e
    have := push k v (.ref u.c (normIndex u i)) hv (ho j u hu) r2
    have e0 : Returns (refAt (vmap f u) i : Prog Sma.St (Nat × Int)) pw.pool (f u.c, normIndex u i) pw.pool := by
      unfold Returns refAt dassert
      rw [bind_returns (check_ok pw.pool (show normIndex (vmap f u) i < Int.bmod (vmap f u).sz (2 ^ 32) from hi))]
      rfl
    have e1 : Returns (Pool.lift (refAt (vmap f u) i)) pw (f u.c, normIndex u i) pw := lift_returns e0
    unfold StepSim Faults Returns at *
    rw [bind_returns e1]
    exact this
  | set k i x =>
    obtain ⟨v, hv, hr⟩ := getObj_bind hr
    refine StepSim.getObj h hv ?_
    obtain ⟨m, r3, rfl⟩ := returns_lift hr
    rcases setIndex_sim (P := False) hc h.mem v (ho k v hv) i (.val x) trivial _ _ r3 with
      ⟨hp, _⟩ | ⟨_, s', f', g1, g2, g3, _⟩
    · exact hp.elim
    · exact Or.inr ⟨_, f', lift_returns g1, h.ext ho g2 g3⟩
  | clear k =>
    obtain ⟨v, hv, hr⟩ := getObj_bind hr
    exact StepSim.getObj h hv (store_sim h ho (clear_sim' ht hc h.mem nul v (ho k v hv) h15) hr)
  | copy d t =>
    exact (step_pool hc hM hK2 hI h (show Pool.Sized K.size (.copy d t : Vec.Op α) from trivial)
      (by rw [ht]; exact hr)).mono (fun _ => trivial)
  | move d t =>
    exact (step_pool hc hM hK2 hI h (show Pool.Sized K.size (.move d t : Vec.Op α) from trivial)
      (by rw [ht]; exact hr)).mono id
  | drop k =>
    exact (step_pool hc hM hK2 hI h (show Pool.Sized K.size (.drop k : Vec.Op α) from trivial)
      (by rw [ht]; exact hr)).mono id
  | append d t =>
    obtain ⟨v, hv, hr⟩ := getObj_bind hr
    refine StepSim.getObj h hv ?_
    obtain ⟨u, hu, hr⟩ := getObj_bind hr
    refine StepSim.getObj h hu ?_
    obtain ⟨a1, a2, a3⟩ := hav
    rcases hd : sw d with _ | sd
    · simp [Str.specStep, hd] at hs
    rcases hk : sw t with _ | st
    · simp [Str.specStep, hd, hk] at hs
    have body : ∀ {k : Nat} {v : Vec} {s : Str.SStr α}, w.obj k = some v → sw k = some s → s.hollow = false →
        v.sz = s.chars.length + 1 ∧ K.size * v.cap ≤ c.M ∧ v.sz ≤ v.cap := by
      intro k v s hv hs hh
      obtain ⟨x, hx, _, _, g⟩ := (habs k).2 s hs
      obtain ⟨x', hx', h2, _⟩ := WInv.fresh hI hv
      rw [hx] at hx'; cases hx'
      rw [g hh] at h2
      obtain ⟨c1, c2⟩ := cap_pool hc h.mem h2
      have := h2.size
      simp only [List.length_append, List.length_singleton] at this c2
      exact ⟨this, c1, by omega⟩
    obtain ⟨b1, b2, b3⟩ := body hv hd (a1 sd hd)
    obtain ⟨b4, b5, b6⟩ := body hu hk (a2 st hk)
    by_cases hdt : d = t
    · subst hdt
      rw [if_pos rfl] at hr ⊢
      have := a3 rfl sd hd
      rw [this] at b1
      exact (store_sim h ho (append_self_sim (P := False) hc h.mem v (ho d v hv) (by simpa using b1) (by omega)) hr).mono
        False.elim
    · rw [if_neg hdt] at hr ⊢
      have hpos := K.pos
      have e1 := mul_le_of_le b2 b3
      have e2 := mul_le_of_le b5 b6
      have e3 := Nat.le_mul_of_pos_left v.sz hpos
      have e4 := Nat.le_mul_of_pos_left u.sz hpos
      refine (store_sim h ho (append_sim ht hc h.mem v u (ho d v hv) (ho t u hu) (by omega) (by omega) ?_) hr).mono
        (fun h => ⟨v, u, hv, hu, hdt, h⟩)
      have e5 : K.size * (v.sz + (u.sz - 1)) ≤ K.size * v.sz + K.size * u.sz := by
        rw [← Nat.mul_add]; exact Nat.mul_le_mul_left _ (by omega)
      unfold Fit; omega

/-- Only finitely many strings are alive. -/
def Finite (sw : Str.Spec α) : Prop := ∃ ks : List Nat, ks.Nodup ∧ ∀ k, k ∈ ks ↔ sw k ≠ none

theorem Finite.put {sw : Str.Spec α} (h : Finite sw) (k : Nat) (v : Option (Str.SStr α)) :
    Finite (sw.put k v) := by
  obtain ⟨ks, h1, h2⟩ := h
  have hmem : ∀ x, x ∈ ks.erase k ↔ x ≠ k ∧ x ∈ ks := fun x => h1.mem_erase_iff
  cases v with
  | none =>
    refine ⟨ks.erase k, h1.erase k, fun x => ?_⟩
    rw [hmem, h2]
    unfold Str.Spec.put
    by_cases hx : x = k <;> simp [hx]
  | some v =>
    refine ⟨k :: ks.erase k, List.nodup_cons.2 ⟨fun h => ((hmem k).1 h).1 rfl, h1.erase k⟩, fun x => ?_⟩
    rw [List.mem_cons, hmem, h2]
    unfold Str.Spec.put
    by_cases hx : x = k <;> simp [hx]

theorem Finite.step [DecidableEq α] {nul : α} {sw sw' : Str.Spec α} (h : Finite sw) {op : Str.Op α}
    (hs : Str.specStep nul op sw = some sw') : Finite sw' := by
  cases op <;> simp only [Str.specStep, Option.bind_eq_some_iff] at hs
  case new => split at hs <;> cases hs; exact h.put _ _
  case newC => split at hs <;> cases hs; exact h.put _ _
  case push => obtain ⟨_, _, hs⟩ := hs; split at hs <;> cases hs; exact h.put _ _
  case pushElem => obtain ⟨_, _, _, _, _, _, hs⟩ := hs; split at hs <;> cases hs; exact h.put _ _
  case set => obtain ⟨_, _, hs⟩ := hs; split at hs <;> cases hs; exact h.put _ _
  case clear => obtain ⟨_, _, hs⟩ := hs; cases hs; exact h.put _ _
  case copy => obtain ⟨_, _, _, _, hs⟩ := hs; cases hs; exact h.put _ _
  case move => obtain ⟨_, _, _, _, hs⟩ := hs; split at hs <;> cases hs; exacts [h, (h.put _ _).put _ _]
  case append => obtain ⟨_, _, _, _, hs⟩ := hs; split at hs <;> cases hs; exact h.put _ _
  case drop => obtain ⟨_, _, hs⟩ := hs; cases hs; exact h.put _ _

/-- A state of the pool that strings have brought about. -/
structure St (c : Sma.Cfg) (K : Elem α) (F : Rest) (nul : α) (pw : PWorld) (sw : Str.Spec α) : Prop where
  ex : ∃ f w vw, Vec.WInv w vw ∧ Str.Abs nul vw sw ∧ WR c K F f w pw
  fin : Finite sw

theorem run_pool [DecidableEq α] {nul : α} (ht : K.triv = true) (hc : Sma.Legal c) (hM : 2 * c.M + 8 < 2 ^ 31)
    (hK : 15 * K.size + 8 < 2 ^ 31) (ops : List (Str.Op α)) {pw : PWorld} {sw sw' : Str.Spec α}
    (h : St c K F nul pw sw) (hs : Str.specRun nul ops sw = some sw') (ha : Str.AvoidsAll nul ops sw) :
    Faults (run .port c K nul ops) pw .crash ∨ ∃ pw', Returns (run .port c K nul ops) pw () pw' ∧
      St c K F nul pw' sw' := by
  induction ops generalizing pw sw with
  | nil => cases hs; exact Or.inr ⟨pw, rfl, h⟩
  | cons op ops ih =>
    obtain ⟨sw1, hs1, hs2⟩ := Option.bind_eq_some_iff.1 hs
    obtain ⟨⟨f, w, vw, hI, habs, hW⟩, hfin⟩ := h
    obtain ⟨_, w1, r1, vw1, hI1, ha1⟩ := Str.step_refines ⟨vw, hI, habs⟩ hs1 ha.1
    rcases step_sim ht hc hM hK hI habs hW hs1 ha.1 r1 with ⟨_, hf⟩ | ⟨pw1, f1, e1, e2⟩
    · exact Or.inl (bind_faults hf)
    · have er : run .port c K nul (op :: ops) pw = run .port c K nul ops pw1 := bind_returns e1
      have := ih ⟨⟨f1, w1, vw1, hI1, ha1, e2⟩, hfin.step hs1⟩ hs2 (ha.2 sw1 hs1)
      unfold Faults Returns at *
      rw [er]
      exact this

theorem St.init {nul : α} {s0 s : Sma.St} (h : Returns (Sma.construct c) s0 () s) :
    St c K .nil nul ⟨s, fun _ => none⟩ (fun _ => none) :=
  ⟨⟨id, World.init, fun _ => none, Vec.WInv.init, fun _ => ⟨fun _ => rfl, fun _ h => by cases h⟩,
    WR.init h⟩, [], List.nodup_nil, by simp⟩

section
variable {nul : α} {pw : PWorld} {sw : Str.Spec α}

theorem St.shows {md : Sma.Mode} (hc : Sma.Legal c) (h : St c K F nul pw sw) : Shows md c K nul pw sw := by
  obtain ⟨⟨f, w, vw, hI, habs, hW⟩, _⟩ := h
  have hsh := Str.Inv.shows (nul := nul) ⟨vw, hI, habs⟩
  intro k
  obtain ⟨h1, h2⟩ := hsh k
  refine ⟨fun hk => by rw [hW.obj k, h1 hk]; rfl, ?_⟩
  intro s hs
  obtain ⟨v, g1, g2⟩ := h2 s hs
  refine ⟨vmap f v, by rw [hW.obj k, g1]; rfl, fun hh => ?_⟩
  obtain ⟨q1, q2, q3, q4, q5, p, q6, q7, q8⟩ := g2 hh
  refine ⟨q1, q2, iterate_pool' hc hW.mem q3, fun i hi => index_pool hc hW.mem (q4 i hi), fun hne =>
    ⟨front_pool hc hW.mem (q5 hne).1, index_pool hc hW.mem (q5 hne).2⟩, (f p.1, p.2), ?_, ?_, ?_⟩
  · obtain ⟨_, m1, r1, r2⟩ := returns_bind q6
    obtain ⟨hi, rfl⟩ := returns_check r1
    obtain ⟨rfl, _⟩ := returns_pure r2
    unfold Returns cStr refAt dassert
    rw [bind_returns (check_ok pw.pool (show normIndex (vmap f v) 0 < Int.bmod (vmap f v).sz (2 ^ 32) from hi))]
    rfl
  · intro i hi
    exact load_ok hc hW.mem (q7 i hi)
  · exact load_ok hc hW.mem q8

/-- The vector of a string alive. -/
theorem St.vec {f : Nat → Nat} {w : World α} {vw : SWorld α} (hI : Vec.WInv w vw) (habs : Str.Abs nul vw sw)
    (hW : WR c K F f w pw) {k : Nat} {v : Vec} (hv : pw.obj k = some v) :
    ∃ s t, sw k = some s ∧ vw k = some t ∧ t.cap = v.cap := by
  rcases hs : sw k with _ | s
  · rw [hW.obj k, hI.dead k ((habs k).1 hs)] at hv; cases hv
  · obtain ⟨t, h1, h2⟩ := (habs k).2 s hs
    obtain ⟨u, g1, g2, g3⟩ := hI.alive k t h1
    rw [hW.obj k, g1] at hv
    cases hv
    exact ⟨s, t, rfl, h1, g3.symm⟩

theorem St.placed (hc : Sma.Legal c) (h : St c K F nul pw sw) : Placed c K pw := by
  obtain ⟨⟨f, w, vw, hI, habs, hW⟩, _⟩ := h
  intro k v hv h0
  obtain ⟨s, t, _, ht, e1⟩ := St.vec hI habs hW hv
  obtain ⟨g1, g2, g3⟩ := hW.placed hc hI k v t hv ht (by omega)
  unfold storageBytes at g1 g2 g3
  rw [e1] at g1 g2 g3
  refine ⟨g1, ?_, g3⟩
  intro j u hj hu hu0
  obtain ⟨s', t', _, ht', e1'⟩ := St.vec hI habs hW hu
  have := g2 j u t' hj hu ht' (by omega)
  rw [e1'] at this
  exact this

theorem St.accounted (hc : Sma.Legal c) (h : St c K .nil nul pw sw) : Accounted c K pw sw := by
  obtain ⟨⟨f, w, vw, hI, habs, hW⟩, ks, h1, h2⟩ := h
  have hvw : ∀ k, k ∈ ks ↔ vw k ≠ none := by
    intro k
    rw [h2]
    rcases hs : sw k with _ | s
    · simp [(habs k).1 hs]
    · obtain ⟨t, g, _⟩ := (habs k).2 s hs
      simp [g]
  refine ⟨ks, h1, h2, ?_⟩
  have := hW.free hc hI ks h1 hvw
  have e : ∀ l : List Nat, (∀ k ∈ l, vw k ≠ none) → storageSum K.size vw l = storage K.size pw l := by
    intro l
    induction l with
    | nil => intro _; rfl
    | cons k l ih =>
      intro hl
      have ih := ih (fun k hk => hl k (List.mem_cons_of_mem _ hk))
      rcases hk : vw k with _ | t
      · exact absurd hk (hl k List.mem_cons_self)
      · obtain ⟨v, g1, g2, g3⟩ := hI.alive k t hk
        have : pw.obj k = some (vmap f v) := by rw [hW.obj k, g1]; rfl
        simp only [storageSum, storage, hk, this, ih, storageBytes, block]
        rw [← g3]; rfl
  rw [e ks (fun k hk => (hvw k).1 hk)] at this
  exact this

end

end Verif.SPool
