import Verif.VectorDirect
import Verif.Spec.VectorDirect

/-! Helper lemmas: worlds of vectors that use the static allocator directly. -/

namespace Verif.Pool

open Prog Vec

variable {α : Type} {c : Sma.Cfg} {K : Elem α} {F : Rest}

/-- The pool world does what the world of blocks does, including stops at null pointers. -/
def WSim (c : Sma.Cfg) (K : Elem α) (F : Rest) (w : World α) (pw : PWorld) (p : Prog (World α) Unit)
    (q : Prog PWorld Unit) : Prop :=
  (∀ w', Returns p w () w' → ∃ pw' f', Returns q pw () pw' ∧ WR c K F f' w' pw') ∧
  (Faults p w .crash → Faults q pw .crash)

theorem faults_liftM {β : Type} {p : Prog (Mem α) β} {w : World α} {e : Fault}
    (h : Faults (Vec.lift p) w e) : Faults p w.mem e := by
  unfold Faults Vec.lift at *
  rcases hp : p w.mem with _ | _ | ⟨a, m⟩
  · rw [hp] at h; cases h
  · rw [hp] at h; cases h; rfl
  · rw [hp] at h; cases h

theorem WSim.store {f : Nat → Nat} {w : World α} {pw : PWorld} (h : WR c K F f w pw)
    (ho : Old w) {p : Prog (Mem α) Vec} {q : Prog Sma.St Vec} (hs : SimD c K F f w.mem pw.pool p q VR)
    (k : Nat) : WSim c K F w pw (Vec.lift p >>= fun v => Vec.putObj k (some v))
      (lift q >>= fun v => putObj k (some v)) := by
  refine ⟨fun w' hr => ?_, fun hf => ?_⟩
  · obtain ⟨v, w1, r1, r2⟩ := returns_bind hr
    obtain ⟨m, r3, rfl⟩ := returns_lift r1
    cases r2
    obtain ⟨v', s', f', g1, g2, g3, rfl, _⟩ := hs.1 v m r3
    exact ⟨_, f', (bind_returns (lift_returns g1)).trans rfl, (h.ext ho g2 g3).put k rfl⟩
  · rcases faults_bind hf with hf | ⟨v, w1, _, hf⟩
    · exact bind_faults (lift_faults (hs.2 (faults_liftM hf)))
    · cases hf

theorem WSim.getObj {f : Nat → Nat} {w : World α} {pw : PWorld} (h : WR c K F f w pw) {k : Nat}
    {p : Vec → Prog (World α) Unit} {q : Vec → Prog PWorld Unit}
    (hs : ∀ v, w.obj k = some v → WSim c K F w pw (p v) (q (vmap f v))) :
    WSim c K F w pw (Vec.getObj k >>= p) (getObj k >>= q) := by
  refine ⟨fun w' hr => ?_, fun hf => ?_⟩
  · obtain ⟨v, hv, r2⟩ := getObj_bind hr
    have hk : pw.obj k = some (vmap f v) := by rw [h.obj k, hv]; rfl
    unfold Returns
    rw [bind_returns (getObj_returns hk)]
    exact (hs v hv).1 w' r2
  · rcases faults_bind hf with hf | ⟨v, w1, r1, hf'⟩
    · unfold Faults Vec.getObj at hf; split at hf <;> cases hf
    · obtain ⟨hv, rfl⟩ := returns_getObj r1
      have hk : pw.obj k = some (vmap f v) := by rw [h.obj k, hv]; rfl
      unfold Faults
      rw [bind_returns (getObj_returns hk)]
      exact (hs v hv).2 hf'

theorem WSim.dassert {w : World α} {pw : PWorld} {P : Prop} [Decidable P]
    {p : Unit → Prog (World α) Unit} {q : Unit → Prog PWorld Unit}
    (hs : WSim c K F w pw (p ()) (q ())) :
    WSim c K F w pw (dassert P >>= p) (dassert P >>= q) := by
  by_cases hP : P
  · rw [dassert_pos hP, dassert_pos hP, pure_bind, pure_bind]; exact hs
  · refine ⟨fun w' hr => ?_, fun hf => ?_⟩
    · obtain ⟨_, _, r1, _⟩ := returns_bind hr
      exact absurd (returns_check r1).1 hP
    · rcases faults_bind hf with hf | ⟨_, _, r1, _⟩
      · cases (faults_check hf).2
      · exact absurd (returns_check r1).1 hP

theorem WSim.skip {f : Nat → Nat} {w : World α} {pw : PWorld} (h : WR c K F f w pw) :
    WSim c K F w pw (Pure.pure ()) (Pure.pure ()) :=
  ⟨fun w' hr => by cases hr; exact ⟨pw, f, rfl, h⟩, fun hf => by cases hf⟩

/-! ## The invariant -/

theorem WInvO.fresh {w : World α} {sw : SWorld α} (h : WInvO w sw) {k : Nat} {v : Vec}
    (hv : w.obj k = some v) : ∃ s, sw k = some s ∧ RepO w.mem v s.data ∧ v.cap = s.cap := by
  rcases hs : sw k with _ | s
  · rw [h.dead k hs] at hv; cases hv
  · obtain ⟨u, h1, h2, h3⟩ := h.alive k s hs
    rw [hv] at h1; cases h1; exact ⟨s, rfl, h2, h3⟩

theorem WInvO.old {w : World α} {sw : SWorld α} (h : WInvO w sw) : Old w := by
  intro k v hv
  obtain ⟨_, _, h2, _⟩ := WInvO.fresh h hv
  exact h2.fresh h.wf

/-- The bytes of every capacity can be computed in an `int`. -/
def CapFit (K : Elem α) (sw : SWorld α) : Prop := ∀ k s, sw k = some s → Fit K s.cap

theorem cap_poolO (hc : Sma.Legal c) {f : Nat → Nat} {m : Mem α} {s : Sma.St} (hR : R c K F f m s)
    {v : Vec} {l : List α} (hr : RepO m v l) (h0 : v.c ≠ 0) : K.size * v.cap ≤ c.M :=
  (cap_pool hc hR (hr.rep h0)).1

/-- What a full vector requests can be computed in an `int`. -/
theorem fit_full (hc : Sma.Legal c) (hM : 2 * c.M + 8 < 2 ^ 31) (hK : 2 * K.size + 8 < 2 ^ 31)
    {f : Nat → Nat} {m : Mem α} {s : Sma.St} (hR : R c K F f m s) {v : Vec} {l : List α} (hr : RepO m v l) :
    Fit K (max 2 (2 * l.length)) := by
  by_cases h0 : v.c = 0
  · rw [(hr.null h0).2]
    show K.size * 2 + 8 < 2 ^ 31
    omega
  · exact fit_push hM hK (mul_le_of_le (cap_poolO hc hR hr h0) hr.le)

theorem CapFit.put {sw : SWorld α} (h : CapFit K sw) {k : Nat} {v : Option (SVec α)}
    (hv : ∀ s, v = some s → Fit K s.cap) : CapFit K (sw.put k v) := by
  intro j s hj
  unfold SWorld.put at hj
  split at hj
  · exact hv s hj
  · exact h j s hj

theorem CapFit.push (hc : Sma.Legal c) (hM : 2 * c.M + 8 < 2 ^ 31) (hK : 2 * K.size + 8 < 2 ^ 31)
    {f : Nat → Nat} {w : World α} {sw : SWorld α} {s : Sma.St} (h : CapFit K sw) (hI : WInvO w sw)
    (hR : R c K F f w.mem s) {k : Nat} {v : SVec α} (hk : sw k = some v) (l : List α) :
    CapFit K (sw.put k (some ⟨l, capAfterPush v.data.length v.cap⟩)) := by
  refine h.put ?_
  rintro _ ⟨⟩
  unfold capAfterPush
  obtain ⟨u, _, h2, _⟩ := hI.alive k v hk
  split
  · exact h k v hk
  · exact fit_full hc hM hK hR h2

theorem fit_mono {a b : Nat} (h : Fit K b) (hab : a ≤ b) : Fit K a := by
  unfold Fit at *
  have := Nat.mul_le_mul_left K.size hab
  omega

theorem CapFit.step (hc : Sma.Legal c) (hM : 2 * c.M + 8 < 2 ^ 31) (hK : 2 * K.size + 8 < 2 ^ 31)
    {f : Nat → Nat} {w : World α} {sw sw' : SWorld α} {s : Sma.St} (h : CapFit K sw) (hI : WInvO w sw)
    (hR : R c K F f w.mem s) {op : Op α} (hz : Sized K.size op) (hs : specStep op sw = some sw') :
    CapFit K sw' := by
  have h0 : Fit K 0 := by show K.size * 0 + 8 < 2 ^ 31; simp
  cases op <;> simp only [specStep, Option.bind_eq_bind, Option.bind_eq_some_iff] at hs
  case new => split at hs <;> cases hs; exact h.put (by rintro _ ⟨⟩; exact h0)
  case newFill => split at hs <;> cases hs; exact h.put (by rintro _ ⟨⟩; exact hz)
  case push => obtain ⟨v, hv, hs⟩ := hs; cases hs; exact h.push hc hM hK hI hR hv _
  case pushElem => obtain ⟨v, hv, _, _, _, _, hs⟩ := hs; cases hs; exact h.push hc hM hK hI hR hv _
  case pop =>
    obtain ⟨v, hv, hs⟩ := hs
    split at hs <;> cases hs
    refine h.put ?_
    rintro _ ⟨⟩
    refine fit_mono (h _ _ hv) ?_
    unfold capAfterPop
    split <;> simp only <;> omega
  case set =>
    obtain ⟨v, hv, _, _, hs⟩ := hs
    split at hs <;> cases hs
    have hf := h _ _ hv
    exact h.put (by rintro _ ⟨⟩; exact hf)
  case resize => obtain ⟨_, _, hs⟩ := hs; cases hs; exact h.put (by rintro _ ⟨⟩; exact hz)
  case resizeFill => obtain ⟨_, _, hs⟩ := hs; cases hs; exact h.put (by rintro _ ⟨⟩; exact hz)
  case clear => obtain ⟨_, _, hs⟩ := hs; cases hs; exact h.put (by rintro _ ⟨⟩; exact h0)
  case copy =>
    obtain ⟨_, _, u, hu, hs⟩ := hs
    cases hs
    exact h.put (by rintro _ ⟨⟩; exact h _ _ hu)
  case move =>
    obtain ⟨_, _, u, hu, hs⟩ := hs
    split at hs <;> cases hs
    · exact h
    · exact (h.put (by rintro _ ⟨⟩; exact h _ _ hu)).put (by rintro _ ⟨⟩; exact h0)
  case drop => obtain ⟨_, _, hs⟩ := hs; cases hs; exact h.put (by rintro _ ⟨⟩)

/-! ## One operation -/

theorem step_direct (hc : Sma.Legal c) (hM : 2 * c.M + 8 < 2 ^ 31) (hK : 2 * K.size + 8 < 2 ^ 31)
    {op : Op α} {f : Nat → Nat} {w : World α} {sw : SWorld α} {pw : PWorld}
    (hI : WInvO w sw) (hF : CapFit K sw) (h : WR c K F f w pw) (hz : Sized K.size op) :
    ∃ y : Bool, (RequestsFirst op →
        (y = true ↔ request op sw = 0 ∨ ¬ NoBlock c pw.pool (bytes K (request op sw)))) ∧
      WSim c K F w pw (Vec.stepWith (may y) K.triv op) (step .direct c K op) := by
  have ho := WInvO.old hI
  have push : ∀ (k : Nat) (v : Vec) (e : Arg α), w.obj k = some v → ArgOld w.mem e →
      ∃ y : Bool, (∀ s, sw k = some s →
          (y = true ↔ s.data.length < s.cap ∨ ¬ NoBlock c pw.pool (bytes K (max 2 (2 * s.data.length))))) ∧
        WSim c K F w pw (Vec.lift (Vec.pushBackWith (may y) K.triv v e) >>= fun v => Vec.putObj k (some v))
          (lift (pushBack (poolOps .direct c K) (vmap f v) (argMap f e)) >>= fun v => putObj k (some v)) := by
    intro k v e hv he
    obtain ⟨s, hs, h2, h3⟩ := WInvO.fresh hI hv
    obtain ⟨y, hy, hy'⟩ := pushBack_simD hc h.mem v (ho k v hv)
      (fun _ => by rw [h2.size]; exact fit_full hc hM hK h.mem h2) e he
    refine ⟨y, ?_, WSim.store h ho hy' k⟩
    intro s' hs'
    rw [hs] at hs'; cases hs'
    rw [h2.size, h3] at hy
    exact hy
  cases op with
  | new k =>
    refine ⟨true, fun _ => ⟨fun _ => Or.inl rfl, fun _ => rfl⟩, fun w' hr => ?_, fun hf => by cases hf⟩
    cases hr
    exact ⟨_, f, rfl, h.put k (by rw [Option.map_some, vmap_empty h.mem])⟩
  | newFill k n x =>
    obtain ⟨y, hy, hy'⟩ := ctorFill_simD hc h.mem n hz (.val x) trivial
    exact ⟨y, fun _ => hy, WSim.store h ho hy' k⟩
  | push k x =>
    rcases hk : w.obj k with _ | v
    · refine ⟨true, fun _ => ⟨fun _ => Or.inl ?_, fun _ => rfl⟩,
        WSim.getObj h (fun v hv => by rw [hk] at hv; cases hv)⟩
      have : sw k = none := by
        rcases hs : sw k with _ | s
        · rfl
        · obtain ⟨v, hv, _⟩ := hI.alive k s hs
          rw [hk] at hv; cases hv
      simp [request, this]
    · obtain ⟨y, hy, hy'⟩ := push k v (.val x) hk trivial
      refine ⟨y, fun _ => ?_, WSim.getObj h (fun v' hv' => ?_)⟩
      · obtain ⟨s, hs, _, _⟩ := WInvO.fresh hI hk
        simp only [request, hs]
        rw [hy s hs]
        by_cases hl : s.data.length < s.cap
        · simp [hl]
        · have : max 2 (2 * s.data.length) ≠ 0 := by omega
          simp [hl]
      · rw [hk] at hv'; cases hv'; exact hy'
  | pushElem k j i =>
    rcases hk : w.obj k with _ | v
    · refine ⟨true, fun _ => ⟨fun _ => Or.inl ?_, fun _ => rfl⟩,
        WSim.getObj h (fun v hv => by rw [hk] at hv; cases hv)⟩
      have : sw k = none := by
        rcases hs : sw k with _ | s
        · rfl
        · obtain ⟨v, hv, _⟩ := hI.alive k s hs
          rw [hk] at hv; cases hv
      simp [request, this]
    · have hreq : ∀ y : Bool, (∀ s, sw k = some s →
          (y = true ↔ s.data.length < s.cap ∨ ¬ NoBlock c pw.pool (bytes K (max 2 (2 * s.data.length))))) →
          RequestsFirst (.pushElem k j i : Op α) →
          (y = true ↔ request (.pushElem k j i) sw = 0 ∨ ¬ NoBlock c pw.pool (bytes K (request (.pushElem k j i) sw))) := by
        intro y hy _
        obtain ⟨s, hs, _, _⟩ := WInvO.fresh hI hk
        simp only [request, hs]
        rw [hy s hs]
        by_cases hl : s.data.length < s.cap
        · simp [hl]
        · have : max 2 (2 * s.data.length) ≠ 0 := by omega
          simp [hl]
      rcases hj : w.obj j with _ | u
      · obtain ⟨y, hy, _⟩ := push k v (.ref 0 0) hk hI.wf.pos
        refine ⟨y, hreq y hy, WSim.getObj h (fun v' hv' => ?_)⟩
        exact WSim.getObj h (fun v hv => by rw [hj] at hv; cases hv)
      · obtain ⟨y, hy, hy'⟩ := push k v (.ref u.c i) hk (ho j u hj)
        refine ⟨y, hreq y hy, WSim.getObj h (fun v' hv' => ?_)⟩
        rw [hk] at hv'; cases hv'
        refine WSim.getObj h (fun u' hu' => ?_)
        rw [hj] at hu'; cases hu'
        exact WSim.dassert hy'
  | pop k =>
    rcases hk : w.obj k with _ | v
    · exact ⟨true, fun h => h.elim, WSim.getObj h (fun v hv => by rw [hk] at hv; cases hv)⟩
    · obtain ⟨s, hs, h2, h3⟩ := WInvO.fresh hI hk
      obtain ⟨y, hy⟩ := popBack_simD hc h.mem v (ho k v hk)
        (fit_mono (by rw [h3]; exact hF k s hs) (Nat.div_le_self v.cap 2))
      refine ⟨y, fun h => h.elim, WSim.getObj h (fun v' hv' => ?_)⟩
      rw [hk] at hv'; cases hv'
      exact WSim.store h ho hy k
  | set k i x =>
    refine ⟨true, fun _ => ⟨fun _ => Or.inl rfl, fun _ => rfl⟩, WSim.getObj h (fun v hv => ?_)⟩
    have hs := setIndex_simD hc h.mem v (ho k v hv) i (.val x) trivial
    refine ⟨fun w' hr => ?_, fun hf => lift_faults (hs.2 (faults_liftM hf))⟩
    obtain ⟨m, r3, rfl⟩ := returns_lift hr
    obtain ⟨_, s', f', g1, g2, g3, _⟩ := hs.1 _ _ r3
    exact ⟨_, f', lift_returns g1, h.ext ho g2 g3⟩
  | resize k n =>
    rcases hk : w.obj k with _ | v
    · obtain ⟨y, hy, _⟩ := resize_simD hc h.mem Vec.empty h.mem.wf.pos n hz
      exact ⟨y, fun _ => hy, WSim.getObj h (fun v hv => by rw [hk] at hv; cases hv)⟩
    · obtain ⟨y, hy, hy'⟩ := resize_simD hc h.mem v (ho k v hk) n hz
      refine ⟨y, fun _ => hy, WSim.getObj h (fun v' hv' => ?_)⟩
      rw [hk] at hv'; cases hv'
      exact WSim.store h ho hy' k
  | resizeFill k n x =>
    rcases hk : w.obj k with _ | v
    · obtain ⟨y, hy, _⟩ := resize_simD hc h.mem Vec.empty h.mem.wf.pos n hz
      exact ⟨y, fun _ => hy, WSim.getObj h (fun v hv => by rw [hk] at hv; cases hv)⟩
    · obtain ⟨y, hy, hy'⟩ := resizeFill_simD hc h.mem v (ho k v hk) n hz (.val x) trivial
      refine ⟨y, fun _ => hy, WSim.getObj h (fun v' hv' => ?_)⟩
      rw [hk] at hv'; cases hv'
      exact WSim.store h ho hy' k
  | clear k =>
    exact ⟨true, fun _ => ⟨fun _ => Or.inl rfl, fun _ => rfl⟩, WSim.getObj h (fun v hv =>
      WSim.store h ho (clear_simD hc h.mem v (ho k v hv)) k)⟩
  | copy d s =>
    rcases hd : w.obj d with _ | v
    · exact ⟨true, fun h => h.elim, WSim.getObj h (fun v hv => by rw [hd] at hv; cases hv)⟩
    · rcases hs : w.obj s with _ | u
      · exact ⟨true, fun h => h.elim, WSim.getObj h (fun _ _ => WSim.getObj h (fun v hv => by
          rw [hs] at hv; cases hv))⟩
      · obtain ⟨t, ht, h2, h3⟩ := WInvO.fresh hI hs
        obtain ⟨y, hy⟩ := copyAssign_simD hc h.mem v u (ho d v hd) (ho s u hs)
          (by rw [h3]; exact hF s t ht)
        refine ⟨y, fun h => h.elim, WSim.getObj h (fun v' hv' => WSim.getObj h (fun u' hu' => ?_))⟩
        rw [hd] at hv'; cases hv'
        rw [hs] at hu'; cases hu'
        by_cases hds : d = s
        · rw [if_pos hds, if_pos hds]; exact WSim.skip h
        · rw [if_neg hds, if_neg hds]; exact WSim.store h ho hy d
  | move d s =>
    refine ⟨true, fun _ => ⟨fun _ => Or.inl rfl, fun _ => rfl⟩, WSim.getObj h (fun v hv => WSim.getObj h (fun u hu => ?_))⟩
    by_cases hds : d = s
    · rw [if_pos hds, if_pos hds]; exact WSim.skip h
    · rw [if_neg hds, if_neg hds]
      have hsim := moveAssign_simD hc h.mem v u (ho d v hv) (ho s u hu)
      refine ⟨fun w' hr => ?_, fun hf => ?_⟩
      · obtain ⟨⟨a, b⟩, w1, r1, r2⟩ := returns_bind hr
        obtain ⟨m, r3, rfl⟩ := returns_lift r1
        obtain ⟨⟨a', b'⟩, s', f', g1, g2, g3, ⟨ga, _⟩, gb, _⟩ := hsim.1 _ _ r3
        cases r2
        simp only at ga gb
        refine ⟨_, f', (bind_returns (lift_returns g1)).trans rfl, ?_⟩
        exact ((h.ext ho g2 g3).put d (by rw [ga]; rfl)).put s (by rw [gb]; rfl)
      · rcases faults_bind hf with hf | ⟨⟨a, b⟩, w1, _, hf⟩
        · exact bind_faults (lift_faults (hsim.2 (faults_liftM hf)))
        · cases hf
  | drop k =>
    refine ⟨true, fun _ => ⟨fun _ => Or.inl rfl, fun _ => rfl⟩, WSim.getObj h (fun v hv => ?_)⟩
    have hsim := clear_simD hc h.mem v (ho k v hv)
    refine ⟨fun w' hr => ?_, fun hf => ?_⟩
    · obtain ⟨v', w1, r1, r2⟩ := returns_bind hr
      obtain ⟨m, r3, rfl⟩ := returns_lift r1
      obtain ⟨_, s', f', g1, g2, g3, _⟩ := hsim.1 _ _ r3
      cases r2
      exact ⟨_, f', (bind_returns (lift_returns g1)).trans rfl, (h.ext ho g2 g3).put k rfl⟩
    · rcases faults_bind hf with hf | ⟨a, w1, _, hf⟩
      · exact bind_faults (lift_faults (hsim.2 (faults_liftM hf)))
      · cases hf

/-- The states that vectors can bring about. -/
theorem run_direct (hc : Sma.Legal c) (hM : 2 * c.M + 8 < 2 ^ 31) (hK : 2 * K.size + 8 < 2 ^ 31)
    (ops : List (Op α)) {f : Nat → Nat} {w : World α} {pw : PWorld} {sw sw' : SWorld α}
    (hI : WInvO w sw) (hF : CapFit K sw) (h : WR c K F f w pw) (hfin : Finite sw)
    (hs : specRun ops sw = some sw')
    (ha : AvoidsAll K.triv ops sw) (hz : ∀ op ∈ ops, Sized K.size op) :
    Faults (run .direct c K ops) pw .crash ∨ ∃ pw' f' w', Returns (run .direct c K ops) pw () pw' ∧
      WInvO w' sw' ∧ CapFit K sw' ∧ WR c K F f' w' pw' ∧ Finite sw' := by
  induction ops generalizing f w pw sw with
  | nil => cases hs; exact Or.inr ⟨pw, f, w, rfl, hI, hF, h, hfin⟩
  | cons op ops ih =>
    obtain ⟨sw1, hs1, hs2⟩ := Option.bind_eq_some_iff.1 hs
    have hzo := hz op List.mem_cons_self
    obtain ⟨y, _, hsim⟩ := step_direct hc hM hK hI hF h hzo
    rcases stepWith_ok (g := fun _ => y) hI hs1 ha.1 with ⟨_, w1, r1, hI1⟩ | hf
    · obtain ⟨pw1, f1, e1, e2⟩ := hsim.1 w1 r1
      have := ih hI1 (hF.step hc hM hK hI h.mem hzo hs1) e2 (hfin.step hs1) hs2 (ha.2 sw1 hs1)
        (fun o ho => hz o (List.mem_cons_of_mem _ ho))
      have er : run .direct c K (op :: ops) pw = run .direct c K ops pw1 := bind_returns e1
      unfold Faults Returns at *
      rw [er]
      exact this
    · exact Or.inl (bind_faults (hsim.2 hf))

/-! ## What a state in relation shows -/

theorem WR.showsO (hc : Sma.Legal c) {f : Nat → Nat} {w : World α} {pw : PWorld} {sw : SWorld α}
    (h : WR c K F f w pw) (hI : WInvO w sw) : Shows .direct c K pw sw := by
  intro k
  obtain ⟨h1, h2⟩ := hI.shows k
  refine ⟨fun hk => by rw [h.obj k, h1 hk]; rfl, ?_⟩
  intro s hs
  obtain ⟨v, g1, g2, g3, g4, g5, g6⟩ := h2 s hs
  refine ⟨vmap f v, by rw [h.obj k, g1]; rfl, g2, g3, iterate_pool hc h.mem g4, ?_, ?_⟩
  · intro hl i hi
    exact ⟨index_pool hc h.mem (g5 hl i hi).1, index_pool hc h.mem (g5 hl i hi).2⟩
  · intro hne
    exact ⟨front_pool hc h.mem (g6 hne).1, back_pool hc h.mem (g6 hne).2⟩

/-- The block of a vector with storage. -/
theorem WR.blockO {f : Nat → Nat} {w : World α} {pw : PWorld} {sw : SWorld α} (h : WR c K F f w pw)
    (hI : WInvO w sw) {k : Nat} {v : Vec} (hv : pw.obj k = some v)
    (h0 : v.c ≠ 0) : ∃ u g s, w.obj k = some u ∧ v = vmap f u ∧ u.c ≠ 0 ∧ w.mem.blk u.c = some ⟨v.cap, g⟩ ∧
      sw k = some s ∧ s.cap = v.cap := by
  rw [h.obj k] at hv
  rcases hu : w.obj k with _ | u
  · rw [hu] at hv; cases hv
  · rw [hu] at hv
    cases hv
    obtain ⟨s, hs, h2, h3⟩ := WInvO.fresh hI hu
    have hu0 : u.c ≠ 0 := fun e => h0 ((h.mem.zero u.c).2 e)
    obtain ⟨_, _, g, hb, _⟩ := (h2.rep hu0).buf hu0
    exact ⟨u, g, s, rfl, rfl, hu0, hb, hs, h3.symm⟩

theorem WR.placedO (hc : Sma.Legal c) {f : Nat → Nat} {w : World α} {pw : PWorld} {sw : SWorld α}
    (h : WR c K F f w pw) (hI : WInvO w sw) : Stored c K.size pw sw := by
  refine ⟨fun k v hv h0 => ?_, fun k v hv h0 => ?_⟩
  · obtain ⟨u, g, _, hu, rfl, hu0, hb, _⟩ := h.blockO hI hv h0
    obtain ⟨i1, i2, _, _⟩ := h.mem.inPool hc hb
    refine ⟨⟨i1, i2⟩, ?_, ?_⟩
    · intro j u' hj hu' h0'
      obtain ⟨x, g', _, hx, rfl, hx0, hb', _⟩ := h.blockO hI hu' h0'
      have := h.mem.disj hc hb hb' (hI.sep k j u x (Ne.symm hj) hu hx hu0)
      simpa [taken8, vmap] using this
    · intro b hfb
      obtain ⟨L, hm, _, h3⟩ := h.mem.live hb
      have := (Sma.sma_blocks_partial hc h3).2.2.1 (f u.c, bytes K (vmap f u).cap) hm b hfb
      simpa [up8_bytes, taken8, vmap] using this
  · rw [h.obj k] at hv
    rcases hu : w.obj k with _ | u
    · rw [hu] at hv; cases hv
    · rw [hu] at hv
      cases hv
      obtain ⟨s, hs, h2, h3⟩ := WInvO.fresh hI hu
      obtain ⟨_, e⟩ := h2.null ((h.mem.zero u.c).1 h0)
      exact ⟨s, hs, e⟩

theorem sum_blocksO {f : Nat → Nat} {w : World α} {pw : PWorld} {sw : SWorld α} (h : WR c K F f w pw)
    (hI : WInvO w sw) (ks : List Nat) (hks : ∀ k ∈ ks, sw k ≠ none) :
    Sma.total (Sma.taken (((ks.filterMap fun k => w.obj k).filter fun v => decide (v.c ≠ 0)).map fun v =>
      (f v.c, blkBytes K w.mem v.c))) = heldSum K.size pw ks := by
  induction ks with
  | nil => rfl
  | cons k ks ih =>
    have ih := ih (fun j hj => hks j (List.mem_cons_of_mem _ hj))
    rcases hs : sw k with _ | s
    · exact absurd hs (hks k List.mem_cons_self)
    · obtain ⟨v, h1, h2, h3⟩ := hI.alive k s hs
      have hp : pw.obj k = some (vmap f v) := by rw [h.obj k, h1]; rfl
      rw [List.filterMap_cons_some h1]
      simp only [heldSum, hp]
      by_cases h0 : v.c = 0
      · have h0' : (vmap f v).c = 0 := (h.mem.zero v.c).2 h0
        rw [List.filter_cons_of_neg (by simp [h0]), ih, if_pos h0', Nat.zero_add]
      · obtain ⟨_, _, g, hb, _⟩ := (h2.rep h0).buf h0
        have h0' : ¬ (vmap f v).c = 0 := fun e => h0 ((h.mem.zero v.c).1 e)
        rw [List.filter_cons_of_pos (by simp [h0]), if_neg h0']
        simp only [Sma.taken, List.map_cons, Sma.total] at ih ⊢
        rw [ih]
        simp only [blkBytes, hb, up8_bytes, taken8, vmap]

theorem objs_nodupO {w : World α} {sw : SWorld α} (hI : WInvO w sw) (ks : List Nat) (hn : ks.Nodup) :
    (((ks.filterMap fun k => w.obj k).filter fun v => decide (v.c ≠ 0)).map fun v => v.c).Nodup := by
  induction ks with
  | nil => exact List.nodup_nil
  | cons k ks ih =>
    obtain ⟨hk, hn⟩ := List.nodup_cons.1 hn
    have ih := ih hn
    rcases hv : w.obj k with _ | v
    · rw [List.filterMap_cons_none hv]; exact ih
    · rw [List.filterMap_cons_some hv]
      by_cases h0 : v.c = 0
      · rw [List.filter_cons_of_neg (by simp [h0])]; exact ih
      · rw [List.filter_cons_of_pos (by simp [h0]), List.map_cons]
        refine List.nodup_cons.2 ⟨?_, ih⟩
        intro hm
        obtain ⟨u, hu, he⟩ := List.mem_map.1 hm
        obtain ⟨j, hj, hju⟩ := List.mem_filterMap.1 (List.mem_filter.1 hu).1
        exact hI.sep k j v u (by rintro rfl; exact hk hj) hv hju h0 he.symm

theorem WR.freeO (hc : Sma.Legal c) {f : Nat → Nat} {w : World α} {pw : PWorld} {sw : SWorld α}
    (h : WR c K .nil f w pw) (hI : WInvO w sw) (ks : List Nat) (hn : ks.Nodup)
    (hks : ∀ k, k ∈ ks ↔ sw k ≠ none) :
    Returns Sma.freeMemSize pw.pool ((c.M : Int) - heldSum K.size pw ks) pw.pool := by
  obtain ⟨bs, h1, h2, L, hp, h3⟩ := h.mem.held
  have hperm : (((ks.filterMap fun k => w.obj k).filter fun v => decide (v.c ≠ 0)).map fun v => v.c).Perm bs := by
    refine (List.perm_ext_iff_of_nodup (objs_nodupO hI ks hn) h1).2 (fun b => ?_)
    rw [h2]
    constructor
    · intro hm
      obtain ⟨v, hv, rfl⟩ := List.mem_map.1 hm
      obtain ⟨hv1, hv2⟩ := List.mem_filter.1 hv
      obtain ⟨k, _, hk⟩ := List.mem_filterMap.1 hv1
      obtain ⟨s, _, g2, _⟩ := WInvO.fresh hI hk
      have h0 : v.c ≠ 0 := by simpa using hv2
      obtain ⟨_, _, g, hb, _⟩ := (g2.rep h0).buf h0
      rw [hb]; simp
    · intro hb
      obtain ⟨k, v, hk, rfl⟩ := hI.owned b hb
      refine List.mem_map.2 ⟨v, List.mem_filter.2 ⟨List.mem_filterMap.2 ⟨k, ?_, hk⟩, ?_⟩, rfl⟩
      · obtain ⟨s, hs, _⟩ := WInvO.fresh hI hk
        exact (hks k).2 (by rw [hs]; simp)
      · have : v.c ≠ 0 := by intro e; rw [e] at hb; exact hb hI.wf.null
        simpa using this
  have htot : Sma.total (Sma.taken L) = heldSum K.size pw ks := by
    rw [← sum_blocksO (f := f) h hI ks (fun k hk => (hks k).1 hk)]
    refine (Sma.total_perm (hp.map _)).trans ?_
    rw [show Rest.nil.live = [] from rfl, List.append_nil]
    have e := hperm.map fun b => (f b, blkBytes K w.mem b)
    rw [List.map_map] at e
    exact Sma.total_perm (e.symm.map _)
  obtain ⟨⟨L, hL⟩, h4, _⟩ := Sma.sma_accounting hc h3
  obtain ⟨x, e1, e2, _⟩ := h4 L hL
  simp only at e1 e2
  rw [htot] at e2
  rw [← e2]
  exact e1

end Verif.Pool
