import Verif.VectorPoolSim
import Verif.VectorWorld
import Verif.Spec.VectorPool

/-! Helper lemmas: worlds of vectors in the static pool. -/

namespace Verif.Pool

open Prog Vec

variable {α : Type} {md : Sma.Mode} {c : Sma.Cfg} {K : Elem α} {F : Rest}

/-- The objects of the pool world are those of the world of blocks, moved to the pool. -/
structure WR (c : Sma.Cfg) (K : Elem α) (F : Rest) (f : Nat → Nat) (w : World α) (pw : PWorld) : Prop where
  mem : R c K F f w.mem pw.pool
  obj : ∀ k, pw.obj k = (w.obj k).map (vmap f)

theorem lift_returns {β : Type} {p : Prog Sma.St β} {pw : PWorld} {a : β} {s : Sma.St}
    (h : Returns p pw.pool a s) : Returns (lift p) pw a { pw with pool := s } := by
  unfold Returns lift at *; rw [h]

theorem lift_faults {β : Type} {p : Prog Sma.St β} {pw : PWorld} {e : Fault}
    (h : Faults p pw.pool e) : Faults (lift p) pw e := by
  unfold Faults lift at *; rw [h]

theorem getObj_returns {pw : PWorld} {k : Nat} {v : Vec} (h : pw.obj k = some v) :
    Returns (getObj k) pw v pw := by
  unfold Returns getObj; rw [h]

theorem returns_lift {β : Type} {p : Prog (Mem α) β} {w w' : World α} {a : β}
    (h : Returns (Vec.lift p) w a w') : ∃ m, Returns p w.mem a m ∧ w' = { w with mem := m } := by
  obtain ⟨a', m, h1, h2, h3⟩ := (wp_lift p (fun a' w'' => a' = a ∧ w'' = w') w).1 ⟨a, w', h, rfl, rfl⟩
  subst h2
  exact ⟨m, h1, h3.symm⟩

theorem returns_getObj {w w' : World α} {k : Nat} {v : Vec} (h : Returns (Vec.getObj k) w v w') :
    w.obj k = some v ∧ w' = w := by
  unfold Returns Vec.getObj at h
  split at h
  · cases h
  · rename_i u hu; cases h; exact ⟨hu, rfl⟩

theorem WInv.fresh {w : World α} {sw : SWorld α} (h : Vec.WInv w sw) {k : Nat} {v : Vec}
    (hv : w.obj k = some v) : ∃ s, sw k = some s ∧ Rep w.mem v s.data ∧ v.cap = s.cap := by
  rcases hs : sw k with _ | s
  · rw [h.dead k hs] at hv; cases hv
  · obtain ⟨u, h1, h2, h3⟩ := h.alive k s hs
    rw [hv] at h1; cases h1; exact ⟨s, rfl, h2, h3⟩

/-- Every object's buffer is an existing block. -/
def Old (w : World α) : Prop := ∀ k v, w.obj k = some v → v.c < w.mem.next

theorem WInv.old {w : World α} {sw : SWorld α} (h : Vec.WInv w sw) : Old w := by
  intro k v hv
  obtain ⟨_, _, h2, _⟩ := WInv.fresh h hv
  exact h2.fresh

theorem WR.ext {f f' : Nat → Nat} {w : World α} {pw : PWorld} (h : WR c K F f w pw) (ho : Old w)
    {m' : Mem α} {s' : Sma.St} (he : Ext f w.mem f' m') (hr : R c K F f' m' s') :
    WR c K F f' { w with mem := m' } { pw with pool := s' } := by
  refine ⟨hr, fun k => ?_⟩
  show pw.obj k = (w.obj k).map (vmap f')
  rw [h.obj k]
  rcases hk : w.obj k with _ | v
  · rfl
  · simp only [Option.map_some]; rw [vmap_ext he (ho k v hk)]

theorem WR.put {f : Nat → Nat} {w : World α} {pw : PWorld} (h : WR c K F f w pw) (k : Nat)
    {v v' : Option Vec} (hv : v' = v.map (vmap f)) :
    WR c K F f { w with obj := fun x => if x = k then v else w.obj x }
      { pw with obj := fun x => if x = k then v' else pw.obj x } := by
  refine ⟨h.mem, fun x => ?_⟩
  show (if x = k then v' else pw.obj x) = (if x = k then v else w.obj x).map (vmap f)
  by_cases hx : x = k
  · rw [if_pos hx, if_pos hx]; exact hv
  · rw [if_neg hx, if_neg hx]; exact h.obj x

/-- What a step of the pool world does when the world of blocks goes from `w` to `w'`. -/
def StepSim (c : Sma.Cfg) (K : Elem α) (F : Rest) (P : Prop) (f : Nat → Nat) (pw : PWorld) (w' : World α)
    (q : Prog PWorld Unit) : Prop :=
  (P ∧ Faults q pw .crash) ∨ ∃ pw' f', Returns q pw () pw' ∧ WR c K F f' w' pw'

/-- The common form of most operations. -/
theorem store_sim {P : Prop} {f : Nat → Nat} {w w' : World α} {pw : PWorld} (h : WR c K F f w pw)
    (ho : Old w) {p : Prog (Mem α) Vec} {q : Prog Sma.St Vec} (hs : Sim c K F P f w.mem pw.pool p q VR)
    {k : Nat} (hr : Returns (Vec.lift p >>= fun v => Vec.putObj k (some v)) w () w') :
    StepSim c K F P f pw w' (lift q >>= fun v => putObj k (some v)) := by
  obtain ⟨v, w1, r1, r2⟩ := returns_bind hr
  obtain ⟨m, r3, rfl⟩ := returns_lift r1
  cases r2
  rcases hs v m r3 with ⟨hp, hf⟩ | ⟨v', s', f', g1, g2, g3, rfl, _⟩
  · exact Or.inl ⟨hp, bind_faults (lift_faults hf)⟩
  · refine Or.inr ⟨_, f', (bind_returns (lift_returns g1)).trans rfl, ?_⟩
    exact (h.ext ho g2 g3).put k rfl

theorem getObj_bind {k : Nat} {w w' : World α} {g : Vec → Prog (World α) Unit}
    (h : Returns (Vec.getObj k >>= g) w () w') : ∃ v, w.obj k = some v ∧ Returns (g v) w () w' := by
  obtain ⟨v, w1, r1, r2⟩ := returns_bind h
  obtain ⟨hv, rfl⟩ := returns_getObj r1
  exact ⟨v, hv, r2⟩

theorem StepSim.getObj {P : Prop} {f : Nat → Nat} {w w' : World α} {pw : PWorld} (h : WR c K F f w pw)
    {k : Nat} {v : Vec} (hv : w.obj k = some v) {g : Vec → Prog PWorld Unit}
    (hs : StepSim c K F P f pw w' (g (vmap f v))) : StepSim c K F P f pw w' (getObj k >>= g) := by
  have hk : pw.obj k = some (vmap f v) := by rw [h.obj k, hv]; rfl
  unfold StepSim Faults Returns at *
  rw [bind_returns (getObj_returns hk)]
  exact hs

theorem StepSim.mono {P Q : Prop} {f : Nat → Nat} {w' : World α} {pw : PWorld} {q : Prog PWorld Unit}
    (h : StepSim c K F P f pw w' q) (hpq : P → Q) : StepSim c K F Q f pw w' q := by
  rcases h with ⟨h1, h2⟩ | h
  · exact Or.inl ⟨hpq h1, h2⟩
  · exact Or.inr h

/-- The capacity of a vector fits into the pool. -/
theorem cap_pool (hc : Sma.Legal c) {f : Nat → Nat} {m : Mem α} {s : Sma.St} (hR : R c K F f m s)
    {v : Vec} {l : List α} (hr : Rep m v l) : K.size * v.cap ≤ c.M ∧ l.length ≤ v.cap := by
  by_cases h0 : v.c = 0
  · obtain ⟨rfl, rfl⟩ := hr.null h0
    simp [Vec.empty]
  · obtain ⟨_, h2, g, hb, _⟩ := hr.buf h0
    obtain ⟨_, h3, _⟩ := hR.inPool hc hb
    refine ⟨?_, h2⟩
    simp only at h3
    have := (hR.inPool hc hb).1
    omega

/-- What must be missing for an operation to stop: the pool in which it is missing is the present one
for operations that begin by requesting memory. -/
def Lacks (c : Sma.Cfg) (K : Elem α) (s : Sma.St) (sw : SWorld α) : Op α → Prop
  | .newFill _ n _ | .resize _ n | .resizeFill _ n _ => Short c K s n
  | .push k _ | .pushElem k _ _ => ∃ v, sw k = some v ∧ v.data.length = v.cap ∧
      Short c K s (max 2 (2 * v.data.length))
  | .pop k => ∃ v, sw k = some v ∧ v.data.length - 1 < v.cap / 3 ∧ v.cap / 2 ≠ 0
  | .copy d s => d ≠ s ∧ ∃ v, sw s = some v ∧ v.cap ≠ 0
  | _ => False

theorem fit_push (hM : 2 * c.M + 8 < 2 ^ 31) (hK : 2 * K.size + 8 < 2 ^ 31) {n : Nat}
    (h : K.size * n ≤ c.M) : Fit K (max 2 (2 * n)) := by
  unfold Fit
  rcases Nat.le_total 2 (2 * n) with h1 | h1
  · rw [Nat.max_eq_right h1, Nat.mul_left_comm K.size 2 n]
    generalize K.size * n = z at *
    omega
  · rw [Nat.max_eq_left h1]
    omega

theorem mul_le_of_le {w a b M : Nat} (h : w * b ≤ M) (hab : a ≤ b) : w * a ≤ M :=
  Nat.le_trans (Nat.mul_le_mul_left w hab) h

theorem step_pool (hc : Sma.Legal c) (hM : 2 * c.M + 8 < 2 ^ 31) (hK : 2 * K.size + 8 < 2 ^ 31)
    {op : Op α} {f : Nat → Nat} {w w' : World α} {sw : SWorld α} {pw : PWorld}
    (hI : Vec.WInv w sw) (h : WR c K F f w pw) (hz : Sized K.size op)
    (hr : Returns (Vec.step K.triv op) w () w') :
    StepSim c K F (Lacks c K pw.pool sw op) f pw w' (step .port c K op) := by
  have ho := WInv.old hI
  have push : ∀ (k : Nat) (v : Vec) (e : Arg α), w.obj k = some v → ArgOld w.mem e →
      Returns (Vec.lift (Vec.pushBackWith Vec.alloc K.triv v e) >>= fun v => Vec.putObj k (some v)) w () w' →
      StepSim c K F (∃ v, sw k = some v ∧ v.data.length = v.cap ∧
        Short c K pw.pool (max 2 (2 * v.data.length))) f pw w'
        (lift (pushBack (poolOps .port c K) (vmap f v) (argMap f e)) >>= fun v => putObj k (some v)) := by
    intro k v e hv he hr
    obtain ⟨s, hs, h2, h3⟩ := WInv.fresh hI hv
    obtain ⟨c1, c2⟩ := cap_pool hc h.mem h2
    refine (store_sim h ho (pushBack_sim hc h.mem v (ho k v hv) (fun _ => ?_) e he) hr).mono ?_
    · rw [h2.size]; exact fit_push hM hK (mul_le_of_le c1 c2)
    · rintro ⟨g1, g2⟩
      rw [h2.size] at g1 g2
      exact ⟨s, hs, by omega, g2⟩
  have hMint := hc.Mint
  cases op with
  | new k =>
    cases hr
    exact Or.inr ⟨_, f, rfl, h.put k (by rw [Option.map_some, vmap_empty h.mem])⟩
  | newFill k n x =>
    exact store_sim h ho (ctorFill_sim hc h.mem n hz (.val x) trivial) hr
  | push k x =>
    obtain ⟨v, hv, hr⟩ := getObj_bind hr
    exact StepSim.getObj h hv (push k v (.val x) hv trivial hr)
  | pushElem k j i =>
    obtain ⟨v, hv, hr⟩ := getObj_bind hr
    refine StepSim.getObj h hv ?_
    obtain ⟨u, hu, hr⟩ := getObj_bind hr
    refine StepSim.getObj h hu ?_
    obtain ⟨_, w1, r1, r2⟩ := returns_bind hr
    obtain ⟨hi, rfl⟩ := returns_check r1
    have := push k v (.ref u.c i) hv (ho j u hu) r2
    unfold StepSim Faults Returns at *
    rw [bind_returns (show Returns (dassert (i < (vmap f u).sz)) pw () pw from check_ok pw hi)]
    exact this
  | pop k =>
    obtain ⟨v, hv, hr⟩ := getObj_bind hr
    refine StepSim.getObj h hv ?_
    obtain ⟨s, hs, h2, h3⟩ := WInv.fresh hI hv
    obtain ⟨c1, c2⟩ := cap_pool hc h.mem h2
    have c3 := mul_le_of_le c1 (Nat.div_le_self v.cap 2)
    refine (store_sim h ho (popBack_sim hc h.mem v (ho k v hv) ?_) hr).mono ?_
    · unfold Fit; omega
    · rintro ⟨g1, _, _, g2, _⟩
      exact ⟨s, hs, by rw [← h2.size, ← h3]; exact g1, by rw [← h3]; exact g2⟩
  | set k i x =>
    obtain ⟨v, hv, hr⟩ := getObj_bind hr
    refine StepSim.getObj h hv ?_
    obtain ⟨m, r3, rfl⟩ := returns_lift hr
    rcases setIndex_sim (P := False) hc h.mem v (ho k v hv) i (.val x) trivial _ _ r3 with
      ⟨hp, _⟩ | ⟨_, s', f', g1, g2, g3, _⟩
    · exact hp.elim
    · exact Or.inr ⟨_, f', lift_returns g1, h.ext ho g2 g3⟩
  | resize k n =>
    obtain ⟨v, hv, hr⟩ := getObj_bind hr
    exact StepSim.getObj h hv (store_sim h ho (resize_sim hc h.mem v (ho k v hv) n hz) hr)
  | resizeFill k n x =>
    obtain ⟨v, hv, hr⟩ := getObj_bind hr
    exact StepSim.getObj h hv
      (store_sim h ho (resizeFill_sim hc h.mem v (ho k v hv) n hz (.val x) trivial) hr)
  | clear k =>
    obtain ⟨v, hv, hr⟩ := getObj_bind hr
    exact StepSim.getObj h hv (store_sim h ho (clear_sim hc h.mem v (ho k v hv)) hr)
  | copy d s =>
    obtain ⟨v, hv, hr⟩ := getObj_bind hr
    refine StepSim.getObj h hv ?_
    obtain ⟨u, hu, hr⟩ := getObj_bind hr
    refine StepSim.getObj h hu ?_
    by_cases hds : d = s
    · rw [if_pos hds] at hr ⊢
      cases hr
      exact Or.inr ⟨pw, f, rfl, h⟩
    · rw [if_neg hds] at hr ⊢
      obtain ⟨t, ht, h2, h3⟩ := WInv.fresh hI hu
      obtain ⟨c1, c2⟩ := cap_pool hc h.mem h2
      refine (store_sim h ho (copyAssign_sim hc h.mem v u (ho d v hv) (ho s u hu) ?_) hr).mono
        (fun h => ⟨hds, t, ht, by rw [← h3]; exact h⟩)
      unfold Fit; omega
  | move d s =>
    obtain ⟨v, hv, hr⟩ := getObj_bind hr
    refine StepSim.getObj h hv ?_
    obtain ⟨u, hu, hr⟩ := getObj_bind hr
    refine StepSim.getObj h hu ?_
    by_cases hds : d = s
    · rw [if_pos hds] at hr ⊢
      cases hr
      exact Or.inr ⟨pw, f, rfl, h⟩
    · rw [if_neg hds] at hr ⊢
      obtain ⟨⟨a, b⟩, w1, r1, r2⟩ := returns_bind hr
      obtain ⟨m, r3, rfl⟩ := returns_lift r1
      rcases moveAssign_sim (P := False) hc h.mem v u (ho d v hv) (ho s u hu) _ _ r3 with
        ⟨hp, _⟩ | ⟨⟨a', b'⟩, s', f', g1, g2, g3, ⟨ga, _⟩, gb, _⟩
      · exact hp.elim
      · cases r2
        simp only at ga gb
        refine Or.inr ⟨_, f', (bind_returns (lift_returns g1)).trans rfl, ?_⟩
        exact ((h.ext ho g2 g3).put d (by rw [ga]; rfl)).put s (by rw [gb]; rfl)
  | drop k =>
    obtain ⟨v, hv, hr⟩ := getObj_bind hr
    refine StepSim.getObj h hv ?_
    obtain ⟨v', w1, r1, r2⟩ := returns_bind hr
    obtain ⟨m, r3, rfl⟩ := returns_lift r1
    rcases clear_sim (P := False) hc h.mem v (ho k v hv) _ _ r3 with ⟨hp, _⟩ | ⟨_, s', f', g1, g2, g3, _⟩
    · exact hp.elim
    · cases r2
      exact Or.inr ⟨_, f', (bind_returns (lift_returns g1)).trans rfl, (h.ext ho g2 g3).put k rfl⟩

/-! ## What a state in relation shows -/

/-- A freshly constructed pool. -/
theorem WR.init {s0 s : Sma.St} (h : Returns (Sma.construct c) s0 () s) :
    WR c K .nil id (World.init : World α) ⟨s, fun _ => none⟩ :=
  ⟨⟨Mem.WF.init, fun _ => Iff.rfl, ⟨[], List.nodup_nil, by simp [World.init, Mem.init], [], .refl _, .init h⟩,
    (fun p hp => by cases hp), fun b k i x hk => by cases hk⟩, fun _ => rfl⟩

theorem WR.shows (hc : Sma.Legal c) {f : Nat → Nat} {w : World α} {pw : PWorld} {sw : SWorld α}
    (h : WR c K F f w pw) (hI : Vec.WInv w sw) : Shows md c K pw sw := by
  intro k
  obtain ⟨h1, h2⟩ := hI.shows k
  refine ⟨fun hk => by rw [h.obj k, h1 hk]; rfl, ?_⟩
  intro s hs
  obtain ⟨v, g1, g2, g3, g4, g5, g6⟩ := h2 s hs
  refine ⟨vmap f v, by rw [h.obj k, g1]; rfl, g2, g3, iterate_pool hc h.mem g4, ?_, ?_⟩
  · intro hl i hi
    exact ⟨index_pool hc h.mem (g5 hl i hi).1, index_pool hc h.mem (g5 hl i hi).2⟩
  · intro hne
    exact ⟨front_pool hc h.mem (g6 hne).1, back_pool hc h.mem (g6 hne).2⟩

/-- The block of a vector with storage. -/
theorem WR.block {f : Nat → Nat} {w : World α} {pw : PWorld} {sw : SWorld α} (h : WR c K F f w pw)
    (hI : Vec.WInv w sw) {k : Nat} {v : Vec} {s : SVec α} (hv : pw.obj k = some v) (hs : sw k = some s)
    (h0 : s.cap ≠ 0) : ∃ u g, w.obj k = some u ∧ v = vmap f u ∧ u.c ≠ 0 ∧ w.mem.blk u.c = some ⟨s.cap, g⟩ := by
  obtain ⟨u, g1, g2, g3⟩ := hI.alive k s hs
  rw [h.obj k, g1] at hv
  cases hv
  have hu : u.c ≠ 0 := by
    intro e
    obtain ⟨rfl, _⟩ := g2.null e
    exact h0 g3.symm
  obtain ⟨_, _, g, hb, _⟩ := g2.buf hu
  exact ⟨u, g, g1, rfl, hu, by rw [hb, g3]⟩

theorem WR.placed (hc : Sma.Legal c) {f : Nat → Nat} {w : World α} {pw : PWorld} {sw : SWorld α}
    (h : WR c K F f w pw) (hI : Vec.WInv w sw) : Placed c K pw sw := by
  intro k v s hv hs h0
  obtain ⟨u, g, hu, rfl, hu0, hb⟩ := h.block hI hv hs h0
  obtain ⟨i1, i2, _, _⟩ := h.mem.inPool hc hb
  refine ⟨⟨i1, i2⟩, ?_, ?_⟩
  · intro j u' t hj hu' ht ht0
    obtain ⟨x, g', hx, rfl, hx0, hb'⟩ := h.block hI hu' ht ht0
    exact h.mem.disj hc hb hb' (hI.sep k j u x (Ne.symm hj) hu hx hu0)
  · intro b hfb
    obtain ⟨L, hm, _, h3⟩ := h.mem.live hb
    have := (Sma.sma_blocks_partial hc h3).2.2.1 (f u.c, bytes K s.cap) hm b hfb
    simpa [up8_bytes, storageBytes, taken8, vmap] using this

/-- The storage of the vectors named in a list is that of their blocks. -/
theorem sum_blocks {f : Nat → Nat} {w : World α} {sw : SWorld α} (hI : Vec.WInv w sw) (ks : List Nat)
    (hks : ∀ k ∈ ks, sw k ≠ none) :
    Sma.total (Sma.taken (((ks.filterMap fun k => w.obj k).filter fun v => decide (v.c ≠ 0)).map fun v =>
      (f v.c, blkBytes K w.mem v.c))) = storageSum K.size sw ks := by
  induction ks with
  | nil => rfl
  | cons k ks ih =>
    have ih := ih (fun j hj => hks j (List.mem_cons_of_mem _ hj))
    rcases hs : sw k with _ | s
    · exact absurd hs (hks k List.mem_cons_self)
    · obtain ⟨v, h1, h2, h3⟩ := hI.alive k s hs
      rw [List.filterMap_cons_some h1]
      simp only [storageSum, hs]
      by_cases h0 : v.c = 0
      · rw [List.filter_cons_of_neg (by simp [h0]), ih]
        obtain ⟨rfl, _⟩ := h2.null h0
        have : s.cap = 0 := h3.symm
        simp [storageBytes, taken8, this]
      · obtain ⟨_, _, g, hb, _⟩ := h2.buf h0
        rw [List.filter_cons_of_pos (by simp [h0])]
        simp only [Sma.taken, List.map_cons, Sma.total] at ih ⊢
        rw [ih]
        simp only [blkBytes, hb, up8_bytes, storageBytes, taken8, h3]

theorem objs_nodup {w : World α} {sw : SWorld α} (hI : Vec.WInv w sw) (ks : List Nat) (hn : ks.Nodup) :
    (((ks.filterMap fun k => w.obj k).filter fun v => decide (v.c ≠ 0)).map fun v => v.c).Nodup := by
  induction ks with
  | nil => exact List.nodup_nil
  | cons k ks ih =>
    obtain ⟨hk, hn⟩ := List.nodup_cons.1 hn
    have ih := ih hn
    rcases hv : w.obj k with _ | v
    · rw [List.filterMap_cons_none hv]; exact ih
    · rw [List.filterMap_cons_some hv]
      by_cases h0 : v.c = 0
      · rw [List.filter_cons_of_neg (by simp [h0])]; exact ih
      · rw [List.filter_cons_of_pos (by simp [h0]), List.map_cons]
        refine List.nodup_cons.2 ⟨?_, ih⟩
        intro hm
        obtain ⟨u, hu, he⟩ := List.mem_map.1 hm
        obtain ⟨j, hj, hju⟩ := List.mem_filterMap.1 (List.mem_filter.1 hu).1
        exact hI.sep k j v u (by rintro rfl; exact hk hj) hv hju h0 he.symm

theorem total_append (a b : List Sma.Block) : Sma.total (a ++ b) = Sma.total a + Sma.total b := by
  induction a with
  | nil => simp [Sma.total]
  | cons x a ih => simp only [List.cons_append, Sma.total, ih]; omega

/-- What is left of the pool beside the blocks in other hands. -/
theorem WR.freeRest (hc : Sma.Legal c) {f : Nat → Nat} {w : World α} {pw : PWorld} {sw : SWorld α}
    (h : WR c K F f w pw) (hI : Vec.WInv w sw) (ks : List Nat) (hn : ks.Nodup)
    (hks : ∀ k, k ∈ ks ↔ sw k ≠ none) :
    Returns Sma.freeMemSize pw.pool
      ((c.M : Int) - (storageSum K.size sw ks + Sma.total (Sma.taken F.live) : Nat)) pw.pool := by
  obtain ⟨bs, h1, h2, L, hp, h3⟩ := h.mem.held
  have hperm : (((ks.filterMap fun k => w.obj k).filter fun v => decide (v.c ≠ 0)).map fun v => v.c).Perm bs := by
    refine (List.perm_ext_iff_of_nodup (objs_nodup hI ks hn) h1).2 (fun b => ?_)
    rw [h2]
    constructor
    · intro hm
      obtain ⟨v, hv, rfl⟩ := List.mem_map.1 hm
      obtain ⟨hv1, hv2⟩ := List.mem_filter.1 hv
      obtain ⟨k, _, hk⟩ := List.mem_filterMap.1 hv1
      obtain ⟨s, _, g2, _⟩ := WInv.fresh hI hk
      obtain ⟨_, _, g, hb, _⟩ := g2.buf (by simpa using hv2)
      rw [hb]; simp
    · intro hb
      obtain ⟨k, v, hk, rfl⟩ := hI.owned b hb
      refine List.mem_map.2 ⟨v, List.mem_filter.2 ⟨List.mem_filterMap.2 ⟨k, ?_, hk⟩, ?_⟩, rfl⟩
      · obtain ⟨s, hs, _⟩ := WInv.fresh hI hk
        exact (hks k).2 (by rw [hs]; simp)
      · have : v.c ≠ 0 := by intro e; rw [e] at hb; exact hb hI.wf.null
        simpa using this
  have htot : Sma.total (Sma.taken L) = storageSum K.size sw ks + Sma.total (Sma.taken F.live) := by
    rw [← sum_blocks (f := f) hI ks (fun k hk => (hks k).1 hk), ← total_append]
    refine (Sma.total_perm (hp.map _)).trans ?_
    rw [List.map_append]
    have e := hperm.map fun b => (f b, blkBytes K w.mem b)
    rw [List.map_map] at e
    exact Sma.total_perm ((e.symm.map _).append_right _)
  obtain ⟨⟨L, hL⟩, h4, _⟩ := Sma.sma_accounting hc h3
  obtain ⟨x, e1, e2, _⟩ := h4 L hL
  simp only at e1 e2
  rw [htot] at e2
  rw [← e2]
  exact e1

theorem WR.free (hc : Sma.Legal c) {f : Nat → Nat} {w : World α} {pw : PWorld} {sw : SWorld α}
    (h : WR c K .nil f w pw) (hI : Vec.WInv w sw) (ks : List Nat) (hn : ks.Nodup)
    (hks : ∀ k, k ∈ ks ↔ sw k ≠ none) :
    Returns Sma.freeMemSize pw.pool ((c.M : Int) - storageSum K.size sw ks) pw.pool := h.freeRest hc hI ks hn hks

/-- Only finitely many vectors are alive. -/
def Finite (sw : SWorld α) : Prop := ∃ ks : List Nat, ks.Nodup ∧ ∀ k, k ∈ ks ↔ sw k ≠ none

theorem Finite.put {sw : SWorld α} (h : Finite sw) (k : Nat) (v : Option (SVec α)) : Finite (sw.put k v) := by
  obtain ⟨ks, h1, h2⟩ := h
  have hmem : ∀ x, x ∈ ks.erase k ↔ x ≠ k ∧ x ∈ ks := fun x => h1.mem_erase_iff
  cases v with
  | none =>
    refine ⟨ks.erase k, h1.erase k, fun x => ?_⟩
    rw [hmem, h2]
    unfold SWorld.put
    by_cases hx : x = k <;> simp [hx]
  | some v =>
    refine ⟨k :: ks.erase k, List.nodup_cons.2 ⟨fun h => ((hmem k).1 h).1 rfl, h1.erase k⟩, fun x => ?_⟩
    rw [List.mem_cons, hmem, h2]
    unfold SWorld.put
    by_cases hx : x = k <;> simp [hx]

theorem Finite.step {sw sw' : SWorld α} (h : Finite sw) {op : Op α} (hs : specStep op sw = some sw') :
    Finite sw' := by
  cases op <;> simp only [specStep, Option.bind_eq_bind, Option.bind_eq_some_iff] at hs
  case new => split at hs <;> cases hs; exact h.put _ _
  case newFill => split at hs <;> cases hs; exact h.put _ _
  case push => obtain ⟨_, _, hs⟩ := hs; cases hs; exact h.put _ _
  case pushElem => obtain ⟨_, _, _, _, _, _, hs⟩ := hs; cases hs; exact h.put _ _
  case pop => obtain ⟨_, _, hs⟩ := hs; split at hs <;> cases hs; exact h.put _ _
  case set => obtain ⟨_, _, _, _, hs⟩ := hs; split at hs <;> cases hs; exact h.put _ _
  case resize => obtain ⟨_, _, hs⟩ := hs; cases hs; exact h.put _ _
  case resizeFill => obtain ⟨_, _, hs⟩ := hs; cases hs; exact h.put _ _
  case clear => obtain ⟨_, _, hs⟩ := hs; cases hs; exact h.put _ _
  case copy => obtain ⟨_, _, _, _, hs⟩ := hs; cases hs; exact h.put _ _
  case move =>
    obtain ⟨_, _, _, _, hs⟩ := hs
    split at hs <;> cases hs
    · exact h
    · exact (h.put _ _).put _ _
  case drop => obtain ⟨_, _, hs⟩ := hs; cases hs; exact h.put _ _

end Verif.Pool
