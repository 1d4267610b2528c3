import Verif.VectorRefs
import Verif.Partial

/-! Helper lemmas: how many objects vectors construct and how often they allocate. -/

namespace Verif.Vec

open Prog

variable {α β : Type}

/-- At most `a` objects were constructed and `b` blocks allocated. -/
def Spent (m : Mem α) (a b : Nat) (m' : Mem α) : Prop := m'.built ≤ m.built + a ∧ m'.next ≤ m.next + b

theorem Spent.zero (m : Mem α) : Spent m 0 0 m := ⟨Nat.le_refl _, Nat.le_refl _⟩

theorem Spent.trans {m m1 m2 : Mem α} {a b c d : Nat} (h1 : Spent m a b m1) (h2 : Spent m1 c d m2) :
    Spent m (a + c) (b + d) m2 := by
  unfold Spent at *; omega

theorem Spent.le {m m' : Mem α} {a b c d : Nat} (h : Spent m a b m') (h1 : a ≤ c) (h2 : b ≤ d) : Spent m c d m' := by
  unfold Spent at *; omega

theorem access_spent {b : Nat} {i : Int} {m : Mem α} : wlp (access b i) (fun _ m' => m' = m) m := by
  intro a t hr
  unfold access Returns at hr
  dsimp only at hr
  split at hr
  · cases hr
  · split at hr
    · cases hr
    · split at hr
      · cases hr; rfl
      · cases hr

theorem read_spent {b : Nat} {i : Int} {m : Mem α} : wlp (read b i) (fun _ m' => m' = m) m := by
  refine wlp_bind (wlp_mono access_spent ?_)
  rintro ⟨k, j⟩ t rfl
  dsimp only
  split
  · exact wlp_pure rfl
  · intro a u hr; cases hr

theorem get_spent {e : Arg α} {m : Mem α} : wlp e.get (fun _ m' => m' = m) m := by
  cases e with
  | val x => exact wlp_pure rfl
  | ref b i => exact read_spent

theorem construct_spent {b : Nat} {i : Int} {e : Arg α} {m : Mem α} : wlp (construct b i e) (fun _ m' => Spent m 1 0 m') m := by
  refine wlp_bind (wlp_check fun _ => wlp_bind (wlp_mono get_spent ?_))
  rintro x t rfl
  refine wlp_bind (wlp_mono access_spent ?_)
  rintro ⟨k, j⟩ t rfl
  exact wlp_modify ⟨Nat.le_refl _, Nat.le_refl _⟩

theorem destroy_spent {triv : Bool} {b : Nat} {i : Int} {m : Mem α} : wlp (destroy triv b i) (fun _ m' => Spent m 0 0 m') m := by
  refine wlp_bind (wlp_check fun _ => wlp_bind (wlp_mono access_spent ?_))
  rintro ⟨k, j⟩ t rfl
  exact wlp_bind (wlp_check fun _ => wlp_modify ⟨Nat.le_refl _, Nat.le_refl _⟩)

theorem assign_spent {b : Nat} {i : Int} {e : Arg α} {m : Mem α} : wlp (assign b i e) (fun _ m' => Spent m 0 0 m') m := by
  refine wlp_bind (wlp_mono get_spent ?_)
  rintro x t rfl
  refine wlp_bind (wlp_mono access_spent ?_)
  rintro ⟨k, j⟩ t rfl
  exact wlp_bind (wlp_check fun _ => wlp_modify ⟨Nat.le_refl _, Nat.le_refl _⟩)

theorem alloc_spent {n : Nat} {m : Mem α} : wlp (alloc n) (fun _ m' => Spent m 0 1 m') m := by
  intro a t hr; cases hr; exact ⟨Nat.le_refl _, Nat.le_refl _⟩

theorem dealloc_spent {b n : Nat} {m : Mem α} : wlp (dealloc b n) (fun _ m' => Spent m 0 0 m') m := by
  intro a t hr
  unfold dealloc Returns at hr
  dsimp only at hr
  split at hr
  · cases hr
  · split at hr
    · cases hr; exact ⟨Nat.le_refl _, Nat.le_refl _⟩
    · cases hr

theorem moveLoop_spent {triv : Bool} {sz n c d : Nat} {m : Mem α} :
    wlp (forRange sz 0 () fun i _ => do
      when (i < n) (construct c i (.ref d i))
      destroy triv d i) (fun _ m' => Spent m (min sz n) 0 m') m := by
  have := wlp_forRange (I := fun i _ m' => Spent m (min i n) 0 m') (f := fun i _ => do
      when (i < n) (construct c i (.ref d i))
      destroy triv d i) sz 0 () m ((Spent.zero m).le (by omega) (by omega)) ?_
  · simpa using this
  · intro i _ t _ _ hi
    refine wlp_bind (wlp_when (fun c => ?_) fun c => ?_)
    · refine wlp_mono construct_spent fun _ u hu => ?_
      refine wlp_mono destroy_spent fun _ u' hu' => ?_
      exact ((hi.trans hu).trans hu').le (by omega) (by omega)
    · exact wlp_mono destroy_spent fun _ u' hu' => (hi.trans hu').le (by omega) (by omega)

theorem resize_spent {triv : Bool} {v : Vec} {n : Nat} {m : Mem α} :
    wlp (resize triv v n) (fun _ m' => Spent m (min v.sz n) 1 m') m := by
  have h1 : wlp (if n = 0 then pure 0 else alloc n : Prog (Mem α) Nat) (fun _ m' => Spent m 0 1 m') m :=
    wlp_ite (fun _ => wlp_pure ((Spent.zero m).le (by omega) (by omega))) fun _ => alloc_spent
  refine wlp_bind (wlp_mono h1 fun c t ht => ?_)
  refine wlp_bind (wlp_when (fun _ => ?_) fun _ => wlp_pure (ht.le (by omega) (by omega)))
  refine wlp_bind (wlp_dassert fun _ => wlp_bind (wlp_mono moveLoop_spent fun _ u hu => ?_))
  refine wlp_mono dealloc_spent fun _ u' hu' => wlp_pure ?_
  exact ((ht.trans hu).trans hu').le (by omega) (by omega)

theorem fillLoop_spent {n lo c : Nat} {e : Arg α} {m : Mem α} :
    wlp (forRange n lo () fun i _ => construct c i e) (fun _ m' => Spent m n 0 m') m := by
  have := wlp_forRange (I := fun i _ m' => Spent m (i - lo) 0 m') (f := fun i _ => construct c i e) n lo () m
    ((Spent.zero m).le (by omega) (by omega)) ?_
  · simpa [Nat.add_sub_cancel_left] using this
  · intro i _ t _ _ hi
    exact wlp_mono construct_spent fun _ u hu => (hi.trans hu).le (by omega) (by omega)

theorem resizeFill_spent {triv : Bool} {v : Vec} {n : Nat} {e : Arg α} {m : Mem α} :
    wlp (resizeFill triv v n e) (fun _ m' => Spent m n 1 m') m := by
  refine wlp_ite (fun hn => wlp_mono resize_spent fun _ _ h => h.le (by omega) (by omega)) fun hn => ?_
  refine wlp_bind (wlp_mono alloc_spent fun c t ht => ?_)
  refine wlp_bind (wlp_when (fun _ => ?_) fun _ => ?_)
  · refine wlp_bind (wlp_mono moveLoop_spent fun _ u hu => ?_)
    refine wlp_mono dealloc_spent fun _ u' hu' => ?_
    refine wlp_bind (wlp_mono fillLoop_spent fun _ x hx => wlp_pure ?_)
    exact (((ht.trans hu).trans hu').trans hx).le (by omega) (by omega)
  · refine wlp_bind (wlp_mono fillLoop_spent fun _ x hx => wlp_pure ?_)
    exact (ht.trans hx).le (by omega) (by omega)

theorem ctorFill_spent {triv : Bool} {n : Nat} {e : Arg α} {m : Mem α} :
    wlp (ctorFill triv n e) (fun _ m' => Spent m n 1 m') m := by
  refine wlp_bind (wlp_dassert fun _ => wlp_bind (wlp_mono resize_spent fun v t ht => ?_))
  refine wlp_bind (wlp_mono fillLoop_spent fun _ x hx => wlp_pure ?_)
  exact (ht.trans hx).le (by simp [Vec.empty]) (by omega)

theorem clear_spent {triv : Bool} {v : Vec} {m : Mem α} : wlp (clear triv v) (fun _ m' => Spent m 0 0 m') m := by
  refine wlp_bind (wlp_when (fun _ => ?_) fun _ => wlp_pure (Spent.zero m))
  have := wlp_forRange (I := fun _ _ m' => Spent m 0 0 m') (f := fun i _ => destroy triv v.c i) v.sz 0 () m (Spent.zero m)
    fun i _ t _ _ hi => wlp_mono destroy_spent fun _ u hu => hi.trans hu
  refine wlp_bind (wlp_mono this fun _ t ht => wlp_mono dealloc_spent fun _ u hu => wlp_pure (ht.trans hu))

theorem pushBack_spent {triv : Bool} {v : Vec} {e : Arg α} {m : Mem α} :
    wlp (pushBack triv v e) (fun _ m' => Spent m (if v.sz < v.cap then 1 else v.sz + 1) (if v.sz < v.cap then 0 else 1) m') m := by
  refine wlp_bind (wlp_ite (fun hc => ?_) fun hc => ?_)
  · refine wlp_ite (fun _ => ?_) fun _ => ?_ <;>
      refine wlp_mono resize_spent fun u t ht => wlp_bind (wlp_mono construct_spent fun _ x hx => wlp_pure ?_) <;>
      rw [if_neg (by omega), if_neg (by omega)] <;>
      exact (ht.trans hx).le (by omega) (by omega)
  · refine wlp_pure (wlp_bind (wlp_mono construct_spent fun _ x hx => wlp_pure ?_))
    rw [if_pos (by omega), if_pos (by omega)]
    exact hx

theorem popBack_spent {triv : Bool} {v : Vec} {m : Mem α} :
    wlp (popBack triv v) (fun _ m' => Spent m (if v.sz - 1 < v.cap / 3 then v.sz - 1 else 0)
      (if v.sz - 1 < v.cap / 3 then 1 else 0) m') m := by
  refine wlp_bind (wlp_dassert fun _ => ?_)
  refine wlp_bind (wlp_mono destroy_spent fun _ t ht => wlp_ite (fun hc => ?_) fun hc => wlp_pure ?_)
  · refine wlp_mono resize_spent fun _ u hu => ?_
    dsimp only at hc hu
    rw [if_pos hc, if_pos hc]
    exact (ht.trans hu).le (by omega) (by omega)
  · dsimp only at hc
    rw [if_neg hc, if_neg hc]
    exact ht

theorem copyAssign_spent {triv : Bool} {v u : Vec} {m : Mem α} :
    wlp (copyAssign triv v u) (fun _ m' => Spent m u.sz 1 m') m := by
  refine wlp_bind (wlp_mono (Q := fun a m' => a = Vec.empty ∧ Spent m 0 0 m') ?_ ?_)
  · intro a t hr
    refine ⟨?_, clear_spent a t hr⟩
    have : wlp (clear triv v) (fun a (_ : Mem α) => a = Vec.empty) m :=
      wlp_bind fun _ _ _ => wlp_pure rfl
    exact this a t hr
  · rintro d t ⟨rfl, ht⟩
    refine wlp_bind (wlp_mono resize_spent fun d x hx => ?_)
    have hx : Spent t 0 1 x := hx.le (by simp [Vec.empty]) (by omega)
    have := wlp_forRange (I := fun i _ m' => Spent x i 0 m') (f := fun (i : Nat) _ => do
        destroy triv d.c i
        construct d.c i (.ref u.c i)) u.sz 0 () x (Spent.zero x)
      fun i _ t _ _ hi => wlp_bind (wlp_mono destroy_spent fun _ y hy => wlp_mono construct_spent fun _ z hz =>
        ((hi.trans hy).trans hz).le (by omega) (by omega))
    refine wlp_bind (wlp_mono this fun _ y hy => wlp_pure ?_)
    exact ((ht.trans hx).trans hy).le (by omega) (by omega)

theorem moveAssign_spent {triv : Bool} {v u : Vec} {m : Mem α} :
    wlp (moveAssign triv v u) (fun _ m' => Spent m 0 0 m') m :=
  wlp_bind (wlp_mono clear_spent fun _ _ h => wlp_pure h)

theorem setIndex_spent {v : Vec} {i : Int} {e : Arg α} {m : Mem α} :
    wlp (setIndex v i e) (fun _ m' => Spent m 0 0 m') m :=
  wlp_bind (wlp_dassert fun _ => assign_spent)

/-! ## Worlds -/

theorem wlp_lift {p : Prog (Mem α) β} {Q : β → World α → Prop} {w : World α}
    (h : wlp p (fun a m => Q a { w with mem := m }) w.mem) : wlp (lift p) Q w := by
  intro a w' hr
  unfold Returns lift at hr
  rcases hp : p w.mem with _ | _ | ⟨b, m⟩ <;> rw [hp] at hr <;> cases hr
  exact h _ _ hp

theorem wlp_getObj {k : Nat} {Q : Vec → World α → Prop} {w : World α} (h : ∀ v, w.obj k = some v → Q v w) :
    wlp (getObj k) Q w := by
  intro a w' hr
  unfold Returns getObj at hr
  split at hr
  · cases hr
  · cases hr; exact h _ ‹_›

theorem wlp_putObj {k : Nat} {v : Option Vec} {Q : Unit → World α → Prop} {w : World α}
    (h : Q () { w with obj := fun x => if x = k then v else w.obj x }) : wlp (putObj k v) Q w := wlp_modify h

/-- The objects one operation constructs, at most. -/
def cost : Op α → SWorld α → Nat
  | .push k _, w | .pushElem k _ _, w => match w k with
    | some s => if s.data.length < s.cap then 1 else s.data.length + 1
    | none => 0
  | .pop k, w => match w k with
    | some s => if s.data.length - 1 < s.cap / 3 then s.data.length - 1 else 0
    | none => 0
  | .newFill _ n _, _ | .resizeFill _ n _, _ => n
  | .resize k n, w => match w k with
    | some s => min s.data.length n
    | none => 0
  | .copy _ s, w => match w s with
    | some u => u.data.length
    | none => 0
  | .new _, _ | .set _ _ _, _ | .clear _, _ | .move _ _, _ | .drop _, _ => 0

/-- The blocks one operation allocates, at most. -/
def allocs : Op α → SWorld α → Nat
  | .push k _, w | .pushElem k _ _, w => match w k with
    | some s => if s.data.length < s.cap then 0 else 1
    | none => 0
  | .new _, _ | .set _ _ _, _ | .clear _, _ | .move _ _, _ | .drop _, _ => 0
  | _, _ => 1

theorem step_spent {triv : Bool} {op : Op α} {w : World α} {sw sw' : SWorld α} (h : WInv w sw)
    (hs : specStep op sw = some sw') :
    wlp (step triv op) (fun _ w' => Spent w.mem (cost op sw) (allocs op sw) w'.mem) w := by
  have hob : ∀ k v, w.obj k = some v → ∃ s, sw k = some s ∧ v.sz = s.data.length ∧ v.cap = s.cap := by
    intro k v hv
    cases e : sw k with
    | none => rw [h.dead k e] at hv; cases hv
    | some s =>
      obtain ⟨u, h1, h2, h3⟩ := h.alive k s e
      rw [hv] at h1; cases h1
      exact ⟨s, rfl, h2.size, h3⟩
  cases op with
  | new k => exact wlp_putObj (Spent.zero _)
  | newFill k n x => exact wlp_bind (wlp_lift (wlp_mono ctorFill_spent fun _ _ hm => wlp_putObj hm))
  | push k x =>
    refine wlp_bind (wlp_getObj fun v hv => wlp_bind (wlp_lift (wlp_mono pushBack_spent fun _ _ hm => wlp_putObj ?_)))
    obtain ⟨s, e1, e2, e3⟩ := hob k v hv
    simp only [cost, allocs, e1, ← e2, ← e3]; exact hm
  | pushElem k j i =>
    refine wlp_bind (wlp_getObj fun v hv => wlp_bind (wlp_getObj fun u _ => wlp_bind (wlp_dassert fun _ =>
      wlp_bind (wlp_lift (wlp_mono pushBack_spent fun _ _ hm => wlp_putObj ?_)))))
    obtain ⟨s, e1, e2, e3⟩ := hob k v hv
    simp only [cost, allocs, e1, ← e2, ← e3]; exact hm
  | pop k =>
    refine wlp_bind (wlp_getObj fun v hv => wlp_bind (wlp_lift (wlp_mono popBack_spent fun _ _ hm => wlp_putObj ?_)))
    obtain ⟨s, e1, e2, e3⟩ := hob k v hv
    simp only [cost, allocs, e1, ← e2, ← e3]
    refine hm.le (Nat.le_refl _) ?_
    split <;> omega
  | set k i x =>
    exact wlp_bind (wlp_getObj fun v hv => wlp_lift (wlp_mono setIndex_spent fun _ _ hm => hm))
  | resize k n =>
    refine wlp_bind (wlp_getObj fun v hv => wlp_bind (wlp_lift (wlp_mono resize_spent fun _ _ hm => wlp_putObj ?_)))
    obtain ⟨s, e1, e2, e3⟩ := hob k v hv
    simp only [cost, allocs, e1, ← e2]; exact hm
  | resizeFill k n x =>
    exact wlp_bind (wlp_getObj fun v hv => wlp_bind (wlp_lift (wlp_mono resizeFill_spent fun _ _ hm => wlp_putObj hm)))
  | clear k =>
    exact wlp_bind (wlp_getObj fun v hv => wlp_bind (wlp_lift (wlp_mono clear_spent fun _ _ hm => wlp_putObj hm)))
  | copy d s =>
    refine wlp_bind (wlp_getObj fun v hv => wlp_bind (wlp_getObj fun u hu => wlp_ite (fun _ => ?_) fun _ => ?_))
    · exact wlp_pure ((Spent.zero _).le (by omega) (by omega))
    · refine wlp_bind (wlp_lift (wlp_mono copyAssign_spent fun _ _ hm => wlp_putObj ?_))
      obtain ⟨t, e1, e2, e3⟩ := hob s u hu
      simp only [cost, allocs, e1, ← e2]; exact hm
  | move d s =>
    refine wlp_bind (wlp_getObj fun v hv => wlp_bind (wlp_getObj fun u hu => wlp_ite (fun _ => ?_) fun _ => ?_))
    · exact wlp_pure (Spent.zero _)
    · refine wlp_bind (wlp_lift (wlp_mono moveAssign_spent fun r _ hm => ?_))
      obtain ⟨v', u'⟩ := r
      exact wlp_bind (wlp_putObj (wlp_putObj hm))
  | drop k =>
    exact wlp_bind (wlp_getObj fun v hv => wlp_bind (wlp_lift (wlp_mono clear_spent fun _ _ hm => wlp_putObj hm)))

/-! ## Amortised cost -/

/-- The potential of one vector: what has been charged but not spent yet. -/
def phi : Option (SVec α) → Nat
  | none => 0
  | some s => max (3 * s.data.length - 2 * s.cap) (s.cap - 2 * s.data.length)

/-- The potential of the vectors `0 … N - 1`. -/
def pot (N : Nat) (sw : SWorld α) : Nat := ((List.range N).map fun k => phi (sw k)).sum

theorem pot_put_ge {N k : Nat} (sw : SWorld α) (o : Option (SVec α)) (h : N ≤ k) : pot N (sw.put k o) = pot N sw := by
  unfold pot
  congr 1
  apply List.map_congr_left
  intro x hx
  have := List.mem_range.1 hx
  simp [SWorld.put, show x ≠ k by omega]

theorem pot_put {N k : Nat} (sw : SWorld α) (o : Option (SVec α)) (h : k < N) :
    pot N (sw.put k o) + phi (sw k) = pot N sw + phi o := by
  induction N with
  | zero => omega
  | succ N ih =>
    have e : ∀ f : SWorld α, pot (N + 1) f = pot N f + phi (f N) := by
      intro f; simp [pot, List.range_succ]
    rw [e, e]
    by_cases c : k = N
    · subst c
      rw [pot_put_ge sw o (Nat.le_refl _)]
      simp [SWorld.put]; omega
    · have := ih (by omega)
      have e2 : (sw.put k o) N = sw N := by simp [SWorld.put, show N ≠ k by omega]
      rw [e2]; omega

/-- The objects an operation changes are among `0 … N - 1`. -/
def Within (N : Nat) : Op α → Prop
  | .new k | .newFill k _ _ | .push k _ | .pushElem k _ _ | .pop k | .set k _ _ | .resize k _ | .resizeFill k _ _
  | .clear k | .drop k => k < N
  | .copy d s | .move d s => d < N ∧ s < N

theorem within_exists (ops : List (Op α)) : ∃ N, ∀ op ∈ ops, Within N op := by
  induction ops with
  | nil => exact ⟨0, by simp⟩
  | cons op ops ih =>
    obtain ⟨N, ih⟩ := ih
    have mono : ∀ {N M : Nat} {op : Op α}, Within N op → N ≤ M → Within M op := by
      intro N M op h hle
      cases op <;> simp only [Within] at h ⊢ <;> omega
    have one : ∃ M, Within M op := by
      cases op with
      | copy d s => exact ⟨d + s + 1, by simp only [Within]; omega⟩
      | move d s => exact ⟨d + s + 1, by simp only [Within]; omega⟩
      | _ => exact ⟨_, Nat.lt_succ_self _⟩
    obtain ⟨M, hM⟩ := one
    refine ⟨N + M, fun o ho => ?_⟩
    rcases List.mem_cons.1 ho with rfl | ho
    · exact mono hM (by omega)
    · exact mono (ih o ho) (by omega)

/-- One operation is paid for by its charge and the potential. -/
theorem cost_paid {N : Nat} {op : Op α} {w : World α} {sw sw' : SWorld α} (h : WInv w sw) (hN : Within N op)
    (hs : specStep op sw = some sw') : cost op sw + pot N sw' ≤ charge op sw + pot N sw := by
  cases op with
  | new k =>
    simp only [specStep] at hs
    split at hs
    · rename_i hk
      cases hs
      have := pot_put sw (some ⟨[], 0⟩) hN
      simp only [phi, List.length_nil] at this
      simp only [cost, charge]; omega
    · cases hs
  | newFill k n x =>
    simp only [specStep] at hs
    split at hs
    · rename_i hk
      cases hs
      have := pot_put sw (some ⟨List.replicate n x, n⟩) hN
      have e : phi (some (⟨List.replicate n x, n⟩ : SVec α)) = n := by simp [phi]; omega
      simp only [cost, charge]; omega
    · cases hs
  | push k x =>
    rcases hk : sw k with _ | s
    · simp [specStep, hk] at hs
    simp [specStep, hk] at hs
    subst hs
    have hle := h.cap_le hk
    have := pot_put sw (some ⟨s.data ++ [x], capAfterPush s.data.length s.cap⟩) hN
    simp only [hk, phi, List.length_append, List.length_singleton] at this
    simp only [cost, charge, hk]
    unfold capAfterPush at this ⊢
    split <;> rename_i hc <;> simp only [hc, if_true, if_false] at this ⊢ <;> omega
  | pushElem k j i =>
    rcases hk : sw k with _ | s
    · simp [specStep, hk] at hs
    rcases hj : sw j with _ | u
    · simp [specStep, hk, hj] at hs
    rcases hx : u.data[i]? with _ | x
    · simp [specStep, hk, hj, hx] at hs
    simp [specStep, hk, hj, hx] at hs
    subst hs
    have hle := h.cap_le hk
    have := pot_put sw (some ⟨s.data ++ [x], capAfterPush s.data.length s.cap⟩) hN
    simp only [hk, phi, List.length_append, List.length_singleton] at this
    simp only [cost, charge, hk]
    unfold capAfterPush at this ⊢
    split <;> rename_i hc <;> simp only [hc, if_true, if_false] at this ⊢ <;> omega
  | pop k =>
    rcases hk : sw k with _ | s
    · simp [specStep, hk] at hs
    simp [specStep, hk] at hs
    obtain ⟨hne, rfl⟩ := hs
    have hle := h.cap_le hk
    have hpos : s.data.length ≠ 0 := fun e => hne (List.length_eq_zero_iff.1 e)
    have := pot_put sw (some ⟨s.data.dropLast, capAfterPop s.data.length s.cap⟩) hN
    simp only [hk, phi, List.length_dropLast] at this
    simp only [cost, charge, hk]
    unfold capAfterPop at this ⊢
    split <;> rename_i hc <;> simp only [hc, if_true, if_false] at this ⊢ <;> omega
  | set k i x =>
    rcases hk : sw k with _ | s
    · simp [specStep, hk] at hs
    rcases hp : pyIndex s.data.length i with _ | p
    · simp [specStep, hk, hp] at hs
    simp [specStep, hk, hp] at hs
    obtain ⟨_, rfl⟩ := hs
    have := pot_put sw (some ⟨s.data.set p x, s.cap⟩) hN
    simp only [hk, phi, List.length_set] at this
    simp only [cost, charge]; omega
  | resize k n =>
    rcases hk : sw k with _ | s
    · simp [specStep, hk] at hs
    simp [specStep, hk] at hs
    subst hs
    have := pot_put sw (some ⟨s.data.take n, n⟩) hN
    simp only [hk, phi, List.length_take] at this
    simp only [cost, charge, hk]; omega
  | resizeFill k n x =>
    rcases hk : sw k with _ | s
    · simp [specStep, hk] at hs
    simp [specStep, hk] at hs
    subst hs
    have := pot_put sw (some ⟨s.data.take n ++ List.replicate (n - s.data.length) x, n⟩) hN
    simp only [hk, phi, List.length_append, List.length_take, List.length_replicate] at this
    simp only [cost, charge]; omega
  | clear k =>
    rcases hk : sw k with _ | s
    · simp [specStep, hk] at hs
    simp [specStep, hk] at hs
    subst hs
    have := pot_put sw (some ⟨[], 0⟩) hN
    simp only [phi, List.length_nil] at this
    simp only [cost, charge]; omega
  | copy d s =>
    rcases hd : sw d with _ | v
    · simp [specStep, hd] at hs
    rcases hk : sw s with _ | u
    · simp [specStep, hd, hk] at hs
    simp [specStep, hd, hk] at hs
    subst hs
    have hle := h.cap_le hk
    have := pot_put sw (some u) hN.1
    simp only [hd, phi] at this
    simp only [cost, charge, hk]; omega
  | move d s =>
    rcases hd : sw d with _ | v
    · simp [specStep, hd] at hs
    rcases hk : sw s with _ | u
    · simp [specStep, hd, hk] at hs
    simp only [specStep, hd, hk] at hs
    by_cases hds : d = s
    · simp [hds] at hs; subst hs; simp only [cost, charge]; omega
    · simp [hds] at hs
      subst hs
      have h1 := pot_put sw (some u) hN.1
      have h2 := pot_put (sw.put d (some u)) (some ⟨[], 0⟩) hN.2
      have e : (sw.put d (some u)) s = some u := by simp [SWorld.put, Ne.symm hds, hk]
      rw [e] at h2
      have e0 : phi (some (⟨[], 0⟩ : SVec α)) = 0 := by simp [phi]
      simp only [cost, charge]; omega
  | drop k =>
    rcases hk : sw k with _ | s
    · simp [specStep, hk] at hs
    simp [specStep, hk] at hs
    subst hs
    have := pot_put sw none hN
    simp only [phi] at this
    simp only [cost, charge]; omega

theorem run_paid {triv : Bool} {N : Nat} {ops : List (Op α)} {w w' : World α} {sw sw' : SWorld α} (h : WInv w sw)
    (hN : ∀ op ∈ ops, Within N op) (hs : specRun ops sw = some sw') (hr : Returns (run triv ops) w () w') :
    w'.mem.built + pot N sw' ≤ w.mem.built + pot N sw + chargeAll ops sw := by
  induction ops generalizing w sw with
  | nil =>
    simp only [specRun, Option.some.injEq] at hs
    subst hs
    cases hr
    simp [chargeAll]
  | cons op ops ih =>
    simp only [specRun] at hs
    rcases h1 : specStep op sw with _ | s1
    · rw [h1] at hs; cases hs
    rw [h1] at hs
    have hw := hr.wp (Q := fun _ t => t = w') rfl
    unfold run at hw
    rw [List.map_cons, seqAll, wp_bind] at hw
    obtain ⟨_, w1, e1, _, t, e2, rfl⟩ := hw
    have hinv : WInv w1 s1 := by
      obtain ⟨_, t', f1, f2⟩ := step_ok h h1 (avoids_of_returns h h1 e1)
      obtain ⟨_, rfl⟩ := Returns.det f1 e1
      exact f2
    have hsp := step_spent h h1 _ _ e1
    have hp := cost_paid h (hN op (List.mem_cons_self ..)) h1
    have := ih hinv (fun o ho => hN o (List.mem_cons_of_mem _ ho)) hs e2
    simp only [chargeAll, h1]
    have := hsp.1
    omega

end Verif.Vec
