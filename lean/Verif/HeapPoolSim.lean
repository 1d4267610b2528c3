import Verif.HeapPool
import Verif.VectorPoolWorld
import Verif.HeapWorld

/-! Helper lemmas: the functions of `Heap` on the bytes of the static pool do what they do on blocks, as
long as there is memory. -/

namespace Verif.HPool

open Prog Vec Pool

variable {α : Type}

/-! ## The functions over an arbitrary memory are those of `Verif.Heap` -/

theorem adjustUpLoop_mem (triv : Bool) (cmp : α → α → Bool) (v : Vec) (i : Int) :
    adjustUpLoop (memOps Vec.alloc triv) cmp v i = Heap.adjustUpLoop cmp v i := by
  delta adjustUpLoop Heap.adjustUpLoop; rfl
theorem adjustDownLoop_mem (triv : Bool) (cmp : α → α → Bool) (v : Vec) (n i : Int) :
    adjustDownLoop (memOps Vec.alloc triv) cmp v n i = Heap.adjustDownLoop cmp v n i := by
  delta adjustDownLoop Heap.adjustDownLoop; rfl
theorem ctor_mem (triv : Bool) (x : α) : ctor (memOps Vec.alloc triv) x = Heap.ctor triv x := rfl
theorem ctorRange_mem (triv : Bool) (cmp : α → α → Bool) (x : α) (n : Nat) (src : Nat → Arg α) :
    ctorRange (memOps Vec.alloc triv) cmp x n src = Heap.ctorRange triv cmp x n src := by
  delta ctorRange Heap.ctorRange adjustDown Heap.adjustDown adjustDownLoop Heap.adjustDownLoop; rfl
theorem push_mem (triv : Bool) (cmp : α → α → Bool) (v : Vec) (e : Arg α) :
    push (memOps Vec.alloc triv) cmp v e = Heap.push triv cmp v e := by
  delta push Heap.push adjustUp Heap.adjustUp adjustUpLoop Heap.adjustUpLoop; rfl
theorem pop_mem (triv : Bool) (cmp : α → α → Bool) (v : Vec) :
    pop (memOps Vec.alloc triv) cmp v = Heap.pop triv cmp v := by
  delta pop Heap.pop adjustDown Heap.adjustDown adjustDownLoop Heap.adjustDownLoop; rfl
theorem sort_mem (triv : Bool) (cmp : α → α → Bool) (x : α) (b lo n : Nat) :
    sort (memOps Vec.alloc triv) cmp x b lo n = Heap.sort triv cmp x b lo n := by
  delta sort Heap.sort ctorRange Heap.ctorRange pop Heap.pop adjustDown Heap.adjustDown adjustDownLoop
    Heap.adjustDownLoop
  rfl
theorem top_mem (triv : Bool) (v : Vec) : top (memOps (α := α) Vec.alloc triv) v = Heap.top v := rfl
theorem iterate_mem (triv : Bool) (v : Vec) :
    iterate (memOps (α := α) Vec.alloc triv) v = Heap.iterate v := rfl

/-! ## Simulation -/

variable {md : Sma.Mode} {c : Sma.Cfg} {K : Elem α} {F : Rest} {P : Prop} {f : Nat → Nat} {m : Mem α} {s : Sma.St}

/-- Equal results. -/
def Same {β : Type} (_ : Nat → Nat) (_ : Mem α) (a b : β) : Prop := a = b

theorem returns_index {m m' : Mem α} {v : Vec} {i : Int} {x : α} (h : Returns (Vec.index v i) m x m') :
    m' = m := by
  obtain ⟨_, u, r1, r2⟩ := returns_bind h
  obtain ⟨_, rfl⟩ := returns_check r1
  exact (returns_read r2).1

theorem index_sim (hc : Sma.Legal c) (hR : R c K F f m s) (v : Vec) (i : Int) :
    Sim c K F P f m s (Vec.index v i) (index (poolOps md c K) (vmap f v) i) Same := by
  intro x m' h
  have e := returns_index h
  subst e
  exact Or.inr ⟨x, s, f, index_pool hc hR h, Ext.refl _ _, hR, rfl⟩

theorem back_sim (hc : Sma.Legal c) (hR : R c K F f m s) (v : Vec) :
    Sim c K F P f m s (Vec.back v) (back (poolOps md c K) (vmap f v)) Same := by
  intro x m' h
  have e : m' = m := by
    obtain ⟨_, u, r1, r2⟩ := returns_bind h
    obtain ⟨_, rfl⟩ := returns_check r1
    exact (returns_read r2).1
  subst e
  exact Or.inr ⟨x, s, f, back_pool hc hR h, Ext.refl _ _, hR, rfl⟩

theorem swapAt_sim (hc : Sma.Legal c) (hR : R c K F f m s) (v : Vec) (hv : v.c < m.next) (i j : Int) :
    Sim c K F P f m s (Heap.swapAt v i j) (swapAt (poolOps md c K) (vmap f v) i j) Triv := by
  unfold Heap.swapAt swapAt
  refine Sim.bind (A := Same) (index_sim hc hR v i) ?_
  rintro f1 m1 s1 x _ he hr rfl _
  have hv := Nat.lt_of_lt_of_le hv he.next
  rw [← vmap_ext he (by omega)]
  refine Sim.bind (A := Same) (index_sim hc hr v j) ?_
  rintro f2 m2 s2 y _ he2 hr2 rfl _
  have hv2 := Nat.lt_of_lt_of_le hv he2.next
  rw [← vmap_ext he2 hv]
  refine Sim.bind (A := Triv) (setIndex_sim hc hr2 v hv2 i (.val y) trivial) ?_
  rintro f3 m3 s3 _ _ he3 hr3 _ _
  rw [← vmap_ext he3 hv2]
  exact setIndex_sim hc hr3 v (Nat.lt_of_lt_of_le hv2 he3.next) j (.val x) trivial

theorem adjustUpLoop_sim (hc : Sma.Legal c) (cmp : α → α → Bool) (v : Vec) (n : Nat) :
    ∀ {f : Nat → Nat} {m : Mem α} {s : Sma.St} (i : Int), i.toNat ≤ n → R c K F f m s → v.c < m.next →
      Sim c K F P f m s (Heap.adjustUpLoop cmp v i) (adjustUpLoop (poolOps md c K) cmp (vmap f v) i) Triv := by
  induction n with
  | zero =>
    intro f m s i hi hR hv
    rw [Heap.adjustUpLoop, adjustUpLoop, if_neg (by omega), if_neg (by omega)]
    exact Sim.pure hR trivial
  | succ n ih =>
    intro f m s i hi hR hv
    rw [Heap.adjustUpLoop, adjustUpLoop]
    by_cases h1 : i > 1
    · rw [if_pos h1, if_pos h1]
      refine Sim.bind (A := Same) (index_sim hc hR v (i / 2)) ?_
      rintro f1 m1 s1 x _ he hr rfl _
      have hv1 := Nat.lt_of_lt_of_le hv he.next
      rw [← vmap_ext he hv]
      refine Sim.bind (A := Same) (index_sim hc hr v i) ?_
      rintro f2 m2 s2 y _ he2 hr2 rfl _
      have hv2 := Nat.lt_of_lt_of_le hv1 he2.next
      rw [← vmap_ext he2 hv1]
      by_cases hcmp : cmp x y
      · rw [if_pos hcmp, if_pos hcmp]; exact Sim.pure hr2 trivial
      · rw [if_neg hcmp, if_neg hcmp]
        refine Sim.bind (A := Triv) (swapAt_sim hc hr2 v hv2 _ _) ?_
        rintro f3 m3 s3 _ _ he3 hr3 _ _
        rw [← vmap_ext he3 hv2]
        exact ih (i / 2) (by omega) hr3 (Nat.lt_of_lt_of_le hv2 he3.next)
    · rw [if_neg h1, if_neg h1]
      exact Sim.pure hR trivial

theorem adjustUp_sim (hc : Sma.Legal c) (hR : R c K F f m s) (cmp : α → α → Bool) (v : Vec)
    (hv : v.c < m.next) :
    Sim c K F P f m s (Heap.adjustUp cmp v) (adjustUp (poolOps md c K) cmp (vmap f v)) Triv :=
  adjustUpLoop_sim hc cmp v _ _ (Nat.le_refl _) hR hv

/-- Choosing between a node and its child. -/
theorem pick_sim (hc : Sma.Legal c) (hR : R c K F f m s) (cmp : α → α → Bool) (v : Vec) (hv : v.c < m.next)
    (n p q : Int) :
    Sim c K F P f m s
      (if q < n then do
          let a ← Vec.index v p
          let b ← Vec.index v q
          Pure.pure (if cmp a b then p else q)
        else Pure.pure p)
      (if q < n then do
          let a ← index (poolOps md c K) (vmap f v) p
          let b ← index (poolOps md c K) (vmap f v) q
          Pure.pure (if cmp a b then p else q)
        else Pure.pure p)
      (fun _ _ a a' => a = a' ∧ (a = p ∨ (a = q ∧ q < n))) := by
  by_cases h : q < n
  · rw [if_pos h, if_pos h]
    refine Sim.bind (A := Same) (index_sim hc hR v p) ?_
    rintro f1 m1 s1 x _ he hr rfl _
    have hv1 := Nat.lt_of_lt_of_le hv he.next
    rw [← vmap_ext he hv]
    refine Sim.bind (A := Same) (index_sim hc hr v q) ?_
    rintro f2 m2 s2 y _ he2 hr2 rfl _
    refine Sim.pure hr2 ⟨rfl, ?_⟩
    by_cases hcmp : cmp x y
    · rw [if_pos hcmp]; exact Or.inl rfl
    · rw [if_neg hcmp]; exact Or.inr ⟨rfl, h⟩
  · rw [if_neg h, if_neg h]
    exact Sim.pure hR ⟨rfl, Or.inl rfl⟩

theorem adjustDownLoop_sim (hc : Sma.Legal c) (cmp : α → α → Bool) (v : Vec) (n : Int) (d : Nat) :
    ∀ {f : Nat → Nat} {m : Mem α} {s : Sma.St} (p : Int), 1 ≤ p → (n - p).toNat ≤ d → R c K F f m s →
      v.c < m.next →
      Sim c K F P f m s (Heap.adjustDownLoop cmp v n p)
        (adjustDownLoop (poolOps md c K) cmp (vmap f v) n p) Triv := by
  have key : ∀ {f : Nat → Nat} {m : Mem α} {s : Sma.St} (p : Int), 1 ≤ p → R c K F f m s → v.c < m.next →
      (∀ u : Int, p < u ∧ u < n → ∀ {f : Nat → Nat} {m : Mem α} {s : Sma.St}, R c K F f m s → v.c < m.next →
        Sim c K F P f m s (Heap.adjustDownLoop cmp v n u)
          (adjustDownLoop (poolOps md c K) cmp (vmap f v) n u) Triv) →
      Sim c K F P f m s (Heap.adjustDownLoop cmp v n p)
        (adjustDownLoop (poolOps md c K) cmp (vmap f v) n p) Triv := by
    intro f m s p hp hR hv ih
    rw [Heap.adjustDownLoop, adjustDownLoop]
    refine Sim.bind (A := Triv) (Sim.check hR id) ?_
    rintro f1 m1 s1 _ _ he hr _ _
    have hv1 := Nat.lt_of_lt_of_le hv he.next
    rw [← vmap_ext he hv]
    refine Sim.bind (pick_sim hc hr cmp v hv1 n p (2 * p)) ?_
    rintro f2 m2 s2 t _ he2 hr2 ⟨rfl, ht⟩ _
    have hv2 := Nat.lt_of_lt_of_le hv1 he2.next
    rw [← vmap_ext he2 hv1]
    refine Sim.bind (pick_sim hc hr2 cmp v hv2 n t (2 * p + 1)) ?_
    rintro f3 m3 s3 u _ he3 hr3 ⟨rfl, hu⟩ _
    have hv3 := Nat.lt_of_lt_of_le hv2 he3.next
    rw [← vmap_ext he3 hv2]
    by_cases hup : u = p
    · rw [if_pos hup, if_pos hup]; exact Sim.pure hr3 trivial
    · rw [if_neg hup, if_neg hup]
      refine Sim.bind (A := Triv) (swapAt_sim hc hr3 v hv3 _ _) ?_
      rintro f4 m4 s4 _ _ he4 hr4 _ _
      rw [← vmap_ext he4 hv3]
      exact ih u (by omega) hr4 (Nat.lt_of_lt_of_le hv3 he4.next)
  induction d with
  | zero =>
    intro f m s p hp hd hR hv
    exact key p hp hR hv (fun u h => absurd h (by omega))
  | succ d ih =>
    intro f m s p hp hd hR hv
    exact key p hp hR hv (fun u h _ _ _ hr hv => ih u (by omega) (by omega) hr hv)

theorem adjustDown_sim (hc : Sma.Legal c) (hR : R c K F f m s) (cmp : α → α → Bool) (v : Vec)
    (hv : v.c < m.next) (p : Int) (hp : 1 ≤ p) :
    Sim c K F P f m s (Heap.adjustDown cmp v p) (adjustDown (poolOps md c K) cmp (vmap f v) p) Triv :=
  adjustDownLoop_sim hc cmp v _ _ p hp (Nat.le_refl _) hR hv

theorem ctor_sim (hc : Sma.Legal c) (hR : R c K F f m s) (x : α) (hfit : Fit K 1) :
    Sim c K F (Short c K s 1) f m s (Heap.ctor K.triv x) (ctor (poolOps .port c K) x) VR :=
  ctorFill_sim hc hR 1 hfit (.val x) trivial

theorem push_sim (hc : Sma.Legal c) (hR : R c K F f m s) (cmp : α → α → Bool) (v : Vec) (hv : v.c < m.next)
    (hfit : v.cap < v.sz + 1 → Fit K (max 2 (2 * v.sz))) (e : Arg α) (hold : ArgOld m e) :
    Sim c K F (v.cap < v.sz + 1 ∧ Short c K s (max 2 (2 * v.sz))) f m s (Heap.push K.triv cmp v e)
      (push (poolOps .port c K) cmp (vmap f v) (argMap f e)) VR := by
  unfold Heap.push push
  refine Sim.bind (A := VR) (pushBack_sim hc hR v hv hfit e hold) ?_
  rintro f1 m1 s1 u _ he hr ⟨rfl, hu⟩ _
  refine Sim.bind (A := Triv) (adjustUp_sim hc hr cmp u hu) ?_
  rintro f2 m2 s2 _ _ he2 hr2 _ _
  rw [← vmap_ext he2 hu]
  exact Sim.pure hr2 ⟨rfl, Nat.lt_of_lt_of_le hu he2.next⟩

theorem pop_sim (hc : Sma.Legal c) (hR : R c K F f m s) (cmp : α → α → Bool) (v : Vec) (hv : v.c < m.next)
    (hfit : Fit K (v.cap / 2)) :
    Sim c K F (v.sz - 1 < v.cap / 3 ∧ v.cap / 2 ≠ 0) f m s (Heap.pop K.triv cmp v)
      (pop (poolOps .port c K) cmp (vmap f v)) VR := by
  unfold Heap.pop pop
  refine Sim.bind (A := Same) (back_sim hc hR v) ?_
  rintro f1 m1 s1 x _ he hr rfl _
  have hv1 := Nat.lt_of_lt_of_le hv he.next
  rw [← vmap_ext he hv]
  refine Sim.bind (A := Triv) (setIndex_sim hc hr v hv1 1 (.val x) trivial) ?_
  rintro f2 m2 s2 _ _ he2 hr2 _ _
  have hv2 := Nat.lt_of_lt_of_le hv1 he2.next
  rw [← vmap_ext he2 hv1]
  refine Sim.bind (A := VR) ((popBack_sim hc hr2 v hv2 hfit).mono
    (fun ⟨h1, _, _, h2⟩ => ⟨h1, h2.1⟩) (fun _ _ _ _ _ h => h)) ?_
  rintro f3 m3 s3 u _ he3 hr3 ⟨rfl, hu⟩ _
  refine Sim.bind (A := Triv) (adjustDown_sim hc hr3 cmp u hu 1 (by omega)) ?_
  rintro f4 m4 s4 _ _ he4 hr4 _ _
  rw [← vmap_ext he4 hu]
  exact Sim.pure hr4 ⟨rfl, Nat.lt_of_lt_of_le hu he4.next⟩

/-- Adding an element where there is room. -/
theorem returns_pushBack {triv : Bool} {v v' : Vec} {e : Arg α} {m m' : Mem α}
    (h : Returns (Vec.pushBack triv v e) m v' m') (hroom : v.sz + 1 ≤ v.cap) :
    v'.sz = v.sz + 1 ∧ v'.cap = v.cap := by
  unfold Vec.pushBack Vec.pushBackWith at h
  rw [if_neg (by omega), pure_bind] at h
  obtain ⟨_, _, _, r2⟩ := returns_bind h
  obtain ⟨rfl, _⟩ := returns_pure r2
  exact ⟨rfl, rfl⟩

theorem pushLoop_sim (hc : Sma.Legal c) (src : Nat → Arg α) (n : Nat) :
    ∀ {f : Nat → Nat} {m : Mem α} {s : Sma.St} (lo : Nat) (v : Vec), R c K F f m s → v.c < m.next →
      v.sz + n ≤ v.cap → (∀ i, ArgOld m (src i)) →
      Sim c K F P f m s (forRange n lo v fun i v => Vec.pushBack K.triv v (src i))
        (forRange n lo (vmap f v) fun i v => pushBack (poolOps .port c K) v (argMap f (src i)))
        (fun f' m' a a' => VR f' m' a a' ∧ a.sz = v.sz + n ∧ a.cap = v.cap) := by
  induction n with
  | zero =>
    intro f m s lo v hR hv hroom ho
    exact Sim.pure hR ⟨⟨rfl, hv⟩, rfl, rfl⟩
  | succ n ih =>
    intro f m s lo v hR hv hroom ho
    unfold Prog.forRange
    refine Sim.bind (A := VR) ((pushBack_sim hc hR v hv (fun h => by omega) (src lo) (ho lo)).mono
      (fun h => absurd h.1 (by omega)) (fun _ _ _ _ _ h => h)) ?_
    rintro f1 m1 s1 u _ he hr ⟨rfl, hu⟩ r1
    obtain ⟨e1, e2⟩ := returns_pushBack r1 (by omega)
    have := ih (lo + 1) u hr hu (by omega) (fun i => (ho i).mono he.next)
    have e : (fun (i : Nat) (v : Vec) => pushBack (poolOps .port c K) v (argMap f1 (src i))) =
        fun i v => pushBack (poolOps .port c K) v (argMap f (src i)) := by
      funext i v; rw [argMap_ext he (ho i)]
    rw [e] at this
    refine this.mono id ?_
    rintro _ _ _ _ _ ⟨h1, h2, h3⟩
    exact ⟨h1, by omega, by omega⟩

theorem returns_resize {triv : Bool} {v v' : Vec} {n : Nat} {m m' : Mem α}
    (h : Returns (Vec.resize triv v n) m v' m') : v'.sz = (if n < v.sz then n else v.sz) ∧ v'.cap = n := by
  unfold Vec.resize Vec.resizeWith at h
  obtain ⟨_, _, _, h⟩ := returns_bind h
  obtain ⟨_, _, _, h⟩ := returns_bind h
  obtain ⟨rfl, _⟩ := returns_pure h
  exact ⟨rfl, rfl⟩

theorem returns_ctor {triv : Bool} {x : α} {v' : Vec} {m m' : Mem α}
    (h : Returns (Heap.ctor triv x) m v' m') : v'.sz = 1 := by
  unfold Heap.ctor Vec.ctorFill Vec.ctorFillWith at h
  obtain ⟨_, _, _, h⟩ := returns_bind h
  obtain ⟨_, _, _, h⟩ := returns_bind h
  obtain ⟨_, _, _, h⟩ := returns_bind h
  obtain ⟨rfl, _⟩ := returns_pure h
  rfl

theorem ctorRange_sim (hc : Sma.Legal c) (hR : R c K F f m s) (cmp : α → α → Bool) (x : α) (n : Nat)
    (src : Nat → Arg α) (ho : ∀ i, ArgOld m (src i)) (h1 : Fit K 1) (hn : Fit K (n + 1)) :
    Sim c K F True f m s (Heap.ctorRange K.triv cmp x n src)
      (ctorRange (poolOps .port c K) cmp x n (fun i => argMap f (src i)))
      (fun f' m' a a' => VR f' m' a a' ∧ a.cap = n + 1) := by
  unfold Heap.ctorRange ctorRange
  refine Sim.bind (A := VR) ((ctor_sim hc hR x h1).mono (fun _ => trivial) (fun _ _ _ _ _ h => h)) ?_
  rintro f1 m1 s1 u _ he hr ⟨rfl, hu⟩ r1
  refine Sim.bind (A := VR) ((resize_sim hc hr u hu (n + 1) hn).mono (fun _ => trivial)
    (fun _ _ _ _ _ h => h)) ?_
  rintro f2 m2 s2 w _ he2 hr2 ⟨rfl, hw⟩ r2
  obtain ⟨e1, e2⟩ := returns_resize r2
  rw [returns_ctor r1, if_neg (by omega)] at e1
  have he' := he.trans he2
  have := pushLoop_sim (P := True) hc src n 0 w hr2 hw (by omega) (fun i => (ho i).mono he'.next)
  have e : (fun (i : Nat) (v : Vec) => pushBack (poolOps .port c K) v (argMap f2 (src i))) =
      fun i v => pushBack (poolOps .port c K) v (argMap f (src i)) := by
    funext i v; rw [argMap_ext he' (ho i)]
  rw [e] at this
  refine Sim.bind this ?_
  rintro f3 m3 s3 y _ he3 hr3 ⟨⟨rfl, hy⟩, _, hcap⟩ _
  refine Sim.bind (A := Triv) ?_ ?_
  · refine Sim.forRange _ _ hr3 ?_
    intro i f' m' s' _ hi he4 hr4
    have := adjustDown_sim (md := .port) (P := True) hc hr4 cmp y (Nat.lt_of_lt_of_le hy he4.next)
      (((y.sz - 1) / 2 - i : Nat) : Int) (by omega)
    rw [vmap_ext he4 hy] at this
    exact this
  · rintro f4 m4 s4 _ _ he4 hr4 _ _
    rw [← vmap_ext he4 hy]
    exact Sim.pure hr4 ⟨⟨rfl, Nat.lt_of_lt_of_le hy he4.next⟩, by omega⟩

theorem returns_pop {triv : Bool} {cmp : α → α → Bool} {v v' : Vec} {m m' : Mem α}
    (h : Returns (Heap.pop triv cmp v) m v' m') : v'.cap ≤ v.cap := by
  unfold Heap.pop at h
  obtain ⟨_, _, _, h⟩ := returns_bind h
  obtain ⟨_, _, _, h⟩ := returns_bind h
  obtain ⟨u, _, r, h⟩ := returns_bind h
  obtain ⟨_, _, _, h⟩ := returns_bind h
  obtain ⟨rfl, _⟩ := returns_pure h
  unfold Vec.popBack Vec.popBackWith at r
  obtain ⟨_, _, _, r⟩ := returns_bind r
  obtain ⟨_, _, _, r⟩ := returns_bind r
  split at r
  · rw [(returns_resize r).2]; exact Nat.div_le_self _ _
  · obtain ⟨rfl, _⟩ := returns_pure r; exact Nat.le_refl _

theorem sortLoop_sim (hc : Sma.Legal c) (cmp : α → α → Bool) (b lo : Nat) (N : Nat) (hN : Fit K N) (n : Nat) :
    ∀ {f : Nat → Nat} {m : Mem α} {s : Sma.St} (i : Nat) (v : Vec), R c K F f m s → v.c < m.next →
      b < m.next → v.cap ≤ N →
      Sim c K F True f m s
        (forRange n i v fun i h => do
          let x ← Heap.top h
          Vec.assign b ((lo + i : Nat) : Int) (.val x)
          Heap.pop K.triv cmp h)
        (forRange n i (vmap f v) fun i h => do
          let x ← top (poolOps .port c K) h
          (poolOps .port c K).assign (f b) ((lo + i : Nat) : Int) (.val x)
          pop (poolOps .port c K) cmp h) VR := by
  induction n with
  | zero =>
    intro f m s i v hR hv hb hcap
    exact Sim.pure hR ⟨rfl, hv⟩
  | succ n ih =>
    intro f m s i v hR hv hb hcap
    unfold Prog.forRange
    refine Sim.bind (A := fun f' m' a a' => VR f' m' a a' ∧ a.cap ≤ N) ?_ ?_
    · refine Sim.bind (A := Same) (index_sim hc hR v 1) ?_
      rintro f1 m1 s1 x _ he hr rfl _
      have hv1 := Nat.lt_of_lt_of_le hv he.next
      refine Sim.bind (A := Triv) ?_ ?_
      · have := assign_sim (md := .port) (P := True) hc hr b ((lo + i : Nat) : Int) (.val x)
        rwa [he.same b hb] at this
      · rintro f2 m2 s2 _ _ he2 hr2 _ _
        have hv2 := Nat.lt_of_lt_of_le hv1 he2.next
        rw [← vmap_ext (he.trans he2) hv]
        intro a m' hr
        have hfit : Fit K (v.cap / 2) := by
          have h1 : v.cap / 2 ≤ N := Nat.le_trans (Nat.div_le_self _ _) hcap
          have := Nat.mul_le_mul_left K.size h1
          unfold Fit at *; omega
        rcases pop_sim hc hr2 cmp v hv2 hfit a m' hr with ⟨_, g⟩ | ⟨a', s', f', g1, g2, g3, g4⟩
        · exact Or.inl ⟨trivial, g⟩
        · exact Or.inr ⟨a', s', f', g1, g2, g3, g4, Nat.le_trans (returns_pop hr) hcap⟩
    · rintro f1 m1 s1 u _ he hr ⟨⟨rfl, hu⟩, hcap'⟩ _
      have := ih (i + 1) u hr hu (Nat.lt_of_lt_of_le hb he.next) hcap'
      rwa [he.same b hb] at this

theorem sort_sim (hc : Sma.Legal c) (hR : R c K F f m s) (cmp : α → α → Bool) (x : α) (b lo n : Nat)
    (hb : b < m.next) (h1 : Fit K 1) (hn : Fit K (n + 1)) :
    Sim c K F True f m s (Heap.sort K.triv cmp x b lo n) (sort (poolOps .port c K) cmp x (f b) lo n) Triv := by
  unfold Heap.sort sort
  refine Sim.bind (ctorRange_sim hc hR cmp x n (fun i => .ref b ((lo + i : Nat) : Int)) (fun _ => hb) h1 hn) ?_
  rintro f1 m1 s1 v _ he hr ⟨⟨rfl, hv⟩, hcap⟩ _
  have := sortLoop_sim hc cmp b lo (n + 1) hn n 0 v hr hv (Nat.lt_of_lt_of_le hb he.next) (by omega)
  rw [he.same b hb] at this
  refine Sim.bind this ?_
  rintro f2 m2 s2 u _ he2 hr2 ⟨rfl, hu⟩ _
  refine Sim.bind (A := VR) (clear_sim hc hr2 u hu) ?_
  rintro f3 m3 s3 _ _ he3 hr3 _ _
  exact Sim.pure hr3 trivial

/-! ### Observers -/

theorem top_pool (hc : Sma.Legal c) (hR : R c K F f m s) {v : Vec} {x : α} {m' : Mem α}
    (h : Returns (Heap.top v) m x m') : Returns (top (poolOps md c K) (vmap f v)) s x s :=
  index_pool hc hR h

theorem iterate_pool (hc : Sma.Legal c) (hR : R c K F f m s) {v : Vec} {l : List α} {m' : Mem α}
    (h : Returns (Heap.iterate v) m l m') : Returns (iterate (poolOps md c K) (vmap f v)) s l s :=
  iterateLoop_pool hc hR v.c (v.sz - 1) 1 [] l m' h

end Verif.HPool
