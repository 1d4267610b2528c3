import Verif.XStackPool
import Verif.XValueStackLemmas
import Verif.VectorPoolWorld

/-! Helper lemmas: the functions of stacks on blocks and on the bytes of the pool. -/

namespace Verif.XPool

open Prog Vec Pool
open XStack (XS Obj WOp)

variable {α ι : Type} {md : Sma.Mode} {c : Sma.Cfg} {K : Elem α} {F : Rest}

/-! ## The functions on blocks are those of `Verif.XValueStack` -/

theorem push_mem (triv : Bool) (cmp : α → α → Bool) (s : XS α) (x : α) :
    push (memOps Vec.alloc triv) cmp s x = XStack.push triv cmp s x := rfl
theorem pop_mem [DecidableEq α] (triv : Bool) (s : XS α) :
    pop (memOps Vec.alloc triv) s = XStack.pop triv s := rfl
theorem clearX_mem (triv : Bool) (s : XS α) :
    clearX (memOps Vec.alloc triv) s = XStack.clear triv s := rfl
theorem copyObj_mem (triv : Bool) (v u : Obj ι α) :
    copyObj (memOps Vec.alloc triv) v u = XStack.copyAssign triv v u := rfl
theorem moveObj_mem (triv : Bool) (gone : α → α) (v u : Obj ι α) :
    moveObj (memOps Vec.alloc triv) gone v u = XStack.moveAssign triv gone v u := rfl

/-! ## Simulation -/

/-- The object with its buffer moved to the pool. -/
def xmap (f : Nat → Nat) (s : XS α) : XS α := ⟨s.x, vmap f s.st⟩

/-- The relation between objects. -/
def XR (f : Nat → Nat) (m : Mem α) (s s' : XS α) : Prop := s' = xmap f s ∧ s.st.c < m.next

variable {P : Prop} {f : Nat → Nat} {m : Mem α} {s : Sma.St}

theorem top_back {v : Vec} {a : α} {m' : Mem α} (hr : Returns (Vec.back v) m a m') : m' = m := by
  obtain ⟨_, u, r1, r2⟩ := returns_bind hr
  obtain ⟨_, rfl⟩ := returns_check r1
  exact (returns_read r2).1

theorem stTop_sim (hc : Sma.Legal c) (hR : R c K F f m s) (v : Vec) :
    Sim c K F P f m s (Stack.top v) (stTop (poolOps md c K) (vmap f v)) (fun f' m' a a' => a' = a ∧ m' = m ∧ f' = f) := by
  intro a m' hr
  have e := top_back hr
  subst e
  exact Or.inr ⟨a, s, f, back_pool hc hR hr, Ext.refl _ _, hR, rfl, rfl, rfl⟩

theorem stPush_sim (hc : Sma.Legal c) (hM : 2 * c.M + 8 < 2 ^ 31) (hK : 2 * K.size + 8 < 2 ^ 31)
    (hR : R c K F f m s) {v : Vec} {l : List α} (hr : Rep m v l) (x : α) :
    Sim c K F (v.cap < v.sz + 1 ∧ Short c K s (max 2 (2 * v.sz))) f m s (Stack.push K.triv v x)
      (stPush (poolOps .port c K) (vmap f v) x) VR := by
  obtain ⟨c1, c2⟩ := cap_pool hc hR hr
  refine pushBack_sim hc hR v hr.fresh (fun _ => ?_) (.val x) trivial
  rw [hr.size]; exact fit_push hM hK (mul_le_of_le c1 c2)

theorem stPop_sim (hc : Sma.Legal c) (hM : 2 * c.M + 8 < 2 ^ 31)
    (hR : R c K F f m s) {v : Vec} {l : List α} (hr : Rep m v l) :
    Sim c K F (v.sz - 1 < v.cap / 3) f m s (Stack.pop K.triv v) (stPop (poolOps .port c K) (vmap f v)) VR := by
  obtain ⟨c1, c2⟩ := cap_pool hc hR hr
  have c3 := mul_le_of_le c1 (Nat.div_le_self v.cap 2)
  refine Sim.bind (stTop_sim hc hR v) ?_
  rintro f1 m1 s1 a _ he hr1 ⟨rfl, rfl, rfl⟩ _
  refine (popBack_sim hc hr1 v hr.fresh ?_).mono (fun h => h.1) (fun _ _ _ _ _ h => h)
  unfold Fit; omega

theorem push_sim (hc : Sma.Legal c) (hM : 2 * c.M + 8 < 2 ^ 31) (hK : 2 * K.size + 8 < 2 ^ 31)
    (hR : R c K F f m s) (cmp : α → α → Bool) {o : XS α} {r : List α} (hw : m.WF)
    (hr : Rep m o.st r.reverse) (x : α) :
    Sim c K F ((o.st.cap < o.st.sz + 1 ∧ Short c K s (max 2 (2 * o.st.sz))) ∨
        ((o.st.sz = 0 ∨ cmp x o.x = true) ∧ o.st.cap = o.st.sz + 1) ∨ o.st.sz = 1) f m s
      (XStack.push K.triv cmp o x) (push (poolOps .port c K) cmp (xmap f o) x) XR := by
  unfold XStack.push push
  have hsz := hr.size
  by_cases h : o.st.sz = 0 ∨ cmp x o.x = true
  · rw [if_pos h, if_pos (c := (xmap f o).st.sz = 0 ∨ cmp x (xmap f o).x = true) h]
    simp only [bind_assoc, pure_bind]
    refine Sim.bind ((stPush_sim hc hM hK hR hr o.x).mono Or.inl (fun _ _ _ _ _ h => h)) ?_
    rintro f1 m1 s1 st _ he hr1 ⟨rfl, hst⟩ ret
    obtain ⟨v', m', e, g1, g2, _⟩ := pushBack_ok (triv := K.triv) hw hr (val_get o.x m) (fun _ => Or.inl rfl)
    obtain ⟨rfl, rfl⟩ := ret.det e
    refine Sim.bind ((stPush_sim hc hM hK hr1 g1 x).mono ?_ (fun _ _ _ _ _ h => h)) ?_
    · rintro ⟨q, _⟩
      have g3 := g1.size
      simp only [List.length_append, List.length_cons, List.length_nil] at g3
      rw [g2, g3, ← hsz] at q
      have hle := (cap_pool hc hR hr).2
      rw [← hsz] at hle
      unfold growCap at q
      right
      by_cases h1 : o.st.sz = 1
      · exact Or.inr h1
      · refine Or.inl ⟨h, ?_⟩
        split at q
        · omega
        · split at q <;> omega
    · rintro f2 m2 s2 st _ he2 hr2 ⟨rfl, hst⟩ _
      exact Sim.pure hr2 ⟨rfl, hst⟩
  · rw [if_neg h, if_neg (c := (xmap f o).st.sz = 0 ∨ cmp x (xmap f o).x = true) h]
    simp only [pure_bind]
    refine Sim.bind ((stPush_sim hc hM hK hR hr x).mono Or.inl (fun _ _ _ _ _ h => h)) ?_
    rintro f2 m2 s2 st _ he2 hr2 ⟨rfl, hst⟩ _
    exact Sim.pure hr2 ⟨rfl, hst⟩

theorem pop_sim [DecidableEq α] (hc : Sma.Legal c) (hM : 2 * c.M + 8 < 2 ^ 31)
    (hR : R c K F f m s) {o : XS α} {r : List α} (hw : m.WF) (hr : Rep m o.st r.reverse) (hne : r ≠ []) :
    Sim c K F (o.st.sz - 2 < o.st.cap / 3) f m s
      (XStack.pop K.triv o) (pop (poolOps .port c K) (xmap f o)) XR := by
  unfold XStack.pop pop
  refine Sim.bind (stTop_sim hc hR o.st) ?_
  rintro f0 m0 s0 _ a he0 hr0 ⟨rfl, rfl, rfl⟩ _
  refine Sim.bind ((stPop_sim hc hM hr0 hr).mono (fun h => by omega) (fun _ _ _ _ _ h => h)) ?_
  rintro f1 m1 s1 st _ he hr1 ⟨rfl, hst⟩ ret
  by_cases h : o.x = a
  · rw [if_pos h, if_pos (c := (xmap f0 o).x = a) h]
    obtain ⟨b, r, rfl⟩ := List.exists_cons_of_ne_nil hne
    have hsz := hr.size
    obtain ⟨_, u, r1, r2⟩ := returns_bind ret
    have hu := top_back r1
    subst hu
    obtain ⟨v', m', e, g1, g2, _⟩ := popBack_ok (triv := K.triv) hw hr (by simp)
    obtain ⟨rfl, rfl⟩ := r2.det e
    refine Sim.bind (stTop_sim hc hr1 st) ?_
    rintro f2 m2 s2 _ y he2 hr2 ⟨rfl, rfl, rfl⟩ _
    refine Sim.bind ((stPop_sim hc hM hr2 g1).mono ?_ (fun _ _ _ _ _ h => h)) ?_
    · intro q
      rw [g2, g1.size, List.length_dropLast, ← hsz] at q
      unfold shrinkCap at q
      split at q <;> omega
    · rintro f3 m3 s3 st' _ he3 hr3 ⟨rfl, hst'⟩ _
      exact Sim.pure hr3 ⟨rfl, hst'⟩
  · rw [if_neg h, if_neg (c := (xmap f0 o).x = a) h]
    exact Sim.pure hr1 ⟨rfl, hst⟩

theorem clearX_sim (hc : Sma.Legal c) (hR : R c K F f m s) {o : XS α} (ho : o.st.c < m.next) :
    Sim c K F P f m s (XStack.clear K.triv o) (clearX (poolOps md c K) (xmap f o)) XR := by
  refine Sim.bind (clear_sim hc hR o.st ho) ?_
  rintro f1 m1 s1 st _ he hr1 ⟨rfl, hst⟩ _
  exact Sim.pure hr1 ⟨rfl, hst⟩

end Verif.XPool
