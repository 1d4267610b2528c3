import Verif.StringPool
import Verif.HeapPoolSim
import Verif.BasicStringLemmas

/-! Helper lemmas: the functions of `BasicString` on the bytes of the static pool do what they do on
blocks, as long as there is memory. -/

namespace Verif.SPool

open Prog Vec Pool
open HPool (Same index_sim)

variable {α : Type}

/-! ## The functions over an arbitrary memory are those of `Verif.BasicString` -/

theorem ctor_mem (nul : α) : ctor (memOps Vec.alloc true) nul = Str.ctor nul := rfl
theorem ctorC_mem [DecidableEq α] (nul : α) (str : List α) :
    ctorC (memOps Vec.alloc true) nul str = Str.ctorC nul str := by
  delta ctorC Str.ctorC ctorLoop Str.ctorLoop; rfl
theorem push_mem (nul : α) (v : Vec) (e : Arg α) :
    push (memOps Vec.alloc true) nul v e = Str.push nul v e := rfl
theorem clear_mem (nul : α) (v : Vec) : clear (memOps Vec.alloc true) nul v = Str.clear nul v := rfl
theorem iterate_mem (v : Vec) : iterate (memOps (α := α) Vec.alloc true) v = Str.iterate v := rfl
theorem back_mem (v : Vec) : back (memOps (α := α) Vec.alloc true) v = Str.back v := rfl
theorem front_mem (v : Vec) : front (memOps (α := α) Vec.alloc true) v = Str.front v := rfl
theorem cStr_mem (v : Vec) : (cStr v : Prog (Mem α) _) = Str.cStr v := rfl
theorem append_mem (v : Vec) (t : Option Vec) :
    append (memOps (α := α) Vec.alloc true) v t = Str.append v t := by
  delta append Str.append appendLoop Str.appendLoop; rfl
theorem eqLoop_mem [DecidableEq α] (v u : Vec) (n i : Nat) :
    eqLoop (memOps (α := α) Vec.alloc true) v u n i = Str.eqLoop v u n i := by
  induction n generalizing i with
  | zero => rfl
  | succ n ih => unfold eqLoop Str.eqLoop; simp only [ih]; rfl

/-! ## Simulation -/

variable {c : Sma.Cfg} {K : Elem α} {F : Rest} {P : Prop} {f : Nat → Nat} {m : Mem α} {s : Sma.St}

section
variable (ht : K.triv = true)
include ht

theorem resize_true (hc : Sma.Legal c) (hR : R c K F f m s) (v : Vec) (hv : v.c < m.next)
    (n : Nat) (hfit : Fit K n) :
    Sim c K F (Short c K s n) f m s (Vec.resize true v n) (resize (poolOps .port c K) (vmap f v) n) VR := by
  have := resize_sim hc hR v hv n hfit
  rwa [ht] at this

theorem pushBack_true (hc : Sma.Legal c) (hR : R c K F f m s) (v : Vec) (hv : v.c < m.next)
    (hfit : v.cap < v.sz + 1 → Fit K (max 2 (2 * v.sz))) (e : Arg α) (hold : ArgOld m e) :
    Sim c K F (v.cap < v.sz + 1 ∧ Short c K s (max 2 (2 * v.sz))) f m s (Vec.pushBack true v e)
      (pushBack (poolOps .port c K) (vmap f v) (argMap f e)) VR := by
  have := pushBack_sim hc hR v hv hfit e hold
  rwa [ht] at this

theorem ctor_sim (hc : Sma.Legal c) (hR : R c K F f m s) (nul : α) (h15 : Fit K 15) :
    Sim c K F True f m s (Str.ctor nul) (ctor (poolOps .port c K) nul) VR := by
  have h1 : Fit K 1 := by unfold Fit at *; omega
  unfold Str.ctor ctor
  have := ctorFill_sim hc hR 1 h1 (.val nul) trivial
  rw [ht] at this
  refine Sim.bind (A := VR) (this.mono (fun _ => trivial) (fun _ _ _ _ _ h => h)) ?_
  rintro f1 m1 s1 u _ he hr ⟨rfl, hu⟩ _
  exact (resize_true ht hc hr u hu 15 h15).mono (fun _ => trivial) (fun _ _ _ _ _ h => h)

theorem push_sim (hc : Sma.Legal c) (hR : R c K F f m s) (nul : α) (v : Vec) (hv : v.c < m.next)
    (hfit : v.cap < v.sz + 1 → Fit K (max 2 (2 * v.sz))) (e : Arg α) (hold : ArgOld m e) :
    Sim c K F (v.cap < v.sz + 1) f m s
      (Str.push nul v e) (push (poolOps .port c K) nul (vmap f v) (argMap f e)) VR := by
  unfold Str.push push
  refine Sim.bind (A := Triv) (setIndex_sim hc hR v hv _ e hold) ?_
  rintro f1 m1 s1 _ _ he hr _ _
  rw [← vmap_ext he hv]
  exact (pushBack_true ht hc hr v (Nat.lt_of_lt_of_le hv he.next) hfit (.val nul) trivial).mono
    And.left (fun _ _ _ _ _ h => h)

theorem clear_sim' (hc : Sma.Legal c) (hR : R c K F f m s) (nul : α) (v : Vec) (hv : v.c < m.next)
    (h15 : Fit K 15) :
    Sim c K F True f m s (Str.clear nul v) (clear (poolOps .port c K) nul (vmap f v)) VR := by
  unfold Str.clear clear
  have := clear_sim (md := .port) (P := True) hc hR v hv
  rw [ht] at this
  refine Sim.bind (A := VR) this ?_
  rintro f1 m1 s1 u _ he hr ⟨rfl, hu⟩ r
  have hu0 : u = Vec.empty := by
    obtain ⟨_, _, _, r⟩ := returns_bind r
    exact (returns_pure r).1
  refine Sim.bind (A := VR) ((pushBack_true ht hc hr u hu (fun _ => ?_) (.val nul) trivial).mono
    (fun _ => trivial) (fun _ _ _ _ _ h => h)) ?_
  · rw [hu0]; unfold Fit at *; simp [Vec.empty]; omega
  rintro f2 m2 s2 w _ he2 hr2 ⟨rfl, hw⟩ _
  exact (resize_true ht hc hr2 w hw 15 h15).mono (fun _ => trivial) (fun _ _ _ _ _ h => h)

omit ht in
theorem cRead_sim (hR : R c K F f m s) (str : List α) (i : Nat) :
    Sim c K F P f m s (Str.cRead str i) (Str.cRead str i) Same := by
  intro x m' h
  unfold Str.cRead at *
  split at h
  · obtain ⟨rfl, rfl⟩ := returns_pure h
    exact Or.inr ⟨_, s, f, rfl, Ext.refl _ _, hR, rfl⟩
  · cases h

omit ht in
theorem returns_cRead {σ : Type} {str : List α} {i : Nat} {x : α} {t t' : σ} (h : Returns (Str.cRead str i) t x t') :
    i < str.length ∧ t' = t := by
  unfold Str.cRead at h
  split at h
  · rename_i hx
    obtain ⟨rfl, rfl⟩ := returns_pure h
    exact ⟨(List.getElem?_eq_some_iff.1 hx).1, rfl⟩
  · cases h

theorem ctorLoop_sim [DecidableEq α] (hc : Sma.Legal c) (hM : 2 * c.M + 8 < 2 ^ 31)
    (hK : 15 * K.size + 8 < 2 ^ 31) (nul : α) (str : List α) (n : Nat) :
    ∀ {f : Nat → Nat} {m : Mem α} {s : Sma.St} (v : Vec) (l : List α) (i : Nat), str.length - i ≤ n →
      R c K F f m s → m.WF → Rep m v l →
      Sim c K F True f m s (Str.ctorLoop nul str v i)
        (ctorLoop (poolOps .port c K) nul str (vmap f v) i)
        (fun f' m' a a' => VR f' m' a a' ∧ m'.WF ∧ ∃ l', Rep m' a l') := by
  induction n with
  | zero =>
    intro f m s v l i hi hR hw hr
    rw [Str.ctorLoop, ctorLoop]
    refine Sim.bind (A := Same) (cRead_sim hR str i) ?_
    rintro f1 m1 s1 x _ he hr1 rfl r
    exact absurd (returns_cRead r).1 (by omega)
  | succ n ih =>
    intro f m s v l i hi hR hw hr
    rw [Str.ctorLoop, ctorLoop]
    refine Sim.bind (A := Same) (cRead_sim hR str i) ?_
    rintro f1 m1 s1 x _ he hr1 rfl r
    obtain ⟨hlt, rfl⟩ := returns_cRead r
    rw [← vmap_ext he hr.fresh]
    by_cases hx : x ≠ nul
    · rw [if_pos hx, if_pos hx]
      obtain ⟨c1, c2⟩ := cap_pool hc hr1 hr
      refine Sim.bind (A := VR) ((pushBack_true ht hc hr1 v hr.fresh (fun _ => ?_) (.val x) trivial).mono
        (fun _ => trivial) (fun _ _ _ _ _ h => h)) ?_
      · rw [hr.size]; exact fit_push hM (by omega) (mul_le_of_le c1 c2)
      rintro f2 m2 s2 u _ he2 hr2 ⟨rfl, hu⟩ r2
      obtain ⟨u', m2', r2', g1, _, _, g4⟩ := pushBack_ok (triv := true) hw hr (val_get x m1)
        (fun _ => Or.inl rfl)
      obtain ⟨rfl, rfl⟩ := r2.det r2'
      exact ih u _ (i + 1) (by omega) hr2 g4 g1
    · rw [if_neg hx, if_neg hx]
      exact Sim.pure hr1 ⟨⟨rfl, hr.fresh⟩, hw, l, hr⟩

theorem ctorC_sim [DecidableEq α] (hc : Sma.Legal c) (hM : 2 * c.M + 8 < 2 ^ 31)
    (hK : 15 * K.size + 8 < 2 ^ 31) (hR : R c K F f m s) (nul : α) (str : List α) (hw : m.WF) :
    Sim c K F True f m s (Str.ctorC nul str) (ctorC (poolOps .port c K) nul str) VR := by
  have h15 : Fit K 15 := by unfold Fit; omega
  unfold Str.ctorC ctorC
  refine Sim.bind (A := VR) (ctor_sim ht hc hR nul h15) ?_
  rintro f1 m1 s1 u _ he hr ⟨rfl, hu⟩ r1
  obtain ⟨u', m1', r1', g1, g2, g3, _⟩ := Str.ctor_ok nul hw
  obtain ⟨rfl, rfl⟩ := r1.det r1'
  refine Sim.bind (A := Same) (cRead_sim hr str 0) ?_
  rintro f2 m2 s2 x _ he2 hr2 rfl r2
  obtain ⟨_, rfl⟩ := returns_cRead r2
  rw [← vmap_ext he2 hu]
  refine Sim.bind (A := Triv) (setIndex_sim hc hr2 u hu (-1) (.val x) trivial) ?_
  rintro f3 m3 s3 _ _ he3 hr3 _ r3
  obtain ⟨_, m3', r3', k1, _, k3⟩ := setIndex_ok (x := x) g3 g1 (by simp) (-1) 0 (by simp) (Or.inr (by simp))
  obtain ⟨_, rfl⟩ := r3.det r3'
  rw [← vmap_ext he3 hu]
  refine Sim.bind (ctorLoop_sim ht hc hM hK nul str _ u _ 1 (Nat.le_refl _) hr3 k3 k1) ?_
  rintro f4 m4 s4 v _ he4 hr4 ⟨⟨rfl, hv⟩, hw4, l, hl⟩ _
  obtain ⟨c1, c2⟩ := cap_pool hc hr4 hl
  refine (pushBack_true ht hc hr4 v hv (fun _ => ?_) (.val nul) trivial).mono
    (fun _ => trivial) (fun _ _ _ _ _ h => h)
  rw [hl.size]; exact fit_push hM (by omega) (mul_le_of_le c1 c2)

omit ht in
theorem refAt_sim (hR : R c K F f m s) (v : Vec) (hv : v.c < m.next) (i : Int) :
    Sim c K F P f m s (Str.refAt v i) (refAt (vmap f v) i)
      (fun f' m' a a' => a' = (f' a.1, a.2) ∧ a.1 < m'.next) := by
  show Sim c K F P f m s (dassert _ >>= fun _ => pure _) (dassert _ >>= fun _ => pure _) _
  refine Sim.bind (A := Triv) (Sim.check hR id) ?_
  rintro f1 m1 s1 _ _ he hr _ _
  refine Sim.pure hr ⟨?_, Nat.lt_of_lt_of_le hv he.next⟩
  show (f v.c, normIndex (vmap f v) i) = (f1 v.c, normIndex v i)
  rw [he.same _ hv]; rfl

theorem appendLoop_sim (hc : Sma.Legal c) (u : Vec) (n : Nat) :
    ∀ {f : Nat → Nat} {m : Mem α} {s : Sma.St} (v : Vec) (i : Nat), u.sz - i ≤ n → R c K F f m s →
      v.c < m.next → u.c < m.next → v.sz + (u.sz - i) ≤ v.cap →
      Sim c K F P f m s (Str.appendLoop v (some u) i)
        (appendLoop (poolOps .port c K) (vmap f v) (some (vmap f u)) i) VR := by
  induction n with
  | zero =>
    intro f m s v i hi hR hv hu hroom
    rw [Str.appendLoop, appendLoop]
    simp only [Option.getD_some]
    rw [if_neg (show ¬ i < u.sz by omega), if_neg (show ¬ i < (vmap f u).sz by show ¬ i < u.sz; omega)]
    exact Sim.pure hR ⟨rfl, hv⟩
  | succ n ih =>
    intro f m s v i hi hR hv hu hroom
    rw [Str.appendLoop, appendLoop]
    simp only [Option.getD_some]
    by_cases hlt : i < u.sz
    · rw [if_pos hlt, if_pos (show i < (vmap f u).sz from hlt)]
      refine Sim.bind (refAt_sim hR u hu i) ?_
      rintro f1 m1 s1 ⟨b, j⟩ _ he hr ⟨rfl, hb⟩ _
      have hv1 := Nat.lt_of_lt_of_le hv he.next
      have hu1 := Nat.lt_of_lt_of_le hu he.next
      rw [← vmap_ext he hv, ← vmap_ext he hu]
      refine Sim.bind (A := VR) ((pushBack_true ht hc hr v hv1 (fun h => by omega) (.ref b j) hb).mono
        (fun h => absurd h.1 (by omega)) (fun _ _ _ _ _ h => h)) ?_
      rintro f2 m2 s2 w _ he2 hr2 ⟨rfl, hw⟩ r2
      obtain ⟨e1, e2⟩ := HPool.returns_pushBack r2 (by omega)
      rw [← vmap_ext he2 hu1]
      exact ih w (i + 1) (by omega) hr2 hw (Nat.lt_of_lt_of_le hu1 he2.next) (by omega)
    · rw [if_neg hlt, if_neg (show ¬ i < (vmap f u).sz from hlt)]
      exact Sim.pure hR ⟨rfl, hv⟩

/-- The end of `operator+=`, when there is room. -/
theorem appendTail_sim (hc : Sma.Legal c) (hR : R c K F f m s) (v u : Vec) (hv : v.c < m.next)
    (hu : u.c < m.next) (hroom : v.sz + (u.sz - 1) ≤ v.cap) :
    Sim c K F P f m s
      (do let (b, j) ← Str.refAt u 0
          Vec.setIndex v (-1) (.ref b j)
          Str.appendLoop v (some u) 1)
      (do let (b, j) ← refAt (vmap f u) 0
          setIndex (poolOps .port c K) (vmap f v) (-1) (.ref b j)
          appendLoop (poolOps .port c K) (vmap f v) (some (vmap f u)) 1) VR := by
  refine Sim.bind (refAt_sim hR u hu 0) ?_
  rintro f1 m1 s1 ⟨b, j⟩ _ he hr ⟨rfl, hb⟩ _
  have hv1 := Nat.lt_of_lt_of_le hv he.next
  have hu1 := Nat.lt_of_lt_of_le hu he.next
  rw [← vmap_ext he hv, ← vmap_ext he hu]
  refine Sim.bind (A := Triv) (setIndex_sim hc hr v hv1 (-1) (.ref b j) hb) ?_
  rintro f2 m2 s2 _ _ he2 hr2 _ _
  rw [← vmap_ext he2 hv1, ← vmap_ext he2 hu1]
  exact appendLoop_sim ht hc u _ v 1 (Nat.le_refl _) hr2 (Nat.lt_of_lt_of_le hv1 he2.next)
    (Nat.lt_of_lt_of_le hu1 he2.next) hroom

theorem append_sim (hc : Sma.Legal c) (hR : R c K F f m s) (v u : Vec) (hv : v.c < m.next)
    (hu : u.c < m.next) (h1 : 0 < u.sz) (hlt : v.sz + u.sz < 2 ^ 64)
    (hfit : Fit K (v.sz + (u.sz - 1))) :
    Sim c K F (v.cap < v.sz + (u.sz - 1)) f m s (Str.append v (some u)) (append (poolOps .port c K) (vmap f v) (some (vmap f u))) VR := by
  have hneed : (v.sz + u.sz + (2 ^ 64 - 1)) % 2 ^ 64 = v.sz + (u.sz - 1) := by omega
  have hneed' : ((vmap f v).sz + (vmap f u).sz + (2 ^ 64 - 1)) % 2 ^ 64 = v.sz + (u.sz - 1) := hneed
  unfold Str.append append
  simp only [Option.getD_some]
  rw [hneed, hneed']
  by_cases hcap : v.cap < v.sz + (u.sz - 1)
  · rw [if_pos hcap, if_pos (show (vmap f v).cap < _ from hcap)]
    refine Sim.bind (A := VR) ((resize_true ht hc hR v hv _ hfit).mono (fun _ => hcap)
      (fun _ _ _ _ _ h => h)) ?_
    rintro f1 m1 s1 w _ he hr ⟨rfl, hw⟩ r1
    obtain ⟨e1, e2⟩ := HPool.returns_resize r1
    rw [if_neg (by omega)] at e1
    rw [← vmap_ext he hu]
    exact appendTail_sim ht hc hr w u hw (Nat.lt_of_lt_of_le hu he.next) (by omega)
  · rw [if_neg hcap, if_neg (show ¬ (vmap f v).cap < _ from hcap), pure_bind, pure_bind]
    exact appendTail_sim ht hc hR v u hv hu (by omega)

omit ht in
/-- Appending an empty string to itself. -/
theorem append_self_sim (hc : Sma.Legal c) (hR : R c K F f m s) (v : Vec) (hv : v.c < m.next)
    (h1 : v.sz = 1) (hcap : 1 ≤ v.cap) :
    Sim c K F P f m s (Str.append v none) (append (poolOps .port c K) (vmap f v) none) VR := by
  have hneed : (v.sz + v.sz + (2 ^ 64 - 1)) % 2 ^ 64 = 1 := by omega
  have hneed' : ((vmap f v).sz + (vmap f v).sz + (2 ^ 64 - 1)) % 2 ^ 64 = 1 := hneed
  unfold Str.append append
  simp only [Option.getD_none]
  rw [hneed, hneed', if_neg (by omega), if_neg (show ¬ (vmap f v).cap < 1 by show ¬ v.cap < 1; omega),
    pure_bind, pure_bind]
  refine Sim.bind (refAt_sim hR v hv 0) ?_
  rintro f1 m1 s1 ⟨b, j⟩ _ he hr ⟨rfl, hb⟩ _
  have hv1 := Nat.lt_of_lt_of_le hv he.next
  rw [← vmap_ext he hv]
  refine Sim.bind (A := Triv) (setIndex_sim hc hr v hv1 (-1) (.ref b j) hb) ?_
  rintro f2 m2 s2 _ _ he2 hr2 _ _
  rw [← vmap_ext he2 hv1, Str.appendLoop, appendLoop]
  simp only [Option.getD_none]
  rw [if_neg (by omega), if_neg (show ¬ 1 < (vmap f2 v).sz by show ¬ 1 < v.sz; omega)]
  exact Sim.pure hr2 ⟨rfl, Nat.lt_of_lt_of_le hv1 he2.next⟩

end

/-! ### Observers -/

theorem eqLoop_pool [DecidableEq α] {md : Sma.Mode} (hc : Sma.Legal c) (hR : R c K F f m s) (v u : Vec) (n : Nat) :
    ∀ {i : Nat} {r : Bool} {m' : Mem α}, Returns (Str.eqLoop v u n i) m r m' →
      m' = m ∧ Returns (eqLoop (poolOps md c K) (vmap f v) (vmap f u) n i) s r s := by
  induction n with
  | zero => intro i r m' h; obtain ⟨rfl, rfl⟩ := returns_pure h; exact ⟨rfl, rfl⟩
  | succ n ih =>
    intro i r m' h
    obtain ⟨x, m1, r1, h1⟩ := returns_bind h
    obtain rfl := HPool.returns_index r1
    obtain ⟨y, m2, r2, h2⟩ := returns_bind h1
    obtain rfl := HPool.returns_index r2
    clear h h1
    have e : eqLoop (poolOps md c K) (vmap f v) (vmap f u) (n + 1) i s =
        (if x ≠ y then pure false else eqLoop (poolOps md c K) (vmap f v) (vmap f u) n (i + 1)) s :=
      by
        rw [eqLoop, bind_returns (index_pool hc hR r1), bind_returns (index_pool hc hR r2)]
    unfold Returns at *
    rw [e]
    by_cases hxy : x ≠ y
    · rw [if_pos hxy] at h2 ⊢
      obtain ⟨rfl, rfl⟩ := returns_pure h2
      exact ⟨rfl, rfl⟩
    · rw [if_neg hxy] at h2 ⊢
      exact ih h2

theorem eqBody_pool [DecidableEq α] {md : Sma.Mode} (hc : Sma.Legal c) (hR : R c K F f m s) {v u : Vec}
    {r : Bool} {m' : Mem α} (h : Returns (Str.eqBody v u) m r m') :
    m' = m ∧ Returns (eqBody (poolOps md c K) (vmap f v) (vmap f u)) s r s := by
  unfold Str.eqBody at h
  unfold eqBody
  by_cases hs : Str.size v ≠ Str.size u
  · rw [if_pos hs] at h
    rw [if_pos (show Str.size (vmap f v) ≠ Str.size (vmap f u) from hs)]
    obtain ⟨rfl, rfl⟩ := returns_pure h
    exact ⟨rfl, rfl⟩
  · rw [if_neg hs] at h
    rw [if_neg (show ¬ Str.size (vmap f v) ≠ Str.size (vmap f u) from hs)]
    exact eqLoop_pool hc hR v u _ h

theorem iterate_pool' {md : Sma.Mode} (hc : Sma.Legal c) (hR : R c K F f m s) {v : Vec} {l : List α} {m' : Mem α}
    (h : Returns (Str.iterate v) m l m') : Returns (iterate (poolOps md c K) (vmap f v)) s l s := by
  obtain ⟨_, m1, r1, r2⟩ := returns_bind h
  obtain ⟨h0, rfl⟩ := returns_check r1
  exact (bind_returns (check_ok s h0)).trans (iterateLoop_pool hc hR v.c (v.sz - 1) 0 [] l m' r2)

/-! ### Room for a new string -/

/-- Taking the front of a block leaves the rest of a large one. -/
theorem portAlloc_room (hc : Sma.Legal c) {w : Sma.World} (h : Sma.Reach c w) {n : Int} (hn : 0 < n)
    (hm : n + 8 < 2 ^ 31) {k : Nat} {b : Sma.Block} (hb : Sma.FreeBlock c w.st b) (hle : Sma.up8 n + k ≤ b.2)
    {a : Nat} {t : Sma.St} (hr : Returns (Sma.portAlloc c n) w.st a t) :
    0 < k → ∃ d, Sma.FreeBlock c t d ∧ k ≤ d.2 := by
  intro hk
  obtain ⟨L, hL⟩ := Sma.reach_inv hc h
  have hbL := hL.1.freeBlock.1 hb
  rcases Sma.alloc_ok hL.1 hc hL.2.1 hn hm with ⟨h1, _⟩ | ⟨i, pre, d, post, s', L', h1, h2, h3, h4, h5, _, _, h8⟩
  · obtain ⟨j, hj, hbj⟩ := Sma.mem_flat.1 hbL
    have := h1 j hj b hbj
    omega
  · have hd0 := (hL.1.fits h1 (b := d) (by rw [h2]; simp)).ok.1
    have hr' : Returns (Sma.portAlloc c n) w.st d.1 s' := by
      unfold Returns Sma.portAlloc
      rw [bind_returns h4, if_neg hd0]
      rfl
    obtain ⟨_, rfl⟩ := hr.det hr'
    by_cases hbd : b = d
    · subst hbd
      rcases h8 with ⟨e, _⟩ | ⟨_, hput⟩
      · omega
      · exact ⟨_, h5.freeBlock.2 (hput.flat.mem_iff.2 List.mem_cons_self), by simp only; omega⟩
    · refine ⟨b, h5.freeBlock.2 ?_, by omega⟩
      have hmem : b ∈ Sma.flat (c.max / 8) (Sma.setL L i (pre ++ post)) := by
        obtain ⟨j, hj, hbj⟩ := Sma.mem_flat.1 hbL
        refine Sma.mem_flat.2 ⟨j, hj, ?_⟩
        by_cases hij : j = i
        · subst hij
          rw [Sma.setL_self]
          rw [h2] at hbj
          rcases List.mem_append.1 hbj with g | g
          · exact List.mem_append_left _ g
          · rcases List.mem_cons.1 g with g | g
            · exact absurd g hbd
            · exact List.mem_append_right _ g
        · rw [Sma.setL_ne hij]; exact hbj
      rcases h8 with ⟨_, rfl⟩ | ⟨_, hput⟩
      · exact hmem
      · exact hput.flat.mem_iff.2 (List.mem_cons_of_mem _ hmem)

theorem pokeN_free (hc : Sma.Legal c) {w : Sma.World} (h : Sma.Reach c w) {a : Nat} {n : Int}
    (hm : (a, n) ∈ w.live) {o : Nat} (g : Nat → Sma.Cell) (t : Nat) (ht : 8 * ((o + t : Nat) : Int) < n + 8)
    {b : Sma.Block} (hb : Sma.FreeBlock c w.st b) :
    Sma.FreeBlock c { w.st with mem := pokeN t w.st.mem (a + 8 * o) g } b := by
  induction t with
  | zero => rw [pokeN_zero]; exact hb
  | succ t ih =>
    rw [pokeN_succ]
    have hr := reach_pokeN' h hm (o := o) g t (by omega)
    obtain ⟨L, hL⟩ := Sma.reach_inv hc hr
    obtain ⟨w', h1, h2, _⟩ := Sma.step_write_ok hL hc (a := a) (n := n) (k := o + t) hm (by omega) (g t)
    have e : a + 8 * o + 8 * t = a + 8 * (o + t) := by omega
    have h3 : w' = ⟨{ w.st with mem := Sma.upd (pokeN t w.st.mem (a + 8 * o) g) (a + 8 * o + 8 * t) (g t) }, w.live⟩ := by
      have : Returns (Sma.step c (.write a n (o + t) (g t))) ⟨{ w.st with mem := pokeN t w.st.mem (a + 8 * o) g }, w.live⟩ 0
          ⟨{ w.st with mem := Sma.upd (pokeN t w.st.mem (a + 8 * o) g) (a + 8 * o + 8 * t) (g t) }, w.live⟩ := by
        rw [e]; rfl
      exact (h1.det this).2
    subst h3
    exact h2.1.freeBlock.2 (hL.1.freeBlock.1 (ih (by omega)))

/-- Writing an element does not touch the free blocks. -/
theorem save_free (hc : Sma.Legal c) (h : R c K F f m s)
    {b : Nat} {k : Blk α} (hk : m.blk b = some k) {j : Nat} (hj : j < k.len) (g : Nat → Byte) {d : Sma.Block}
    (hd : Sma.FreeBlock c s d) :
    Sma.FreeBlock c { s with mem := pokeBytes c s.mem (f b + K.size * j) K.size g } d := by
  obtain ⟨L, hm, _, h3⟩ := h.live hk
  obtain ⟨i1, i2, i3, _⟩ := h.inPool hc hk
  have hslot := mul_slot (w := K.size) hj
  rw [poke_cells s.mem g i1 i3 hslot]
  exact pokeN_free hc h3 (a := f b) (n := bytes K k.len) hm (o := 0)
      (fun k => pokeBytes c s.mem (f b + K.size * j) K.size g (f b + 8 * k)) ((K.size * k.len + 7) / 8) (by
        unfold bytes
        generalize K.size * k.len = y
        omega) hd

/-- The first request of a constructor leaves the rest of a large block. -/
theorem ctorFill_room (hc : Sma.Legal c) {s' : Sma.St} (hR : R c K F f m s)
    (hfit : Fit K 1) (x : α) {b : Sma.Block} (hb : Sma.FreeBlock c s b) {k : Nat} (hk : 0 < k)
    (hle : taken8 K.size 1 + k ≤ b.2) {v : Vec}
    (hr : Returns (Pool.ctorFill (poolOps .port c K) 1 (.val x)) s v s') :
    ∃ d, Sma.FreeBlock c s' d ∧ k ≤ d.2 := by
  unfold Pool.ctorFill at hr
  rw [dassert_pos (by simp), pure_bind] at hr
  obtain ⟨u, s1, r1, r2⟩ := returns_bind hr
  unfold Pool.resize at r1
  rw [if_neg (by simp)] at r1
  obtain ⟨a, s2, r3, r4⟩ := returns_bind r1
  obtain ⟨_, _, _, _, _, h3⟩ := hR.held
  have hpos := bytes_pos (K := K) (n := 1) (by simp)
  have hlt : bytes K 1 + 8 < 2 ^ 31 := by unfold bytes; unfold Fit at hfit; omega
  have halloc : (poolOps .port c K).alloc 1 = Sma.portAlloc c (bytes K 1) := by
    show Sma.portAlloc c _ = _
    rw [byteCount_fit hfit]
  rcases alloc_sim hc hR (n := 1) (by simp) hfit _ _ (show Returns (Vec.alloc 1) m m.next _ from rfl) with
    ⟨_, hf⟩ | ⟨a', s2', f', g1, g2, g3, g4⟩
  · unfold Faults Returns at *; rw [hf] at r3; cases r3
  obtain ⟨rfl, rfl⟩ := r3.det g1
  have hroom := portAlloc_room hc h3 hpos hlt hb (k := k) (by rw [up8_bytes]; exact hle)
    (by rw [halloc] at g1; exact g1) hk
  obtain ⟨d, hd, hkd⟩ := hroom
  obtain ⟨ga, _, _⟩ := g4
  subst ga
  -- the rest of `resize` with an empty vector
  have hw : Returns (Prog.when (Vec.empty.c ≠ 0) (do
      dassert (Vec.empty.cap ≠ 0)
      forRange Vec.empty.sz 0 () fun i _ => do
        Prog.when (i < 1) ((poolOps .port c K).construct (f' m.next) i (.ref Vec.empty.c i))
        (poolOps .port c K).destroy Vec.empty.c i
      (poolOps .port c K).dealloc Vec.empty.c Vec.empty.cap) : Prog Sma.St Unit) s2 () s2 := by
    unfold Returns Prog.when; rw [if_neg (by simp [Vec.empty])]; rfl
  obtain ⟨_, s3, r5, r6⟩ := returns_bind r4
  obtain ⟨_, rfl⟩ := r5.det hw
  obtain ⟨rfl, rfl⟩ := returns_pure r6
  obtain ⟨_, s4, r7, r8⟩ := returns_bind r2
  obtain ⟨_, rfl⟩ := returns_pure r8
  unfold Prog.forRange at r7
  obtain ⟨_, s5, r9, r10⟩ := returns_bind r7
  obtain ⟨_, rfl⟩ := returns_pure r10
  have hs : Returns ((poolOps .port c K).construct (f' m.next) (0 : Nat) (.val x)) s1 ()
      { s1 with mem := pokeBytes c s1.mem (f' m.next + K.size * 0) K.size (K.enc x) } := by
    show Returns (_ >>= _) _ _ _
    rw [addr_nat]
    unfold Returns
    rw [bind_returns (check_ok s1 (touch_ok hc g3 (b := m.next) (k := ⟨1, fun _ => none⟩) (if_pos rfl)
        (j := 0) Nat.one_pos s1).1),
      bind_returns (show Returns (getArg c K (.val x)) s1 x s1 from rfl)]
    exact save_ok hc g3 (b := m.next) (k := ⟨1, fun _ => none⟩) (if_pos rfl) (j := 0) Nat.one_pos _
  obtain ⟨_, rfl⟩ := r9.det hs
  exact ⟨d, save_free hc g3 (b := m.next) (k := ⟨1, fun _ => none⟩) (if_pos rfl) Nat.one_pos _ hd, hkd⟩

/-- A request for which there is a block succeeds. -/
theorem room_not_short (hc : Sma.Legal c) (hR : R c K F f m s)
    {b : Sma.Block} (hb : Sma.FreeBlock c s b) {n : Nat} (hle : taken8 K.size n ≤ b.2) : ¬ Short c K s n := by
  rintro ⟨_, t, ht, hno⟩
  obtain ⟨_, _, _, _, _, h3⟩ := hR.held
  obtain ⟨t', ht', _, _, hcov, _⟩ := Sma.sma_merge hc h3
  obtain ⟨_, rfl⟩ := ht.det ht'
  obtain ⟨d, hd, g1, g2⟩ := hcov b hb
  refine hno ⟨d, hd, ?_⟩
  rw [up8_bytes]
  unfold taken8 at hle
  omega

/-- A constructor stops only if no block can hold both its requests. -/
theorem ctor_room (ht : K.triv = true) (hc : Sma.Legal c) (hR : R c K F f m s)
    (nul : α) (h15 : Fit K 15) {b : Sma.Block} (hb : Sma.FreeBlock c s b)
    (hle : taken8 K.size 1 + taken8 K.size 15 ≤ b.2) :
    Sim c K F False f m s (Str.ctor nul) (ctor (poolOps .port c K) nul) VR := by
  have h1 : Fit K 1 := by unfold Fit at *; omega
  intro a m' hr
  unfold Str.ctor at hr
  obtain ⟨v, m1, r1, r2⟩ := returns_bind hr
  have hpos : 0 < taken8 K.size 15 := by
    have := K.pos
    unfold taken8
    omega
  have hs := ctorFill_sim hc hR 1 h1 (.val nul) trivial
  rw [ht] at hs
  rcases hs v m1 r1 with ⟨hsh, _⟩ | ⟨v', s1, f1, g1, g2, g3, rfl, g4⟩
  · exact absurd hsh (room_not_short hc hR hb (by omega))
  · obtain ⟨d, hd, hkd⟩ := ctorFill_room hc hR h1 nul hb hpos hle g1
    rcases resize_true ht hc g3 v g4 15 h15 a m' r2 with ⟨hsh, _⟩ | ⟨a', s2, f2, e1, e2, e3, e4⟩
    · exact absurd hsh (room_not_short hc g3 hd hkd)
    · exact Or.inr ⟨a', s2, f2, (bind_returns g1).trans e1, g2.trans e2, e3, e4⟩

end Verif.SPool
