import Verif.VectorPoolWorld
import Verif.VectorOom

/-! Helper lemmas: vectors that use the static allocator without its port do what vectors over an
allocator that may refuse requests do (`Verif.VectorOom`), the requests refused being those for which
there is no free block. -/

namespace Verif.Pool

open Prog Vec

variable {α : Type} {c : Sma.Cfg} {K : Elem α} {F : Rest}

/-- An allocator that satisfies all requests or none. -/
abbrev may (y : Bool) : Nat → Prog (Mem α) Nat := allocOr fun _ => y

/-! ## Simulation -/

/-- `q` on the bytes does what `p` does on blocks, including stops at null pointers. -/
def SimD (c : Sma.Cfg) (K : Elem α) (F : Rest) {β γ : Type} (f : Nat → Nat) (m : Mem α) (s : Sma.St)
    (p : Prog (Mem α) β) (q : Prog Sma.St γ) (A : (Nat → Nat) → Mem α → β → γ → Prop) : Prop :=
  (∀ a m', Returns p m a m' →
    ∃ a' s' f', Returns q s a' s' ∧ Ext f m f' m' ∧ R c K F f' m' s' ∧ A f' m' a a') ∧
  (Faults p m .crash → Faults q s .crash)

theorem faults_bind {σ β γ : Type} {p : Prog σ β} {g : β → Prog σ γ} {s : σ} {e : Fault}
    (h : Faults (p >>= g) s e) : Faults p s e ∨ ∃ a t, Returns p s a t ∧ Faults (g a) t e := by
  have e0 : (p >>= g) s = match p s with
    | none => none
    | some (.error f) => some (.error f)
    | some (.ok (a, t)) => g a t := rfl
  unfold Faults Returns at *
  rw [e0] at h
  rcases hp : p s with _ | _ | ⟨a, t⟩
  · rw [hp] at h; cases h
  · rw [hp] at h; cases h; exact Or.inl rfl
  · rw [hp] at h; exact Or.inr ⟨a, t, rfl, h⟩

theorem faults_check {σ : Type} {P : Prop} [Decidable P] {e e' : Fault} {s : σ}
    (h : Faults (check P e) s e') : ¬ P ∧ e' = e := by
  unfold Faults check at h
  split at h
  · cases h
  · cases h; exact ⟨by assumption, rfl⟩

theorem check_bad {σ : Type} {P : Prop} [Decidable P] {e : Fault} (s : σ) (h : ¬ P) :
    Faults (check P e) s e := by unfold Faults check; rw [if_neg h]

theorem no_crash_access {m : Mem α} {b : Nat} {i : Int} : ¬ Faults (access b i) m .crash := by
  intro h
  unfold Faults access at h
  split at h
  · cases h
  · split at h
    · cases h
    · split at h <;> cases h

theorem no_crash_get {m : Mem α} {e : Arg α} : ¬ Faults e.get m .crash := by
  intro h
  cases e with
  | val x => cases h
  | ref b i =>
    rcases faults_bind h with h | ⟨⟨k, j⟩, t, _, h⟩
    · exact no_crash_access h
    · simp only at h
      split at h <;> cases h

section
variable {β γ β' γ' : Type} {f : Nat → Nat} {m : Mem α} {s : Sma.St}

theorem SimD.of_sim {p : Prog (Mem α) β} {q : Prog Sma.St γ} {A : (Nat → Nat) → Mem α → β → γ → Prop}
    (h : Sim c K F False f m s p q A) (hc : Faults p m .crash → Faults q s .crash) : SimD c K F f m s p q A := by
  refine ⟨fun a m' hr => ?_, hc⟩
  rcases h a m' hr with ⟨h, _⟩ | h
  · exact h.elim
  · exact h

theorem SimD.bind {p : Prog (Mem α) β} {q : Prog Sma.St γ} {A : (Nat → Nat) → Mem α → β → γ → Prop}
    {g : β → Prog (Mem α) β'} {h : γ → Prog Sma.St γ'} {B : (Nat → Nat) → Mem α → β' → γ' → Prop}
    (h1 : SimD c K F f m s p q A)
    (h2 : ∀ f' m' s' a a', Ext f m f' m' → R c K F f' m' s' → A f' m' a a' → Returns p m a m' →
      Returns q s a' s' → SimD c K F f' m' s' (g a) (h a') B) :
    SimD c K F f m s (p >>= g) (q >>= h) B := by
  refine ⟨fun b m2 hr => ?_, fun hf => ?_⟩
  · obtain ⟨a, m1, r1, r2⟩ := returns_bind hr
    obtain ⟨a', s', f', g1, g2, g3, g4⟩ := h1.1 a m1 r1
    obtain ⟨b', s2, f2, e1, e2, e3, e4⟩ := (h2 f' m1 s' a a' g2 g3 g4 r1 g1).1 b m2 r2
    exact ⟨b', s2, f2, by unfold Returns; rw [bind_returns g1]; exact e1, g2.trans e2, e3, e4⟩
  · rcases faults_bind hf with hf | ⟨a, m1, r1, hf⟩
    · exact bind_faults (h1.2 hf)
    · obtain ⟨a', s', f', g1, g2, g3, g4⟩ := h1.1 a m1 r1
      unfold Faults; rw [bind_returns g1]
      exact (h2 f' m1 s' a a' g2 g3 g4 r1 g1).2 hf

/-- The request is made in the second part. -/
theorem SimD.bindE {p : Prog (Mem α) β} {q : Prog Sma.St γ} {A : (Nat → Nat) → Mem α → β → γ → Prop}
    {g : Bool → β → Prog (Mem α) β'} {h : γ → Prog Sma.St γ'} {B : (Nat → Nat) → Mem α → β' → γ' → Prop}
    (h1 : SimD c K F f m s p q A)
    (h2 : ∀ f' m' s' a a', Ext f m f' m' → R c K F f' m' s' → A f' m' a a' → Returns p m a m' →
      Returns q s a' s' → ∃ y, SimD c K F f' m' s' (g y a) (h a') B) :
    ∃ y, SimD c K F f m s (p >>= g y) (q >>= h) B := by
  rcases hp : p m with _ | _ | ⟨a, m1⟩
  · refine ⟨true, fun b m2 hr => ?_, fun hf => ?_⟩
    · obtain ⟨a, m1, r1, _⟩ := returns_bind hr
      unfold Returns at r1; rw [hp] at r1; cases r1
    · rcases faults_bind hf with hf | ⟨a, m1, r1, _⟩
      · exact bind_faults (h1.2 hf)
      · unfold Returns at r1; rw [hp] at r1; cases r1
  · refine ⟨true, fun b m2 hr => ?_, fun hf => ?_⟩
    · obtain ⟨a, m1, r1, _⟩ := returns_bind hr
      unfold Returns at r1; rw [hp] at r1; cases r1
    · rcases faults_bind hf with hf | ⟨a, m1, r1, _⟩
      · exact bind_faults (h1.2 hf)
      · unfold Returns at r1; rw [hp] at r1; cases r1
  · have r1 : Returns p m a m1 := hp
    obtain ⟨a', s', f', g1, g2, g3, g4⟩ := h1.1 a m1 r1
    obtain ⟨y, hy⟩ := h2 f' m1 s' a a' g2 g3 g4 r1 g1
    refine ⟨y, fun b m2 hr => ?_, fun hf => ?_⟩
    · unfold Returns at hr
      rw [bind_returns r1] at hr
      obtain ⟨b', s2, f2, e1, e2, e3, e4⟩ := hy.1 b m2 hr
      exact ⟨b', s2, f2, by unfold Returns; rw [bind_returns g1]; exact e1, g2.trans e2, e3, e4⟩
    · unfold Faults at hf ⊢
      rw [bind_returns r1] at hf
      rw [bind_returns g1]
      exact hy.2 hf

theorem SimD.pure {a : β} {a' : γ} {A : (Nat → Nat) → Mem α → β → γ → Prop} (hR : R c K F f m s)
    (h : A f m a a') : SimD c K F f m s (Pure.pure a) (Pure.pure a') A :=
  .of_sim (Sim.pure hR h) (fun h => by cases h)

theorem SimD.mono {p : Prog (Mem α) β} {q : Prog Sma.St γ} {A B : (Nat → Nat) → Mem α → β → γ → Prop}
    (h : SimD c K F f m s p q A) (hA : ∀ f' m' a a', Ext f m f' m' → A f' m' a a' → B f' m' a a') :
    SimD c K F f m s p q B := by
  refine ⟨fun a m' hr => ?_, h.2⟩
  obtain ⟨a', s', f', g1, g2, g3, g4⟩ := h.1 a m' hr
  exact ⟨a', s', f', g1, g2, g3, hA _ _ _ _ g2 g4⟩

theorem SimD.dassert {Q Q' : Prop} [Decidable Q] [Decidable Q'] (hR : R c K F f m s)
    (h : Q → Q') : SimD c K F f m s (dassert Q) (dassert Q') Triv :=
  .of_sim (Sim.check hR h) (fun h => by cases (faults_check h).2)

theorem SimD.when {Q Q' : Prop} [Decidable Q] [Decidable Q'] {p : Prog (Mem α) Unit}
    {q : Prog Sma.St Unit} (hR : R c K F f m s) (hQ : Q ↔ Q') (h : Q → SimD c K F f m s p q Triv) :
    SimD c K F f m s (when Q p) (when Q' q) Triv := by
  unfold Prog.when
  by_cases hq : Q
  · rw [if_pos hq, if_pos (hQ.1 hq)]; exact h hq
  · rw [if_neg hq, if_neg (fun h => hq (hQ.2 h))]; exact SimD.pure hR trivial

theorem SimD.forRange {g : Nat → Unit → Prog (Mem α) Unit} {h : Nat → Unit → Prog Sma.St Unit}
    (n lo : Nat) (hR : R c K F f m s)
    (hb : ∀ i f' m' s', lo ≤ i → i < lo + n → Ext f m f' m' → R c K F f' m' s' →
      SimD c K F f' m' s' (g i ()) (h i ()) Triv) :
    SimD c K F f m s (forRange n lo () g) (forRange n lo () h) Triv := by
  induction n generalizing lo f m s with
  | zero => exact SimD.pure hR trivial
  | succ n ih =>
    unfold Prog.forRange
    refine SimD.bind (hb lo f m s (Nat.le_refl _) (by omega) (Ext.refl _ _) hR) ?_
    intro f1 m1 s1 _ _ h1 h2 _ _ _
    exact ih (lo + 1) h2 (fun i f' m' s' hi hi' he hr =>
      hb i f' m' s' (by omega) (by omega) (h1.trans he) hr)

/-! ### Memory -/

theorem addr_null (hR : R c K F f m s) : addr K (f 0) 0 = 0 := by
  rw [(hR.zero 0).2 rfl]; unfold addr; simp

theorem construct_simD (hc : Sma.Legal c) (hR : R c K F f m s) (b : Nat) (i : Int) (e : Arg α) :
    SimD c K F f m s (Vec.construct b i e) ((poolOps .direct c K).construct (f b) i (argMap f e)) Triv := by
  refine .of_sim (construct_sim hc hR b i e) (fun hf => ?_)
  rcases faults_bind hf with hf | ⟨_, m1, r1, hf⟩
  · have hbi := (faults_check hf).1
    have hb : b = 0 := by omega
    have hi : i = 0 := by omega
    subst hb; subst hi
    exact bind_faults (check_bad s (fun h => h (addr_null hR)))
  · rcases faults_bind hf with hf | ⟨x, m2, r2, hf⟩
    · exact absurd hf no_crash_get
    · rcases faults_bind hf with hf | ⟨⟨k, j⟩, m3, r3, hf⟩
      · exact absurd hf no_crash_access
      · cases hf

theorem destroy_simD (hc : Sma.Legal c) (hR : R c K F f m s) (b : Nat) (i : Int) :
    SimD c K F f m s (Vec.destroy K.triv b i) ((poolOps .direct c K).destroy (f b) i) Triv := by
  refine .of_sim (destroy_sim hc hR b i) (fun hf => ?_)
  rcases faults_bind hf with hf | ⟨_, m1, r1, hf⟩
  · have hbi := (faults_check hf).1
    have hb : b = 0 := by omega
    have hi : i = 0 := by omega
    subst hb; subst hi
    exact bind_faults (check_bad s (fun h => h (addr_null hR)))
  · rcases faults_bind hf with hf | ⟨⟨k, j⟩, m2, r2, hf⟩
    · exact absurd hf no_crash_access
    · rcases faults_bind hf with hf | ⟨_, m3, r3, hf⟩
      · cases (faults_check hf).2
      · cases hf

theorem assign_simD (hc : Sma.Legal c) (hR : R c K F f m s) (b : Nat) (i : Int) (e : Arg α) :
    SimD c K F f m s (Vec.assign b i e) ((poolOps .direct c K).assign (f b) i (argMap f e)) Triv := by
  refine .of_sim (assign_sim hc hR b i e) (fun hf => ?_)
  rcases faults_bind hf with hf | ⟨x, m2, r2, hf⟩
  · exact absurd hf no_crash_get
  · rcases faults_bind hf with hf | ⟨⟨k, j⟩, m3, r3, hf⟩
    · exact absurd hf no_crash_access
    · rcases faults_bind hf with hf | ⟨_, m3, r3, hf⟩
      · cases (faults_check hf).2
      · cases hf

theorem dealloc_simD (hc : Sma.Legal c) (hR : R c K F f m s) (b n : Nat) :
    SimD c K F f m s (Vec.dealloc b n) ((poolOps .direct c K).dealloc (f b) n) Triv := by
  refine .of_sim (dealloc_sim hc hR b n) (fun hf => ?_)
  unfold Faults Vec.dealloc at hf
  split at hf
  · cases hf
  · split at hf <;> cases hf

/-- No free block has `n` bytes. -/
def NoBlock (c : Sma.Cfg) (s : Sma.St) (n : Int) : Prop :=
  ¬ ∃ b, Sma.FreeBlock c s b ∧ Sma.up8 n ≤ b.2

theorem R.denied (hR : R c K F f m s) : R c K F f m.denied s :=
  ⟨denied_wf hR.wf, hR.zero, hR.held, hR.kept, hR.cells⟩

/-- The relation between pointers that may be null. -/
def PtrO (f : Nat → Nat) (m : Mem α) (b b' : Nat) : Prop := b' = f b ∧ b < m.next

theorem alloc_simD (hc : Sma.Legal c) (hR : R c K F f m s) {n : Nat} (hn : n ≠ 0) (hfit : Fit K n) :
    ∃ y : Bool, (y = true ↔ ¬ NoBlock c s (bytes K n)) ∧
      SimD c K F f m s (may y n) ((poolOps .direct c K).alloc n) PtrO := by
  have hpos := bytes_pos (K := K) hn
  have hlt : bytes K n + 8 < 2 ^ 31 := by unfold bytes; unfold Fit at hfit; omega
  have halloc : (poolOps .direct c K).alloc n = Sma.alloc c (bytes K n) := by
    show Sma.alloc c _ = _
    rw [byteCount_fit hfit]
  rw [halloc]
  obtain ⟨_, _, _, _, _, h3⟩ := hR.held
  obtain ⟨a, s', e1, e2, e3⟩ := Sma.sma_success_partial hc h3 hpos hlt
  simp only at e1 e2 e3
  by_cases ha : a = 0
  · subst ha
    have := e3 rfl
    subst this
    refine ⟨false, ⟨fun h => (by cases h), fun h => absurd (e2.1 rfl) h⟩, .of_sim (fun b m' hr => ?_) (fun hf => by cases hf)⟩
    cases hr
    exact Or.inr ⟨0, s', f, e1, ⟨fun _ _ => rfl, Nat.le_succ _⟩, hR.denied, ((hR.zero 0).2 rfl).symm, Nat.succ_pos _⟩
  · refine ⟨true, ⟨fun _ h => ha (e2.2 h), fun _ => rfl⟩, .of_sim (fun b m' hr => ?_) (fun hf => by cases hf)⟩
    cases hr
    refine Or.inr ⟨a, s', place f m.next a, e1, ⟨?_, Nat.le_succ _⟩, hR.grow hc ha (fun live hl => ?_), ?_⟩
    · intro b hb
      unfold place
      rw [if_neg (by omega)]
    · exact ⟨Sma.reach_alloc hl hpos hlt e1 ha, alloc_contents hc hl hpos hlt e1 ha⟩
    · exact ⟨by unfold place; rw [if_pos rfl], Nat.lt_succ_self _⟩

/-! ### The functions of `Vector` -/

theorem moveLoop_simD (hc : Sma.Legal c) (hR : R c K F f m s) (v : Vec) (hv : v.c < m.next)
    (d n k : Nat) (hd : d < m.next) :
    SimD c K F f m s
      (forRange k 0 () fun i _ => do
        Prog.when (i < n) (Vec.construct d i (.ref v.c i))
        Vec.destroy K.triv v.c i)
      (forRange k 0 () fun i _ => do
        Prog.when (i < n) ((poolOps .direct c K).construct (f d) i (.ref (f v.c) i))
        (poolOps .direct c K).destroy (f v.c) i) Triv := by
  refine SimD.forRange _ _ hR ?_
  intro i f' m' s' _ _ he hr
  refine SimD.bind (A := Triv) ?_ ?_
  · refine SimD.when hr Iff.rfl (fun _ => ?_)
    have := construct_simD hc hr d i (.ref v.c i)
    rwa [argMap, he.same _ hv, he.same _ hd] at this
  · intro f2 m2 s2 _ _ he2 hr2 _ _ _
    have := destroy_simD hc hr2 v.c i
    rwa [(he.trans he2).same _ hv] at this

/-- What follows the request in `resize`. -/
theorem resizeTail_simD (hc : Sma.Legal c) (hR : R c K F f m s) (v : Vec) (hv : v.c < m.next)
    (d n : Nat) (hd : d < m.next) :
    SimD c K F f m s (do
        Prog.when (v.c ≠ 0) do
          dassert (v.cap ≠ 0)
          forRange v.sz 0 () fun i _ => do
            Prog.when (i < n) (Vec.construct d i (.ref v.c i))
            Vec.destroy K.triv v.c i
          Vec.dealloc v.c v.cap
        Pure.pure ({ sz := if n < v.sz then n else v.sz, cap := n, c := d } : Vec))
      (do
        Prog.when ((vmap f v).c ≠ 0) do
          dassert ((vmap f v).cap ≠ 0)
          forRange (vmap f v).sz 0 () fun i _ => do
            Prog.when (i < n) ((poolOps .direct c K).construct (f d) i (.ref (vmap f v).c i))
            (poolOps .direct c K).destroy (vmap f v).c i
          (poolOps .direct c K).dealloc (vmap f v).c (vmap f v).cap
        Pure.pure { sz := if n < (vmap f v).sz then n else (vmap f v).sz, cap := n, c := f d }) VR := by
  refine SimD.bind (A := Triv) ?_ ?_
  · refine SimD.when hR (not_congr (hR.zero v.c)).symm (fun _ => ?_)
    refine SimD.bind (A := Triv) (SimD.dassert hR id) ?_
    intro f2 m2 s2 _ _ he2 hr2 _ _ _
    have hv2 := Nat.lt_of_lt_of_le hv he2.next
    have hd2 := Nat.lt_of_lt_of_le hd he2.next
    rw [← vmap_ext he2 hv, ← he2.same d hd]
    refine SimD.bind (A := Triv) (moveLoop_simD hc hr2 v hv2 d n v.sz hd2) ?_
    intro f3 m3 s3 _ _ he3 hr3 _ _ _
    rw [← vmap_ext he3 hv2]
    exact dealloc_simD hc hr3 v.c v.cap
  · intro f2 m2 s2 _ _ he2 hr2 _ _ _
    rw [← he2.same d hd]
    exact SimD.pure hr2 ⟨rfl, Nat.lt_of_lt_of_le hd he2.next⟩

theorem resize_simD (hc : Sma.Legal c) (hR : R c K F f m s) (v : Vec) (hv : v.c < m.next)
    (n : Nat) (hfit : Fit K n) :
    ∃ y : Bool, (y = true ↔ n = 0 ∨ ¬ NoBlock c s (bytes K n)) ∧
      SimD c K F f m s (Vec.resizeWith (may y) K.triv v n) (resize (poolOps .direct c K) (vmap f v) n) VR := by
  have key : ∀ y : Bool, SimD c K F f m s (if n = 0 then Pure.pure 0 else may y n)
        (if n = 0 then Pure.pure 0 else (poolOps .direct c K).alloc n) PtrO →
      SimD c K F f m s (Vec.resizeWith (may y) K.triv v n) (resize (poolOps .direct c K) (vmap f v) n) VR := by
    intro y h
    unfold Vec.resizeWith resize
    refine SimD.bind h ?_
    rintro f1 m1 s1 d _ he hr ⟨rfl, hd⟩ _ _
    have hv1 : v.c < m1.next := Nat.lt_of_lt_of_le hv he.next
    rw [← vmap_ext he hv]
    exact resizeTail_simD hc hr v hv1 d n hd
  by_cases hn : n = 0
  · refine ⟨true, ⟨fun _ => Or.inl hn, fun _ => rfl⟩, key true ?_⟩
    rw [if_pos hn, if_pos hn]
    exact SimD.pure hR ⟨((hR.zero 0).2 rfl).symm, hR.wf.pos⟩
  · obtain ⟨y, hy, h⟩ := alloc_simD hc hR hn hfit
    refine ⟨y, hy.trans (by simp [hn]), key y ?_⟩
    rw [if_neg hn, if_neg hn]
    exact h

theorem fill_simD (hc : Sma.Legal c) (hR : R c K F f m s) (d k lo : Nat) (e : Arg α) (hd : d < m.next)
    (he : ArgOld m e) :
    SimD c K F f m s (forRange k lo () fun i _ => Vec.construct d i e)
      (forRange k lo () fun i _ => (poolOps .direct c K).construct (f d) i (argMap f e)) Triv := by
  refine SimD.forRange _ _ hR ?_
  intro i f' m' s' _ _ h hr
  have := construct_simD hc hr d i e
  rwa [argMap_ext h he, h.same _ hd] at this

theorem resizeFill_simD (hc : Sma.Legal c) (hR : R c K F f m s) (v : Vec) (hv : v.c < m.next)
    (n : Nat) (hfit : Fit K n) (e : Arg α) (hold : ArgOld m e) :
    ∃ y : Bool, (y = true ↔ n = 0 ∨ ¬ NoBlock c s (bytes K n)) ∧
      SimD c K F f m s (Vec.resizeFillWith (may y) K.triv v n e)
        (resizeFill (poolOps .direct c K) (vmap f v) n (argMap f e)) VR := by
  by_cases hn : n = 0
  · obtain ⟨y, hy, h⟩ := resize_simD hc hR v hv n hfit
    refine ⟨y, hy, ?_⟩
    unfold Vec.resizeFillWith resizeFill
    rw [if_pos hn, if_pos hn]
    rw [hn] at h
    exact h
  obtain ⟨y, hy, h⟩ := alloc_simD hc hR hn hfit
  refine ⟨y, hy.trans (by simp [hn]), ?_⟩
  unfold Vec.resizeFillWith resizeFill
  rw [if_neg hn, if_neg hn]
  refine SimD.bind h ?_
  rintro f1 m1 s1 d _ he hr ⟨rfl, hd⟩ _ _
  have hv1 : v.c < m1.next := Nat.lt_of_lt_of_le hv he.next
  have ho1 := hold.mono he.next
  rw [← vmap_ext he hv, ← argMap_ext he hold]
  refine SimD.bind (A := Triv) ?_ ?_
  · refine SimD.when hr (not_congr (hr.zero v.c)).symm (fun _ => ?_)
    refine SimD.bind (A := Triv) (moveLoop_simD hc hr v hv1 d n v.sz hd) ?_
    intro f3 m3 s3 _ _ he3 hr3 _ _ _
    rw [← vmap_ext he3 hv1]
    exact dealloc_simD hc hr3 v.c v.cap
  · intro f2 m2 s2 _ _ he2 hr2 _ _ _
    have hd2 := Nat.lt_of_lt_of_le hd he2.next
    have ho2 := ho1.mono he2.next
    rw [← he2.same d hd, ← argMap_ext he2 ho1]
    refine SimD.bind (A := Triv) (fill_simD hc hr2 d (n - v.sz) v.sz e hd2 ho2) ?_
    intro f3 m3 s3 _ _ he3 hr3 _ _ _
    rw [← he3.same d hd2]
    exact SimD.pure hr3 ⟨rfl, Nat.lt_of_lt_of_le hd2 he3.next⟩

theorem ctorFill_simD (hc : Sma.Legal c) (hR : R c K F f m s) (n : Nat) (hfit : Fit K n)
    (e : Arg α) (hold : ArgOld m e) :
    ∃ y : Bool, (y = true ↔ n = 0 ∨ ¬ NoBlock c s (bytes K n)) ∧
      SimD c K F f m s (Vec.ctorFillWith (may y) K.triv n e)
        (ctorFill (poolOps .direct c K) n (argMap f e)) VR := by
  obtain ⟨y, hy, h⟩ := resize_simD hc hR Vec.empty hR.wf.pos n hfit
  rw [vmap_empty hR] at h
  refine ⟨y, hy, ?_⟩
  unfold Vec.ctorFillWith ctorFill
  by_cases hn : n ≠ 0
  · rw [dassert_pos hn, dassert_pos hn, pure_bind, pure_bind]
    refine SimD.bind h ?_
    rintro f1 m1 s1 v _ he hr ⟨rfl, hv⟩ _ _
    rw [← argMap_ext he hold]
    refine SimD.bind (A := Triv) (fill_simD hc hr v.c n 0 e hv (hold.mono he.next)) ?_
    intro f2 m2 s2 _ _ he2 hr2 _ _ _
    rw [← vmap_ext he2 hv]
    exact SimD.pure hr2 ⟨rfl, Nat.lt_of_lt_of_le hv he2.next⟩
  · have hbad : ∀ {g : Unit → Prog (Mem α) Vec}, Faults (dassert (n ≠ 0) >>= g) m .assert :=
      bind_faults (check_bad m hn)
    refine ⟨fun a m' hr => ?_, fun hf => ?_⟩
    · unfold Returns at hr; rw [hbad] at hr; cases hr
    · unfold Faults at hf; rw [hbad] at hf; cases hf

theorem clear_simD (hc : Sma.Legal c) (hR : R c K F f m s) (v : Vec) (hv : v.c < m.next) :
    SimD c K F f m s (Vec.clear K.triv v) (clear (poolOps .direct c K) (vmap f v)) VR := by
  unfold Vec.clear clear
  refine SimD.bind (A := Triv) ?_ ?_
  · refine SimD.when hR (not_congr (hR.zero v.c)).symm (fun _ => ?_)
    refine SimD.bind (A := Triv) ?_ ?_
    · refine SimD.forRange _ _ hR ?_
      intro i f' m' s' _ _ he hr
      have := destroy_simD hc hr v.c i
      rwa [he.same _ hv] at this
    · intro f3 m3 s3 _ _ he3 hr3 _ _ _
      rw [← vmap_ext he3 hv]
      exact dealloc_simD hc hr3 v.c v.cap
  · intro f2 m2 s2 _ _ he2 hr2 _ _ _
    exact SimD.pure hr2 ⟨(vmap_empty hr2).symm, hr2.wf.pos⟩

theorem pushBack_simD (hc : Sma.Legal c) (hR : R c K F f m s) (v : Vec) (hv : v.c < m.next)
    (hfit : v.cap < v.sz + 1 → Fit K (max 2 (2 * v.sz))) (e : Arg α) (hold : ArgOld m e) :
    ∃ y : Bool, (y = true ↔ v.sz < v.cap ∨ ¬ NoBlock c s (bytes K (max 2 (2 * v.sz)))) ∧
      SimD c K F f m s (Vec.pushBackWith (may y) K.triv v e)
        (pushBack (poolOps .direct c K) (vmap f v) (argMap f e)) VR := by
  have key : ∀ y : Bool, SimD c K F f m s
        (if v.sz + 1 > v.cap then (if v.sz ≠ 0 then Vec.resizeWith (may y) K.triv v (2 * v.sz)
          else Vec.resizeWith (may y) K.triv v 2) else Pure.pure v)
        (if (vmap f v).sz + 1 > (vmap f v).cap then (if (vmap f v).sz ≠ 0
          then resize (poolOps .direct c K) (vmap f v) (2 * (vmap f v).sz)
          else resize (poolOps .direct c K) (vmap f v) 2) else Pure.pure (vmap f v)) VR →
      SimD c K F f m s (Vec.pushBackWith (may y) K.triv v e)
        (pushBack (poolOps .direct c K) (vmap f v) (argMap f e)) VR := by
    intro y h
    unfold Vec.pushBackWith pushBack
    refine SimD.bind h ?_
    rintro f1 m1 s1 u _ he hr ⟨rfl, hu⟩ _ _
    rw [← argMap_ext he hold]
    refine SimD.bind (A := Triv) (construct_simD hc hr u.c u.sz e) ?_
    intro f2 m2 s2 _ _ he2 hr2 _ _ _
    rw [← vmap_ext he2 hu]
    exact SimD.pure hr2 ⟨rfl, Nat.lt_of_lt_of_le hu he2.next⟩
  by_cases hfull : v.sz + 1 > v.cap
  · have hfit := hfit hfull
    by_cases h0 : v.sz ≠ 0
    · have e : max 2 (2 * v.sz) = 2 * v.sz := by omega
      rw [e] at hfit ⊢
      obtain ⟨y, hy, h⟩ := resize_simD hc hR v hv _ hfit
      refine ⟨y, hy.trans (or_congr (by omega) Iff.rfl), key y ?_⟩
      rw [if_pos hfull, if_pos (c := (vmap f v).sz + 1 > (vmap f v).cap) hfull, if_pos h0,
        if_pos (c := (vmap f v).sz ≠ 0) h0]
      exact h
    · have e : max 2 (2 * v.sz) = 2 := by omega
      rw [e] at hfit ⊢
      obtain ⟨y, hy, h⟩ := resize_simD hc hR v hv _ hfit
      refine ⟨y, hy.trans (or_congr (by omega) Iff.rfl), key y ?_⟩
      rw [if_pos hfull, if_pos (c := (vmap f v).sz + 1 > (vmap f v).cap) hfull, if_neg h0,
        if_neg (c := (vmap f v).sz ≠ 0) h0]
      exact h
  · refine ⟨true, ⟨fun _ => Or.inl (by omega), fun _ => rfl⟩, key true ?_⟩
    rw [if_neg hfull, if_neg (c := (vmap f v).sz + 1 > (vmap f v).cap) hfull]
    exact SimD.pure hR ⟨rfl, hv⟩

theorem popBack_simD (hc : Sma.Legal c) (hR : R c K F f m s) (v : Vec) (hv : v.c < m.next)
    (hfit : Fit K (v.cap / 2)) :
    ∃ y : Bool, SimD c K F f m s (Vec.popBackWith (may y) K.triv v)
      (popBack (poolOps .direct c K) (vmap f v)) VR := by
  show ∃ y : Bool, SimD c K F f m s (dassert _ >>= fun _ => Vec.destroy K.triv v.c ((v.sz - 1 : Nat) : Int) >>= fun _ =>
      if v.sz - 1 < v.cap / 3 then Vec.resizeWith (may y) K.triv { v with sz := v.sz - 1 } (v.cap / 2)
      else Pure.pure { v with sz := v.sz - 1 })
    (dassert _ >>= fun _ => (poolOps .direct c K).destroy (f v.c) ((v.sz - 1 : Nat) : Int) >>= fun _ =>
      if v.sz - 1 < v.cap / 3 then resize (poolOps .direct c K) (vmap f { v with sz := v.sz - 1 }) (v.cap / 2)
      else Pure.pure (vmap f { v with sz := v.sz - 1 })) VR
  refine SimD.bindE (A := Triv) (SimD.dassert hR id) ?_
  intro f1 m1 s1 _ _ he1 hr1 _ _ _
  have hv1 := Nat.lt_of_lt_of_le hv he1.next
  rw [← he1.same _ hv, ← vmap_ext he1 (v := { v with sz := v.sz - 1 }) hv]
  refine SimD.bindE (destroy_simD hc hr1 _ _) ?_
  intro f2 m2 s2 _ _ he2 hr2 _ _ _
  have hv2 := Nat.lt_of_lt_of_le hv1 he2.next
  rw [← vmap_ext he2 (v := { v with sz := v.sz - 1 }) hv1]
  by_cases hs : v.sz - 1 < v.cap / 3
  · obtain ⟨y, _, h⟩ := resize_simD hc hr2 { v with sz := v.sz - 1 } hv2 _ hfit
    refine ⟨y, ?_⟩
    rw [if_pos hs, if_pos hs]
    exact h
  · refine ⟨true, ?_⟩
    rw [if_neg hs, if_neg hs]
    exact SimD.pure hr2 ⟨rfl, hv2⟩

theorem setIndex_simD (hc : Sma.Legal c) (hR : R c K F f m s) (v : Vec) (hv : v.c < m.next) (i : Int) (e : Arg α)
    (hold : ArgOld m e) :
    SimD c K F f m s (Vec.setIndex v i e) (setIndex (poolOps .direct c K) (vmap f v) i (argMap f e)) Triv := by
  show SimD c K F f m s (dassert _ >>= fun _ => Vec.assign _ _ _)
    (dassert _ >>= fun _ => (poolOps .direct c K).assign _ _ _) Triv
  refine SimD.bind (A := Triv) (SimD.dassert hR id) ?_
  rintro f1 m1 s1 _ _ he hr _ _ _
  have := assign_simD hc hr v.c (normIndex v i) e
  rwa [argMap_ext he hold, he.same _ hv] at this

theorem copyAssign_simD (hc : Sma.Legal c) (hR : R c K F f m s) (v u : Vec)
    (hv : v.c < m.next) (hu : u.c < m.next) (hfit : Fit K u.cap) :
    ∃ y : Bool, SimD c K F f m s (Vec.copyAssignWith (may y) K.triv v u)
      (copyAssign (poolOps .direct c K) (vmap f v) (vmap f u)) VR := by
  unfold Vec.copyAssignWith copyAssign
  refine SimD.bindE (A := VR) (clear_simD hc hR v hv) ?_
  rintro f1 m1 s1 d _ he hr ⟨rfl, hd⟩ _ _
  obtain ⟨y, _, h⟩ := resize_simD hc hr d hd u.cap hfit
  refine ⟨y, SimD.bind h ?_⟩
  rintro f2 m2 s2 d2 _ he2 hr2 ⟨rfl, hd2⟩ _ _
  have hu2 := Nat.lt_of_lt_of_le hu (he.trans he2).next
  rw [← vmap_ext (he.trans he2) hu]
  refine SimD.bind (A := Triv) ?_ ?_
  · refine SimD.forRange _ _ hr2 ?_
    intro i f' m' s' _ _ h hr'
    refine SimD.bind (A := Triv) ?_ ?_
    · have := destroy_simD hc hr' d2.c i
      rwa [h.same _ hd2] at this
    · intro f3 m3 s3 _ _ he3 hr3 _ _ _
      have := construct_simD hc hr3 d2.c i (.ref u.c i)
      rwa [argMap, (h.trans he3).same _ hu2, (h.trans he3).same _ hd2] at this
  · intro f3 m3 s3 _ _ he3 hr3 _ _ _
    refine SimD.pure hr3 ⟨?_, Nat.lt_of_lt_of_le hd2 he3.next⟩
    exact (vmap_ext he3 (v := { d2 with sz := u.sz }) hd2).symm

theorem moveAssign_simD (hc : Sma.Legal c) (hR : R c K F f m s) (v u : Vec)
    (hv : v.c < m.next) (hu : u.c < m.next) :
    SimD c K F f m s (Vec.moveAssign K.triv v u) (moveAssign (poolOps .direct c K) (vmap f v) (vmap f u))
      (fun f' m' a a' => VR f' m' a.1 a'.1 ∧ VR f' m' a.2 a'.2) := by
  unfold Vec.moveAssign moveAssign
  refine SimD.bind (A := VR) (clear_simD hc hR v hv) ?_
  intro f1 m1 s1 _ _ he hr _ _ _
  refine SimD.pure hr ⟨⟨(vmap_ext he hu).symm, Nat.lt_of_lt_of_le hu he.next⟩, (vmap_empty hr).symm, hr.wf.pos⟩

end

end Verif.Pool
