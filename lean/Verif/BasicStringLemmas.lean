import Verif.Spec.BasicString
import Verif.VectorWorld

/-! # Lemmas about `BasicString` -/

namespace Verif.Str

open Prog Vec

variable {α : Type}

theorem ctor_ok (nul : α) {m : Mem α} (hw : m.WF) :
    wp (ctor nul) (fun v m' => Rep m' v [nul] ∧ Frame m m' Vec.empty v ∧ m'.WF ∧ v.cap = 15) m := by
  unfold ctor
  rw [wp_bind]
  refine wp_mono (ctorFill_ok hw 1 (by omega) nul) ?_
  rintro v1 m1 ⟨r1, c1, f1, w1⟩
  refine wp_mono (resize_ok w1 r1 15) ?_
  rintro v2 m2 ⟨r2, c2, f2, w2, _⟩
  exact ⟨by simpa using r2, f1.trans hw f2 w2.null, w2, c2⟩

theorem cRead_ok {σ : Type} {str : List α} {i : Nat} {c : α} (h : str[i]? = some c) :
    (cRead str i : Prog σ α) = pure c := by simp [cRead, h]

theorem ctorLoop_ok [DecidableEq α] {nul : α} (r : List α) : ∀ {str pre rest : List α} {v : Vec} {m : Mem α}
    {l : List α}, m.WF → Rep m v l → str = pre ++ r ++ nul :: rest → nul ∉ r →
    wp (ctorLoop nul str v pre.length) (fun v' m' => Rep m' v' (l ++ r) ∧ Frame m m' v v' ∧ m'.WF) m := by
  induction r with
  | nil =>
    intro str pre rest v m l hw hr hstr _
    rw [ctorLoop, cRead_ok (c := nul) (by simp [hstr]), pure_bind, if_neg (by simp), wp_pure]
    exact ⟨by simpa using hr, Frame.refl _ _, hw⟩
  | cons c r ih =>
    intro str pre rest v m l hw hr hstr hnul
    rw [ctorLoop, cRead_ok (c := c) (by simp [hstr]), pure_bind,
      if_pos (fun h => hnul (by simp [h])), wp_bind]
    refine wp_mono (pushBack_ok hw hr (val_get c m) (fun _ => Or.inl rfl)) ?_
    rintro v1 m1 ⟨r1, _, f1, w1⟩
    have := ih (str := str) (pre := pre ++ [c]) (rest := rest) w1 r1 (by simp [hstr]) (fun h => hnul (List.mem_cons_of_mem _ h))
    rw [List.length_append, List.length_singleton] at this
    refine wp_mono this ?_
    rintro v2 m2 ⟨r2, f2, w2⟩
    exact ⟨by simpa using r2, f1.trans hw f2 w2.null, w2⟩

theorem ctorC_ok [DecidableEq α] {nul : α} {m : Mem α} (hw : m.WF) {s rest : List α} (hs : s ≠ [])
    (hnul : nul ∉ s) :
    wp (ctorC nul (s ++ nul :: rest)) (fun v m' => Rep m' v (s ++ [nul]) ∧ Frame m m' Vec.empty v ∧
      m'.WF) m := by
  obtain ⟨c, s, rfl⟩ : ∃ c t, s = c :: t := by
    cases s with
    | nil => exact absurd rfl hs
    | cons c t => exact ⟨c, t, rfl⟩
  unfold ctorC
  rw [wp_bind]
  refine wp_mono (ctor_ok nul hw) ?_
  rintro v1 m1 ⟨r1, f1, w1, _⟩
  rw [cRead_ok (c := c) (by simp), pure_bind, wp_bind]
  refine wp_mono (setIndex_ok w1 r1 (by simp) (-1) 0 (by simp) (Or.inr (by simp))) ?_
  rintro _ m2 ⟨r2, f2, w2⟩
  rw [wp_bind]
  have := ctorLoop_ok (nul := nul) s (str := c :: s ++ nul :: rest) (pre := [c]) (rest := rest) w2 r2 (by simp)
    (fun h => hnul (List.mem_cons_of_mem _ h))
  refine wp_mono this ?_
  rintro v3 m3 ⟨r3, f3, w3⟩
  refine wp_mono (pushBack_ok w3 r3 (val_get nul m3) (fun _ => Or.inl rfl)) ?_
  rintro v4 m4 ⟨r4, _, f4, w4⟩
  exact ⟨by simpa using r4,
    ((f1.trans hw f2 w2.null).trans hw f3 w3.null).trans hw f4 w4.null, w4⟩

theorem cVal_split [DecidableEq α] {nul : α} {str : List α} (h : nul ∈ str) :
    ∃ rest, str = cVal nul str ++ nul :: rest ∧ nul ∉ cVal nul str := by
  induction str with
  | nil => cases h
  | cons c str ih =>
    by_cases hc : c = nul
    · subst hc
      exact ⟨str, by simp [cVal], by simp [cVal]⟩
    · have : nul ∈ str := by
        rcases List.mem_cons.1 h with h | h
        · exact absurd h.symm hc
        · exact h
      obtain ⟨rest, h1, h2⟩ := ih this
      have e : cVal nul (c :: str) = c :: cVal nul str := by simp [cVal, hc]
      refine ⟨rest, ?_, ?_⟩
      · rw [e, List.cons_append, ← h1]
      · rw [e]; simp only [List.mem_cons, not_or]; exact ⟨fun h => hc h.symm, h2⟩

theorem push_ok {nul : α} {m : Mem α} {v : Vec} {l : List α} {x : α} {e : Arg α} (hw : m.WF)
    (hr : Rep m v (l ++ [nul])) (hlen : Fits l.length) (hx : Returns e.get m x m) :
    wp (push nul v e) (fun v' m' => Rep m' v' (l ++ [x] ++ [nul]) ∧ Frame m m' v v' ∧ m'.WF) m := by
  unfold Fits at hlen
  unfold push
  rw [wp_bind]
  refine wp_mono (setIndex_arg_ok hw hr hx (by simpa using hlen) (-1) l.length (by simp)
    (Or.inr (by simp; omega))) ?_
  rintro _ m1 ⟨r1, f1, w1⟩
  refine wp_mono (pushBack_ok w1 r1 (val_get nul m1) (fun _ => Or.inl rfl)) ?_
  rintro v2 m2 ⟨r2, _, f2, w2⟩
  refine ⟨?_, f1.trans hw f2 w2.null, w2⟩
  simpa using r2

theorem clear_ok {nul : α} {m : Mem α} {v : Vec} {l : List α} (hw : m.WF) (hr : Rep m v l) :
    wp (clear nul v) (fun v' m' => Rep m' v' [nul] ∧ Frame m m' v v' ∧ m'.WF) m := by
  unfold clear
  rw [wp_bind]
  refine wp_mono (Vec.clear_ok hw hr) ?_
  rintro v1 m1 ⟨rfl, f1, w1, _⟩
  rw [wp_bind]
  refine wp_mono (pushBack_ok w1 (Rep.empty w1) (val_get nul m1) (fun _ => Or.inl rfl)) ?_
  rintro v2 m2 ⟨r2, _, f2, w2⟩
  refine wp_mono (resize_ok w2 r2 15) ?_
  rintro v3 m3 ⟨r3, _, f3, w3, _⟩
  exact ⟨by simpa using r3, (f1.trans hw f2 w2.null).trans hw f3 w3.null, w3⟩

theorem refAt_ok {m : Mem α} {v : Vec} {l : List α} (hr : Rep m v l) (hlen : l.length < 2 ^ 31)
    (i : Nat) (hi : i < l.length) : (refAt v (i : Int) : Prog (Mem α) _) = pure (v.c, (i : Int)) := by
  have hsz := hr.size
  have hn : normIndex v (i : Int) = i := by
    rw [normIndex_ok v _ (by omega) (by omega), if_neg (by omega)]
  unfold refAt
  simp only [hn]
  rw [dassert_pos (by rw [bmod32 _ (by omega) (by omega)]; omega)]
  rfl

/-- `u` keeps its contents while another vector changes. -/
theorem keep {m m' : Mem α} {v v' u : Vec} {l : List α} (hu : Rep m u l) (hne : u.c ≠ 0 → u.c ≠ v.c)
    (hf : Frame m m' v v') (hw' : m'.WF) : Rep m' u l ∧ (u.c ≠ 0 → u.c ≠ v'.c) := by
  by_cases h0 : u.c = 0
  · obtain ⟨rfl, rfl⟩ := hu.null h0
    exact ⟨Rep.empty hw', fun h => absurd h0 h⟩
  · have h1 : u.c ≠ v'.c := by
      have := hu.fresh
      have := hne h0
      rcases hf.new with h | h | h <;> omega
    exact ⟨hu.mono (hf.other _ (hne h0) h1) hf.next, fun _ => h1⟩

theorem appendLoop_ok {u : Vec} {r : List α} (k : Nat) : ∀ {i : Nat} {v : Vec} {m : Mem α} {l : List α},
    r.length = i + k → m.WF → Rep m v l → Rep m u r → (u.c ≠ 0 → u.c ≠ v.c) → r.length < 2 ^ 31 →
    wp (appendLoop v (some u) i) (fun v' m' => Rep m' v' (l ++ r.drop i) ∧ Frame m m' v v' ∧ m'.WF) m := by
  induction k with
  | zero =>
    intro i v m l hk hw hr hu hne hlen
    rw [appendLoop]
    simp only [Option.getD_some]
    rw [if_neg (by rw [hu.size]; omega), wp_pure]
    exact ⟨by rw [List.drop_of_length_le (by omega), List.append_nil]; exact hr, Frame.refl _ _, hw⟩
  | succ k ih =>
    intro i v m l hk hw hr hu hne hlen
    have hi : i < r.length := by omega
    rw [appendLoop]
    simp only [Option.getD_some]
    rw [if_pos (by rw [hu.size]; omega), refAt_ok hu hlen i hi, pure_bind, wp_bind]
    have hu0 : u.c ≠ 0 := fun h => by rw [(hu.null h).2] at hi; simp at hi
    refine wp_mono (pushBack_ok (x := r[i]) hw hr (hu.read_ok i hi)
      (fun _ => Or.inr ⟨u.c, i, rfl, hne hu0, hu.fresh⟩)) ?_
    rintro v1 m1 ⟨r1, _, f1, w1⟩
    obtain ⟨hu1, hne1⟩ := keep hu hne f1 w1
    refine wp_mono (ih (by omega) w1 r1 hu1 hne1 hlen) ?_
    rintro v2 m2 ⟨r2, f2, w2⟩
    refine ⟨?_, f1.trans hw f2 w2.null, w2⟩
    rw [List.drop_eq_getElem_cons hi]
    simpa using r2

theorem append_ok {nul : α} {v u : Vec} {m : Mem α} {l r : List α} (hw : m.WF) (hr : Rep m v (l ++ [nul]))
    (hu : Rep m u (r ++ [nul])) (hne : u.c ≠ 0 → u.c ≠ v.c) (hlen : Fits (l.length + r.length)) :
    wp (append v (some u)) (fun v' m' => Rep m' v' (l ++ r ++ [nul]) ∧ Frame m m' v v' ∧ m'.WF) m := by
  unfold Fits at hlen
  have hvs := hr.size
  have hus := hu.size
  simp only [List.length_append, List.length_singleton] at hvs hus
  unfold append
  simp only [Option.getD_some]
  have hneed : (v.sz + u.sz + (2 ^ 64 - 1)) % 2 ^ 64 = l.length + r.length + 1 := by omega
  rw [hneed, wp_bind]
  have step1 : wp (if v.cap < l.length + r.length + 1 then resize true v (l.length + r.length + 1) else pure v)
      (fun v' m' => Rep m' v' (l ++ [nul]) ∧ Frame m m' v v' ∧ m'.WF) m := by
    rw [wp_ite]
    refine ⟨fun _ => ?_, fun _ => ?_⟩
    · refine wp_mono (resize_ok hw hr _) ?_
      rintro v1 m1 ⟨r1, _, f1, w1, _⟩
      rw [List.take_of_length_le (by simp only [List.length_append, List.length_singleton]; omega)] at r1
      exact ⟨r1, f1, w1⟩
    · rw [wp_pure]; exact ⟨hr, Frame.refl _ _, hw⟩
  refine wp_mono step1 ?_
  rintro v1 m1 ⟨r1, f1, w1⟩
  obtain ⟨hu1, hne1⟩ := keep hu hne f1 w1
  have h0 := refAt_ok hu1 (by simp; omega) 0 (by simp)
  rw [show (0 : Int) = ((0 : Nat) : Int) from rfl, h0, pure_bind, wp_bind]
  refine wp_mono (setIndex_arg_ok (x := (r ++ [nul])[0]'(by simp)) (e := .ref u.c ((0 : Nat) : Int)) w1 r1 (hu1.read_ok 0 (by simp))
    (by simp; omega) (-1) l.length (by simp) (Or.inr (by simp; omega))) ?_
  rintro _ m2 ⟨r2, f2, w2⟩
  obtain ⟨hu2, hne2⟩ := keep hu1 hne1 f2 w2
  refine wp_mono (appendLoop_ok (r := r ++ [nul]) r.length (i := 1) (by simp; omega) w2 r2 hu2 hne2
    (by simp; omega)) ?_
  rintro v3 m3 ⟨r3, f3, w3⟩
  refine ⟨?_, (f1.trans hw f2 w2.null).trans hw f3 w3.null, w3⟩
  have e : (l ++ [nul]).set l.length ((r ++ [nul])[0]'(by simp)) ++ (r ++ [nul]).drop 1 = l ++ r ++ [nul] := by
    cases r with
    | nil => simp
    | cons c r => simp
  rw [e] at r3
  exact r3

/-- `s += s` for the empty string. -/
theorem append_self_nil {nul : α} {v : Vec} {m : Mem α} (hw : m.WF) (hr : Rep m v [nul]) :
    wp (append v none) (fun v' m' => Rep m' v' [nul] ∧ Frame m m' v v' ∧ m'.WF) m := by
  have hvs := hr.size
  have hv0 : v.c ≠ 0 := fun h => by have := (hr.null h).2; simp at this
  have hcap := (hr.buf hv0).2.1
  simp only [List.length_singleton] at hvs hcap
  unfold append
  simp only [Option.getD_none]
  have hneed : (v.sz + v.sz + (2 ^ 64 - 1)) % 2 ^ 64 = 1 := by omega
  rw [hneed, if_neg (by omega), pure_bind]
  have h0 := refAt_ok hr (by simp) 0 (by simp)
  rw [show (0 : Int) = ((0 : Nat) : Int) from rfl, h0, pure_bind, wp_bind]
  refine wp_mono (setIndex_arg_ok (x := nul) (e := .ref v.c ((0 : Nat) : Int)) hw hr (hr.read_ok 0 (by simp)) (by simp) (-1) 0 (by simp)
    (Or.inr (by simp))) ?_
  rintro _ m2 ⟨r2, f2, w2⟩
  rw [appendLoop]
  simp only [Option.getD_none]
  rw [if_neg (by omega), wp_pure]
  exact ⟨by simpa using r2, f2, w2⟩

theorem appendLoop_self_faults (k : Nat) : ∀ {i : Nat} {v : Vec} {m : Mem α} {l : List α},
    v.cap = l.length + k → m.WF → Rep m v l → i < l.length → v.cap < 2 ^ 31 →
    Faults (appendLoop v none i) m .useAfterFree := by
  induction k with
  | zero =>
    intro i v m l hk hw hr hi hcap
    rw [appendLoop]
    simp only [Option.getD_none]
    rw [if_pos (by rw [hr.size]; exact hi), refAt_ok hr (by omega) i hi, pure_bind]
    exact bind_faults (pushBack_self_faults hw hr (fun h => by simp [h] at hi) hk.symm _)
  | succ k ih =>
    intro i v m l hk hw hr hi hcap
    rw [appendLoop]
    simp only [Option.getD_none]
    rw [if_pos (by rw [hr.size]; exact hi), refAt_ok hr (by omega) i hi, pure_bind]
    refine faults_bind_of_wp (wp_mono (pushBack_ok (x := l[i]) hw hr (hr.read_ok i hi)
      (fun h => by omega)) ?_)
    rintro v1 m1 ⟨r1, c1, f1, w1⟩
    rw [growCap, if_pos (by omega)] at c1
    exact ih (by simp; omega) w1 r1 (by simp; omega) (by omega)

/-- `s += s` for a non-empty string reads released storage. -/
theorem append_self_faults {nul : α} {v : Vec} {m : Mem α} {l : List α} (hw : m.WF)
    (hr : Rep m v (l ++ [nul])) (hne : l ≠ []) (hcap : v.cap < 2 ^ 31) (hlen : Fits (l.length + l.length)) :
    Faults (append v none) m .useAfterFree := by
  unfold Fits at hlen
  have hvs := hr.size
  have hpos : 0 < l.length := List.length_pos_iff.2 hne
  have hv0 : v.c ≠ 0 := fun h => by have := (hr.null h).2; simp at this
  have hle := (hr.buf hv0).2.1
  simp only [List.length_append, List.length_singleton] at hvs hle
  unfold append
  simp only [Option.getD_none]
  have hneed : (v.sz + v.sz + (2 ^ 64 - 1)) % 2 ^ 64 = l.length + l.length + 1 := by omega
  rw [hneed]
  have step1 : wp (if v.cap < l.length + l.length + 1 then resize true v (l.length + l.length + 1) else pure v)
      (fun v' m' => Rep m' v' (l ++ [nul]) ∧ v'.cap < 2 ^ 31 ∧ m'.WF) m := by
    rw [wp_ite]
    refine ⟨fun _ => ?_, fun _ => ?_⟩
    · refine wp_mono (resize_ok hw hr _) ?_
      rintro v1 m1 ⟨r1, c1, f1, w1, _⟩
      rw [List.take_of_length_le (by simp only [List.length_append, List.length_singleton]; omega)] at r1
      exact ⟨r1, by omega, w1⟩
    · rw [wp_pure]; exact ⟨hr, hcap, hw⟩
  refine faults_bind_of_wp (wp_mono step1 ?_)
  rintro v1 m1 ⟨r1, c1, w1⟩
  have hv10 : v1.c ≠ 0 := fun h => by have := (r1.null h).2; simp at this
  have hle1 := (r1.buf hv10).2.1
  simp only [List.length_append, List.length_singleton] at hle1
  have h0 := refAt_ok r1 (by simp; omega) 0 (by simp)
  rw [show (0 : Int) = ((0 : Nat) : Int) from rfl, h0, pure_bind]
  refine faults_bind_of_wp (wp_mono (setIndex_arg_ok (x := (l ++ [nul])[0]'(by simp)) (e := .ref v1.c ((0 : Nat) : Int)) w1 r1
    (r1.read_ok 0 (by simp)) (by simp; omega) (-1) l.length (by simp) (Or.inr (by simp; omega))) ?_)
  rintro _ m2 ⟨r2, f2, w2⟩
  exact appendLoop_self_faults (v1.cap - (l.length + 1)) (by simp; omega) w2 r2 (by simp; omega) c1

/-! ## Observers -/

theorem size_ok {nul : α} {m : Mem α} {v : Vec} {l : List α} (hr : Rep m v (l ++ [nul]))
    (hlen : Fits l.length) : size v = l.length := by
  unfold Fits at hlen
  have := hr.size
  simp only [List.length_append, List.length_singleton] at this
  unfold size
  omega

theorem iterate_ok {nul : α} {m : Mem α} {v : Vec} {l : List α} (hr : Rep m v (l ++ [nul])) :
    Returns (iterate v) m l m := by
  have hsz := hr.size
  simp only [List.length_append, List.length_singleton] at hsz
  have h := wp_forRange (σ := Mem α) (I := fun k acc m' => m' = m ∧ acc = l.take k)
    (f := fun i acc => do
      let x ← Vec.read v.c i
      pure (acc ++ [x])) (v.sz - 1) 0 [] m (by simp) ?_
  · obtain ⟨a, s', h1, h2, h3⟩ := h
    subst h2 h3
    unfold iterate Returns
    have hc : Returns (check (σ := Mem α) (0 < v.sz) Fault.outOfBounds) s' () s' := by
      simp only [Returns, check]; rw [if_pos (by omega)]
    rw [bind_returns hc, h1, hsz]
    simp
  · rintro i acc t h1 h2 ⟨rfl, rfl⟩
    have hi : i < l.length := by omega
    have := hr.read_ok i (by simp; omega)
    rw [List.getElem_append_left hi] at this
    rw [wp_bind, wp_of_returns this, wp_pure]
    exact ⟨rfl, (List.take_succ_eq_append_getElem hi).symm⟩

theorem eqLoop_ok [DecidableEq α] {m : Mem α} {v u : Vec} {a b : List α} (hv : Rep m v a) (hu : Rep m u b)
    (ha : a.length < 2 ^ 31) (hb : b.length < 2 ^ 31) (n : Nat) : ∀ i, i + n ≤ a.length → i + n ≤ b.length →
    Returns (eqLoop v u n i) m (decide ((a.drop i).take n = (b.drop i).take n)) m := by
  induction n with
  | zero => intro i _ _; simp [eqLoop]; rfl
  | succ n ih =>
    intro i h1 h2
    unfold eqLoop Returns
    rw [bind_returns (index_ok hv ha i (by omega)).1, bind_returns (index_ok hu hb i (by omega)).1]
    have e1 : (a.drop i).take (n + 1) = a[i] :: (a.drop (i + 1)).take n := by
      rw [List.drop_eq_getElem_cons (by omega), List.take_succ_cons]
    have e2 : (b.drop i).take (n + 1) = b[i] :: (b.drop (i + 1)).take n := by
      rw [List.drop_eq_getElem_cons (by omega), List.take_succ_cons]
    rw [e1, e2]
    by_cases hab : a[i] = b[i]
    · rw [if_neg (by simpa using hab)]
      have := ih (i + 1) (by omega) (by omega)
      unfold Returns at this
      rw [this]
      simp [hab]
    · rw [if_pos hab]
      simp [hab]; rfl

theorem eqBody_ok [DecidableEq α] {nul : α} {m : Mem α} {v u : Vec} {a b : List α} (hv : Rep m v (a ++ [nul]))
    (hu : Rep m u (b ++ [nul])) (ha : Fits a.length) (hb : Fits b.length) :
    Returns (eqBody v u) m (decide (a = b)) m := by
  unfold eqBody
  rw [size_ok hv ha, size_ok hu hb]
  unfold Fits at ha hb
  by_cases h : a.length = b.length
  · rw [if_neg (by simpa using h)]
    have := eqLoop_ok hv hu (by simpa using ha) (by simpa using hb) a.length 0 (by simp) (by simp [h])
    simpa [h] using this
  · rw [if_pos h]
    have : a ≠ b := fun e => h (by rw [e])
    simp [this]; rfl

/-! ## Refinement -/

/-- How a vector stands for a string. -/
def Stands (nul : α) (t : SVec α) (s : SStr α) : Prop :=
  Fits s.chars.length ∧ (s.hollow = true → t = ⟨[], 0⟩ ∧ s.chars = []) ∧
    (s.hollow = false → t.data = s.chars ++ [nul])

/-- The string world seen through the vector world. -/
def Abs (nul : α) (vw : SWorld α) (sw : Spec α) : Prop :=
  ∀ k, (sw k = none → vw k = none) ∧ ∀ s, sw k = some s → ∃ t, vw k = some t ∧ Stands nul t s

theorem Abs.put {nul : α} {vw : SWorld α} {sw : Spec α} (h : Abs nul vw sw) (k : Nat) {t : SVec α}
    {s : SStr α} (hs : Stands nul t s) : Abs nul (vw.put k (some t)) (sw.put k (some s)) := by
  intro j
  simp only [SWorld.put, Spec.put]
  split
  · exact ⟨(fun h => by cases h), (fun s' h => by cases h; exact ⟨t, rfl, hs⟩)⟩
  · exact h j

theorem Abs.put_none {nul : α} {vw : SWorld α} {sw : Spec α} (h : Abs nul vw sw) (k : Nat) :
    Abs nul (vw.put k none) (sw.put k none) := by
  intro j
  simp only [SWorld.put, Spec.put]
  split
  · exact ⟨fun _ => rfl, (fun s' h => by cases h)⟩
  · exact h j

/-- The combined invariant. -/
def Inv (nul : α) (w : World α) (sw : Spec α) : Prop := ∃ vw, WInv w vw ∧ Abs nul vw sw

theorem Inv.obj {nul : α} {w : World α} {sw : Spec α} (h : Inv nul w sw) {k : Nat} {s : SStr α}
    (hs : sw k = some s) : ∃ v, w.obj k = some v ∧ Fits s.chars.length ∧
      (s.hollow = false → Rep w.mem v (s.chars ++ [nul])) ∧ (s.hollow = true → v = Vec.empty) := by
  obtain ⟨vw, hi, ha⟩ := h
  obtain ⟨t, h1, h2, h3, h4⟩ := (ha k).2 s hs
  obtain ⟨v, g1, g2, g3⟩ := hi.alive k t h1
  refine ⟨v, g1, h2, fun h => by rw [← h4 h]; exact g2, fun h => ?_⟩
  have h0 : v.c = 0 := by
    refine Classical.byContradiction (fun h0 => ?_)
    have := (g2.buf h0).1
    rw [g3, (h3 h).1] at this
    exact this rfl
  exact (g2.null h0).1

theorem Inv.update {nul : α} {w : World α} {sw : Spec α} (h : Inv nul w sw) {k : Nat} {v v' : Vec}
    {m' : Mem α} {l : List α} (hv : w.obj k = some v ∨ (w.obj k = none ∧ v = Vec.empty))
    (hr : Rep m' v' (l ++ [nul])) (hl : Fits l.length) (hf : Frame w.mem m' v v') (hw : m'.WF) :
    Inv nul { mem := m', obj := fun x => if x = k then some v' else w.obj x }
      (sw.put k (some ⟨l, false⟩)) := by
  obtain ⟨vw, hi, ha⟩ := h
  exact ⟨_, hi.update hv hr rfl hf hw, ha.put k ⟨hl, fun h => by simp at h, fun _ => rfl⟩⟩

theorem step_refines [DecidableEq α] {nul : α} {op : Op α} {w : World α} {sw sw' : Spec α}
    (h : Inv nul w sw) (hs : specStep nul op sw = some sw') (hav : Avoids nul op sw) :
    wp (step nul op) (fun _ w' => Inv nul w' sw') w := by
  have hwf : w.mem.WF := by obtain ⟨_, hi, _⟩ := h; exact hi.wf
  have hdead : ∀ k, (sw k).isNone = true → w.obj k = none := by
    intro k hk
    obtain ⟨vw, hi, ha⟩ := h
    exact hi.dead k ((ha k).1 (by simpa using hk))
  cases op with
  | new k =>
    simp only [specStep] at hs
    split at hs
    · rename_i hk
      cases hs
      rw [step, wp_bind, wp_lift]
      refine wp_mono (ctor_ok nul hwf) ?_
      rintro v m ⟨h1, h2, h3, _⟩
      rw [wp_putObj]
      exact h.update (l := []) (Or.inr ⟨hdead k hk, rfl⟩) h1 (by simp [Fits]) h2 h3
    · cases hs
  | newC k str =>
    simp only [specStep] at hs
    split at hs
    · rename_i hk
      cases hs
      obtain ⟨rest, e1, e2⟩ := cVal_split hk.2.1
      rw [step, wp_bind, wp_lift]
      have := ctorC_ok (rest := rest) hwf hav e2
      rw [← e1] at this
      refine wp_mono this ?_
      rintro v m ⟨h1, h2, h3⟩
      rw [wp_putObj]
      exact h.update (Or.inr ⟨hdead k hk.1, rfl⟩) h1 hk.2.2 h2 h3
    · cases hs
  | push k c =>
    rcases hk : sw k with _ | s
    · simp [specStep, hk] at hs
    simp only [specStep, hk, Option.bind_some] at hs
    split at hs
    · rename_i hfit
      cases hs
      obtain ⟨v, h1, h2, h3, _⟩ := h.obj hk
      rw [step, wp_bind, wp_getObj h1, wp_bind, wp_lift]
      refine wp_mono (push_ok hwf (h3 (hav s hk)) h2 (val_get c _)) ?_
      rintro v' m' ⟨g1, g2, g3⟩
      rw [wp_putObj]
      exact h.update (Or.inl h1) g1 (by simpa using hfit) g2 g3
    · cases hs
  | pushElem k j i =>
    rcases hk : sw k with _ | s
    · simp [specStep, hk] at hs
    rcases hj : sw j with _ | t
    · simp [specStep, hk, hj] at hs
    rcases hi : t.chars[i]? with _ | c
    · simp [specStep, hk, hj, hi] at hs
    simp only [specStep, hk, hj, hi, Option.bind_some] at hs
    split at hs
    · rename_i hfit
      cases hs
      obtain ⟨v, h1, h2, h3, _⟩ := h.obj hk
      obtain ⟨u, u1, u2, u3, _⟩ := h.obj hj
      obtain ⟨hil, hic⟩ := List.getElem?_eq_some_iff.1 hi
      have hth : t.hollow = false := by
        rcases hh : t.hollow with _ | _
        · rfl
        · obtain ⟨vw, _, ha⟩ := h
          obtain ⟨t', _, _, h4, _⟩ := (ha j).2 t hj
          rw [(h4 hh).2] at hil; simp at hil
      have hur := u3 hth
      unfold Fits at u2
      rw [step, wp_bind, wp_getObj h1, wp_bind, wp_getObj u1,
        refAt_ok hur (by simp; omega) i (by simp; omega), wp_bind, wp_lift, wp_pure]
      simp only
      rw [wp_bind, wp_lift]
      have hread := hur.read_ok i (by simp; omega)
      rw [List.getElem_append_left hil, hic] at hread
      refine wp_mono (push_ok (x := c) hwf (h3 (hav s hk)) h2 hread) ?_
      rintro v' m' ⟨g1, g2, g3⟩
      rw [wp_putObj]
      exact h.update (Or.inl h1) g1 (by simpa using hfit) g2 g3
    · cases hs
  | set k i c =>
    rcases hk : sw k with _ | s
    · simp [specStep, hk] at hs
    simp only [specStep, hk, Option.bind_some] at hs
    split at hs
    · rename_i hi
      cases hs
      obtain ⟨v, h1, h2, h3, _⟩ := h.obj hk
      have hth : s.hollow = false := by
        rcases hh : s.hollow with _ | _
        · rfl
        · obtain ⟨vw, _, ha⟩ := h
          obtain ⟨t', _, _, h4, _⟩ := (ha k).2 s hk
          rw [(h4 hh).2] at hi; simp at hi
      have h2' := h2
      unfold Fits at h2
      rw [step, wp_bind, wp_getObj h1, wp_lift]
      refine wp_mono (setIndex_ok hwf (h3 hth) (by simp; omega) _ i (by simp; omega) (Or.inl rfl)) ?_
      rintro _ m' ⟨g1, g2, g3⟩
      rw [List.set_append_left _ _ hi] at g1
      have := h.update (Or.inl h1) g1 (by simpa using h2') g2 g3
      have hobj : (fun x => if x = k then some v else w.obj x) = w.obj := by
        funext y; split
        · rename_i hy; rw [hy, h1]
        · rfl
      rw [hobj] at this
      exact this
    · cases hs
  | clear k =>
    rcases hk : sw k with _ | s
    · simp [specStep, hk] at hs
    simp only [specStep, hk, Option.bind_some, Option.some.injEq] at hs
    subst hs
    have h0 := h
    obtain ⟨vw, hi, ha⟩ := h
    obtain ⟨t, h1, _⟩ := (ha k).2 s hk
    obtain ⟨v, g1, g2, g3⟩ := hi.alive k t h1
    rw [step, wp_bind, wp_getObj g1, wp_bind, wp_lift]
    refine wp_mono (clear_ok hwf g2) ?_
    rintro v' m' ⟨q1, q2, q3⟩
    rw [wp_putObj]
    exact h0.update (l := []) (Or.inl g1) q1 (by simp [Fits]) q2 q3
  | copy d s =>
    rcases hd : sw d with _ | u
    · simp [specStep, hd] at hs
    rcases hk : sw s with _ | t
    · simp [specStep, hd, hk] at hs
    simp only [specStep, hd, hk, Option.bind_some, Option.some.injEq] at hs
    subst hs
    obtain ⟨vw, hi, ha⟩ := h
    obtain ⟨tu, h1, _⟩ := (ha d).2 u hd
    obtain ⟨tt, h2, h2'⟩ := (ha s).2 t hk
    refine wp_mono (Vec.step_ok (triv := true) (op := .copy d s) hi
      (by simp [Vec.specStep, h1, h2]; rfl) (Or.inr (Or.inl rfl))) ?_
    intro _ w' hw'
    exact ⟨_, hw', ha.put d h2'⟩
  | move d s =>
    rcases hd : sw d with _ | u
    · simp [specStep, hd] at hs
    rcases hk : sw s with _ | t
    · simp [specStep, hd, hk] at hs
    simp only [specStep, hd, hk, Option.bind_some] at hs
    obtain ⟨vw, hi, ha⟩ := h
    obtain ⟨tu, h1, _⟩ := (ha d).2 u hd
    obtain ⟨tt, h2, h2'⟩ := (ha s).2 t hk
    by_cases hds : d = s
    · rw [if_pos hds] at hs; cases hs
      refine wp_mono (Vec.step_ok (triv := true) (op := .move d s) (sw' := vw) hi
        (by simp [Vec.specStep, h2, hds]) trivial) ?_
      intro _ w' hw'
      exact ⟨_, hw', ha⟩
    · rw [if_neg hds] at hs; cases hs
      refine wp_mono (Vec.step_ok (triv := true) (op := .move d s) hi
        (by simp [Vec.specStep, h1, h2, hds]; rfl) trivial) ?_
      intro _ w' hw'
      refine ⟨_, hw', (ha.put d h2').put s ?_⟩
      exact ⟨by simp [Fits], fun _ => ⟨rfl, rfl⟩, fun h => by simp at h⟩
  | append d s =>
    rcases hd : sw d with _ | u
    · simp [specStep, hd] at hs
    rcases hk : sw s with _ | t
    · simp [specStep, hd, hk] at hs
    simp only [specStep, hd, hk, Option.bind_some] at hs
    split at hs
    · rename_i hfit
      cases hs
      obtain ⟨a1, a2, a3⟩ := hav
      obtain ⟨v, h1, h2, h3, _⟩ := h.obj hd
      obtain ⟨x, u1, u2, u3, _⟩ := h.obj hk
      rw [step, wp_bind, wp_getObj h1, wp_bind, wp_getObj u1, wp_bind, wp_lift]
      by_cases hds : d = s
      · rw [if_pos hds]
        subst hds
        rw [hd] at hk; cases hk
        have hnil := a3 rfl u hd
        have hr := h3 (a1 u hd)
        rw [hnil] at hr
        refine wp_mono (append_self_nil hwf hr) ?_
        rintro v' m' ⟨g1, g2, g3⟩
        rw [wp_putObj]
        have := h.update (l := []) (Or.inl h1) g1 (by simp [Fits]) g2 g3
        simpa [hnil] using this
      · rw [if_neg hds]
        have hsep : x.c ≠ 0 → x.c ≠ v.c := by
          obtain ⟨vw, hi, _⟩ := h
          exact hi.sep s d x v (Ne.symm hds) u1 h1
        refine wp_mono (append_ok hwf (h3 (a1 u hd)) (u3 (a2 t hk)) hsep hfit) ?_
        rintro v' m' ⟨g1, g2, g3⟩
        rw [wp_putObj]
        exact h.update (Or.inl h1) g1 (by simpa using hfit) g2 g3
    · cases hs
  | drop k =>
    rcases hk : sw k with _ | s
    · simp [specStep, hk] at hs
    simp only [specStep, hk, Option.bind_some, Option.some.injEq] at hs
    subst hs
    obtain ⟨vw, hi, ha⟩ := h
    obtain ⟨t, h1, _⟩ := (ha k).2 s hk
    refine wp_mono (Vec.step_ok (triv := true) (op := .drop k) hi (by simp [Vec.specStep, h1]; rfl) trivial) ?_
    intro _ w' hw'
    exact ⟨_, hw', ha.put_none k⟩

theorem run_refines [DecidableEq α] {nul : α} {ops : List (Op α)} {w : World α} {sw sw' : Spec α}
    (h : Inv nul w sw) (hs : specRun nul ops sw = some sw') (ha : AvoidsAll nul ops sw) :
    wp (run nul ops) (fun _ w' => Inv nul w' sw') w := by
  induction ops generalizing w sw with
  | nil =>
    simp only [specRun, Option.some.injEq] at hs
    subst hs
    exact (wp_pure _ _ _).2 h
  | cons op ops ih =>
    simp only [specRun] at hs
    rcases h1 : specStep nul op sw with _ | s1
    · simp [h1] at hs
    · simp only [h1, Option.bind_some] at hs
      show wp (do step nul op; run nul ops) _ w
      rw [wp_bind]
      refine wp_mono (step_refines h h1 ha.1) ?_
      intro _ w1 hw1
      exact ih hw1 hs (ha.2 s1 h1)

theorem Inv.init (nul : α) : Inv nul World.init (fun _ => none) :=
  ⟨_, WInv.init, fun _ => ⟨fun _ => rfl, fun _ h => by cases h⟩⟩

theorem Inv.shows {nul : α} {w : World α} {sw : Spec α} (h : Inv nul w sw) : Shows nul w sw := by
  intro k
  constructor
  · intro hk
    obtain ⟨vw, hi, ha⟩ := h
    exact hi.dead k ((ha k).1 hk)
  · intro s hk
    obtain ⟨v, h1, h2, h3, _⟩ := h.obj hk
    refine ⟨v, h1, fun hh => ?_⟩
    have hr := h3 hh
    have hsize := size_ok hr h2
    have h2' := h2
    unfold Fits at h2
    refine ⟨hsize, by simp [empty, hsize], iterate_ok hr, ?_, ?_, ?_⟩
    · intro i hi
      have := (index_ok hr (by simp; omega) i (by simp; omega)).1
      rwa [List.getElem_append_left hi] at this
    · intro hne
      have hpos : 0 < s.chars.length := List.length_pos_iff.2 hne
      constructor
      · have := front_ok hr (by simp)
        rwa [List.head_append_of_ne_nil hne] at this
      · have := (index_ok hr (by simp; omega) (s.chars.length - 1) (by simp; omega)).2
        rw [List.getElem_append_left (by omega)] at this
        rw [List.getLast_eq_getElem]
        have e : ((s.chars.length - 1 : Nat) : Int) - ((s.chars ++ [nul]).length : Int) = -2 := by
          simp; omega
        rw [e] at this
        exact this
    · refine ⟨(v.c, 0), ?_, ?_, ?_⟩
      · unfold cStr
        rw [show (0 : Int) = ((0 : Nat) : Int) from rfl, refAt_ok hr (by simp; omega) 0 (by simp)]
        rfl
      · intro i hi
        have := hr.read_ok i (by simp; omega)
        rw [List.getElem_append_left hi] at this
        simpa using this
      · have := hr.read_ok s.chars.length (by simp)
        simpa using this

end Verif.Str
