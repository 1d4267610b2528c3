import Verif.Props.BasicString

/-! # Operators of `BasicString` with C strings, and `!=` (C81) -/

namespace Verif.Str

open Prog Vec

variable {α : Type} [DecidableEq α]

/-! ## One temporary at a time -/

theorem Spec.put_put_none (w : Spec α) {k : Nat} (h : w k = none) (v : Option (SStr α)) :
    (w.put k v).put k none = w := by
  funext t
  simp only [Spec.put]
  split
  · rename_i e; rw [e, h]
  · rfl

theorem Spec.put_same (w : Spec α) (k : Nat) (v : Option (SStr α)) : (w.put k v) k = v := by simp [Spec.put]

theorem Spec.put_other (w : Spec α) {k j : Nat} (h : j ≠ k) (v : Option (SStr α)) : (w.put k v) j = w j := by
  simp [Spec.put, h]

theorem Spec.put_comm (w : Spec α) {k j : Nat} (h : j ≠ k) (v u : Option (SStr α)) :
    (w.put k v).put j u = (w.put j u).put k v := by
  funext t
  simp only [Spec.put]
  grind

theorem ne_of_none {w : Spec α} {s k : Nat} {v : SStr α} (h1 : w s = some v) (h2 : w k = none) : s ≠ k := by
  rintro rfl; rw [h1] at h2; cases h2

theorem run_append (nul : α) (xs ys : List (Op α)) :
    run nul (xs ++ ys) = (do run nul xs; run nul ys) := by
  induction xs with
  | nil => simp [run, seqAll]
  | cons x xs ih =>
    show (do step nul x; run nul (xs ++ ys)) = (do (do step nul x; run nul xs); run nul ys)
    rw [ih, bind_assoc]

theorem copy_temp {nul : α} {w : World α} {sw : Spec α} (h : Inv nul w sw) {a s : Nat} {x : SStr α}
    (hs : sw s = some x) (ha : sw a = none) :
    wp (run nul (newCopy a s)) (fun _ w' => Inv nul w' (sw.put a (some x))) w := by
  refine run_refines h ?_ (by simp [newCopy, AvoidsAll, Avoids])
  have := ne_of_none hs ha
  simp [newCopy, specRun, specStep, ha, hs, Spec.put, this]
  funext t
  simp only [Spec.put]
  grind

theorem newC_temp {nul : α} {w : World α} {sw : Spec α} (h : Inv nul w sw) {a : Nat} (ha : sw a = none)
    {l : List α} (hl : l ≠ []) (hn : nul ∉ l) (rest : List α) (hfit : Fits l.length) :
    wp (run nul [.newC a (l ++ nul :: rest)]) (fun _ w' => Inv nul w' (sw.put a (some ⟨l, false⟩))) w := by
  have hval : cVal nul (l ++ nul :: rest) = l := by
    unfold cVal
    rw [List.takeWhile_append_of_pos]
    · simp
    · intro c hc
      simp only [ne_eq, decide_eq_true_eq]
      rintro rfl
      exact hn hc
  exact run_refines h (by simp [specRun, specStep, ha, hval, hfit]) ⟨by rw [Avoids, hval]; exact hl, fun _ _ => trivial⟩

theorem drop_temp {nul : α} {w : World α} {sw : Spec α} {a : Nat} {x : SStr α}
    (h : Inv nul w (sw.put a (some x))) (ha : sw a = none) :
    wp (run nul [.drop a]) (fun _ w' => Inv nul w' sw) w := by
  refine run_refines h ?_ ⟨trivial, fun _ _ => trivial⟩
  simp [specRun, specStep, Spec.put_same, Spec.put_put_none _ ha]

theorem drop_two {nul : α} {w : World α} {sw : Spec α} {a b : Nat} {x y : SStr α}
    (h : Inv nul w ((sw.put a (some x)).put b (some y))) (ha : sw a = none) (hb : sw b = none) (hab : a ≠ b) :
    wp (run nul [.drop b, .drop a]) (fun _ w' => Inv nul w' sw) w := by
  show wp (run nul ([.drop b] ++ [.drop a])) _ w
  rw [run_append, wp_bind]
  refine wp_mono (drop_temp h (by rw [Spec.put_other _ hab.symm, hb])) ?_
  intro _ w1 h1
  exact drop_temp h1 ha

theorem append_temp {nul : α} {w : World α} {sw : Spec α} (h : Inv nul w sw) {d s : Nat} {x y : List α}
    (hd : sw d = some ⟨x, false⟩) (hs : sw s = some ⟨y, false⟩) (hne : d ≠ s)
    (hfit : Fits (x.length + y.length)) :
    wp (run nul [.append d s]) (fun _ w' => Inv nul w' (sw.put d (some ⟨x ++ y, false⟩))) w := by
  refine run_refines h (by simp [specRun, specStep, hd, hs, hfit]) ⟨⟨?_, ?_, ?_⟩, fun _ _ => trivial⟩
  · intro t ht; rw [hd] at ht; cases ht; rfl
  · intro t ht; rw [hs] at ht; cases ht; rfl
  · intro e; exact absurd e hne

theorem eqParams_ok {nul : α} {w : World α} {sw : Spec α} {a b : Nat} {x y : List α}
    (h : Inv nul w ((sw.put a (some ⟨x, false⟩)).put b (some ⟨y, false⟩))) (ha : sw a = none) (hb : sw b = none)
    (hab : a ≠ b) :
    wp (eqParams nul a b) (fun r w' => (r = true ↔ x = y) ∧ Inv nul w' sw) w := by
  unfold eqParams
  obtain ⟨v, g1, g2, g3, _⟩ := h.obj (k := a) (s := ⟨x, false⟩) (by simp [Spec.put, hab])
  obtain ⟨u, u1, u2, u3, _⟩ := h.obj (k := b) (s := ⟨y, false⟩) (by simp [Spec.put])
  rw [wp_bind, wp_getObj g1, wp_bind, wp_getObj u1, wp_bind, wp_lift,
    wp_of_returns (eqBody_ok (g3 rfl) (u3 rfl) g2 u2), wp_bind]
  refine wp_mono (drop_two h ha hb hab) ?_
  intro _ w2 i2
  rw [wp_pure]
  exact ⟨by simp, i2⟩

theorem eq_eq (nul : α) (s1 s2 a b : Nat) :
    eq nul s1 s2 a b = (do run nul (newCopy a s1 ++ newCopy b s2); eqParams nul a b) := rfl

theorem eq_ok {nul : α} {w : World α} {sw : Spec α} (h : Inv nul w sw) {s1 s2 a b : Nat} {x y : List α}
    (h1 : sw s1 = some ⟨x, false⟩) (h2 : sw s2 = some ⟨y, false⟩) (ha : sw a = none) (hb : sw b = none)
    (hab : a ≠ b) :
    wp (eq nul s1 s2 a b) (fun r w' => (r = true ↔ x = y) ∧ Inv nul w' sw) w := by
  rw [eq_eq, run_append, bind_assoc, wp_bind]
  refine wp_mono (copy_temp h h1 ha) (fun _ w1 i1 => ?_)
  rw [wp_bind]
  refine wp_mono (copy_temp (s := s2) (x := ⟨y, false⟩) i1 ?_ (by rw [Spec.put_other _ hab.symm, hb]))
    (fun _ w2 i2 => eqParams_ok i2 ha hb hab)
  rw [Spec.put_other _ (ne_of_none h2 ha), h2]

theorem neParams_ok {nul : α} {w : World α} {sw : Spec α} {a b c d : Nat} {x y : List α}
    (h : Inv nul w ((sw.put a (some ⟨x, false⟩)).put b (some ⟨y, false⟩)))
    (hf : ∀ t ∈ [a, b, c, d], sw t = none) (hd : [a, b, c, d].Nodup) :
    wp (neParams nul a b c d) (fun r w' => (r = true ↔ x ≠ y) ∧ Inv nul w' sw) w := by
  simp only [List.mem_cons, List.not_mem_nil, or_false, forall_eq_or_imp, forall_eq] at hf
  simp only [List.nodup_cons, List.mem_cons, List.not_mem_nil, or_false, not_or, not_false_eq_true,
    List.nodup_nil, and_true] at hd
  obtain ⟨fa, fb, fc, fd⟩ := hf
  obtain ⟨⟨dab, dac, dad⟩, ⟨dbc, dbd⟩, dcd⟩ := hd
  unfold neParams
  rw [wp_bind]
  refine wp_mono (eq_ok h (x := x) (y := y) (by simp [Spec.put, dab]) (by simp [Spec.put])
    (by simp [Spec.put, Ne.symm dac, Ne.symm dbc, fc]) (by simp [Spec.put, Ne.symm dad, Ne.symm dbd, fd]) dcd) ?_
  rintro r w1 ⟨hr, i1⟩
  rw [wp_bind]
  refine wp_mono (drop_two i1 fa fb dab) (fun _ w2 i2 => ?_)
  rw [wp_pure]
  refine ⟨?_, i2⟩
  rw [Ne, ← hr]
  cases r <;> simp

/-- The common prefix of the operators with a C string on the right. -/
theorem args_right {nul : α} {w : World α} {sw : Spec α} (h : Inv nul w sw) {s a b c : Nat} {x l : List α}
    (hs : sw s = some ⟨x, false⟩) (fa : sw a = none) (fb : sw b = none) (fc : sw c = none) (dab : a ≠ b)
    (dac : a ≠ c) (dbc : b ≠ c) (hl : l ≠ []) (hn : nul ∉ l) (rest : List α) (hfit : Fits l.length) :
    wp (run nul (newCopy a s ++ newCopy b a ++ [.newC c (l ++ nul :: rest)]))
      (fun _ w' => Inv nul w' (((sw.put a (some ⟨x, false⟩)).put b (some ⟨x, false⟩)).put c (some ⟨l, false⟩))) w := by
  rw [run_append, run_append, bind_assoc, wp_bind]
  refine wp_mono (copy_temp h hs fa) (fun _ w1 i1 => ?_)
  rw [wp_bind]
  refine wp_mono (copy_temp i1 (Spec.put_same _ _ _) (by rw [Spec.put_other _ dab.symm, fb])) (fun _ w2 i2 => ?_)
  exact newC_temp i2 (by rw [Spec.put_other _ dbc.symm, Spec.put_other _ dac.symm, fc]) hl hn rest hfit

/-- The common prefix of the operators with a C string on the left. -/
theorem args_left {nul : α} {w : World α} {sw : Spec α} (h : Inv nul w sw) {s a b c : Nat} {x l : List α}
    (hs : sw s = some ⟨x, false⟩) (fa : sw a = none) (fb : sw b = none) (fc : sw c = none) (dab : a ≠ b)
    (dac : a ≠ c) (dbc : b ≠ c) (hl : l ≠ []) (hn : nul ∉ l) (rest : List α) (hfit : Fits l.length) :
    wp (run nul (newCopy a s ++ [.newC b (l ++ nul :: rest)] ++ newCopy c a))
      (fun _ w' => Inv nul w' (((sw.put a (some ⟨x, false⟩)).put b (some ⟨l, false⟩)).put c (some ⟨x, false⟩))) w := by
  rw [run_append, run_append, bind_assoc, wp_bind]
  refine wp_mono (copy_temp h hs fa) (fun _ w1 i1 => ?_)
  rw [wp_bind]
  refine wp_mono (newC_temp i1 (by rw [Spec.put_other _ dab.symm, fb]) hl hn rest hfit) (fun _ w2 i2 => ?_)
  exact copy_temp i2 (by rw [Spec.put_other _ dab, Spec.put_same])
    (by rw [Spec.put_other _ dbc.symm, Spec.put_other _ dac.symm, fc])

/-! ## The properties -/

/-- **C81, `==` and `!=`.**  After any legal history avoiding the defective situations, comparing a string with the
C string `l` (not empty, see `string_compare_empty_faults`), on either side, says whether its characters are those of
`l`, and `!=` between strings or with a C string is the negation of `==`; no string changes.  `a` … `e` are
names for the temporaries. -/
theorem string_compare_mixed_partial (nul : α) (ops : List (Op α)) (sw : Spec α)
    (hs : specRun nul ops (fun _ => none) = some sw) (ha : AvoidsAll nul ops (fun _ => none))
    (s1 s2 a b c d e : Nat) (x y : List α) (h1 : sw s1 = some ⟨x, false⟩) (h2 : sw s2 = some ⟨y, false⟩)
    (hfresh : ∀ t ∈ [a, b, c, d, e], sw t = none) (hd : [a, b, c, d, e].Nodup)
    (l rest : List α) (hl : l ≠ []) (hnul : nul ∉ l) (hfit : Fits l.length) :
    ∃ w, Returns (run nul ops) World.init () w ∧
      (∃ r w', Returns (eqC nul s1 (l ++ nul :: rest) a b c) w r w' ∧ (r = true ↔ x = l) ∧ Shows nul w' sw) ∧
      (∃ r w', Returns (cEq nul (l ++ nul :: rest) s1 a b c) w r w' ∧ (r = true ↔ x = l) ∧ Shows nul w' sw) ∧
      (∃ r w', Returns (ne nul s1 s2 a b c d) w r w' ∧ (r = true ↔ x ≠ y) ∧ Shows nul w' sw) ∧
      (∃ r w', Returns (neC nul s1 (l ++ nul :: rest) a b c d e) w r w' ∧ (r = true ↔ x ≠ l) ∧ Shows nul w' sw) ∧
      (∃ r w', Returns (cNe nul (l ++ nul :: rest) s1 a b c d e) w r w' ∧ (r = true ↔ x ≠ l) ∧
        Shows nul w' sw) := by
  obtain ⟨_, w, e1, e2⟩ := run_refines (Inv.init nul) hs ha
  simp only [List.mem_cons, List.not_mem_nil, or_false, forall_eq_or_imp, forall_eq] at hfresh
  have hd' := hd
  simp only [List.nodup_cons, List.mem_cons, List.not_mem_nil, or_false, not_or, not_false_eq_true,
    List.nodup_nil, and_true] at hd
  obtain ⟨fa, fb, fc, fd, fe⟩ := hfresh
  obtain ⟨⟨dab, dac, dad, dae⟩, ⟨dbc, dbd, dbe⟩, ⟨dcd, dce⟩, dde⟩ := hd
  have out : ∀ {p : Prog (World α) Bool} {P : Prop}, wp p (fun r w' => (r = true ↔ P) ∧ Inv nul w' sw) w →
      ∃ r w', Returns p w r w' ∧ (r = true ↔ P) ∧ Shows nul w' sw := by
    rintro p P ⟨r, w', e3, e4, e5⟩
    exact ⟨r, w', e3, e4, e5.shows⟩
  have nb : (sw.put a (some ⟨x, false⟩)) b = none := by rw [Spec.put_other _ (Ne.symm dab), fb]
  have nc : (sw.put a (some ⟨x, false⟩)) c = none := by rw [Spec.put_other _ (Ne.symm dac), fc]
  have nd : (sw.put a (some ⟨x, false⟩)) d = none := by rw [Spec.put_other _ (Ne.symm dad), fd]
  have ne' : (sw.put a (some ⟨x, false⟩)) e = none := by rw [Spec.put_other _ (Ne.symm dae), fe]
  have hfr : ∀ t ∈ [b, c, d, e], (sw.put a (some ⟨x, false⟩)) t = none := by
    simp [nb, nc, nd, ne']
  refine ⟨w, e1, out ?_, out ?_, out ?_, out ?_, out ?_⟩
  · unfold eqC
    rw [wp_bind]
    refine wp_mono (args_right e2 h1 fa fb fc dab dac dbc hl hnul rest hfit) (fun _ w1 i1 => ?_)
    rw [wp_bind]
    refine wp_mono (eqParams_ok i1 nb nc dbc) ?_
    rintro r w2 ⟨hr, i2⟩
    rw [wp_bind]
    refine wp_mono (drop_temp i2 fa) (fun _ w3 i3 => ?_)
    rw [wp_pure]
    exact ⟨hr, i3⟩
  · unfold cEq
    rw [wp_bind]
    refine wp_mono (args_left e2 h1 fa fb fc dab dac dbc hl hnul rest hfit) (fun _ w1 i1 => ?_)
    rw [wp_bind]
    refine wp_mono (eqParams_ok i1 nb nc dbc) ?_
    rintro r w2 ⟨hr, i2⟩
    rw [wp_bind]
    refine wp_mono (drop_temp i2 fa) (fun _ w3 i3 => ?_)
    rw [wp_pure]
    exact ⟨hr.trans eq_comm, i3⟩
  · unfold ne
    rw [run_append, bind_assoc, wp_bind]
    refine wp_mono (copy_temp e2 h1 fa) (fun _ w1 i1 => ?_)
    rw [wp_bind]
    refine wp_mono (copy_temp (s := s2) (x := ⟨y, false⟩) i1 ?_ nb) (fun _ w2 i2 => ?_)
    · rw [Spec.put_other _ (ne_of_none h2 fa), h2]
    · refine neParams_ok i2 (by simp [fa, fb, fc, fd]) ?_
      simp [dab, dac, dad, dbc, dbd, dcd]
  · unfold neC
    rw [wp_bind]
    refine wp_mono (args_right e2 h1 fa fb fc dab dac dbc hl hnul rest hfit) (fun _ w1 i1 => ?_)
    rw [wp_bind]
    refine wp_mono (neParams_ok i1 hfr (List.nodup_cons.1 hd').2) ?_
    rintro r w2 ⟨hr, i2⟩
    rw [wp_bind]
    refine wp_mono (drop_temp i2 fa) (fun _ w3 i3 => ?_)
    rw [wp_pure]
    exact ⟨hr, i3⟩
  · unfold cNe
    rw [wp_bind]
    refine wp_mono (args_left e2 h1 fa fb fc dab dac dbc hl hnul rest hfit) (fun _ w1 i1 => ?_)
    rw [wp_bind]
    refine wp_mono (neParams_ok i1 hfr (List.nodup_cons.1 hd').2) ?_
    rintro r w2 ⟨hr, i2⟩
    rw [wp_bind]
    refine wp_mono (drop_temp i2 fa) (fun _ w3 i3 => ?_)
    rw [wp_pure]
    exact ⟨hr.trans ne_comm, i3⟩

/-- The tail of `operator+` on its parameters `b`, `c` and local `d`. -/
theorem concat_tail {nul : α} {w : World α} {sw : Spec α} {k a b c d : Nat} {x y z : List α}
    (h : Inv nul w (((sw.put a (some ⟨z, false⟩)).put b (some ⟨x, false⟩)).put c (some ⟨y, false⟩)))
    (hf : ∀ t ∈ [k, a, b, c, d], sw t = none) (hd : [k, a, b, c, d].Nodup)
    (hfit : Fits (x.length + y.length)) :
    wp (run nul (newCopy d b ++ [.append d c] ++ newCopy k d ++ [.drop d, .drop c, .drop b, .drop a]))
      (fun _ w' => Inv nul w' (sw.put k (some ⟨x ++ y, false⟩))) w := by
  simp only [List.mem_cons, List.not_mem_nil, or_false, forall_eq_or_imp, forall_eq] at hf
  simp only [List.nodup_cons, List.mem_cons, List.not_mem_nil, or_false, not_or, not_false_eq_true,
    List.nodup_nil, and_true] at hd
  obtain ⟨fk, fa, fb, fc, fd⟩ := hf
  obtain ⟨⟨dka, dkb, dkc, dkd⟩, ⟨dab, dac, dad⟩, ⟨dbc, dbd⟩, dcd⟩ := hd
  rw [run_append, run_append, run_append, bind_assoc, bind_assoc, wp_bind]
  refine wp_mono (copy_temp (s := b) (x := ⟨x, false⟩) h (by simp [Spec.put, dbc])
    (by simp [Spec.put, Ne.symm dcd, Ne.symm dbd, Ne.symm dad, fd])) (fun _ w1 i1 => ?_)
  rw [wp_bind]
  refine wp_mono (append_temp (x := x) (y := y) i1 (Spec.put_same _ _ _) (by simp [Spec.put, dcd]) (Ne.symm dcd) hfit)
    (fun _ w2 i2 => ?_)
  rw [wp_bind]
  refine wp_mono (copy_temp i2 (Spec.put_same _ _ _)
    (by simp [Spec.put, dkd, dkc, dkb, dka, fk])) (fun _ w3 i3 => ?_)
  refine run_refines i3 ?_ (by simp [AvoidsAll, Avoids])
  simp [specRun, specStep, Spec.put, *, Ne.symm dka, Ne.symm dkb, Ne.symm dkc, Ne.symm dkd]
  funext t
  simp only [Spec.put]
  grind

/-- **C81, `+`.**  After any legal history avoiding the defective situations, `String k = s + str` and
`String k = str + s`, with `str` the C string `l` (not empty), give the concatenation, change no other string and leave no
temporary behind. -/
theorem string_concat_mixed_partial (nul : α) (ops : List (Op α)) (sw : Spec α)
    (hs : specRun nul ops (fun _ => none) = some sw) (ha : AvoidsAll nul ops (fun _ => none))
    (s k a b c d : Nat) (x : List α) (h1 : sw s = some ⟨x, false⟩)
    (hfresh : ∀ t ∈ [k, a, b, c, d], sw t = none) (hd : [k, a, b, c, d].Nodup)
    (l rest : List α) (hl : l ≠ []) (hnul : nul ∉ l) (hfit : Fits (x.length + l.length)) :
    ∃ w, Returns (run nul ops) World.init () w ∧
      (∃ w', Returns (run nul (concatC k s (l ++ nul :: rest) a b c d)) w () w' ∧
        Shows nul w' (sw.put k (some ⟨x ++ l, false⟩))) ∧
      (∃ w', Returns (run nul (cConcat k (l ++ nul :: rest) s a b c d)) w () w' ∧
        Shows nul w' (sw.put k (some ⟨l ++ x, false⟩))) := by
  obtain ⟨_, w, e1, e2⟩ := run_refines (Inv.init nul) hs ha
  have hf := hfresh
  simp only [List.mem_cons, List.not_mem_nil, or_false, forall_eq_or_imp, forall_eq] at hf
  have hd' := hd
  simp only [List.nodup_cons, List.mem_cons, List.not_mem_nil, or_false, not_or, not_false_eq_true,
    List.nodup_nil, and_true] at hd'
  obtain ⟨fk, fa, fb, fc, fd⟩ := hf
  obtain ⟨⟨dka, dkb, dkc, dkd⟩, ⟨dab, dac, dad⟩, ⟨dbc, dbd⟩, dcd⟩ := hd'
  have hfl : Fits l.length := by unfold Fits at hfit ⊢; omega
  refine ⟨w, e1, ?_, ?_⟩
  · have : wp (run nul (concatC k s (l ++ nul :: rest) a b c d))
        (fun _ w' => Inv nul w' (sw.put k (some ⟨x ++ l, false⟩))) w := by
      have e : concatC k s (l ++ nul :: rest) a b c d =
          (newCopy a s ++ newCopy b a ++ [.newC c (l ++ nul :: rest)]) ++
          (newCopy d b ++ [.append d c] ++ newCopy k d ++ [.drop d, .drop c, .drop b, .drop a]) := by
        simp [concatC]
      rw [e, run_append, wp_bind]
      refine wp_mono (args_right e2 h1 fa fb fc dab dac dbc hl hnul rest hfl) (fun _ w1 i1 => ?_)
      exact concat_tail i1 hfresh hd hfit
    obtain ⟨_, w', e3, e4⟩ := this
    exact ⟨w', e3, e4.shows⟩
  · have : wp (run nul (cConcat k (l ++ nul :: rest) s a b c d))
        (fun _ w' => Inv nul w' (sw.put k (some ⟨l ++ x, false⟩))) w := by
      have e : cConcat k (l ++ nul :: rest) s a b c d =
          (newCopy a s ++ [.newC b (l ++ nul :: rest)] ++ newCopy c a) ++
          (newCopy d b ++ [.append d c] ++ newCopy k d ++ [.drop d, .drop c, .drop b, .drop a]) := by
        simp [cConcat]
      rw [e, run_append, wp_bind]
      refine wp_mono (args_left e2 h1 fa fb fc dab dac dbc hl hnul rest hfl) (fun _ w1 i1 => ?_)
      exact concat_tail i1 hfresh hd (by rwa [Nat.add_comm])
    obtain ⟨_, w', e3, e4⟩ := this
    exact ⟨w', e3, e4.shows⟩

/-- A state and a C string meeting the hypotheses. -/
example : ∃ sw : Spec Nat, specRun 0 [.newC 0 [1, 2, 0], .newC 1 [3, 0], .append 0 1] (fun _ => none) = some sw ∧
    AvoidsAll (0 : Nat) [.newC 0 [1, 2, 0], .newC 1 [3, 0], .append 0 1] (fun _ => none) ∧
    sw 0 = some ⟨[1, 2, 3], false⟩ ∧ sw 1 = some ⟨[3], false⟩ ∧ (∀ t ∈ [10, 11, 12, 13, 14], sw t = none) ∧
    [10, 11, 12, 13, 14].Nodup ∧ (0 : Nat) ∉ [1, 2, 3] ∧ Fits [1, 2, 3].length := by
  refine ⟨_, rfl, ?_, rfl, rfl, ?_, by decide, by decide, by decide⟩
  · simp [AvoidsAll, Avoids, specStep, Spec.put, cVal, Sound, Fits]
  · intro t ht
    simp only [List.mem_cons, List.not_mem_nil, or_false] at ht
    rcases ht with rfl | rfl | rfl | rfl | rfl <;> rfl

/-- **C81, failing case.**  Comparing any string with `""` (an array whose only NUL is its first character), on either
side and with `==` or `!=`, reads past the end of the array. -/
theorem string_compare_empty_faults (nul : α) (ops : List (Op α)) (sw : Spec α)
    (hs : specRun nul ops (fun _ => none) = some sw) (ha : AvoidsAll nul ops (fun _ => none))
    (s a b c d e : Nat) (x : List α) (h1 : sw s = some ⟨x, false⟩) (fa : sw a = none) (fb : sw b = none)
    (dab : a ≠ b) (rest : List α) (hr : nul ∉ rest) :
    ∃ w, Returns (run nul ops) World.init () w ∧
      Faults (eqC nul s (nul :: rest) a b c) w .outOfBounds ∧
      Faults (cEq nul (nul :: rest) s a b c) w .outOfBounds ∧
      Faults (neC nul s (nul :: rest) a b c d e) w .outOfBounds ∧
      Faults (cNe nul (nul :: rest) s a b c d e) w .outOfBounds := by
  obtain ⟨_, w, e1, e2⟩ := run_refines (Inv.init nul) hs ha
  have key : ∀ {sw' : Spec α} {w' : World α} (k : Nat), Inv nul w' sw' →
      Faults (run nul [.newC k (nul :: rest)]) w' .outOfBounds := by
    rintro sw' w' k ⟨vw, h2, _⟩
    show Faults (do step nul (.newC k (nul :: rest)); run nul []) w' .outOfBounds
    refine bind_faults ?_
    rw [step]
    refine bind_faults (faults_lift ?_)
    unfold ctorC
    refine faults_bind_of_wp (wp_mono (ctor_ok nul h2.wf) ?_)
    rintro v1 m1 ⟨r1, f1, w1, _⟩
    rw [cRead_ok (c := nul) (by simp), pure_bind]
    refine faults_bind_of_wp (wp_mono (setIndex_ok w1 r1 (by simp) (-1) 0 (by simp) (Or.inr (by simp))) ?_)
    rintro _ m2 ⟨r2, f2, w2⟩
    exact bind_faults (ctorLoop_oob rest.length (by simp; omega) w2 r2 (by simpa using hr))
  have right : Faults (run nul (newCopy a s ++ newCopy b a ++ [.newC c (nul :: rest)])) w .outOfBounds := by
    rw [run_append, run_append, bind_assoc]
    refine faults_bind_of_wp (wp_mono (copy_temp e2 h1 fa) (fun _ w1 i1 => ?_))
    refine faults_bind_of_wp (wp_mono (copy_temp i1 (Spec.put_same _ _ _)
      (by rw [Spec.put_other _ (Ne.symm dab), fb])) (fun _ w2 i2 => ?_))
    exact key c i2
  have left : Faults (run nul (newCopy a s ++ [.newC b (nul :: rest)] ++ newCopy c a)) w .outOfBounds := by
    rw [run_append, run_append, bind_assoc]
    refine faults_bind_of_wp (wp_mono (copy_temp e2 h1 fa) (fun _ w1 i1 => ?_))
    exact bind_faults (key b i1)
  exact ⟨w, e1, bind_faults right, bind_faults left, bind_faults right, bind_faults left⟩

end Verif.Str
