import Verif.BasicStringLemmas

/-! # Properties of `BasicString` (C21, C22, C23) -/

set_option linter.unusedSimpArgs false

namespace Verif.Str

open Prog Vec

variable {α : Type} [DecidableEq α]

/-- **C23.**  After any legal history that avoids the defective situations, nothing faults and every
string that is not currently moved-from shows exactly its characters, with `c_str()` terminated by NUL
directly after `size()` characters.  Missing from the full statement: moved-from strings (see
`string_moved_from_broken`), construction from `""` and self-append. -/
theorem string_terminated_partial (nul : α) (ops : List (Op α)) (sw : Spec α)
    (hs : specRun nul ops (fun _ => none) = some sw) (ha : AvoidsAll nul ops (fun _ => none)) :
    ∃ w, Returns (run nul ops) World.init () w ∧ Shows nul w sw := by
  obtain ⟨_, w, h1, h2⟩ := run_refines (Inv.init nul) hs ha
  exact ⟨w, h1, h2.shows⟩

/-- **C23, failing case.**  A moved-from string reports `size() == 2^64 - 1`, `c_str()` fails its
assertion, and `push_back` writes through a null pointer. -/
theorem string_moved_from_broken (nul : α) (ops : List (Op α)) (sw : Spec α)
    (hs : specRun nul ops (fun _ => none) = some sw) (ha : AvoidsAll nul ops (fun _ => none))
    (k : Nat) (s : SStr α) (hk : sw k = some s) (hh : s.hollow = true) (c : α) :
    ∃ w v, Returns (run nul ops) World.init () w ∧ w.obj k = some v ∧ size v = 2 ^ 64 - 1 ∧
      Faults (cStr v) w.mem .assert ∧ Faults (step nul (.push k c)) w .nullDeref := by
  obtain ⟨_, w, h1, h2⟩ := run_refines (Inv.init nul) hs ha
  obtain ⟨v, g1, g2, g3, g4⟩ := h2.obj hk
  have hv := g4 hh
  subst hv
  refine ⟨w, _, h1, g1, rfl, ?_, ?_⟩
  · unfold cStr refAt
    exact bind_faults (faults_dassert (by decide) _)
  · rw [step]
    refine faults_bind_of_wp ((wp_getObj g1 _).2 ?_)
    refine bind_faults (faults_lift ?_)
    unfold push
    apply bind_faults
    unfold setIndex
    have e : normIndex Vec.empty (-1) = -1 := by decide
    simp only [e]
    rw [dassert_pos (by decide), pure_bind]
    unfold assign Arg.get
    rw [pure_bind]
    apply bind_faults
    rfl

/-- A moved-from string becomes usable again by `clear()`, assignment or `swap`-like moves: these are
ordinary legal steps of `string_terminated_partial`. -/
example : ∃ sw : Spec Nat, specRun 0 [.newC 0 [7, 8, 0], .new 1, .move 1 0, .clear 0, .push 0 9, .append 1 0]
    (fun _ => none) = some sw ∧ sw 0 = some ⟨[9], false⟩ ∧ sw 1 = some ⟨[7, 8, 9], false⟩ := by
  refine ⟨_, rfl, rfl, rfl⟩

example : AvoidsAll (0 : Nat) [.newC 0 [7, 8, 0], .new 1, .move 1 0, .clear 0, .push 0 9, .append 1 0]
    (fun _ => none) := by
  simp [AvoidsAll, Avoids, specStep, Spec.put, cVal, Sound, Fits]

/-- **C21.**  After any such history, constructing a string from a C string `str` (an array of
characters containing a NUL, the first of which is not at the very start) gives a string with exactly the
characters before the first NUL, and `c_str()` gives them back, NUL-terminated.  Missing from the full
statement: the empty C string, see `string_construct_empty_faults` and `string_construct_empty_wrong`. -/
theorem string_construct_partial (nul : α) (ops : List (Op α)) (sw : Spec α)
    (hs : specRun nul ops (fun _ => none) = some sw) (ha : AvoidsAll nul ops (fun _ => none))
    (k : Nat) (hk : sw k = none) (l rest : List α) (hl : l ≠ []) (hnul : nul ∉ l) (hfit : Fits l.length) :
    ∃ w w', Returns (run nul ops) World.init () w ∧
      Returns (step nul (.newC k (l ++ nul :: rest))) w () w' ∧
      Shows nul w' (sw.put k (some ⟨l, false⟩)) := by
  obtain ⟨_, w, h1, h2⟩ := run_refines (Inv.init nul) hs ha
  have hval : cVal nul (l ++ nul :: rest) = l := by
    unfold cVal
    rw [List.takeWhile_append_of_pos]
    · simp
    · intro c hc
      simp only [ne_eq, decide_eq_true_eq]
      rintro rfl
      exact hnul hc
  obtain ⟨_, w', e1, e2⟩ := step_refines (op := .newC k (l ++ nul :: rest)) h2
    (sw' := sw.put k (some ⟨l, false⟩)) (by simp [specStep, hk, hval, hfit]) (by rw [Avoids, hval]; exact hl)
  exact ⟨w, w', h1, e1, e2.shows⟩

theorem ctorLoop_oob {nul : α} (k : Nat) : ∀ {i : Nat} {str : List α} {v : Vec} {m : Mem α} {l : List α},
    str.length = i + k → m.WF → Rep m v l → nul ∉ str.drop i →
    Faults (ctorLoop nul str v i) m .outOfBounds := by
  induction k with
  | zero =>
    intro i str v m l hk hw hr hn
    rw [ctorLoop]
    apply bind_faults
    have : str[i]? = none := by simp; omega
    simp only [cRead, this]
    rfl
  | succ k ih =>
    intro i str v m l hk hw hr hn
    have hi : i < str.length := by omega
    rw [List.drop_eq_getElem_cons hi] at hn
    rw [ctorLoop, cRead_ok (c := str[i]) (by simp [hi]), pure_bind,
      if_pos (fun h => hn (by simp [h]))]
    refine faults_bind_of_wp (wp_mono (pushBack_ok hw hr (val_get _ m) (fun _ => Or.inl rfl)) ?_)
    rintro v1 m1 ⟨r1, _, _, w1⟩
    exact ih (by omega) w1 r1 (fun h => hn (List.mem_cons_of_mem _ h))

/-- **C21, failing case.**  Constructing from `""` (an array whose only NUL is its first character) reads
past the end of the array, in every reachable state. -/
theorem string_construct_empty_faults (nul : α) (ops : List (Op α)) (sw : Spec α)
    (hs : specRun nul ops (fun _ => none) = some sw) (ha : AvoidsAll nul ops (fun _ => none))
    (k : Nat) (rest : List α) (hr : nul ∉ rest) :
    ∃ w, Returns (run nul ops) World.init () w ∧
      Faults (step nul (.newC k (nul :: rest))) w .outOfBounds := by
  obtain ⟨_, w, h1, vw, h2, _⟩ := run_refines (Inv.init nul) hs ha
  refine ⟨w, h1, ?_⟩
  rw [step]
  refine bind_faults (faults_lift ?_)
  unfold ctorC
  refine faults_bind_of_wp (wp_mono (ctor_ok nul h2.wf) ?_)
  rintro v1 m1 ⟨r1, f1, w1, _⟩
  rw [cRead_ok (c := nul) (by simp), pure_bind]
  refine faults_bind_of_wp (wp_mono (setIndex_ok w1 r1 (by simp) (-1) 0 (by simp) (Or.inr (by simp))) ?_)
  rintro _ m2 ⟨r2, f2, w2⟩
  exact bind_faults (ctorLoop_oob rest.length (by simp; omega) w2 r2 (by simpa using hr))

/-- **C21, failing case.**  If the array continues after its leading NUL with `l` and another NUL, the
string constructed is not empty: its characters are NUL followed by `l`. -/
theorem string_construct_empty_wrong (nul : α) (m : Mem α) (hw : m.WF) (l rest : List α) (hnul : nul ∉ l)
    (hfit : Fits (l.length + 1)) :
    ∃ v m', Returns (ctorC nul (nul :: l ++ nul :: rest)) m v m' ∧ size v = l.length + 1 ∧
      Returns (iterate v) m' (nul :: l) m' := by
  have : wp (ctorC nul (nul :: l ++ nul :: rest)) (fun v m' => Rep m' v (nul :: l ++ [nul])) m := by
    unfold ctorC
    rw [wp_bind]
    refine wp_mono (ctor_ok nul hw) ?_
    rintro v1 m1 ⟨r1, f1, w1, _⟩
    rw [cRead_ok (c := nul) (by simp), pure_bind, wp_bind]
    refine wp_mono (setIndex_ok w1 r1 (by simp) (-1) 0 (by simp) (Or.inr (by simp))) ?_
    rintro _ m2 ⟨r2, f2, w2⟩
    rw [wp_bind]
    refine wp_mono (ctorLoop_ok (nul := nul) l (str := nul :: l ++ nul :: rest) (pre := [nul]) (rest := rest)
      w2 r2 (by simp) hnul) ?_
    rintro v3 m3 ⟨r3, f3, w3⟩
    refine wp_mono (pushBack_ok w3 r3 (val_get nul m3) (fun _ => Or.inl rfl)) ?_
    rintro v4 m4 ⟨r4, _⟩
    simpa using r4
  obtain ⟨v, m', h1, h2⟩ := this
  exact ⟨v, m', h1, by simpa using size_ok h2 (by simpa using hfit), iterate_ok h2⟩

/-- **C22, `+=`.**  After any such history `d += s` appends exactly the characters of `s`, and changes no
other string.  Missing from the full statement: `d` and `s` the same non-empty string
(`string_append_self_faults`) and moved-from strings. -/
theorem string_append_partial (nul : α) (ops : List (Op α)) (sw : Spec α)
    (hs : specRun nul ops (fun _ => none) = some sw) (ha : AvoidsAll nul ops (fun _ => none))
    (d s : Nat) (a b : List α) (hd : sw d = some ⟨a, false⟩) (hk : sw s = some ⟨b, false⟩)
    (hne : d ≠ s ∨ a = []) (hfit : Fits (a.length + b.length)) :
    ∃ w w', Returns (run nul ops) World.init () w ∧ Returns (step nul (.append d s)) w () w' ∧
      Shows nul w' (sw.put d (some ⟨a ++ b, false⟩)) := by
  obtain ⟨_, w, h1, h2⟩ := run_refines (Inv.init nul) hs ha
  obtain ⟨_, w', e1, e2⟩ := step_refines (op := .append d s) h2
    (sw' := sw.put d (some ⟨a ++ b, false⟩)) (by simp [specStep, hd, hk, hfit]) (by
      refine ⟨?_, ?_, ?_⟩
      · intro t ht; rw [hd] at ht; cases ht; rfl
      · intro t ht; rw [hk] at ht; cases ht; rfl
      · intro e t ht
        rw [hd] at ht; cases ht
        rcases hne with h | h
        · exact absurd e h
        · exact h)
  exact ⟨w, w', h1, e1, e2.shows⟩

/-- **C22, failing case.**  `s += s` of a non-empty string always ends in a read of released storage. -/
theorem string_append_self_faults (nul : α) (ops : List (Op α)) (sw : Spec α)
    (hs : specRun nul ops (fun _ => none) = some sw) (ha : AvoidsAll nul ops (fun _ => none))
    (d : Nat) (a : List α) (hd : sw d = some ⟨a, false⟩) (hne : a ≠ []) (hfit : Fits (a.length + a.length)) :
    ∃ w v, Returns (run nul ops) World.init () w ∧ w.obj d = some v ∧
      (v.cap < 2 ^ 31 → Faults (step nul (.append d d)) w .useAfterFree) := by
  obtain ⟨_, w, h1, h2⟩ := run_refines (Inv.init nul) hs ha
  obtain ⟨v, g1, g2, g3, _⟩ := h2.obj hd
  refine ⟨w, v, h1, g1, fun hcap => ?_⟩
  have hwf : w.mem.WF := by obtain ⟨_, hi, _⟩ := h2; exact hi.wf
  rw [step]
  refine faults_bind_of_wp ((wp_getObj g1 _).2 ?_)
  refine faults_bind_of_wp ((wp_getObj g1 _).2 ?_)
  rw [if_pos rfl]
  exact bind_faults (faults_lift (append_self_faults hwf (g3 rfl) hne hcap hfit))

/-- **C22, `push_back`.**  Appends exactly one character, also when it is given as a reference into the
string itself. -/
theorem string_push_back_partial (nul : α) (ops : List (Op α)) (sw : Spec α)
    (hs : specRun nul ops (fun _ => none) = some sw) (ha : AvoidsAll nul ops (fun _ => none))
    (k : Nat) (a : List α) (hk : sw k = some ⟨a, false⟩) (hfit : Fits (a.length + 1)) :
    ∃ w, Returns (run nul ops) World.init () w ∧
      (∀ c, ∃ w', Returns (step nul (.push k c)) w () w' ∧
        Shows nul w' (sw.put k (some ⟨a ++ [c], false⟩))) ∧
      (∀ i (h : i < a.length), ∃ w', Returns (step nul (.pushElem k k i)) w () w' ∧
        Shows nul w' (sw.put k (some ⟨a ++ [a[i]], false⟩))) := by
  obtain ⟨_, w, h1, h2⟩ := run_refines (Inv.init nul) hs ha
  have hsound : Sound sw k := by intro t ht; rw [hk] at ht; cases ht; rfl
  refine ⟨w, h1, fun c => ?_, fun i hi => ?_⟩
  · obtain ⟨_, w', e1, e2⟩ := step_refines (op := .push k c) h2
      (sw' := sw.put k (some ⟨a ++ [c], false⟩)) (by simp [specStep, hk, hfit]) hsound
    exact ⟨w', e1, e2.shows⟩
  · obtain ⟨_, w', e1, e2⟩ := step_refines (op := .pushElem k k i) h2
      (sw' := sw.put k (some ⟨a ++ [a[i]], false⟩)) (by simp [specStep, hk, hfit, hi]) hsound
    exact ⟨w', e1, e2.shows⟩

/-- **C22, `+`.**  `String k = s1 + s2;` gives the concatenation and changes no other string (`a`, `b`, `c`
are the temporaries; they are gone afterwards).  Aliased operands are allowed. -/
theorem string_concat_partial (nul : α) (ops : List (Op α)) (sw : Spec α)
    (hs : specRun nul ops (fun _ => none) = some sw) (ha : AvoidsAll nul ops (fun _ => none))
    (s1 s2 k a b c : Nat) (x y : List α) (h1 : sw s1 = some ⟨x, false⟩) (h2 : sw s2 = some ⟨y, false⟩)
    (hfit : Fits (x.length + y.length)) (hfresh : ∀ t ∈ [k, a, b, c], sw t = none)
    (hd : [k, a, b, c].Nodup) :
    ∃ w w', Returns (run nul ops) World.init () w ∧ Returns (run nul (concat k s1 s2 a b c)) w () w' ∧
      Shows nul w' (sw.put k (some ⟨x ++ y, false⟩)) := by
  obtain ⟨_, w, e1, e2⟩ := run_refines (Inv.init nul) hs ha
  have n1 : ∀ t ∈ [k, a, b, c], t ≠ s1 := by rintro t ht rfl; rw [hfresh t ht] at h1; cases h1
  have n2 : ∀ t ∈ [k, a, b, c], t ≠ s2 := by rintro t ht rfl; rw [hfresh t ht] at h2; cases h2
  simp only [List.mem_cons, List.not_mem_nil, or_false, forall_eq_or_imp, forall_eq] at n1 n2 hfresh
  simp only [List.nodup_cons, List.mem_cons, List.not_mem_nil, or_false, not_or, not_false_eq_true,
    List.nodup_nil, and_true] at hd
  obtain ⟨fk, fa, fb, fc⟩ := hfresh
  obtain ⟨n1k, n1a, n1b, n1c⟩ := n1
  obtain ⟨n2k, n2a, n2b, n2c⟩ := n2
  obtain ⟨⟨dka, dkb, dkc⟩, ⟨dab, dac⟩, dbc⟩ := hd
  have hspec : specRun nul (concat k s1 s2 a b c) sw = some (sw.put k (some ⟨x ++ y, false⟩)) := by
    simp [concat, newCopy, specRun, specStep, Spec.put, *, Ne.symm, Ne.symm n1k, Ne.symm n1a, Ne.symm n1b,
      Ne.symm n1c, Ne.symm n2k, Ne.symm n2a, Ne.symm n2b, Ne.symm n2c, Ne.symm dka, Ne.symm dkb,
      Ne.symm dkc, Ne.symm dab, Ne.symm dac, Ne.symm dbc]
    funext t
    simp only [Spec.put]
    grind
  have hav : AvoidsAll nul (concat k s1 s2 a b c) sw := by
    simp [concat, newCopy, AvoidsAll, Avoids, specStep, Spec.put, Sound, *, Ne.symm n1k, Ne.symm n1a,
      Ne.symm n1b, Ne.symm n1c, Ne.symm n2k, Ne.symm n2a, Ne.symm n2b, Ne.symm n2c, Ne.symm dka,
      Ne.symm dkb, Ne.symm dkc, Ne.symm dab, Ne.symm dac, Ne.symm dbc]
  obtain ⟨_, w', e3, e4⟩ := run_refines e2 hspec hav
  exact ⟨w, w', e1, e3, e4.shows⟩

/-- **C22, `==`.**  `s1 == s2` is true exactly when the character sequences are equal; no string
changes. -/
theorem string_eq_partial (nul : α) (ops : List (Op α)) (sw : Spec α)
    (hs : specRun nul ops (fun _ => none) = some sw) (ha : AvoidsAll nul ops (fun _ => none))
    (s1 s2 a b : Nat) (x y : List α) (h1 : sw s1 = some ⟨x, false⟩) (h2 : sw s2 = some ⟨y, false⟩)
    (fa : sw a = none) (fb : sw b = none) (hab : a ≠ b) :
    ∃ w w' r, Returns (run nul ops) World.init () w ∧ Returns (eq nul s1 s2 a b) w r w' ∧
      (r = true ↔ x = y) ∧ Shows nul w' sw := by
  obtain ⟨_, w, e1, e2⟩ := run_refines (Inv.init nul) hs ha
  have n1a : s1 ≠ a := by rintro rfl; rw [fa] at h1; cases h1
  have n1b : s1 ≠ b := by rintro rfl; rw [fb] at h1; cases h1
  have n2a : s2 ≠ a := by rintro rfl; rw [fa] at h2; cases h2
  have n2b : s2 ≠ b := by rintro rfl; rw [fb] at h2; cases h2
  have hspec : specRun nul (newCopy a s1 ++ newCopy b s2) sw =
      some ((sw.put a (some ⟨x, false⟩)).put b (some ⟨y, false⟩)) := by
    simp [newCopy, specRun, specStep, Spec.put, *, Ne.symm hab]
    funext t
    simp only [Spec.put]
    grind
  have hav : AvoidsAll nul (newCopy a s1 ++ newCopy b s2) sw := by
    simp [newCopy, AvoidsAll, Avoids]
  have hwp : wp (eq nul s1 s2 a b) (fun r w' => (r = true ↔ x = y) ∧ Inv nul w' sw) w := by
    unfold eq
    rw [wp_bind]
    refine wp_mono (run_refines e2 hspec hav) ?_
    intro _ w1 i1
    obtain ⟨v, g1, g2, g3, _⟩ := i1.obj (k := a) (s := ⟨x, false⟩) (by simp [Spec.put, hab])
    obtain ⟨u, u1, u2, u3, _⟩ := i1.obj (k := b) (s := ⟨y, false⟩) (by simp [Spec.put])
    rw [wp_bind, wp_getObj g1, wp_bind, wp_getObj u1, wp_bind, wp_lift,
      wp_of_returns (eqBody_ok (g3 rfl) (u3 rfl) g2 u2), wp_bind]
    have hspec2 : specRun nul [.drop b, .drop a] ((sw.put a (some ⟨x, false⟩)).put b (some ⟨y, false⟩)) =
        some sw := by
      simp [specRun, specStep, Spec.put, *]
      funext t
      simp only [Spec.put]
      grind
    refine wp_mono (run_refines i1 hspec2 (by simp [AvoidsAll, Avoids])) ?_
    intro _ w2 i2
    rw [wp_pure]
    exact ⟨by simp, i2⟩
  obtain ⟨r, w', e3, e4, e5⟩ := hwp
  exact ⟨w, w', r, e1, e3, e4, e5.shows⟩

/-- A state meeting the hypotheses of the C22 theorems: two live strings, one built by `+=`. -/
example : ∃ sw : Spec Nat, specRun 0 [.newC 0 [1, 2, 0], .newC 1 [3, 0], .append 0 1, .pushElem 0 0 1]
    (fun _ => none) = some sw ∧ sw 0 = some ⟨[1, 2, 3, 2], false⟩ ∧ sw 1 = some ⟨[3], false⟩ :=
  ⟨_, rfl, rfl, rfl⟩

end Verif.Str
