import Verif.StringPoolWorld

/-!
# Strings in the static pool (C106)

Vocabulary: `Verif.Spec.StringPool`.  `SPool.run` works on the bytes of the static allocator; the
meaning of a history is `Str.specRun`, which knows only lists of characters.
-/

namespace Verif.SPool

open Prog Vec Pool

variable {α : Type} [DecidableEq α] {c : Sma.Cfg} {K : Elem α} {nul : α}

/-- **C106.**  Every legal history of operations on any number of strings in a fresh pool stops for lack
of memory or returns; in the latter case every string that was not moved from shows exactly its
characters, with `c_str()` terminated by NUL inside the pool, the storage of the strings lies in the
pool, apart from each other and from the free blocks, and `free_mem_size()` is the pool size minus the
storage of the strings alive.  Missing for the full statement: the situations in which strings go wrong
with any allocator (`AvoidsAll`: C21, C22, C23). -/
theorem string_pool_partial (hc : Sma.Legal c) (hM : 2 * c.M + 8 < 2 ^ 31) (hK : 15 * K.size + 8 < 2 ^ 31)
    (ht : K.triv = true) {s0 s : Sma.St} (h0 : Returns (Sma.construct c) s0 () s) (ops : List (Str.Op α))
    {sw : Str.Spec α} (hs : Str.specRun nul ops (fun _ => none) = some sw)
    (ha : Str.AvoidsAll nul ops (fun _ => none)) :
    Faults (run .port c K nul ops) ⟨s, fun _ => none⟩ .crash ∨
    ∃ w, Returns (run .port c K nul ops) ⟨s, fun _ => none⟩ () w ∧
      Shows .port c K nul w sw ∧ Placed c K w ∧ Accounted c K w sw := by
  rcases run_pool ht hc hM hK ops (St.init h0) hs ha with h | ⟨w, h1, h3⟩
  · exact Or.inl h
  · exact Or.inr ⟨w, h1, h3.shows hc, h3.placed hc, h3.accounted hc⟩

/-- **C106** (nothing leaks).  When no string is alive any more, all memory of the pool is free. -/
theorem string_pool_returned_partial (hc : Sma.Legal c) (hM : 2 * c.M + 8 < 2 ^ 31)
    (hK : 15 * K.size + 8 < 2 ^ 31) (ht : K.triv = true) {s0 s : Sma.St}
    (h0 : Returns (Sma.construct c) s0 () s) (ops : List (Str.Op α))
    {sw : Str.Spec α} (hs : Str.specRun nul ops (fun _ => none) = some sw)
    (ha : Str.AvoidsAll nul ops (fun _ => none)) (hend : ∀ k, sw k = none) {w : PWorld}
    (hr : Returns (run .port c K nul ops) ⟨s, fun _ => none⟩ () w) :
    Returns Sma.freeMemSize w.pool (c.M : Int) w.pool := by
  rcases string_pool_partial hc hM hK ht h0 ops hs ha with h | ⟨w', h1, _, _, ks, h4, h5, h6⟩
  · unfold Faults Returns at *; rw [h] at hr; cases hr
  · obtain ⟨_, rfl⟩ := hr.det h1
    have : ks = [] := List.eq_nil_iff_forall_not_mem.2 fun k hk => (h5 k).1 hk (hend k)
    subst this
    simpa [storage] using h6

/-- **C106** (when the program stops).  Constructing a string stops the program only if no free block
has room for both storages that the constructor requests, the first one of one character; `push_back`
stops it only if the string's storage is full, and `+=` only if the result does not fit into it; writing,
moving and destroying never do. -/
theorem string_pool_stops_partial (hc : Sma.Legal c) (hM : 2 * c.M + 8 < 2 ^ 31)
    (hK : 15 * K.size + 8 < 2 ^ 31) (ht : K.triv = true) {s0 s : Sma.St}
    (h0 : Returns (Sma.construct c) s0 () s) (ops : List (Str.Op α))
    {sw : Str.Spec α} (hs : Str.specRun nul ops (fun _ => none) = some sw)
    (ha : Str.AvoidsAll nul ops (fun _ => none)) {w : PWorld}
    (hr : Returns (run .port c K nul ops) ⟨s, fun _ => none⟩ () w) :
    (∀ k b, sw k = none → Sma.FreeBlock c w.pool b → taken8 K.size 1 + taken8 K.size 15 ≤ b.2 →
      ∃ w', Returns (step .port c K nul (.new k)) w () w') ∧
    (∀ d t a b, d ≠ t → sw d = some ⟨a, false⟩ → sw t = some ⟨b, false⟩ → Str.Fits (a.length + b.length) →
      Faults (step .port c K nul (.append d t)) w .crash →
        ∃ v, w.obj d = some v ∧ v.cap < a.length + b.length + 1) ∧
    (∀ k a, sw k = some ⟨a, false⟩ → Str.Fits (a.length + 1) →
      (∀ x, Faults (step .port c K nul (.push k x)) w .crash →
        ∃ v, w.obj k = some v ∧ a.length + 1 = v.cap) ∧
      (∀ i x, i < a.length → ∃ w', Returns (step .port c K nul (.set k i x)) w () w')) ∧
    (∀ d t, sw d ≠ none → sw t ≠ none → ∃ w', Returns (step .port c K nul (.move d t)) w () w') ∧
    (∀ k, sw k ≠ none → ∃ w', Returns (step .port c K nul (.drop k)) w () w') := by
  rcases run_pool ht hc hM hK ops (St.init h0) hs ha with h | ⟨w', h1, h3⟩
  · unfold Faults Returns at *; rw [h] at hr; cases hr
  obtain ⟨_, rfl⟩ := hr.det h1
  obtain ⟨⟨f, aw, vw, hI, habs, hW⟩, _⟩ := h3
  have hex : ∀ op sw', Str.specStep nul op sw = some sw' → Str.Avoids nul op sw →
      ∃ aw', StepSim c K .nil (Lacks aw op) f w aw' (step .port c K nul op) := by
    intro op sw' hop hav
    obtain ⟨_, w1, r1, _⟩ := Str.step_refines ⟨vw, hI, habs⟩ hop hav
    exact ⟨w1, step_sim ht hc hM hK hI habs hW hop hav r1⟩
  have hgo : ∀ op sw', Str.specStep nul op sw = some sw' → Str.Avoids nul op sw → ¬ Lacks aw op →
      ∃ w', Returns (step .port c K nul op) w () w' := by
    intro op sw' h1 h2 h3
    obtain ⟨_, h⟩ := hex op sw' h1 h2
    rcases h with ⟨hl, _⟩ | ⟨pw', _, e, _⟩
    · exact absurd hl h3
    · exact ⟨_, e⟩
  have hlen : ∀ {k : Nat} {v : Vec} {a : List α}, aw.obj k = some v → sw k = some ⟨a, false⟩ →
      v.sz = a.length + 1 := by
    intro k v a hv hk
    obtain ⟨t, g1, _, _, g2⟩ := (habs k).2 _ hk
    obtain ⟨t', g3, g4, g5⟩ := WInv.fresh hI hv
    rw [g1] at g3; cases g3
    rw [g2 rfl] at g4
    have := g4.size
    simpa using this
  refine ⟨fun k b hk hb hle => ?_, fun d t a b hdt hd ht hfit hf => ?_,
    fun k a hk hfit => ⟨fun x hf => ?_, fun i x hi => ?_⟩, fun d t hd htt => ?_, fun k hk => ?_⟩
  · have hop : Str.specStep nul (.new k) sw = some (sw.put k (some ⟨[], false⟩)) := by
      simp [Str.specStep, hk]
    obtain ⟨_, w1, r1, _⟩ := Str.step_refines ⟨vw, hI, habs⟩ hop trivial
    rcases store_sim hW (WInv.old hI) (ctor_room ht hc hW.mem nul (by unfold Fit; omega) hb hle) r1 with
      ⟨h, _⟩ | ⟨pw', _, e, _⟩
    · exact h.elim
    · exact ⟨pw', e⟩
  · obtain ⟨_, h⟩ := hex (.append d t) (sw.put d (some ⟨a ++ b, false⟩))
      (by simp [Str.specStep, hd, ht, hfit])
      ⟨fun t e => by rw [hd] at e; cases e; rfl, fun t' e => by rw [ht] at e; cases e; rfl,
        fun e => absurd e hdt⟩
    rcases h with ⟨⟨v, u, hv, hu, _, hsz⟩, _⟩ | ⟨pw', _, e, _⟩
    · refine ⟨vmap f v, by rw [hW.obj d, hv]; rfl, ?_⟩
      have e1 := hlen hv hd
      have e2 := hlen hu ht
      show v.cap < _
      omega
    · unfold Faults Returns at *; rw [hf] at e; cases e
  · have hsound : Str.Sound sw k := by intro t e; rw [hk] at e; cases e; rfl
    obtain ⟨_, h⟩ := hex (.push k x) (sw.put k (some ⟨a ++ [x], false⟩))
      (by simp [Str.specStep, hk, hfit]) hsound
    rcases h with ⟨⟨v, hv, hsz⟩, _⟩ | ⟨pw', _, e, _⟩
    · refine ⟨vmap f v, by rw [hW.obj k, hv]; rfl, ?_⟩
      have := hlen hv hk
      show _ = v.cap
      omega
    · unfold Faults Returns at *; rw [hf] at e; cases e
  · exact hgo (.set k i x) (sw.put k (some ⟨a.set i x, false⟩)) (by simp [Str.specStep, hk, hi]) trivial id
  · rcases h1 : sw d with _ | sd
    · exact absurd h1 hd
    rcases h2 : sw t with _ | st
    · exact absurd h2 htt
    by_cases hdt : d = t
    · exact hgo (.move d t) sw (by simp [Str.specStep, h2, hdt]) trivial id
    · exact hgo (.move d t) ((sw.put d (some st)).put t (some ⟨[], true⟩))
        (by simp [Str.specStep, h1, h2, hdt]) trivial id
  · rcases h1 : sw k with _ | sd
    · exact absurd h1 hk
    exact hgo (.drop k) (sw.put k none) (by simp [Str.specStep, h1]) trivial id

/-- **C106** (`==`).  `s1 == s2` of two strings in the pool, with its by-value parameters `a` and `b`,
stops for lack of memory or tells whether the character sequences are equal; no string changes, and
there is as much free memory as before. -/
theorem string_pool_eq_partial (hc : Sma.Legal c) (hM : 2 * c.M + 8 < 2 ^ 31)
    (hK : 15 * K.size + 8 < 2 ^ 31) (ht : K.triv = true) {s0 s : Sma.St}
    (h0 : Returns (Sma.construct c) s0 () s) (ops : List (Str.Op α))
    {sw : Str.Spec α} (hs : Str.specRun nul ops (fun _ => none) = some sw)
    (ha : Str.AvoidsAll nul ops (fun _ => none)) {w : PWorld}
    (hr : Returns (run .port c K nul ops) ⟨s, fun _ => none⟩ () w)
    (s1 s2 a b : Nat) (x y : List α) (h1 : sw s1 = some ⟨x, false⟩) (h2 : sw s2 = some ⟨y, false⟩)
    (fa : sw a = none) (fb : sw b = none) (hab : a ≠ b) :
    Faults (eq .port c K nul s1 s2 a b) w .crash ∨
    ∃ w' r, Returns (eq .port c K nul s1 s2 a b) w r w' ∧ (r = true ↔ x = y) ∧
      Shows .port c K nul w' sw ∧ Accounted c K w' sw := by
  rcases run_pool ht hc hM hK ops (St.init h0) hs ha with h | ⟨w', e1, h3⟩
  · unfold Faults Returns at *; rw [h] at hr; cases hr
  obtain ⟨_, rfl⟩ := hr.det e1
  have n1a : s1 ≠ a := by rintro rfl; rw [fa] at h1; cases h1
  have n1b : s1 ≠ b := by rintro rfl; rw [fb] at h1; cases h1
  have n2a : s2 ≠ a := by rintro rfl; rw [fa] at h2; cases h2
  have n2b : s2 ≠ b := by rintro rfl; rw [fb] at h2; cases h2
  have hspec : Str.specRun nul (Str.newCopy a s1 ++ Str.newCopy b s2) sw =
      some ((sw.put a (some ⟨x, false⟩)).put b (some ⟨y, false⟩)) := by
    simp [Str.newCopy, Str.specRun, Str.specStep, Str.Spec.put, *, Ne.symm hab]
    funext t
    simp only [Str.Spec.put]
    grind
  have hspec2 : Str.specRun nul [.drop b, .drop a]
      ((sw.put a (some ⟨x, false⟩)).put b (some ⟨y, false⟩)) = some sw := by
    simp [Str.specRun, Str.specStep, Str.Spec.put, *]
    funext t
    simp only [Str.Spec.put]
    grind
  rcases run_pool ht hc hM hK _ h3 hspec (by simp [Str.newCopy, Str.AvoidsAll, Str.Avoids]) with hf | ⟨w1, r1, i1⟩
  · exact Or.inl (bind_faults hf)
  have i1' := i1
  obtain ⟨⟨f, aw, vw, hI, habs, hW⟩, _⟩ := i1
  obtain ⟨v, g1, g2, g3, _⟩ := Str.Inv.obj ⟨vw, hI, habs⟩ (k := a) (s := ⟨x, false⟩) (by simp [Str.Spec.put, hab])
  obtain ⟨u, u1, u2, u3, _⟩ := Str.Inv.obj ⟨vw, hI, habs⟩ (k := b) (s := ⟨y, false⟩) (by simp [Str.Spec.put])
  have hv : w1.obj a = some (vmap f v) := by rw [hW.obj a, g1]; rfl
  have hu : w1.obj b = some (vmap f u) := by rw [hW.obj b, u1]; rfl
  obtain ⟨_, hb⟩ := eqBody_pool (md := .port) hc hW.mem (Str.eqBody_ok (g3 rfl) (u3 rfl) g2 u2)
  have e : eq .port c K nul s1 s2 a b w =
      (run .port c K nul [.drop b, .drop a] >>= fun _ => pure (decide (x = y))) w1 := by
    unfold eq
    rw [bind_returns r1, bind_returns (getObj_returns hv), bind_returns (getObj_returns hu),
      bind_returns (lift_returns hb)]
  rcases run_pool ht hc hM hK _ i1' hspec2 (by simp [Str.AvoidsAll, Str.Avoids]) with hf | ⟨w2, r2, i2⟩
  · exact Or.inl (e.trans (bind_faults hf))
  · exact Or.inr ⟨w2, decide (x = y), e.trans ((bind_returns r2).trans rfl), by simp, i2.shows hc,
      i2.accounted hc⟩

/-! ## Non-vacuity -/

/-- One-byte characters in the default pool meet the hypotheses. -/
example : Sma.Legal (Sma.defaultSMA 4096) ∧ 2 * (Sma.defaultSMA 4096).M + 8 < 2 ^ 31 ∧
    15 * charElem.size + 8 < 2 ^ 31 ∧ charElem.triv = true :=
  ⟨Sma.defaultSMA_legal, by decide, by decide, rfl⟩

/-- In a fresh pool a string can be constructed, and it is empty. -/
example {s0 s : Sma.St} (h0 : Returns (Sma.construct (Sma.defaultSMA 4096)) s0 () s) :
    ∃ w v, Returns (run .port (Sma.defaultSMA 4096) charElem 0 [.new 0]) ⟨s, fun _ => none⟩ () w ∧
      w.obj 0 = some v ∧ Str.size v = 0 := by
  have hw := Sma.winv_init Sma.defaultSMA_legal h0
  have hf : Sma.FreeBlock (Sma.defaultSMA 4096) s ((Sma.defaultSMA 4096).base, (Sma.defaultSMA 4096).M) :=
    hw.1.freeBlock.2 ((Sma.flat_init _).mem_iff.2 (List.mem_singleton.2 rfl))
  obtain ⟨w, r⟩ := (string_pool_stops_partial Sma.defaultSMA_legal (by decide) (by decide) rfl h0 (K := charElem)
    (nul := 0) [] rfl trivial rfl).1 0 _ rfl hf (by decide)
  have r' : Returns (run .port (Sma.defaultSMA 4096) charElem 0 [.new 0]) ⟨s, fun _ => none⟩ () w :=
    (bind_returns r).trans rfl
  have hs : Str.specRun (0 : Byte) [.new 0] (fun _ => none) =
      some (Str.Spec.put (fun _ => none) 0 (some ⟨[], false⟩)) := rfl
  rcases string_pool_partial Sma.defaultSMA_legal (by decide) (by decide) rfl h0 (K := charElem) _ hs
    ⟨trivial, fun _ _ => trivial⟩ with h | ⟨w', h1, h2, _⟩
  · unfold Faults Returns at *; rw [h] at r'; cases r'
  · obtain ⟨_, rfl⟩ := r'.det h1
    obtain ⟨v, g1, g2⟩ := (h2 0).2 _ rfl
    exact ⟨w, v, r', g1, (g2 rfl).1⟩

/-- A history with growth, `+=`, a move and a moved-from string given a value again. -/
example : ∃ sw : Str.Spec Byte, Str.specRun 0 [.newC 0 [7, 8, 0], .new 1, .push 1 9, .append 1 0, .move 0 1, .clear 1, .drop 0]
    (fun _ => none) = some sw ∧ sw 0 = none ∧ sw 1 = some ⟨[], false⟩ ∧
    Str.AvoidsAll (0 : Byte) [.newC 0 [7, 8, 0], .new 1, .push 1 9, .append 1 0, .move 0 1, .clear 1, .drop 0]
      (fun _ => none) := by
  refine ⟨_, rfl, rfl, rfl, ?_⟩
  simp [Str.AvoidsAll, Str.Avoids, Str.specStep, Str.Spec.put, Str.cVal, Str.Sound, Str.Fits]

end Verif.SPool
