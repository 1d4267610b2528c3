import Verif.MapLemmas
import Verif.Props.AVLTree

/-!
# Properties of `Map` (C43, C44, C50)

They are about the states a program reaches by statements that meet their preconditions and are
not one of the defective uses named in `Safe`; the defective uses have their own theorems.
-/

namespace Verif.Map

open Prog Verif.Tree
open Verif.AVL (StrictWeak Equiv HoldsSet natLt natLt_strictWeak)

variable {K V : Type} {lt : K → K → Bool} {dflt : V}

/-! ## Programs run -/

/-- A statement that meets its precondition and is not a defective use runs without fault, has
the specified result and leads to a state that shows what the program means. -/
theorem map_runs_partial (hw : StrictWeak lt) {w : World K V} {sw sw' : SWorld K V} (h : Reach lt dflt w sw) (op : Op K V)
    (hs : specStep lt dflt op sw = some sw') (hsafe : Safe lt op sw) :
    ∃ w', Returns (step lt dflt op) w (specOut lt dflt op sw) w' ∧ Reach lt dflt w' sw' ∧ Shows lt dflt w' sw' := by
  obtain ⟨g, h0⟩ := h.maps hw
  obtain ⟨w', g', h1, h2, _⟩ := step_ok hw h0 hs hsafe
  exact ⟨w', h1, h.step hs hsafe h1, h2.shows hw⟩

theorem history (hw : StrictWeak lt) (ops : List (Op K V)) {w : World K V} {sw sw' : SWorld K V}
    (h : Reach lt dflt w sw) (hs : specRun lt dflt ops sw = some sw') (hsafe : SafeAll lt dflt ops sw) :
    ∃ w', Returns (run lt dflt ops) w () w' ∧ Reach lt dflt w' sw' ∧ Shows lt dflt w' sw' := by
  induction ops generalizing w sw with
  | nil =>
    cases hs
    obtain ⟨g, h0⟩ := h.maps hw
    exact ⟨w, rfl, h, h0.shows hw⟩
  | cons op ops ih =>
    simp only [specRun, Option.bind_eq_some_iff] at hs
    obtain ⟨sw1, h1, h2⟩ := hs
    obtain ⟨w1, r1, r2, _⟩ := map_runs_partial hw h op h1 hsafe.1
    obtain ⟨w2, r3, r4⟩ := ih r2 h2 (hsafe.2 _ h1)
    refine ⟨w2, ?_, r4⟩
    unfold Returns
    show (step lt dflt op >>= fun _ => run lt dflt ops) w = _
    rw [bind_returns r1]; exact r3

/-! ## Lists of pairs as partial functions -/

theorem same_iff {a b : K} : same lt a b = true ↔ Equiv lt a b := by simp [same, Equiv]

theorem same_congr (hw : StrictWeak lt) {a b : K} (h : same lt a b = true) (c : K) : same lt a c = same lt b c := by
  have h := same_iff.1 h
  have h' : Equiv lt b a := ⟨h.2, h.1⟩
  have e1 : lt a c = lt b c := by
    cases c1 : lt a c with
    | true => exact (hw.lt_of_equiv h' c1).symm
    | false =>
      cases c2 : lt b c with
      | false => rfl
      | true => rw [hw.lt_of_equiv h c2] at c1; cases c1
  have e2 : lt c a = lt c b := by
    cases c1 : lt c a with
    | true => exact (hw.gt_of_equiv h' c1).symm
    | false =>
      cases c2 : lt c b with
      | false => rfl
      | true => rw [hw.gt_of_equiv h c2] at c1; cases c1
  simp [same, e1, e2]

theorem same_comm (a b : K) : same lt a b = same lt b a := by simp [same, Bool.and_comm]

/-- Ascending keys. -/
abbrev Asc (lt : K → K → Bool) (l : List (K × V)) : Prop := AVL.Ascending (byKey lt) l

theorem value_iff (hw : StrictWeak lt) {l : List (K × V)} (h : Asc lt l) {key : K} {v : V} :
    value lt l key = some v ↔ ∃ e ∈ l, same lt key e.1 = true ∧ e.2 = v := by
  unfold value
  rw [Option.map_eq_some_iff]
  constructor
  · rintro ⟨e, h1, h2⟩
    exact ⟨e, List.mem_of_find?_eq_some h1, List.find?_some (p := fun e : K × V => same lt key e.1) h1, h2⟩
  · rintro ⟨e, h1, h2, h3⟩
    refine ⟨e, ?_, h3⟩
    obtain ⟨xs, ys, rfl⟩ := List.append_of_mem h1
    exact (AVL.split_spec (x := (key, e.2)) (byKey_weak hw) h (same_iff.1 h2)).2.2.1

theorem value_none {l : List (K × V)} {key : K} : value lt l key = none ↔ has lt l key = false := by
  unfold value has
  rw [Option.map_eq_none_iff, List.find?_eq_none, List.any_eq_false]

theorem ext_value {f : Option V} {l : List (K × V)} (hw : StrictWeak lt) (h : Asc lt l) {key : K}
    (hf : ∀ v, f = some v ↔ ∃ e ∈ l, same lt key e.1 = true ∧ e.2 = v) : value lt l key = f := by
  cases hx : value lt l key with
  | none =>
    cases hy : f with
    | none => rfl
    | some v =>
      have := (value_iff hw h).2 ((hf v).1 hy)
      rw [hx] at this; cases this
  | some v => exact ((hf v).2 ((value_iff hw h).1 hx)).symm

theorem mem_with (hw : StrictWeak lt) {l : List (K × V)} {key : K} {v : V} (hp : has lt l key = false) (e : K × V) :
    e ∈ with_ lt l key v ↔ e = (key, v) ∨ e ∈ l :=
  AVL.mem_with (lt := byKey lt) (byKey_weak hw) (x := (key, v)) (AVL.not_any.2 hp) e

theorem value_with (hw : StrictWeak lt) {l : List (K × V)} (h : Asc lt l) {key : K} {v : V} (hp : has lt l key = false) (x : K) :
    value lt (with_ lt l key v) x = change lt (value lt l) key (some v) x := by
  refine ext_value hw (AVL.with_asc (byKey_weak hw) (x := (key, v)) h) fun u => ?_
  have hm : (∃ e ∈ with_ lt l key v, same lt x e.1 = true ∧ e.2 = u) ↔
      ∃ e, (e = (key, v) ∨ e ∈ l) ∧ same lt x e.1 = true ∧ e.2 = u :=
    ⟨fun ⟨e, a, b⟩ => ⟨e, (mem_with hw hp e).1 a, b⟩, fun ⟨e, a, b⟩ => ⟨e, (mem_with hw hp e).2 a, b⟩⟩
  unfold change
  refine Iff.trans ?_ hm.symm
  cases c : same lt key x with
  | true =>
    simp only [if_true, Option.some.injEq]
    constructor
    · rintro rfl; exact ⟨_, Or.inl rfl, by rw [same_comm]; exact c, rfl⟩
    · rintro ⟨e, rfl | he, h2, h3⟩
      · exact h3
      · rw [← same_congr hw c] at h2
        have : has lt l key = true := by unfold has; rw [List.any_eq_true]; exact ⟨e, he, h2⟩
        rw [hp] at this; cases this
  | false =>
    simp only [Bool.false_eq_true, if_false, value_iff hw h]
    constructor
    · rintro ⟨e, he, h2⟩; exact ⟨e, Or.inr he, h2⟩
    · rintro ⟨e, rfl | he, h2, h3⟩
      · rw [same_comm, c] at h2; cases h2
      · exact ⟨e, he, h2, h3⟩

theorem value_without (hw : StrictWeak lt) {l : List (K × V)} (h : Asc lt l) {key : K} (x : K) :
    value lt (without lt l key) x = change lt (value lt l) key none x := by
  refine ext_value hw (h.filter _) fun u => ?_
  unfold change
  simp only [List.mem_filter, Bool.not_eq_true']
  cases c : same lt key x with
  | true =>
    simp only [if_true, reduceCtorEq, false_iff]
    rintro ⟨e, ⟨_, he⟩, h2, _⟩
    rw [same_congr hw c, h2] at he; cases he
  | false =>
    simp only [Bool.false_eq_true, if_false, value_iff hw h]
    constructor
    · rintro ⟨e, he, h2, h3⟩
      refine ⟨e, ⟨he, ?_⟩, h2, h3⟩
      cases c' : same lt key e.1 with
      | false => rfl
      | true => rw [same_congr hw c', same_comm, h2] at c; cases c
    · rintro ⟨e, ⟨he, _⟩, h2⟩; exact ⟨e, he, h2⟩

theorem value_write (hw : StrictWeak lt) {l : List (K × V)} (h : Asc lt l) {key : K} {v : V} (hp : has lt l key = true) (x : K) :
    value lt (write lt l key v) x = change lt (value lt l) key (some v) x := by
  refine ext_value hw (asc_write h) fun u => ?_
  unfold change write
  have hx : ∀ e : K × V, same lt x e.1 = true → same lt key e.1 = same lt key x := fun e he => by
    rw [same_comm key e.1, same_comm key x]; exact (same_congr hw he key).symm
  cases c : same lt key x with
  | true =>
    simp only [if_true, Option.some.injEq, List.mem_map]
    constructor
    · rintro rfl
      unfold has at hp
      rw [List.any_eq_true] at hp
      obtain ⟨e, he, h2⟩ := hp
      exact ⟨(e.1, v), ⟨e, he, by rw [if_pos h2]⟩, by rw [← same_congr hw c]; exact h2, rfl⟩
    · rintro ⟨_, ⟨e, he, rfl⟩, h2, h3⟩
      by_cases c' : same lt key e.1 = true
      · rw [if_pos c'] at h3; exact h3
      · rw [if_neg c'] at h2
        exact absurd (by rw [hx e h2]; exact c) c'
  | false =>
    simp only [Bool.false_eq_true, if_false, value_iff hw h, List.mem_map]
    constructor
    · rintro ⟨e, he, h2, h3⟩
      exact ⟨e, ⟨e, he, by rw [if_neg (by rw [hx e h2, c]; simp)]⟩, h2, h3⟩
    · rintro ⟨_, ⟨e, he, rfl⟩, h2, h3⟩
      by_cases c' : same lt key e.1 = true
      · rw [if_pos c'] at h2
        rw [hx e h2, c] at c'; cases c'
      · rw [if_neg c'] at h2 h3
        exact ⟨e, he, h2, h3⟩

theorem asc_touch (hw : StrictWeak lt) {l : List (K × V)} (h : Asc lt l) (key : K) : Asc lt (touch lt dflt l key) := by
  unfold touch
  split
  · exact h
  · exact AVL.with_asc (byKey_weak hw) (x := (key, dflt)) h

theorem value_touched (hw : StrictWeak lt) {l : List (K × V)} (h : Asc lt l) (key x : K) :
    value lt (touch lt dflt l key) x = change lt (value lt l) key (some ((value lt l key).getD dflt)) x := by
  unfold touch
  split
  · rename_i hp
    unfold change
    split
    · rename_i c
      have : value lt l key ≠ none := by rw [Ne, value_none, hp]; simp
      obtain ⟨v, hv⟩ := Option.ne_none_iff_exists'.1 this
      rw [hv]
      obtain ⟨e, e1, e2, e3⟩ := (value_iff hw h).1 hv
      exact (value_iff hw h).2 ⟨e, e1, by rw [← same_congr hw c]; exact e2, e3⟩
    · rfl
  · rename_i hp
    have hp : has lt l key = false := by simpa using hp
    rw [value_with hw h hp, value_none.2 hp]; rfl

theorem has_touched (hw : StrictWeak lt) {l : List (K × V)} (key' key : K) (h : has lt l key = true) :
    has lt (touch lt dflt l key') key = true := by
  unfold touch
  split
  · exact h
  · rename_i hp
    unfold has at h ⊢
    rw [List.any_eq_true] at *
    obtain ⟨e, h1, h2⟩ := h
    exact ⟨e, (mem_with hw (by simpa using hp) e).2 (Or.inr h1), h2⟩

theorem change_twice (f : K → Option V) (key : K) (u v : Option V) :
    change lt (change lt f key u) key v = change lt f key v := by
  funext x; unfold change; split <;> rfl

/-- The list meaning agrees with the function meaning. -/
structure Agree (lt : K → K → Bool) (sw : SWorld K V) (fw : FWorld K V) : Prop where
  asc : ∀ k l, sw k = some l → Asc lt l
  val : ∀ k l, sw k = some l → value lt l = fw k
  dead : ∀ k, sw k = none → fw k = fun _ => none

theorem Agree.put {sw : SWorld K V} {fw : FWorld K V} (h : Agree lt sw fw) {k : Nat} {l : List (K × V)} {f : K → Option V}
    (h1 : Asc lt l) (h2 : value lt l = f) : Agree lt (sw.put k (some l)) (fw.put k f) := by
  refine ⟨fun j m hj => ?_, fun j m hj => ?_, fun j hj => ?_⟩ <;> simp only [SWorld.put, FWorld.put] at hj ⊢
  · split at hj
    · cases hj; exact h1
    · exact h.asc j m hj
  · split at hj <;> rename_i c
    · cases hj; rw [if_pos c]; exact h2
    · rw [if_neg c]; exact h.val j m hj
  · split at hj <;> rename_i c
    · cases hj
    · rw [if_neg c]; exact h.dead j hj

theorem Agree.drop {sw : SWorld K V} {fw : FWorld K V} (h : Agree lt sw fw) (k : Nat) :
    Agree lt (sw.put k none) (fw.put k fun _ => none) := by
  refine ⟨fun j m hj => ?_, fun j m hj => ?_, fun j hj => ?_⟩ <;> simp only [SWorld.put, FWorld.put] at hj ⊢
  · split at hj
    · cases hj
    · exact h.asc j m hj
  · split at hj <;> rename_i c
    · cases hj
    · rw [if_neg c]; exact h.val j m hj
  · split at hj <;> rename_i c
    · rw [if_pos c]
    · rw [if_neg c]; exact h.dead j hj

theorem Agree.touch (hw : StrictWeak lt) {sw : SWorld K V} {fw : FWorld K V} (h : Agree lt sw fw) {k : Nat} {l : List (K × V)}
    (hk : sw k = some l) (key : K) :
    Agree lt (sw.put k (some (touch lt dflt l key))) (fw.put k (change lt (fw k) key (some ((fw k key).getD dflt)))) := by
  refine h.put (asc_touch hw (h.asc k l hk) key) ?_
  funext x
  rw [value_touched hw (h.asc k l hk), h.val k l hk]

theorem Agree.write (hw : StrictWeak lt) {sw : SWorld K V} {fw : FWorld K V} (h : Agree lt sw fw) {k : Nat} {l : List (K × V)}
    (hk : sw k = some l) (key : K) (hp : has lt l key = true) (v : V) :
    Agree lt (sw.put k (some (write lt l key v))) (fw.put k (change lt (fw k) key (some v))) := by
  refine h.put (asc_write (h.asc k l hk)) ?_
  funext x
  rw [value_write hw (h.asc k l hk) hp, h.val k l hk]

theorem Agree.step (hw : StrictWeak lt) {op : Op K V} {sw sw' : SWorld K V} {fw : FWorld K V} (h : Agree lt sw fw)
    (hs : specStep lt dflt op sw = some sw') : Agree lt sw' (fStep lt dflt op fw) := by
  have nil : Asc lt ([] : List (K × V)) ∧ value lt ([] : List (K × V)) = fun _ => none := ⟨List.Pairwise.nil, rfl⟩
  cases op with
  | new k =>
    simp only [specStep] at hs
    split at hs
    · cases hs; exact h.put nil.1 nil.2
    · cases hs
  | push k key v =>
    simp only [specStep, Option.bind_eq_some_iff] at hs
    obtain ⟨l, hk, hs⟩ := hs
    split at hs
    · cases hs
    · rename_i hp
      cases hs
      refine h.put (AVL.with_asc (byKey_weak hw) (x := (key, v)) (h.asc k l hk)) ?_
      funext x
      rw [value_with hw (h.asc k l hk) (by simpa using hp), h.val k l hk]
  | pop k key =>
    simp only [specStep, Option.bind_eq_some_iff] at hs
    obtain ⟨l, hk, hs⟩ := hs
    cases hs
    refine h.put ((h.asc k l hk).filter _) ?_
    funext x
    rw [value_without hw (h.asc k l hk), h.val k l hk]
  | get k key =>
    simp only [specStep, Option.bind_eq_some_iff] at hs
    obtain ⟨l, hk, hs⟩ := hs
    cases hs
    exact h.touch hw hk key
  | set k key v =>
    simp only [specStep, Option.bind_eq_some_iff] at hs
    obtain ⟨l, hk, hs⟩ := hs
    cases hs
    refine h.put (asc_write (asc_touch hw (h.asc k l hk) key)) ?_
    funext x
    rw [value_write hw (asc_touch hw (h.asc k l hk) key) (has_touch hw l key)]
    unfold change
    split
    · rfl
    · rename_i c
      rw [value_touched hw (h.asc k l hk), h.val k l hk]
      unfold change; rw [if_neg c]
  | assign k key j key' =>
    simp only [specStep, Option.bind_eq_some_iff] at hs
    obtain ⟨l, hk, l1, hj, l2, hk2, hs⟩ := hs
    cases hs
    have h1 := h.touch (dflt := dflt) hw hk key
    have h2 := h1.touch (dflt := dflt) hw hj key'
    have hp : has lt l2 key = true := by
      simp only [SWorld.put] at hk2 hj
      split at hk2
      · rename_i e
        cases hk2
        rw [if_pos e.symm] at hj
        cases hj
        exact has_touched hw _ _ (has_touch hw l key)
      · rw [if_pos (by simp)] at hk2
        cases hk2
        exact has_touch hw l key
    have h3 := h2.write hw hk2 key hp ((value lt (Map.touch lt dflt l1 key') key').getD dflt)
    have hv : (value lt (Map.touch lt dflt l1 key') key').getD dflt =
        ((fw.put k (change lt (fw k) key (some ((fw k key).getD dflt)))) j key').getD dflt := by
      rw [value_touch hw, h1.val j l1 hj]
    simp only [fStep]
    rw [← hv]
    rw [← hv] at h3
    exact h3
  | clear k =>
    simp only [specStep, Option.bind_eq_some_iff] at hs
    obtain ⟨l, hk, hs⟩ := hs
    cases hs
    exact h.put nil.1 nil.2
  | copy d s =>
    simp only [specStep, Option.bind_eq_some_iff] at hs
    obtain ⟨_, _, l, hk, hs⟩ := hs
    cases hs
    exact h.put (h.asc s l hk) (h.val s l hk)
  | copyNew d s =>
    simp only [specStep] at hs
    split at hs
    · obtain ⟨l, hk, hs⟩ := Option.bind_eq_some_iff.1 hs
      cases hs
      exact h.put (h.asc s l hk) (h.val s l hk)
    · cases hs
  | drop k =>
    simp only [specStep, Option.bind_eq_some_iff] at hs
    obtain ⟨l, hk, hs⟩ := hs
    cases hs
    exact h.drop k

theorem Agree.run (hw : StrictWeak lt) (ops : List (Op K V)) {sw sw' : SWorld K V} {fw : FWorld K V} (h : Agree lt sw fw)
    (hs : specRun lt dflt ops sw = some sw') : Agree lt sw' (fRun lt dflt ops fw) := by
  induction ops generalizing sw fw with
  | nil => cases hs; exact h
  | cons op ops ih =>
    simp only [specRun, Option.bind_eq_some_iff] at hs
    obtain ⟨sw1, h1, h2⟩ := hs
    exact ih (h.step hw h1) h2

/-! ## C50 -/

/-- **C50.**  After any program without precondition failure and defective use, started with no
object alive: every object that is alive has strictly ascending keys (so no key twice), `size()` is
their number, iteration (over a non-empty map) visits exactly these pairs in key order, `find`
tells for every key whether `fRun` — the map as a partial function, changed one statement at a
time — has a value for it and shows that value, and reading `m[key]` results in that value or, if
there is none, in the default value, which it then inserts.  Missing for C50: iteration over an
empty map (`map_iteration_empty_faults`). -/
theorem map_lookup_partial (hw : StrictWeak lt) (ops : List (Op K V)) {sw : SWorld K V}
    (hs : specRun lt dflt ops (fun _ => none) = some sw) (hsafe : SafeAll lt dflt ops (fun _ => none)) :
    ∃ w, Returns (run lt dflt ops) (World.init : World K V) () w ∧
      ∀ k, (sw k = none ∧ w.obj k = none) ∨ ∃ l, sw k = some l ∧
        l.Pairwise (fun a b => lt a.1 b.1 = true) ∧
        Returns (on k getSize) w l.length w ∧
        (l ≠ [] → Returns (on k AVL.elements) w l w) ∧
        ∀ key,
          (∀ v, fRun lt dflt ops (fun _ _ => none) k key = some v →
            (∃ key', Equiv lt key key' ∧ (key', v) ∈ l ∧
              Returns (on k (do let it ← find lt dflt key; AVL.readIt it)) w (some (key', v)) w) ∧
            Returns (step lt dflt (.get k key)) w (some v) w) ∧
          (fRun lt dflt ops (fun _ _ => none) k key = none →
            (∀ e ∈ l, ¬ Equiv lt key e.1) ∧ Returns (on k (find lt dflt key)) w none w ∧
            ∃ w', Returns (step lt dflt (.get k key)) w (some dflt) w' ∧
              Shows lt dflt w' (sw.put k (some (with_ lt l key dflt)))) := by
  obtain ⟨w, h1, h2, h3⟩ := history hw ops .init hs hsafe
  have ha := Agree.run hw ops (fw := fun _ _ => none) ⟨fun _ _ e => (by cases e), fun _ _ e => (by cases e), fun _ _ => rfl⟩ hs
  obtain ⟨g, hm⟩ := h2.maps hw
  refine ⟨w, h1, fun k => ?_⟩
  cases hk : sw k with
  | none => exact Or.inl ⟨rfl, (h3 k).1 hk⟩
  | some l =>
    obtain ⟨s1, s2, _, s4, s5⟩ := (h3 k).2 l hk
    refine Or.inr ⟨l, rfl, s1, s2, s4, fun key => ⟨fun v hv => ?_, fun hv => ?_⟩⟩
    · rw [← ha.val k l hk] at hv
      obtain ⟨e, e1, e2⟩ := Option.map_eq_some_iff.1 hv
      have hmem := List.mem_of_find?_eq_some e1
      have heq : same lt key e.1 = true := List.find?_some (p := fun e : K × V => same lt key e.1) e1
      have hp : has lt l key = true := by
        cases hp : has lt l key with
        | true => rfl
        | false => rw [value_none.2 hp] at hv; cases hv
      refine ⟨⟨e.1, same_iff.1 heq, by rw [← e2]; exact hmem, ?_⟩, ?_⟩
      · have := s5 key
        rw [e1] at this
        rw [← e2]; exact this
      · obtain ⟨p, p1, p2⟩ := find_present (dflt := dflt) hw hm hk key hp
        have ⟨t, e', q1, q2, _⟩ := p2
        have hi : Returns (on k (index lt dflt key)) w (some p) w :=
          on_bind p1 (on_ite (fun c => by cases c) fun _ => on_bind p1 (on_bind (deref_at hm q1 q2) (on_pure (alive hm hk))))
        have hr := readVal_ok hw hm hk p2 dflt
        rw [hv] at hr
        unfold Returns
        simp only [step]
        rw [bind_returns hi, bind_returns hr]; rfl
    · rw [← ha.val k l hk] at hv
      have hp := value_none.1 hv
      refine ⟨fun e he c => ?_, find_absent hw hm hk key hp, ?_⟩
      · unfold has at hp
        rw [List.any_eq_false] at hp
        exact hp e he (same_iff.2 c)
      · obtain ⟨w', r1, _, r3⟩ := map_runs_partial hw h2 (.get k key)
          (sw' := sw.put k (some (touch lt dflt l key))) (by simp [specStep, hk]) trivial
        have e1 : touch lt dflt l key = with_ lt l key dflt := by simp [touch, hp]
        rw [e1] at r3
        simp only [specOut, hk, Option.bind_some, hv, Option.getD_none] at r1
        exact ⟨w', r1, r3⟩

/-! The examples below use this program (keys and values are numbers, the default value is 0). -/

def exOps : List (Op Nat Nat) :=
  [.new 0, .set 0 5 50, .set 0 2 20, .push 0 8 80, .get 0 3, .set 0 5 51, .assign 0 9 0 8, .pop 0 2, .new 1, .set 1 7 70,
    .assign 1 6 0 5, .pop 1 7, .copy 0 0, .new 2, .copyNew 3 2]

theorem exOps_meaning : ∃ sw, specRun natLt 0 exOps (fun _ => none) = some sw ∧
    sw 0 = some [(3, 0), (5, 51), (8, 80), (9, 80)] ∧ sw 1 = some [(6, 51)] ∧ sw 2 = some [] ∧ sw 3 = some [] ∧ sw 4 = none ∧
    SafeAll natLt 0 exOps (fun _ => none) := by
  refine ⟨_, rfl, rfl, rfl, rfl, rfl, rfl, ?_⟩
  repeat' first
    | (refine ⟨?_, fun w' e => ?_⟩; rotate_left; have e : some _ = some w' := e; cases e)
    | trivial
    | (intro l hl; have hl : some _ = some l := hl; cases hl; decide)
    | exact Or.inl rfl
    | rfl

example : fRun natLt 0 exOps (fun _ _ => none) 0 9 = some 80 ∧ fRun natLt 0 exOps (fun _ _ => none) 0 2 = none ∧
    fRun natLt 0 exOps (fun _ _ => none) 1 6 = some 51 := ⟨rfl, rfl, rfl⟩

theorem exReach : ∃ (w : World Nat Nat) (sw : SWorld Nat Nat), Reach natLt 0 w sw ∧
    sw 0 = some [(3, 0), (5, 51), (8, 80), (9, 80)] ∧ sw 1 = some [(6, 51)] ∧ sw 2 = some [] ∧ sw 3 = some [] ∧ sw 4 = none := by
  obtain ⟨sw, h1, h2, h3, h4, h5, h6, h7⟩ := exOps_meaning
  obtain ⟨w, _, h8, _⟩ := history natLt_strictWeak exOps .init h1 h7
  exact ⟨w, sw, h8, h2, h3, h4, h5, h6⟩

/-- **C50, failing case.**  `push` of a key that is present stops at an assertion (nothing is
overwritten). -/
theorem map_push_dup_faults (hw : StrictWeak lt) {w : World K V} {sw : SWorld K V} (h : Reach lt dflt w sw) {k : Nat}
    {l : List (K × V)} (hk : sw k = some l) (key : K) (v : V) (hx : ∃ e ∈ l, Equiv lt key e.1) :
    Faults (on k (push lt (key, v))) w .assert := by
  obtain ⟨g, hm⟩ := h.maps hw
  obtain ⟨t, ht, rfl⟩ := HoldsSet.get hm.val hk
  have hf : (AVL.fFind (byKey lt) (key, v) t).isSome := by
    rw [← AVL.any_find (byKey_weak hw) (hm.holds.good k t ht).2, List.any_eq_true]
    obtain ⟨e, h1, h2⟩ := hx
    exact ⟨e, h1, AVL.same_iff.2 h2⟩
  obtain ⟨z, hz⟩ := Option.isSome_iff_exists.1 hf
  exact on_faults (hm.holds.obj k t ht) (AVL.push_dup (hm.holds.load ht) hz)

/-- **C50, failing case.**  `pop` of an absent key of a non-empty map dereferences a null
pointer. -/
theorem map_pop_absent_faults (hw : StrictWeak lt) {w : World K V} {sw : SWorld K V} (h : Reach lt dflt w sw) {k : Nat}
    {l : List (K × V)} (hk : sw k = some l) (hn : l ≠ []) (key : K) (hx : ∀ e ∈ l, ¬ Equiv lt key e.1) :
    Faults (on k (pop lt dflt key)) w .nullDeref := by
  obtain ⟨g, hm⟩ := h.maps hw
  obtain ⟨t, ht, rfl⟩ := HoldsSet.get hm.val hk
  have hf := (AVL.find_none (byKey_weak hw) (x := (key, dflt)) (hm.holds.good k t ht).2).2 hx
  refine on_faults (hm.holds.obj k t ht) (AVL.pop_absent (x := (key, dflt)) (hm.holds.load ht) hf rfl ?_)
  intro e
  have : t.count = 0 := e
  rw [AVL.count_items, List.length_eq_zero_iff] at this
  exact hn (by rw [AVL.vals_eq, this]; rfl)

/-- **C50, failing case.**  `begin()` of an empty map dereferences a null pointer. -/
theorem map_iteration_empty_faults (hw : StrictWeak lt) {w : World K V} {sw : SWorld K V} (h : Reach lt dflt w sw) {k : Nat}
    (hk : sw k = some []) : Faults (on k (begin_ .ino)) w .nullDeref ∧ Faults (on k AVL.elements) w .nullDeref := by
  obtain ⟨g, hm⟩ := h.maps hw
  obtain ⟨t, ht, e⟩ := HoldsSet.get hm.val hk
  rw [AVL.vals_eq_nil] at e
  subst e
  exact ⟨on_faults (hm.holds.obj k _ ht) (begin_null rfl (by simp)), on_faults (hm.holds.obj k _ ht) (AVL.begin_empty rfl)⟩

example : ∃ (w : World Nat Nat) (sw : SWorld Nat Nat) (l : List (Nat × Nat)), Reach natLt 0 w sw ∧ sw 0 = some l ∧ l ≠ [] ∧
    (∃ e ∈ l, Equiv natLt 5 e.1) ∧ (∀ e ∈ l, ¬ Equiv natLt 6 e.1) ∧ sw 2 = some [] := by
  obtain ⟨w, sw, h, h0, h1, h2, _⟩ := exReach
  exact ⟨w, sw, _, h, h0, by simp, ⟨(5, 51), by simp, by simp [Equiv, natLt]⟩, by simp [Equiv, natLt], h2⟩

/-- **C50, references stay valid.**  A reference obtained from `m[key]` still refers to the value
of that key after any further statements, on this or other maps, that do not remove the key:
reading it reads the current value and writing it writes `m[key]`. -/
theorem map_reference_stable_partial (hw : StrictWeak lt) {w : World K V} {sw : SWorld K V} (h : Reach lt dflt w sw) {k : Nat}
    {l : List (K × V)} (hk : sw k = some l) (key : K) (more : List (Op K V)) (hops : ∀ op ∈ more, Keeps lt k key op)
    {sw' : SWorld K V} {l' : List (K × V)} (hs : specRun lt dflt more (sw.put k (some (touch lt dflt l key))) = some sw')
    (hsafe : SafeAll lt dflt more (sw.put k (some (touch lt dflt l key)))) (hk' : sw' k = some l') :
    ∃ p w1 w2, Returns (on k (index lt dflt key)) w p w1 ∧ Returns (run lt dflt more) w1 () w2 ∧
      (∃ v, value lt l' key = some v ∧ Returns (on k (readVal p)) w2 v w2) ∧
      ∀ v, ∃ w3, Returns (on k (writeVal p v)) w2 () w3 ∧ Shows lt dflt w3 (sw'.put k (some (write lt l' key v))) := by
  obtain ⟨g, hm⟩ := h.maps hw
  obtain ⟨w1, g1, p, h1, h2, h3, _⟩ := index_ok (dflt := dflt) hw hm hk key
  have key2 : ∀ {swa : SWorld K V} {wa ga}, Maps lt wa swa ga → AtKey lt ga k key p → specRun lt dflt more swa = some sw' →
      SafeAll lt dflt more swa →
      ∃ w2 g2, Returns (run lt dflt more) wa () w2 ∧ Maps lt w2 sw' g2 ∧ AtKey lt g2 k key p := by
    clear hs hsafe h2 h3 h1
    induction more with
    | nil => intro swa wa ga a b c _; cases c; exact ⟨wa, ga, rfl, a, b⟩
    | cons op more ih =>
      intro swa wa ga a b c d
      simp only [specRun, Option.bind_eq_some_iff] at c
      obtain ⟨swb, c1, c2⟩ := c
      obtain ⟨wb, gb, f1, f2, f3⟩ := step_ok hw a c1 d.1
      obtain ⟨w2, g2, f4, f5, f6⟩ := ih (fun op hop => hops op (List.mem_cons_of_mem _ hop)) f2
        (f3 _ _ _ b (hops _ (List.mem_cons_self ..))) c2 (d.2 _ c1)
      refine ⟨w2, g2, ?_, f5, f6⟩
      unfold Returns
      show (step lt dflt op >>= fun _ => run lt dflt more) wa = _
      rw [bind_returns f1]; exact f4
  obtain ⟨w2, g2, h4, h5, h6⟩ := key2 h2 h3 hs hsafe
  refine ⟨some p, w1, w2, h1, h4, ?_, fun v => ?_⟩
  · obtain ⟨t, e, e1, e2, e3⟩ := h6
    obtain ⟨t', ht, rfl⟩ := HoldsSet.get h5.val hk'
    rw [e1] at ht
    cases ht
    have hv : value lt (AVL.vals t) key = some e.2 := by
      refine (value_iff hw (h5.holds.good k t e1).2).2 ⟨e, ?_, same_iff.2 e3, rfl⟩
      rw [AVL.vals_eq]; exact List.mem_map.2 ⟨_, e2, rfl⟩
    have hr := readVal_ok hw h5 hk' ⟨t, e, e1, e2, e3⟩ dflt
    rw [hv] at hr
    exact ⟨e.2, hv, hr⟩
  · obtain ⟨w3, g3, h7, h8, _⟩ := writeVal_ok hw h5 hk' h6 v
    exact ⟨w3, h7, h8.shows hw⟩

example : ∃ (w : World Nat Nat) (sw sw' : SWorld Nat Nat) (l l' : List (Nat × Nat)), Reach natLt 0 w sw ∧ sw 1 = some l ∧
    specRun natLt 0 [.push 1 1 10, .get 1 2, .push 1 3 30, .set 1 4 7, .pop 1 3, .assign 2 1 1 4, .clear 0]
      (sw.put 1 (some (touch natLt 0 l 4))) = some sw' ∧
    SafeAll natLt 0 [.push 1 1 10, .get 1 2, .push 1 3 30, .set 1 4 7, .pop 1 3, .assign 2 1 1 4, .clear 0]
      (sw.put 1 (some (touch natLt 0 l 4))) ∧
    (∀ op ∈ [.push 1 1 10, .get 1 2, .push 1 3 30, .set 1 4 7, .pop 1 3, .assign 2 1 1 4, .clear 0], Keeps (V := Nat) natLt 1 4 op) ∧
    sw' 1 = some l' ∧ l' = [(1, 10), (2, 0), (4, 7), (6, 51)] := by
  obtain ⟨sw, h1, h2, h3, h4, h5, h6, h7⟩ := exOps_meaning
  obtain ⟨w, _, h8, _⟩ := history natLt_strictWeak exOps .init h1 h7
  refine ⟨w, sw, ?_⟩
  cases h1
  refine ⟨_, _, _, h8, h3, rfl, ?_, ?_, rfl, rfl⟩
  · repeat' first
      | (refine ⟨?_, fun w' e => ?_⟩; rotate_left; have e : some _ = some w' := e; cases e)
      | trivial
      | (intro l hl; have hl : some _ = some l := hl; cases hl; decide)
  · simp [Keeps, same, natLt]

/-- **C50, references stay valid**, for statements none of which is a defective use in any state:
no `pop` and no copy. -/
theorem map_reference_stable (hw : StrictWeak lt) {w : World K V} {sw : SWorld K V} (h : Reach lt dflt w sw) {k : Nat}
    {l : List (K × V)} (hk : sw k = some l) (key : K) (more : List (Op K V))
    (hops : ∀ op ∈ more, (∃ j, op = .new j) ∨ (∃ j key v, op = .push j key v) ∨ (∃ j key, op = .get j key) ∨
      (∃ j key v, op = .set j key v) ∨ (∃ j key i key', op = .assign j key i key') ∨
      ∃ j, j ≠ k ∧ (op = .clear j ∨ op = .drop j)) {sw' : SWorld K V} {l' : List (K × V)}
    (hs : specRun lt dflt more (sw.put k (some (touch lt dflt l key))) = some sw') (hk' : sw' k = some l') :
    ∃ p w1 w2, Returns (on k (index lt dflt key)) w p w1 ∧ Returns (run lt dflt more) w1 () w2 ∧
      (∃ v, value lt l' key = some v ∧ Returns (on k (readVal p)) w2 v w2) ∧
      ∀ v, ∃ w3, Returns (on k (writeVal p v)) w2 () w3 ∧ Shows lt dflt w3 (sw'.put k (some (write lt l' key v))) := by
  refine map_reference_stable_partial hw h hk key more (fun op hop => ?_) hs ?_ hk'
  · rcases hops op hop with ⟨_, rfl⟩ | ⟨_, _, _, rfl⟩ | ⟨_, _, rfl⟩ | ⟨_, _, _, rfl⟩ | ⟨_, _, _, _, rfl⟩ | ⟨_, h, rfl | rfl⟩ <;>
      first
      | trivial
      | exact h
  · clear hs
    generalize sw.put k (some (touch lt dflt l key)) = sw0
    induction more generalizing sw0 with
    | nil => trivial
    | cons op more ih =>
      refine ⟨?_, fun w' _ => ih (fun op hop => hops op (List.mem_cons_of_mem _ hop)) w'⟩
      rcases hops op (List.mem_cons_self ..) with
        ⟨_, rfl⟩ | ⟨_, _, _, rfl⟩ | ⟨_, _, rfl⟩ | ⟨_, _, _, rfl⟩ | ⟨_, _, _, _, rfl⟩ | ⟨_, _, rfl | rfl⟩ <;> trivial

example : ∃ (w : World Nat Nat) (sw sw' : SWorld Nat Nat) (l l' : List (Nat × Nat)), Reach natLt 0 w sw ∧ sw 1 = some l ∧
    specRun natLt 0 [.push 1 1 10, .get 1 2, .push 1 3 30, .set 1 4 7, .get 2 1, .drop 0]
      (sw.put 1 (some (touch natLt 0 l 4))) = some sw' ∧
    sw' 1 = some l' ∧ l' = [(1, 10), (2, 0), (3, 30), (4, 7), (6, 51)] := by
  obtain ⟨sw, h1, h2, h3, h4, h5, h6, h7⟩ := exOps_meaning
  obtain ⟨w, _, h8, _⟩ := history natLt_strictWeak exOps .init h1 h7
  refine ⟨w, sw, ?_⟩
  cases h1
  exact ⟨_, _, _, h8, h3, rfl, rfl, rfl⟩

/-! ## C43: memory -/

/-- **C43 for maps.**  In every reachable state a node is allocated exactly if it belongs to one
live map, parent links mirror child links, and `size()` of each map is the number of its nodes.
`clear()` and destruction run without fault and release all nodes of the map and no other; when no
map is alive, no node is allocated. -/
theorem map_memory_partial (hw : StrictWeak lt) {w : World K V} {sw : SWorld K V} (h : Reach lt dflt w sw) :
    MemoryOk w ∧
    (∀ k r c, w.obj k = some (r, c) → Counts w.mem r c ∧ Returns (on k getSize) w c w) ∧
    (∀ k r c, w.obj k = some (r, c) → ∃ w1 w2, Returns (on k Tree.clear) w () w1 ∧ Returns (dropObj k) w () w2 ∧
      Reach lt dflt w1 (sw.put k (some [])) ∧ Reach lt dflt w2 (sw.put k none) ∧
      ∀ n, (Allocated w1.mem n ↔ Allocated w.mem n ∧ ¬ Below w.mem r n) ∧
        (Allocated w2.mem n ↔ Allocated w.mem n ∧ ¬ Below w.mem r n)) ∧
    ((∀ k, sw k = none) → ∀ n, ¬ Allocated w.mem n) := by
  obtain ⟨g, hh, hg⟩ := h.maps hw
  refine ⟨hh.memory, fun k r c hk => ⟨hh.counts hk, on_observes hk rfl⟩, fun k r c hk => ?_, fun hn n ha => ?_⟩
  · obtain ⟨t, ht, rfl, rfl⟩ := hh.get hk
    have hs : sw k = some (AVL.vals t) := by rw [hg k, ht]; rfl
    obtain ⟨w1, h1, h2⟩ := hh.clear ht AVL.good_nil
    obtain ⟨w2, h3, h4⟩ := hh.drop ht AVL.good_nil
    refine ⟨w1, w2, h1, h3, h.step (op := .clear k) (by simp [specStep, hs]) trivial (step_none h1),
      h.step (op := .drop k) (by simp [specStep, hs]) trivial (step_none h3), fun n => ⟨?_, ?_⟩⟩
    · rw [h2.allocated, hh.allocated, below_root (hh.rep k t ht)]
      exact upd_owned hh ht (by rintro u e; cases e; simp [T.ptrs])
    · rw [h4.allocated, hh.allocated, below_root (hh.rep k t ht)]
      exact upd_owned hh ht (by rintro u e; cases e)
  · obtain ⟨k, t, hk, _⟩ := hh.allocated.1 ha
    have := hn k
    rw [hg k, hk] at this
    cases this

example : ∃ (w : World Nat Nat) (sw : SWorld Nat Nat) (k : Nat) (r : Ptr) (c : Nat), Reach natLt 0 w sw ∧
    w.obj k = some (r, c) ∧ c = 4 := by
  obtain ⟨w, sw, h, h0, _⟩ := exReach
  obtain ⟨g, hh, hg⟩ := h.maps natLt_strictWeak
  obtain ⟨t, ht, e⟩ := HoldsSet.get hg h0
  refine ⟨w, sw, 0, _, _, h, hh.obj 0 t ht, ?_⟩
  rw [AVL.count_items, ← List.length_map (f := (·.2)), ← AVL.vals_eq, e]; rfl

/-! ## C44: copies -/

theorem unit_of_step {p : Prog (World K V) Unit} {w w' : World K V} {o : Option V}
    (h : Returns (do p; pure (none : Option V)) w o w') : Returns p w () w' := by
  obtain ⟨_, w1, h1, h2⟩ := (wp_bind p (fun _ => pure (none : Option V)) (fun _ s => s = w') w).1 ⟨_, _, h, rfl⟩
  rw [wp_pure] at h2
  exact h2 ▸ h1

/-- **C44, the part that holds for maps.**  Copying (or moving from) an empty map gives an
independent empty map: whatever follows on either object, as long as it is not one of the
defective uses, shows on that object only.  Missing for C44: copying a non-empty map
(`map_copy_faults`) and assigning to a non-empty map (`map_assign_leaks`). -/
theorem map_copy_partial (hw : StrictWeak lt) {w : World K V} {sw : SWorld K V} (h : Reach lt dflt w sw) (d s : Nat)
    (hs : sw s = some []) (hd : sw d = none ∨ sw d = some []) (more : List (Op K V)) (sw' : SWorld K V)
    (hm : specRun lt dflt more (sw.put d (some [])) = some sw') (hsafe : SafeAll lt dflt more (sw.put d (some []))) :
    ∃ w1 w2, Returns (copyObj d s) w () w1 ∧ Shows lt dflt w1 (sw.put d (some [])) ∧
      Returns (run lt dflt more) w1 () w2 ∧ Shows lt dflt w2 sw' := by
  have key : ∃ op : Op K V, (step lt dflt op = do copyObj d s; pure none) ∧
      specStep lt dflt op sw = some (sw.put d (some [])) ∧ Safe lt op sw := by
    rcases hd with hd | hd
    · exact ⟨.copyNew d s, rfl, by simp [specStep, hd, hs], hs⟩
    · exact ⟨.copy d s, rfl, by simp [specStep, hd, hs], Or.inr ⟨hd, hs⟩⟩
  obtain ⟨op, e, h1, h2⟩ := key
  obtain ⟨w1, r1, r2, r3⟩ := map_runs_partial hw h op h1 h2
  rw [e] at r1
  obtain ⟨w2, r4, _, r5⟩ := history hw more r2 hm hsafe
  exact ⟨w1, w2, unit_of_step r1, r3, r4, r5⟩

/-- **C44, failing case.**  A copy of a non-empty map (copy or move, construction or assignment)
shares all nodes with the original: once either of the two is destroyed, searching or clearing the
other one and destroying it use released nodes. -/
theorem map_copy_faults (hw : StrictWeak lt) {w : World K V} {sw : SWorld K V} (h : Reach lt dflt w sw) (d s : Nat)
    {l : List (K × V)} (hs : sw s = some l) (hn : l ≠ []) (hd : d ≠ s) :
    ∃ w1, Returns (copyObj d s) w () w1 ∧ Returns (on d AVL.elements) w1 l w1 ∧
      ∀ a b, (a = d ∧ b = s) ∨ (a = s ∧ b = d) → ∃ w2, Returns (dropObj a) w1 () w2 ∧
        (∀ key, Faults (on b (find lt dflt key)) w2 .useAfterFree) ∧ Faults (on b Tree.clear) w2 .useAfterFree ∧
        Faults (dropObj b) w2 .useAfterFree := by
  obtain ⟨g, hm⟩ := h.maps hw
  obtain ⟨w1, h1, h2, h3⟩ := AVL.copy_faults hm.set d s hs hn hd
  refine ⟨w1, h1, h2, fun a b hab => ?_⟩
  obtain ⟨w2, h4, h5, h6, h7⟩ := h3 a b hab
  exact ⟨w2, h4, fun key => h5 (key, dflt), h6, h7⟩

/-- **C44, failing case.**  Assigning an empty map to a non-empty one leaks: a node stays
allocated that belongs to no object. -/
theorem map_assign_leaks (hw : StrictWeak lt) {w : World K V} {sw : SWorld K V} (h : Reach lt dflt w sw) (d s : Nat)
    {l : List (K × V)} (hs : sw s = some []) (hd : sw d = some l) (hn : l ≠ []) :
    ∃ w' n, Returns (copyObj d s) w () w' ∧ Allocated w'.mem n ∧
      ∀ k r c, w'.obj k = some (r, c) → ¬ Below w'.mem r n := by
  obtain ⟨g, hm⟩ := h.maps hw
  exact AVL.assign_leaks hm.set d s hs hd hn

example : ∃ (w : World Nat Nat) (sw : SWorld Nat Nat) (l : List (Nat × Nat)), Reach natLt 0 w sw ∧ sw 0 = some l ∧ l ≠ [] ∧
    sw 2 = some [] ∧ sw 4 = none ∧ ∃ sw', specRun natLt 0 [.set 4 1 10, .set 2 1 20] (sw.put 4 (some [])) = some sw' ∧
      SafeAll natLt 0 [.set 4 1 10, .set 2 1 20] (sw.put 4 (some [])) ∧ sw' 4 = some [(1, 10)] ∧ sw' 2 = some [(1, 20)] := by
  obtain ⟨sw, h1, h2, h3, h4, h5, h6, h7⟩ := exOps_meaning
  obtain ⟨w, _, h8, _⟩ := history natLt_strictWeak exOps .init h1 h7
  refine ⟨w, sw, ?_⟩
  cases h1
  exact ⟨_, h8, h2, by simp, h4, h6, _, rfl, ⟨trivial, fun _ _ => ⟨trivial, fun _ _ => trivial⟩⟩, rfl, rfl⟩

end Verif.Map
