import Verif.DisjointSetPool
import Verif.DisjointSetWorld

/-! Helper lemmas: the functions of `DisjointSet` on numbers in blocks and on the bytes of the pool. -/

namespace Verif.DSUPool

open Prog Vec Pool
open DSU (Op WOp)

/-- The number is the value of an `int`. -/
def InRange (x : Int) : Prop := -(2 ^ 31) ≤ x ∧ x < 2 ^ 31

theorem InRange.toInt {x : Int} (h : InRange x) : (BitVec.ofInt 32 x).toInt = x := by
  unfold InRange at h
  rw [BitVec.toInt_ofInt]
  exact bmod32 _ (by omega) (by omega)

/-- The same array three times: numbers in a block, words in a block, bytes in the pool. -/
structure OS (c : Sma.Cfg) (F : Rest) (f : Nat → Nat) (v vB : Vec) (m : Mem Int) (mB : Mem (BitVec 32)) (s : Sma.St)
    (A : List Int) : Prop where
  rep : Rep m v A
  wf : m.WF
  repB : Rep mB vB (A.map (BitVec.ofInt 32))
  bytes : R c intElem F f mB s
  range : ∀ x ∈ A, InRange x
  len : A.length < 2 ^ 31

/-- The states in relation, `mB0` being the words at the beginning. -/
def St (c : Sma.Cfg) (F : Rest) (f : Nat → Nat) (v vB : Vec) (mB0 : Mem (BitVec 32)) (m : Mem Int) (s : Sma.St) : Prop :=
  ∃ mB A, OS c F f v vB m mB s A ∧ Frame mB0 mB vB vB

/-- The pool does what the blocks do. -/
def DSim (c : Sma.Cfg) (F : Rest) (f : Nat → Nat) (v vB : Vec) (mB0 : Mem (BitVec 32)) {β : Type} (p : Prog (Mem Int) β)
    (q : Prog Sma.St β) (Rel : β → β → Prop) : Prop :=
  ∀ m s, St c F f v vB mB0 m s → ∀ a m', Returns p m a m' →
    ∃ b s', Returns q s b s' ∧ St c F f v vB mB0 m' s' ∧ Rel a b

variable {c : Sma.Cfg} {F : Rest} {f : Nat → Nat} {v vB : Vec} {mB0 : Mem (BitVec 32)} {md : Sma.Mode}

/-- References: the same number or the same place. -/
def ARel (f : Nat → Nat) (v vB : Vec) (a b : Arg Int) : Prop :=
  (∃ x, a = .val x ∧ b = .val x ∧ InRange x) ∨ ∃ i, a = .ref v.c i ∧ b = .ref (f vB.c) i

/-- The same `int`. -/
def VRel (x y : Int) : Prop := y = x ∧ InRange x

theorem DSim.bind {β γ : Type} {p : Prog (Mem Int) β} {q : Prog Sma.St β} {g : β → Prog (Mem Int) γ}
    {h : β → Prog Sma.St γ} {A : β → β → Prop} {B : γ → γ → Prop} (h1 : DSim c F f v vB mB0 p q A)
    (h2 : ∀ a b, A a b → DSim c F f v vB mB0 (g a) (h b) B) : DSim c F f v vB mB0 (p >>= g) (q >>= h) B := by
  intro m s hs b m' hr
  obtain ⟨a, u, r1, r2⟩ := returns_bind hr
  obtain ⟨a', s', e1, e2, e3⟩ := h1 m s hs a u r1
  obtain ⟨b', s2, e4, e5, e6⟩ := h2 a a' e3 u s' e2 b m' r2
  exact ⟨b', s2, (bind_returns e1).trans e4, e5, e6⟩

theorem DSim.pure {β : Type} {a b : β} {A : β → β → Prop} (h : A a b) :
    DSim c F f v vB mB0 (Pure.pure a) (Pure.pure b) A := by
  intro m s hs x m' hr
  obtain ⟨rfl, rfl⟩ := returns_pure hr
  exact ⟨b, s, rfl, hs, h⟩

theorem DSim.check {P Q : Prop} [Decidable P] [Decidable Q] {e : Fault} (h : P → Q) :
    DSim c F f v vB mB0 (check P e) (check Q e) (fun _ _ => P) := by
  intro m s hs x m' hr
  obtain ⟨h1, rfl⟩ := returns_check hr
  exact ⟨(), s, check_ok s (h h1), hs, h1⟩

theorem St.sz {m : Mem Int} {s : Sma.St} (h : St c F f v vB mB0 m s) : vB.sz = v.sz := by
  obtain ⟨mB, A, h, _⟩ := h
  rw [h.rep.size, h.repB.size, List.length_map]

theorem read_sim (hc : Sma.Legal c) (i : Int) :
    DSim c F f v vB mB0 (Vec.read v.c i) ((ints md c).read (f vB.c) i) VRel := by
  intro m s hs x m' hr
  have hs' := hs
  obtain ⟨mB, A, h, hf⟩ := hs
  obtain ⟨rfl, h0, k, j, hk, rfl, hj, hx⟩ := returns_read hr
  obtain ⟨_, _, g, hb, hg⟩ := h.rep.buf h0
  rw [hk] at hb
  cases hb
  simp only at hx
  rw [hg] at hx
  obtain ⟨hjA, hx'⟩ := List.getElem?_eq_some_iff.1 hx
  have hin : InRange x := h.range x (hx' ▸ List.getElem_mem hjA)
  have hl := load_ok hc h.bytes (h.repB.read_ok j (by simpa using hjA))
  rw [List.getElem_map, hx'] at hl
  refine ⟨x, s, ?_, hs', rfl, hin⟩
  refine (bind_returns hl).trans ?_
  rw [hin.toInt]; rfl

theorem get_sim (hc : Sma.Legal c) {a b : Arg Int} (h : ARel f v vB a b) :
    DSim c F f v vB mB0 a.get (get (ints md c) b) VRel := by
  rcases h with ⟨x, rfl, rfl, hx⟩ | ⟨i, rfl, rfl⟩
  · exact DSim.pure ⟨rfl, hx⟩
  · exact read_sim hc i

theorem norm_eq {m : Mem Int} {s : Sma.St} (h : St c F f v vB mB0 m s) (i : Int) :
    normIndex (vmap f vB) i = normIndex v i := by
  unfold normIndex
  rw [show (vmap f vB).sz = v.sz from h.sz]

theorem refAt_sim (i : Int) :
    DSim c F f v vB mB0 (DSU.refAt v i) (refAt (vmap f vB) i) (ARel f v vB) := by
  intro m s hs
  unfold DSU.refAt refAt
  rw [norm_eq hs, show (vmap f vB).sz = v.sz from hs.sz]
  revert m s
  refine DSim.bind (DSim.check id) fun _ _ _ => DSim.pure (Or.inr ⟨_, rfl, rfl⟩)

theorem index_sim (hc : Sma.Legal c) (i : Int) :
    DSim c F f v vB mB0 (Vec.index v i) (Pool.index (ints md c) (vmap f vB) i) VRel := by
  intro m s hs
  show ∀ a m', Returns (dassert _ >>= fun _ => Vec.read v.c _) m a m' → ∃ b s',
    Returns (dassert _ >>= fun _ => (ints md c).read _ _) s b s' ∧ _
  rw [norm_eq hs, show (vmap f vB).sz = v.sz from hs.sz]
  exact DSim.bind (DSim.check id) (fun _ _ _ => read_sim hc _) m s hs

theorem assign_pool {α : Type} {K : Elem α} (hc : Sma.Legal c) {m m' : Mem α} {s : Sma.St} (hR : R c K F f m s) {b : Nat}
    {i : Int} {x : α} (hr : Returns (Vec.assign b i (.val x)) m () m') :
    ∃ s', Returns ((poolOps md c K).assign (f b) i (.val x)) s () s' ∧ R c K F f m' s' := by
  obtain ⟨y, u, r2, hr1⟩ := returns_bind hr
  obtain ⟨rfl, rfl⟩ := returns_pure r2
  obtain ⟨⟨k', j⟩, u', r3, hr2⟩ := returns_bind hr1
  obtain ⟨rfl, hb0, k, hk, rfl, hj, hkk⟩ := returns_access r3
  simp only at hkk hj hr2 ⊢
  subst hkk
  obtain ⟨_, u, r1, hr3⟩ := returns_bind hr2
  obtain ⟨_, rfl⟩ := returns_check r1
  cases hr3
  refine ⟨_, ?_, R.congr (hR.put hc hk hj (some y) (K.enc y) ?_) rfl rfl⟩
  · show Returns (_ >>= _) _ _ _
    rw [addr_nat]
    exact save_ok hc hR hk hj _
  · rintro y ⟨⟩ t ht; rfl

/-- Indexing depends on the place only. -/
theorem setIndex_norm {α : Type} {v : Vec} {i : Int} {j : Nat} (h : normIndex v i = (j : Int)) (e : Arg α) :
    Vec.setIndex v i e = Vec.setIndex v (j : Int) e := by
  have h2 : normIndex v (j : Int) = j := by
    unfold normIndex
    rw [if_neg (by omega)]
  unfold Vec.setIndex
  simp only
  rw [h, h2]

theorem setIndex_sim (hc : Sma.Legal c) (hw0 : mB0.WF) (i y : Int) (hy : InRange y) :
    DSim c F f v vB mB0 (Vec.setIndex v i (.val y)) (Pool.setIndex (ints md c) (vmap f vB) i (.val y))
      (fun _ _ => True) := by
  intro m s hs _ m' hr
  have hs' := hs
  obtain ⟨mB, A, h, hf⟩ := hs
  have hsz := hs'.sz
  have hl := h.len
  have hsA := h.rep.size
  -- the place is in the array
  obtain ⟨j, hj, hji⟩ : ∃ j : Nat, j < A.length ∧ normIndex v i = (j : Int) := by
    obtain ⟨_, u, r1, r2⟩ := returns_bind hr
    obtain ⟨h1, rfl⟩ := returns_check r1
    obtain ⟨_, u, r3, r4⟩ := returns_bind r2
    have hu := returns_get r3
    subst hu
    obtain ⟨⟨k, j⟩, u, r5, r6⟩ := returns_bind r4
    obtain ⟨rfl, h0, k', h4, h5, h6, h7⟩ := returns_access r5
    simp only at h5
    refine ⟨j, ?_, h5⟩
    rw [h5, bmod32 _ (by omega) (by omega)] at h1
    omega
  have hjiB : normIndex vB i = (j : Int) := by unfold normIndex at hji ⊢; rw [hsz]; exact hji
  obtain ⟨_, m1, e1, e2, e3, e4⟩ := Vec.setIndex_ok (x := y) h.wf h.rep hl j j hj (Or.inl rfl)
  rw [setIndex_norm hji] at hr
  obtain ⟨_, rfl⟩ := hr.det e1
  obtain ⟨_, mB1, b1, b2, b3, b4⟩ := Vec.setIndex_ok (x := BitVec.ofInt 32 y) h.bytes.wf h.repB
    (by simpa using hl) j j (by simpa using hj) (Or.inl rfl)
  rw [← setIndex_norm hjiB] at b1
  obtain ⟨_, u, r1, r2⟩ := returns_bind b1
  obtain ⟨h1, rfl⟩ := returns_check r1
  obtain ⟨s', g1, g3⟩ := assign_pool (md := md) hc h.bytes r2
  refine ⟨(), s', (bind_returns (check_ok s h1)).trans g1,
    ⟨mB1, A.set j y, ⟨e2, e4, ?_, g3, ?_, by simpa using h.len⟩, ?_⟩, trivial⟩
  · rw [List.map_set]; exact b2
  · intro x hx
    rcases List.mem_or_eq_of_mem_set hx with hx | rfl
    · exact h.range x hx
    · exact hy
  · exact hf.trans hw0 b3 b4.null

theorem find_sim (hc : Sma.Legal c) (hw0 : mB0.WF) : ∀ {a b : Arg Int}, ARel f v vB a b →
    DSim c F f v vB mB0 (DSU.find v a) (find (ints md c) (vmap f vB) b) (ARel f v vB) := by
  suffices h : ∀ (a : Arg Int) (m : Mem Int), wlp (DSU.find v a) (fun r m' => ∀ b s, ARel f v vB a b →
      St c F f v vB mB0 m s → ∃ r' s', Returns (find (ints md c) (vmap f vB) b) s r' s' ∧
        St c F f v vB mB0 m' s' ∧ ARel f v vB r r') m by
    intro a b hab m s hs r m' hr
    exact h a m r m' hr b s hab hs
  refine DSU.find.fixpoint_induct v (fun g => ∀ a m, wlp (g a) (fun r m' => ∀ b s, ARel f v vB a b →
      St c F f v vB mB0 m s → ∃ r' s', Returns (find (ints md c) (vmap f vB) b) s r' s' ∧
        St c F f v vB mB0 m' s' ∧ ARel f v vB r r') m)
    (Prog.admissible_wlp _) ?_
  intro g ih a m r m' hr b s hab hs
  have ihs : ∀ {a b : Arg Int}, ARel f v vB a b →
      DSim c F f v vB mB0 (g a) (find (ints md c) (vmap f vB) b) (ARel f v vB) := by
    intro a b hab m s hs r m' hr
    exact ih a m r m' hr b s hab hs
  rw [find]
  refine (?_ : DSim c F f v vB mB0 _ _ (ARel f v vB)) m s hs r m' hr
  refine DSim.bind (get_sim hc hab) ?_
  rintro _ i ⟨rfl, hi⟩
  refine DSim.bind (refAt_sim i) fun t t' ht => DSim.bind (get_sim hc ht) ?_
  rintro _ x ⟨rfl, hx⟩
  by_cases h0 : x < 0
  · rw [if_pos h0, if_pos h0]; exact DSim.pure hab
  · rw [if_neg h0, if_neg h0]
    refine DSim.bind (get_sim hc hab) ?_
    rintro _ i ⟨rfl, hi⟩
    refine DSim.bind (refAt_sim i) fun t t' ht => DSim.bind (ihs ht) fun q q' hq => DSim.bind (get_sim hc hq) ?_
    rintro _ y ⟨rfl, hy⟩
    refine DSim.bind (get_sim hc hab) ?_
    rintro _ i ⟨rfl, hi⟩
    exact DSim.bind (setIndex_sim hc hw0 i y hy) fun _ _ _ => refAt_sim i

theorem findVal_sim (hc : Sma.Legal c) (hw0 : mB0.WF) {i : Int} (hi : InRange i) :
    DSim c F f v vB mB0 (DSU.findVal v i) (findVal (ints md c) (vmap f vB) i) VRel :=
  DSim.bind (find_sim hc hw0 (Or.inl ⟨i, rfl, rfl, hi⟩)) fun _ _ h => get_sim hc h

theorem connected_sim (hc : Sma.Legal c) (hw0 : mB0.WF) {i j : Int} (hi : InRange i) (hj : InRange j) :
    DSim c F f v vB mB0 (DSU.connected v i j) (connected (ints md c) (vmap f vB) i j) (fun a b => b = a) := by
  refine DSim.bind (find_sim hc hw0 (Or.inl ⟨i, rfl, rfl, hi⟩)) fun r1 r1' h1 =>
    DSim.bind (find_sim hc hw0 (Or.inl ⟨j, rfl, rfl, hj⟩)) fun r2 r2' h2 => DSim.bind (get_sim hc h1) ?_
  rintro _ x1 ⟨rfl, _⟩
  refine DSim.bind (get_sim hc h2) ?_
  rintro _ x2 ⟨rfl, _⟩
  exact DSim.pure rfl

theorem unionSet_sim (hc : Sma.Legal c) (hw0 : mB0.WF) {i j : Int} (hi : InRange i) :
    DSim c F f v vB mB0 (DSU.unionSet v i j) (unionSet (ints md c) (vmap f vB) i j) (fun _ _ => True) := by
  unfold DSU.unionSet unionSet
  by_cases h : i < j
  · rw [if_pos h, if_pos h]; exact setIndex_sim hc hw0 j i hi
  · rw [if_neg h, if_neg h]
    refine DSim.bind (index_sim hc i) ?_
    rintro _ x ⟨rfl, hx⟩
    refine DSim.bind (index_sim hc j) ?_
    rintro _ y ⟨rfl, hy⟩
    refine DSim.bind (A := fun _ _ => True) ?_ fun _ _ _ => setIndex_sim hc hw0 j i hi
    by_cases hxy : x = y
    · simp only [Prog.when, if_pos hxy]
      refine DSim.bind (index_sim hc i) ?_
      rintro _ z ⟨rfl, hz⟩
      refine DSim.bind (DSim.check id) fun _ _ hch => setIndex_sim hc hw0 i (z - 1) ⟨hch, ?_⟩
      have := hz.2
      omega
    · simp only [Prog.when, if_neg hxy]
      exact DSim.pure trivial

theorem step_sim (hc : Sma.Legal c) (hw0 : mB0.WF) {n : Nat} (hn : n < 2 ^ 31) {p : Op} (hp : p.Valid n) :
    DSim c F f v vB mB0 (DSU.step v p) (step (ints md c) (vmap f vB) p) (fun _ _ => True) := by
  have hr : ∀ {i : Nat}, i < n → InRange (i : Int) := fun h => ⟨by omega, by omega⟩
  cases p with
  | find i => exact DSim.bind (findVal_sim hc hw0 (hr hp)) fun _ _ _ => DSim.pure trivial
  | connected i j => exact DSim.bind (connected_sim hc hw0 (hr hp.1) (hr hp.2)) fun _ _ _ => DSim.pure trivial
  | connect i j =>
    refine DSim.bind (findVal_sim hc hw0 (hr hp.1)) ?_
    rintro _ x ⟨rfl, hx⟩
    refine DSim.bind (findVal_sim hc hw0 (hr hp.2)) ?_
    rintro _ y ⟨rfl, hy⟩
    exact unionSet_sim hc hw0 hx

theorem DSim.forRange {β : Type} {g : Nat → β → Prog (Mem Int) β} {h : Nat → β → Prog Sma.St β}
    (n : Nat) : ∀ (i : Nat) (a : β), (∀ i a, DSim c F f v vB mB0 (g i a) (h i a) (fun a b => b = a)) →
      DSim c F f v vB mB0 (Prog.forRange n i a g) (Prog.forRange n i a h) (fun a b => b = a) := by
  induction n with
  | zero => intro i a _; exact DSim.pure rfl
  | succ n ih =>
    intro i a hg
    refine DSim.bind (hg i a) ?_
    rintro _ b rfl
    exact ih (i + 1) b hg

theorem count_sim (hc : Sma.Legal c) {m : Mem Int} {s : Sma.St} (hs : St c F f v vB mB0 m s) {k : Nat} {m' : Mem Int}
    (hr : Returns (DSU.count v) m k m') : ∃ s', Returns (count (ints md c) (vmap f vB)) s k s' := by
  have : DSim c F f v vB mB0 (DSU.count v) (Prog.forRange v.sz 0 0 fun i n => do
      let x ← (ints md c).read (f vB.c) i
      Pure.pure (if x < 0 then n + 1 else n)) (fun a b => b = a) := by
    refine DSim.forRange _ _ _ fun i a => DSim.bind (read_sim hc i) ?_
    rintro _ x ⟨rfl, _⟩
    exact DSim.pure rfl
  obtain ⟨_, s', e1, _, rfl⟩ := this m s hs k m' hr
  refine ⟨s', ?_⟩
  unfold count
  rw [show (vmap f vB).sz = v.sz from hs.sz]
  exact e1

/-- On an element that leads to a self-loop, `find` does not return in the pool either. -/
theorem find_hangs (hc : Sma.Legal c) {r : Nat} : ∀ (b : Arg Int) (s : Sma.St),
    (∃ m a A i, St c F f v vB mB0 m s ∧ ARel f v vB a b ∧ Rep m v A ∧ A.length < 2 ^ 31 ∧ DSU.ArgIs v a A i ∧
      DSU.Loop A r i) → find (ints md c) (vmap f vB) b s = none := by
  refine find.fixpoint_induct (ints md c) (vmap f vB) (fun g => ∀ (b : Arg Int) (s : Sma.St),
    (∃ m a A i, St c F f v vB mB0 m s ∧ ARel f v vB a b ∧ Rep m v A ∧ A.length < 2 ^ 31 ∧ DSU.ArgIs v a A i ∧
      DSU.Loop A r i) → g b s = none) (Prog.admissible_diverges _) ?_
  rintro g ih b s ⟨m, a, A, i, hs, hab, hr, hlen, ha, hl⟩
  show Diverges (get (ints md c) b >>= _) s
  unfold Diverges
  obtain ⟨q, hq, hl'⟩ := hl.next
  have hi := (List.getElem?_eq_some_iff.1 hq).1
  have hsr : DSU.ArgIs v (.ref v.c (i : Int)) A q := Or.inr ⟨i, rfl, hq⟩
  obtain ⟨_, s1, e1, h1, rfl, _⟩ := get_sim (md := md) hc hab m s hs _ _ (ha.get hr)
  obtain ⟨b2, s2, e2, h2, hb2⟩ := refAt_sim (c := c) (f := f) (vB := vB) (mB0 := mB0) (v := v) i m s1 h1 _ _
    (DSU.refAt_ok hr hlen i hi)
  obtain ⟨_, s3, e3, h3, rfl, _⟩ := get_sim (md := md) hc hb2 m s2 h2 _ _ (hsr.get hr)
  obtain ⟨_, s4, e4, h4, rfl, _⟩ := get_sim (md := md) hc hab m s3 h3 _ _ (ha.get hr)
  obtain ⟨b5, s5, e5, h5, hb5⟩ := refAt_sim (c := c) (f := f) (vB := vB) (mB0 := mB0) (v := v) i m s4 h4 _ _
    (DSU.refAt_ok hr hlen i hi)
  rw [bind_returns e1, bind_returns e2, bind_returns e3, if_neg (by omega), bind_returns e4, bind_returns e5]
  exact bind_diverges (ih _ s5 ⟨m, _, A, q, h5, hb5, hr, hlen, hsr, hl'⟩)

end Verif.DSUPool
