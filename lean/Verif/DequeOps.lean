import Verif.DequeResize

/-! # Lemmas about the deque model: public operations on one deque -/

namespace Verif.Deq

open Prog

variable {α : Type} {cfg : Cfg α}

/-! ## Arguments -/

/-- The argument is an object outside all blocks or an element of a live block. -/
def ArgLive (cfg : Cfg α) (w : World α) (a : Arg α) (x : α) : Prop :=
  a = .val x ∨ ∃ b o f, a = .ref (.at b o) ∧ b < w.next ∧ w.blk b = some f ∧ o < cfg.A ∧ f o = .elem x

theorem ArgLive.is {w : World α} {a : Arg α} {x : α} (h : ArgLive cfg w a x) : ArgIs cfg w a x := by
  rcases h with rfl | ⟨b, o, f, rfl, _, hf, ho, hx⟩
  · rfl
  · show readPtr cfg (.at b o) w = _
    have : Returns (access cfg (.at b o)) w (b, o, f) w := by
      unfold Returns
      simp only [access, hf, if_pos ho]
    unfold readPtr
    rw [bind_returns this]
    simp only [hx]; rfl

theorem ArgLive.congr {w w' : World α} {a : Arg α} {x : α} (h : ArgLive cfg w a x)
    (hn : w.next ≤ w'.next) (hb : ∀ b o f, a = .ref (.at b o) → b < w.next → w.blk b = some f → o < cfg.A →
      f o = .elem x → w'.blk b = some f) : ArgLive cfg w' a x := by
  rcases h with rfl | ⟨b, o, f, rfl, h1, hf, ho, hx⟩
  · exact Or.inl rfl
  · exact Or.inr ⟨b, o, f, rfl, by omega, hb b o f rfl h1 hf ho hx, ho, hx⟩

theorem ArgLive.setObj {w : World α} {a : Arg α} {x : α} (h : ArgLive cfg w a x) (k : Nat)
    (d : Option Deque) : ArgLive cfg (setObj w k d) a x :=
  h.congr (Nat.le_refl _) (fun _ _ _ _ _ hf _ _ => hf)

theorem Used.setObj {w : World α} {own : Nat} {d : Deque} {l : List α} {P : Nat}
    (h : Used cfg w own d l P) (k : Nat) (o : Option Deque) : Used cfg (setObj w k o) own d l P :=
  h.congr (fun _ _ => rfl)

theorem Used.pos {w : World α} {own : Nat} {d : Deque} {l : List α} {P : Nat}
    (h : Used cfg w own d l P) : 0 < d.tbl.length := by have := h.two; omega

/-- A deque in use starts at one position only. -/
theorem Used.unique (hA : 0 < cfg.A) (hadj : AdjUp cfg) {w w' : World α} {own own' : Nat} {d : Deque}
    {l l' : List α} {P P' : Nat} (hO : OwnOk w d.tbl) (h : Used cfg w own d l P)
    (h' : Used cfg w' own' d l' P') : P = P' := by
  have e : curAt cfg.A d.tbl P = curAt cfg.A d.tbl P' := by
    have := h.beg.symm.trans h'.beg
    unfold itAt at this
    injection this with _ e _
    exact Option.some.inj e
  refine (ptrEq_pos hA hadj hO.1 h.last h.pos (by have := h.fits; omega)
    (by have := h'.fits; omega)).1 ?_
  rw [e]; exact ptrEq_self _

theorem mem_getD {t : List Nat} {i : Nat} (h : i < t.length) : t.getD i 0 ∈ t := by
  rw [List.getD_eq_getElem?_getD, List.getElem?_eq_getElem h]
  exact List.getElem_mem _

/-- An element slot of a block of the table lies between the iterators. -/
theorem Used.elem_inside {w : World α} {own : Nat} {d : Deque} {l : List α} {P : Nat}
    (h : Used cfg w own d l P) {b o : Nat} {f : Nat → Slot α} {x : α} (hb : b ∈ d.tbl)
    (hf : w.blk b = some f) (ho : o < cfg.A) (hx : f o = .elem x) :
    ∃ j, j < l.length ∧ b = d.tbl.getD (bidx cfg.A d.tbl.length (P + j)) 0 := by
  obtain ⟨q, hq, hqb⟩ := List.mem_iff_getElem.1 hb
  have hlt : q * cfg.A + o < d.tbl.length * cfg.A := by
    have := Nat.mul_le_mul_right cfg.A (show q + 1 ≤ d.tbl.length by omega)
    rw [Nat.add_mul] at this; omega
  have hg : d.tbl.getD q 0 = b := by
    rw [List.getD_eq_getElem?_getD, List.getElem?_eq_getElem hq]; exact hqb
  have hs : slotAt w cfg.A d.tbl (q * cfg.A + o) = some (.elem x) := by
    unfold slotAt
    rw [bidx_of hq ho, boff_of hq ho, hg, hf]
    simp [hx]
  by_cases hin : P ≤ q * cfg.A + o ∧ q * cfg.A + o < P + l.length
  · refine ⟨q * cfg.A + o - P, by omega, ?_⟩
    rw [show P + (q * cfg.A + o - P) = q * cfg.A + o by omega, bidx_of hq ho, hg]
  · obtain ⟨s, h1, h2⟩ := h.outside _ hlt (by omega)
    rw [hs] at h1
    cases h1; cases h2

/-! ## Pushing -/

/-- A deque without blocks, or in use. -/
def Ready (cfg : Cfg α) (w : World α) (k : Nat) (d : Deque) (l : List α) : Prop :=
  (d.tbl = [] ∧ d.cap = 0 ∧ d.sz = 0 ∧ l = []) ∨ ∃ P, Used cfg w k d l P

/-- What a push does to the storage: the first push allocates two blocks, a push at an end of the
table that is `full` doubles it, any other changes nothing; `P'` is the new position of the elements
`l` present before. -/
def Stored (cfg : Cfg α) (w w' : World α) (k : Nat) (d d' : Deque) (l : List α) (full : Nat → Prop)
    (P' : Nat) : Prop :=
  (d.tbl = [] ∧ d'.tbl.length = 2 ∧ P' = cfg.A ∧ w'.next = w.next + 2) ∨
  ∃ P, Used cfg w k d l P ∧
    ((¬ full P ∧ d'.tbl = d.tbl ∧ P' = P ∧ w'.next = w.next) ∨
     (full P ∧ ∃ new, w'.next = w.next + new ∧
        Grown cfg.A d.tbl.length d'.tbl.length P P' l.length new))

/-- The last part of `push_back`. -/
theorem pushBackTail_ok (hA : 0 < cfg.A) (hadj : AdjUp cfg) {w : World α} {k : Nat} {d : Deque}
    {l : List α} {P : Nat} {a : Arg α} {x : α} (hk : w.obj k = some d) (hO : OwnOk w d.tbl)
    (hU : Used cfg w k d l P) (hroom : P + l.length < d.tbl.length * cfg.A) (ha : ArgLive cfg w a x) :
    wp (do
      let d ← getObj k
      construct cfg (← d.fin.getCur) a
      let it ← incr cfg d.fin
      updObj k fun d => { d with fin := it, sz := d.sz + 1 })
      (fun _ w' => ∃ d', w'.obj k = some d' ∧ Used cfg w' k d' (l ++ [x]) P ∧
        Step cfg w w' k d.tbl d'.tbl ∧ d'.tbl = d.tbl ∧ d'.cap = d.cap ∧ w'.next = w.next) w := by
  rw [wp_bind, wp_of_returns (getObj_ok hk), hU.fin, wp_bind, wp_of_returns (itAt_getCur ..), wp_bind]
  obtain ⟨s, hs1, hs2⟩ := hU.outside _ hroom (Or.inr (Nat.le_refl _))
  refine wp_mono (construct_ok (k := k) hA hO hroom hs1 hs2 ha.is) ?_
  rintro _ w1 ⟨st, ho1, hnx, hsl⟩
  have hk1 : w1.obj k = some d := by rw [ho1]; exact hk
  rw [wp_bind, wp_of_returns (incr_ok hA hadj ((st.ok hO).tbl hk1 rfl) hroom),
    wp_of_returns (updObj_ok hk1 _)]
  refine ⟨_, setObj_obj .., ⟨?_, hU.cap, hU.two, hU.even, hU.last, hU.beg, ?_, ?_, ?_, ?_⟩,
    st.trans (Step.setObj _), rfl, rfl, hnx⟩
  · show d.sz + 1 = _
    rw [hU.sz, List.length_append]; rfl
  · show itAt cfg.A d.tbl k (P + l.length + 1) = _
    rw [List.length_append]; rfl
  · show P + (l ++ [x]).length ≤ d.tbl.length * cfg.A
    rw [List.length_append]; simp only [List.length_cons, List.length_nil]; omega
  · intro j hj
    rw [List.length_append] at hj
    simp only [List.length_cons, List.length_nil] at hj
    show slotAt w1 cfg.A d.tbl (P + j) = _
    rw [hsl _ (by omega)]
    by_cases h : j = l.length
    · subst h; rw [if_pos rfl]; simp
    · rw [if_neg (by omega), hU.inside j (by omega), List.getElem_append_left (by omega)]
  · intro n hn ho
    rw [List.length_append] at ho
    simp only [List.length_cons, List.length_nil] at ho
    show ∃ s, slotAt w1 cfg.A d.tbl n = some s ∧ _
    rw [hsl n hn, if_neg (by omega)]
    exact hU.outside n hn (by omega)

theorem pushBack_ok (hA : 0 < cfg.A) (hadj : AdjUp cfg) {w : World α} {k : Nat} {d : Deque}
    {l : List α} {a : Arg α} {x : α} (hk : w.obj k = some d) (hn0 : 1 ≤ w.next) (hO : OwnOk w d.tbl)
    (hR : Ready cfg w k d l) (ha : ArgLive cfg w a x) :
    wp (pushBack cfg k a) (fun _ w' => ∃ d' P', w'.obj k = some d' ∧ Used cfg w' k d' (l ++ [x]) P' ∧
        Step cfg w w' k d.tbl d'.tbl ∧
        Stored cfg w w' k d d' l (fun P => P + l.length = d.tbl.length * cfg.A) P' ∧
        ∀ P, Used cfg w k d l P → ∀ j, j < l.length →
          curAt cfg.A d'.tbl (P' + j) = curAt cfg.A d.tbl (P + j)) w := by
  unfold pushBack
  rw [wp_bind, wp_of_returns (getObj_ok hk), wp_bind, wp_ite]
  rcases hR with ⟨ht, hc, hs, rfl⟩ | ⟨P, hU⟩
  · refine ⟨fun _ => ?_, fun h => absurd hc h⟩
    rw [wp_bind, wp_dassert]
    refine ⟨ht, ?_⟩
    refine wp_mono (onlyInit_ok hA hk ht hc hn0) ?_
    rintro _ w1 ⟨d1, hk1, hU1, st1, hl1, hnx1⟩
    have hO1 : OwnOk w1 d1.tbl := st1.ok ⟨List.nodup_nil, by simp⟩
    have ha1 : ArgLive cfg w1 a x := ha.congr st1.next (fun b o f _ hb hf _ _ => by
      rw [st1.keep b (by simp) hb]; exact hf)
    refine wp_mono (pushBackTail_ok hA hadj hk1 hO1 hU1 ?_ ha1) ?_
    · have := Nat.mul_le_mul_right cfg.A hU1.two
      simp only [List.length_nil]; omega
    · rintro _ w2 ⟨d2, h1, h2, h3, h4, _, h6⟩
      refine ⟨d2, _, h1, h2, ?_, Or.inl ⟨ht, by rw [h4, hl1], rfl, by rw [h6, hnx1]⟩, fun _ _ j hj => absurd hj (Nat.not_lt_zero j)⟩
      rw [ht]; exact st1.trans h3
  · have hcap : d.cap ≠ 0 := by
      rw [hU.cap]
      have := Nat.mul_pos hU.pos hA; omega
    refine ⟨fun h => absurd h hcap, fun _ => ?_⟩
    rw [wp_bind, wp_dassert]
    refine ⟨hU.pos, ?_⟩
    have hT := hO.tbl hk rfl
    have hpos := hU.pos
    obtain ⟨g1, g2, f, g3⟩ := hT.get (show d.tbl.length - 1 < d.tbl.length by omega)
    rw [wp_bind, show ((d.tbl.length : Int) - 1) = ((d.tbl.length - 1 : Nat) : Int) by omega,
      wp_of_returns (listAt_ok g1 _), wp_bind, wp_of_returns (arrEnd_ok g2 g3), wp_bind, hU.fin,
      wp_of_returns (itAt_getCur ..), wp_bind,
      wp_of_returns (cmp_ok (hT.live_cur hpos hA _) (live_at g3 (by omega))), wp_when]
    have hend : CPtr.at (d.tbl.getD (d.tbl.length - 1) 0) cfg.A = curAt cfg.A d.tbl (d.tbl.length * cfg.A) := by
      simp only [curAt, bidx_end, boff_end]
    constructor
    · intro hc
      rw [hend] at hc
      have hfull := (ptrEq_pos hA hadj hO.1 hU.last hpos hU.fits (Nat.le_refl _)).1 hc
      refine wp_mono (grow_ok hA hadj hk hO hU (Or.inr hfull)) ?_
      rintro _ w1 ⟨d1, P1, hk1, hU1, st1, _, hroom, ⟨new, hnew, hgr⟩, hkeep⟩
      have ha1 : ArgLive cfg w1 a x := ha.congr st1.next (fun b o f _ hb hf ho hx => by
        by_cases hbt : b ∈ d.tbl
        · obtain ⟨j, hj, hbj⟩ := hU.elem_inside hbt hf ho hx
          rw [hbj, (hkeep j hj).1, ← hbj]; exact hf
        · rw [st1.keep b hbt hb]; exact hf)
      refine wp_mono (pushBackTail_ok hA hadj hk1 (st1.ok hO) hU1 hroom ha1) ?_
      rintro _ w2 ⟨d2, h1, h2, h3, h4, _, h6⟩
      refine ⟨d2, _, h1, h2, st1.trans h3,
        Or.inr ⟨P, hU, Or.inr ⟨hfull, new, by rw [h6, hnew], by rw [h4]; exact hgr⟩⟩, fun P0 hU0 j hj => ?_⟩
      rw [h4, (hkeep j hj).2, hU.unique hA hadj hO hU0]
    · intro hc
      have hroom : P + l.length < d.tbl.length * cfg.A := by
        rcases Nat.lt_or_ge (P + l.length) (d.tbl.length * cfg.A) with h | h
        · exact h
        · exfalso; apply hc
          rw [hend, show P + l.length = d.tbl.length * cfg.A by have := hU.fits; omega]
          exact ptrEq_self _
      refine wp_mono (pushBackTail_ok hA hadj hk hO hU hroom ha) ?_
      rintro _ w2 ⟨d2, h1, h2, h3, h4, _, h6⟩
      refine ⟨d2, _, h1, h2, h3,
        Or.inr ⟨P, hU, Or.inl ⟨Nat.ne_of_lt hroom, h4, rfl, h6⟩⟩, fun P0 hU0 j hj => ?_⟩
      rw [h4, hU.unique hA hadj hO hU0]

/-- The last part of `push_front`. -/
theorem pushFrontTail_ok (hA : 0 < cfg.A) (hadj : AdjUp cfg) {w : World α} {k : Nat} {d : Deque}
    {l : List α} {P : Nat} {a : Arg α} {x : α} (hk : w.obj k = some d) (hO : OwnOk w d.tbl)
    (hU : Used cfg w k d l P) (hroom : 0 < P) (ha : ArgLive cfg w a x) :
    wp (do
      let d ← getObj k
      let it ← decr cfg d.beg
      updObj k fun d => { d with beg := it }
      construct cfg (← it.getCur) a
      updObj k fun d => { d with sz := d.sz + 1 })
      (fun _ w' => ∃ d' P', w'.obj k = some d' ∧ Used cfg w' k d' (x :: l) P' ∧
        Step cfg w w' k d.tbl d'.tbl ∧ d'.tbl = d.tbl ∧ d'.cap = d.cap ∧ P' + 1 = P ∧
        w'.next = w.next) w := by
  obtain ⟨Q, rfl⟩ : ∃ Q, P = Q + 1 := ⟨P - 1, by omega⟩
  have hQ : Q < d.tbl.length * cfg.A := by have := hU.fits; omega
  rw [wp_bind, wp_of_returns (getObj_ok hk), hU.beg, wp_bind,
    wp_of_returns (decr_ok hA hadj (hO.tbl hk rfl) hQ), wp_bind, wp_of_returns (updObj_ok hk _), wp_bind,
    wp_of_returns (itAt_getCur ..), wp_bind]
  obtain ⟨s, hs1, hs2⟩ := hU.outside Q hQ (Or.inl (by omega))
  generalize hd1 : ({ d with beg := itAt cfg.A d.tbl k Q } : Deque) = d1
  refine wp_mono (construct_ok (k := k) (w := setObj w k (some d1)) hA hO hQ hs1 hs2 (ha.setObj k _).is) ?_
  rintro _ w1 ⟨st, ho1, hnx, hsl⟩
  have hk1 : w1.obj k = some d1 := by rw [ho1]; exact setObj_obj ..
  rw [wp_of_returns (updObj_ok hk1 _)]
  subst hd1
  refine ⟨_, Q, setObj_obj .., ⟨?_, hU.cap, hU.two, hU.even, hU.last, rfl, ?_, ?_, ?_, ?_⟩,
    (Step.setObj _).trans (st.trans (Step.setObj _)), rfl, rfl, rfl, hnx⟩
  · show d.sz + 1 = _
    rw [hU.sz]; rfl
  · show d.fin = _
    rw [hU.fin, List.length_cons, show Q + 1 + l.length = Q + (l.length + 1) by omega]
  · show Q + (x :: l).length ≤ d.tbl.length * cfg.A
    have := hU.fits
    rw [List.length_cons]; omega
  · intro j hj
    rw [List.length_cons] at hj
    show slotAt w1 cfg.A d.tbl (Q + j) = _
    rw [hsl _ (by have := hU.fits; omega)]
    cases j with
    | zero => rw [if_pos (Nat.add_zero Q)]; rfl
    | succ j =>
      rw [if_neg (by omega)]
      have := hU.inside j (by omega)
      rw [show Q + 1 + j = Q + (j + 1) by omega] at this
      exact this
  · intro n hn ho
    rw [List.length_cons] at ho
    show ∃ s, slotAt w1 cfg.A d.tbl n = some s ∧ _
    rw [hsl n hn, if_neg (by omega)]
    exact hU.outside n hn (by omega)

theorem pushFront_ok (hA : 0 < cfg.A) (hadj : AdjUp cfg) {w : World α} {k : Nat} {d : Deque}
    {l : List α} {a : Arg α} {x : α} (hk : w.obj k = some d) (hn0 : 1 ≤ w.next) (hO : OwnOk w d.tbl)
    (hR : Ready cfg w k d l) (ha : ArgLive cfg w a x) :
    wp (pushFront cfg k a) (fun _ w' => ∃ d' P', w'.obj k = some d' ∧ Used cfg w' k d' (x :: l) P' ∧
        Step cfg w w' k d.tbl d'.tbl ∧ Stored cfg w w' k d d' l (fun P => P = 0) (P' + 1) ∧
        ∀ P, Used cfg w k d l P → ∀ j, j < l.length →
          curAt cfg.A d'.tbl (P' + (j + 1)) = curAt cfg.A d.tbl (P + j)) w := by
  unfold pushFront
  rw [wp_bind, wp_of_returns (getObj_ok hk), wp_bind, wp_ite]
  rcases hR with ⟨ht, hc, hs, rfl⟩ | ⟨P, hU⟩
  · refine ⟨fun _ => ?_, fun h => absurd hc h⟩
    rw [wp_bind, wp_dassert]
    refine ⟨ht, ?_⟩
    refine wp_mono (onlyInit_ok hA hk ht hc hn0) ?_
    rintro _ w1 ⟨d1, hk1, hU1, st1, hl1, hnx1⟩
    have hO1 : OwnOk w1 d1.tbl := st1.ok ⟨List.nodup_nil, by simp⟩
    have ha1 : ArgLive cfg w1 a x := ha.congr st1.next (fun b o f _ hb hf _ _ => by
      rw [st1.keep b (by simp) hb]; exact hf)
    refine wp_mono (pushFrontTail_ok hA hadj hk1 hO1 hU1 hA ha1) ?_
    rintro _ w2 ⟨d2, P2, h1, h2, h3, h4, _, h5, h6⟩
    refine ⟨d2, P2, h1, h2, ?_, Or.inl ⟨ht, by rw [h4, hl1], h5, by rw [h6, hnx1]⟩, fun _ _ j hj => absurd hj (Nat.not_lt_zero j)⟩
    rw [ht]; exact st1.trans h3
  · have hcap : d.cap ≠ 0 := by
      rw [hU.cap]
      have := Nat.mul_pos hU.pos hA; omega
    refine ⟨fun h => absurd h hcap, fun _ => ?_⟩
    have hT := hO.tbl hk rfl
    have hpos := hU.pos
    obtain ⟨g1, g2, f, g3⟩ := hT.get hpos
    rw [wp_bind, show (0 : Int) = ((0 : Nat) : Int) from rfl,
      wp_of_returns (listAt_ok g1 _), wp_bind, wp_of_returns (arrBegin_ok g2 g3), wp_bind, hU.beg,
      wp_of_returns (itAt_getCur ..), wp_bind,
      wp_of_returns (cmp_ok (hT.live_cur hpos hA _) (live_at g3 (by omega))), wp_when]
    have hstart : CPtr.at (d.tbl.getD 0 0) 0 = curAt cfg.A d.tbl 0 := by
      have h1 := bidx_of (A := cfg.A) hpos hA
      have h2 := boff_of (A := cfg.A) hpos hA
      simp only [Nat.zero_mul, Nat.add_zero] at h1 h2
      simp only [curAt, h1, h2]
    constructor
    · intro hc
      rw [hstart] at hc
      have hfull := (ptrEq_pos hA hadj hO.1 hU.last hpos (by have := hU.fits; omega) (Nat.zero_le _)).1 hc
      refine wp_mono (grow_ok hA hadj hk hO hU (Or.inl hfull)) ?_
      rintro _ w1 ⟨d1, P1, hk1, hU1, st1, hroom, _, ⟨new, hnew, hgr⟩, hkeep⟩
      have ha1 : ArgLive cfg w1 a x := ha.congr st1.next (fun b o f _ hb hf ho hx => by
        by_cases hbt : b ∈ d.tbl
        · obtain ⟨j, hj, hbj⟩ := hU.elem_inside hbt hf ho hx
          rw [hbj, (hkeep j hj).1, ← hbj]; exact hf
        · rw [st1.keep b hbt hb]; exact hf)
      refine wp_mono (pushFrontTail_ok hA hadj hk1 (st1.ok hO) hU1 hroom ha1) ?_
      rintro _ w2 ⟨d2, P2, h1, h2, h3, h4, _, h5, h6⟩
      refine ⟨d2, P2, h1, h2, st1.trans h3,
        Or.inr ⟨P, hU, Or.inr ⟨hfull, new, by rw [h6, hnew], by rw [h4, h5]; exact hgr⟩⟩, fun P0 hU0 j hj => ?_⟩
      rw [h4, show P2 + (j + 1) = P1 + j by omega, (hkeep j hj).2, hU.unique hA hadj hO hU0]
    · intro hc
      have hroom : 0 < P := by
        rcases Nat.eq_zero_or_pos P with h | h
        · exfalso; apply hc
          rw [hstart, h]; exact ptrEq_self _
        · exact h
      refine wp_mono (pushFrontTail_ok hA hadj hk hO hU hroom ha) ?_
      rintro _ w2 ⟨d2, P2, h1, h2, h3, h4, _, h5, h6⟩
      refine ⟨d2, P2, h1, h2, h3,
        Or.inr ⟨P, hU, Or.inl ⟨Nat.ne_of_gt hroom, h4, h5, h6⟩⟩, fun P0 hU0 j hj => ?_⟩
      rw [h4, show P2 + (j + 1) = P + j by omega, hU.unique hA hadj hO hU0]

/-! ## Popping -/

/-- `_resize` to half the capacity never does anything: the shrink test implies that the
elements span at most half of the blocks. -/
theorem maybeShrink_ok (hA : 0 < cfg.A) {w : World α} {k : Nat} {d : Deque} {l : List α} {P : Nat}
    (hk : w.obj k = some d) (hU : Used cfg w k d l P) : Returns (maybeShrink cfg k) w () w := by
  unfold maybeShrink Returns
  rw [bind_returns (getObj_ok hk)]
  unfold Prog.when
  by_cases hc : d.sz ≤ d.cap / 3 ∧ d.tbl.length > 2
  · rw [if_pos hc]
    unfold resize
    rw [bind_returns (getObj_ok hk), hU.beg, hU.fin, bind_returns (itAt_getIdx ..),
      bind_returns (itAt_getIdx ..), if_pos]
    · rfl
    · refine ⟨by omega, ?_⟩
      have hP := pos_eq (A := cfg.A) hU.pos (show P ≤ _ by have := hU.fits; omega)
      have hE := pos_eq (A := cfg.A) hU.pos hU.fits
      have hbo := boff_le (A := cfg.A) (nb := d.tbl.length) (n := P) hA
      have heo := boff_le (A := cfg.A) (nb := d.tbl.length) (n := P + l.length) hA
      generalize bidx cfg.A d.tbl.length P = bi at *
      generalize boff cfg.A d.tbl.length P = bo at *
      generalize bidx cfg.A d.tbl.length (P + l.length) = ei at *
      generalize boff cfg.A d.tbl.length (P + l.length) = eo at *
      have h2 := hU.two
      have hev := hU.even
      obtain ⟨c1, c2⟩ := hc
      rw [hU.cap, hU.sz] at c1
      rw [hU.cap]
      generalize hnb : d.tbl.length = nb at *
      obtain ⟨h, rfl⟩ : ∃ h, nb = 2 * h := ⟨nb / 2, by omega⟩
      rw [show 2 * h * cfg.A / 2 / cfg.A = h by
        rw [Nat.mul_assoc, Nat.mul_div_cancel_left _ (by omega), Nat.mul_div_cancel _ hA]]
      rcases Nat.lt_or_ge ei bi with hlt | hge
      · omega
      · have e1 : (ei - bi) * cfg.A + bi * cfg.A = ei * cfg.A := by
          rw [← Nat.add_mul]; congr 1; omega
        have e2 : 3 * (ei - bi) * cfg.A ≤ (2 * h + 3) * cfg.A := by
          have : 3 * (ei - bi) * cfg.A = 3 * ((ei - bi) * cfg.A) := Nat.mul_assoc ..
          have : (2 * h + 3) * cfg.A = 2 * h * cfg.A + 3 * cfg.A := Nat.add_mul ..
          omega
        have e3 := Nat.le_of_mul_le_mul_right e2 hA
        omega
  · rw [if_neg hc]; rfl

theorem popBack_ok (hA : 0 < cfg.A) (hadj : AdjUp cfg) {w : World α} {k : Nat} {d : Deque}
    {l : List α} {P : Nat} (hk : w.obj k = some d) (hO : OwnOk w d.tbl)
    (hU : Used cfg w k d l P) (hl : l ≠ []) :
    wp (popBack cfg k) (fun _ w' => ∃ d', w'.obj k = some d' ∧ Used cfg w' k d' l.dropLast P ∧
        Step cfg w w' k d.tbl d'.tbl ∧ d'.tbl = d.tbl ∧ d'.cap = d.cap ∧ w'.next = w.next) w := by
  obtain ⟨n, hn⟩ : ∃ n, l.length = n + 1 := ⟨l.length - 1, by
    have := List.length_pos_iff.2 hl; omega⟩
  have hfit := hU.fits
  have hdl : l.dropLast.length = n := by rw [List.length_dropLast]; omega
  unfold popBack
  rw [wp_bind, wp_of_returns (getObj_ok hk), hU.fin, hn, ← Nat.add_assoc, wp_bind,
    wp_of_returns (decr_ok hA hadj (hO.tbl hk rfl) (by omega)), wp_bind, wp_of_returns (updObj_ok hk _), wp_bind,
    wp_of_returns (itAt_getCur ..), wp_bind]
  generalize hd1 : ({ d with fin := itAt cfg.A d.tbl k (P + n), sz := decSize d.sz } : Deque) = d1
  have hs := hU.inside n (by omega)
  refine wp_mono (destroy_ok (k := k) (w := setObj w k (some d1)) hA hO (by omega) hs) ?_
  rintro _ w1 ⟨st, ho1, hnx, hsl⟩
  have hk1 : w1.obj k = some d1 := by rw [ho1]; exact setObj_obj ..
  have hU1 : Used cfg w1 k d1 l.dropLast P := by
    subst hd1
    refine ⟨?_, hU.cap, hU.two, hU.even, hU.last, hU.beg, ?_, ?_, ?_, ?_⟩
    · show decSize d.sz = _
      rw [hU.sz, hn, hdl]; rfl
    · show itAt cfg.A d.tbl k (P + n) = _
      rw [hdl]
    · show P + l.dropLast.length ≤ d.tbl.length * cfg.A
      omega
    · intro j hj
      show slotAt w1 cfg.A d.tbl (P + j) = _
      rw [hdl] at hj
      rw [hsl _ (by omega), if_neg (by omega), List.getElem_dropLast]
      exact hU.inside j (by omega)
    · intro m hm ho
      show ∃ s, slotAt w1 cfg.A d.tbl m = some s ∧ _
      have hm' : m < d.tbl.length * cfg.A := hm
      rw [hsl m hm']
      by_cases h : m = P + n
      · rw [if_pos h]; exact ⟨_, rfl, rfl⟩
      · rw [if_neg h]
        exact hU.outside m hm (by omega)
  rw [wp_of_returns (maybeShrink_ok hA hk1 hU1)]
  have htb : d1.tbl = d.tbl ∧ d1.cap = d.cap := by subst hd1; exact ⟨rfl, rfl⟩
  refine ⟨d1, hk1, hU1, ?_, htb.1, htb.2, hnx⟩
  rw [htb.1]
  exact (Step.setObj _).trans st

theorem popFront_ok (hA : 0 < cfg.A) (hadj : AdjUp cfg) {w : World α} {k : Nat} {d : Deque}
    {l : List α} {P : Nat} (hk : w.obj k = some d) (hO : OwnOk w d.tbl)
    (hU : Used cfg w k d l P) (hl : l ≠ []) :
    wp (popFront cfg k) (fun _ w' => ∃ d', w'.obj k = some d' ∧ Used cfg w' k d' l.tail (P + 1) ∧
        Step cfg w w' k d.tbl d'.tbl ∧ d'.tbl = d.tbl ∧ d'.cap = d.cap ∧ w'.next = w.next) w := by
  obtain ⟨x, t, rfl⟩ := List.exists_cons_of_ne_nil hl
  have hfit := hU.fits
  rw [List.length_cons] at hfit
  unfold popFront
  rw [wp_bind, wp_of_returns (getObj_ok hk), hU.beg, wp_bind, wp_of_returns (itAt_getCur ..), wp_bind]
  have hs := hU.inside 0 (by simp)
  rw [Nat.add_zero] at hs
  refine wp_mono (destroy_ok (k := k) hA hO (by omega) hs) ?_
  rintro _ w1 ⟨st, ho1, hnx, hsl⟩
  have hk1 : w1.obj k = some d := by rw [ho1]; exact hk
  rw [wp_bind, wp_of_returns (incr_ok hA hadj ((st.ok hO).tbl hk1 rfl) (by omega)), wp_bind,
    wp_of_returns (updObj_ok hk1 _)]
  generalize hd1 : ({ d with beg := itAt cfg.A d.tbl k (P + 1), sz := decSize d.sz } : Deque) = d1
  have hU1 : Used cfg (setObj w1 k (some d1)) k d1 t (P + 1) := by
    subst hd1
    refine ⟨?_, hU.cap, hU.two, hU.even, hU.last, rfl, ?_, ?_, ?_, ?_⟩
    · show decSize d.sz = _
      rw [hU.sz]; rfl
    · show d.fin = _
      rw [hU.fin, List.length_cons, show P + (t.length + 1) = P + 1 + t.length by omega]
    · show P + 1 + t.length ≤ d.tbl.length * cfg.A
      omega
    · intro j hj
      show slotAt w1 cfg.A d.tbl (P + 1 + j) = _
      rw [hsl _ (by omega), if_neg (by omega), show P + 1 + j = P + (j + 1) by omega]
      exact hU.inside (j + 1) (by rw [List.length_cons]; omega)
    · intro m hm ho
      show ∃ s, slotAt w1 cfg.A d.tbl m = some s ∧ _
      have hm' : m < d.tbl.length * cfg.A := hm
      rw [hsl m hm']
      by_cases h : m = P
      · rw [if_pos h]; exact ⟨_, rfl, rfl⟩
      · rw [if_neg h]
        exact hU.outside m hm (by rw [List.length_cons]; omega)
  rw [wp_of_returns (maybeShrink_ok hA (setObj_obj ..) hU1)]
  have htb : d1.tbl = d.tbl ∧ d1.cap = d.cap := by subst hd1; exact ⟨rfl, rfl⟩
  refine ⟨d1, setObj_obj .., hU1, ?_, htb.1, htb.2, hnx⟩
  rw [htb.1]
  exact st.trans (Step.setObj _)

end Verif.Deq
