import Verif.DequeOps

/-! # Lemmas about the deque model: clearing, observing, copying, histories -/

namespace Verif.Deq

open Prog

variable {α : Type} {cfg : Cfg α}

/-! ## Clearing -/

theorem destroyLoop_ok (hA : 0 < cfg.A) (hadj : AdjUp cfg) {k : Nat} {d : Deque} (r : Nat) {w : World α}
    {Q : Nat} (hk : w.obj k = some d) (hO : OwnOk w d.tbl) (hpos : 0 < d.tbl.length)
    (hmax : LastMax d.tbl) (hfit : Q + r ≤ d.tbl.length * cfg.A)
    (hin : ∀ j, j < r → ∃ x, slotAt w cfg.A d.tbl (Q + j) = some (.elem x))
    (hout : ∀ n, n < d.tbl.length * cfg.A → n < Q ∨ Q + r ≤ n →
      ∃ s, slotAt w cfg.A d.tbl n = some s ∧ s.isElem = false) :
    wp (destroyLoop cfg (itAt cfg.A d.tbl k Q) (itAt cfg.A d.tbl k (Q + r))) (fun _ w' =>
      Step cfg w w' k d.tbl d.tbl ∧ w'.obj = w.obj ∧ ∀ n, n < d.tbl.length * cfg.A →
        ∃ s, slotAt w' cfg.A d.tbl n = some s ∧ s.isElem = false) w := by
  induction r generalizing w Q with
  | zero =>
    unfold destroyLoop
    rw [wp_bind, wp_of_returns (itAt_getCur ..), wp_bind, wp_of_returns (itAt_getCur ..), wp_bind,
      wp_of_returns (cmp_ok ((hO.tbl hk rfl).live_cur hpos hA _) ((hO.tbl hk rfl).live_cur hpos hA _)), wp_ite]
    refine ⟨fun _ => ?_, fun h => absurd (ptrEq_self _) h⟩
    rw [wp_pure]
    exact ⟨Step.refl, rfl, fun n hn => hout n hn (by omega)⟩
  | succ r ih =>
    unfold destroyLoop
    rw [wp_bind, wp_of_returns (itAt_getCur ..), wp_bind, wp_of_returns (itAt_getCur ..), wp_bind,
      wp_of_returns (cmp_ok ((hO.tbl hk rfl).live_cur hpos hA _) ((hO.tbl hk rfl).live_cur hpos hA _)), wp_ite]
    refine ⟨fun h => ?_, fun _ => ?_⟩
    · have := (ptrEq_pos hA hadj hO.1 hmax hpos (by omega) hfit).1 h
      omega
    · obtain ⟨x, hx⟩ := hin 0 (by omega)
      rw [Nat.add_zero] at hx
      rw [wp_bind, wp_of_returns (itAt_getCur ..), wp_bind]
      refine wp_mono (destroy_ok (k := k) hA hO (by omega) hx) ?_
      rintro _ w1 ⟨st, ho1, _, hsl⟩
      have hk1 : w1.obj k = some d := by rw [ho1]; exact hk
      rw [wp_bind, wp_of_returns (incr_ok hA hadj ((st.ok hO).tbl hk1 rfl) (by omega)),
        show Q + (r + 1) = Q + 1 + r by omega]
      refine wp_mono (ih hk1 (st.ok hO) (by omega) ?_ ?_) ?_
      · intro j hj
        rw [hsl _ (by omega), if_neg (by omega), show Q + 1 + j = Q + (j + 1) by omega]
        exact hin (j + 1) (by omega)
      · intro n hn ho
        rw [hsl n hn]
        by_cases h : n = Q
        · rw [if_pos h]; exact ⟨_, rfl, rfl⟩
        · rw [if_neg h]; exact hout n hn (by omega)
      · rintro _ w2 ⟨st2, ho2, h2⟩
        exact ⟨st.trans st2, ho2.trans ho1, h2⟩

/-- `clear()` on a deque in use. -/
theorem onlyClear_ok (hA : 0 < cfg.A) (hadj : AdjUp cfg) {w : World α} {k : Nat} {d : Deque}
    {l : List α} {P : Nat} (hk : w.obj k = some d) (hO : OwnOk w d.tbl) (hU : Used cfg w k d l P) :
    wp (onlyClear cfg k) (fun _ w' => w'.obj k = some { d with sz := 0, cap := 0, tbl := [] } ∧
      Step cfg w w' k d.tbl [] ∧ ∀ b ∈ d.tbl, w'.blk b = none) w := by
  have hpos := hU.pos
  unfold onlyClear
  rw [wp_bind, wp_of_returns (getObj_ok hk), wp_when]
  refine ⟨fun _ => ?_, fun h => absurd (fun h0 => by rw [h0] at hpos; simp at hpos) h⟩
  rw [wp_bind, wp_dassert]
  refine ⟨by rw [hU.cap]; have := Nat.mul_pos hpos hA; omega, ?_⟩
  rw [wp_bind, hU.beg, hU.fin, wp_of_returns (copyIter_itAt ..), wp_bind]
  refine wp_mono (destroyLoop_ok hA hadj l.length hk hO hpos hU.last hU.fits
    (fun j hj => ⟨_, hU.inside j hj⟩) hU.outside) ?_
  rintro _ w1 ⟨st, ho1, hsl⟩
  rw [wp_bind]
  refine wp_mono (freeAll_ok (k := k) (st.ok hO) ?_) ?_
  · intro b hb f hf i hi
    obtain ⟨q, hq, hqb⟩ := List.mem_iff_getElem.1 hb
    have hlt : q * cfg.A + i < d.tbl.length * cfg.A := by
      have := Nat.mul_le_mul_right cfg.A (show q + 1 ≤ d.tbl.length by omega)
      rw [Nat.add_mul] at this; omega
    obtain ⟨s, h1, h2⟩ := hsl _ hlt
    unfold slotAt at h1
    rw [bidx_of hq hi, boff_of hq hi, List.getD_eq_getElem?_getD, List.getElem?_eq_getElem hq] at h1
    simp only [Option.getD_some, hqb, hf, Option.map_some, Option.some.injEq] at h1
    rw [h1]; exact h2
  · rintro _ w2 ⟨st2, ho2, hn2⟩
    have hk2 : w2.obj k = some d := by rw [ho2, ho1]; exact hk
    rw [wp_of_returns (updObj_ok hk2 _)]
    refine ⟨by rw [setObj_obj, hU.beg, hU.fin], st.trans (st2.trans (Step.setObj _)), ?_⟩
    intro b hb
    show w2.blk b = none
    cases hf : w2.blk b with
    | none => rfl
    | some f =>
      rcases st2.gone b f hf with h | h
      · simp at h
      · exact absurd hb h.1

/-- `clear()` on a deque without blocks. -/
theorem onlyClear_idle {w : World α} {k : Nat} {d : Deque} (hk : w.obj k = some d) (ht : d.tbl = []) :
    Returns (onlyClear cfg k) w () w := by
  unfold onlyClear Returns
  rw [bind_returns (getObj_ok hk)]
  simp [Prog.when, ht]
  rfl

/-! ## Observing -/

theorem iterateFrom_ok (hA : 0 < cfg.A) (hadj : AdjUp cfg) {w : World α} {k : Nat} {d : Deque}
    {l : List α} {P : Nat} (hk : w.obj k = some d) (hO : OwnOk w d.tbl) (hU : Used cfg w k d l P)
    (r i : Nat) (hr : i + r = l.length) :
    Returns (iterateFrom cfg (itAt cfg.A d.tbl k (P + i)) (itAt cfg.A d.tbl k (P + l.length))) w
      (l.drop i) w := by
  have hfit := hU.fits
  induction r generalizing i with
  | zero =>
    have : i = l.length := by omega
    subst this
    unfold iterateFrom Returns
    rw [bind_returns (itAt_getCur ..), bind_returns (itAt_getCur ..), bind_returns (cmp_self ..), if_pos rfl,
      List.drop_length]
    rfl
  | succ r ih =>
    unfold iterateFrom Returns
    rw [bind_returns (itAt_getCur ..), bind_returns (itAt_getCur ..),
      bind_returns (cmp_ok ((hO.tbl hk rfl).live_cur hU.pos hA _) ((hO.tbl hk rfl).live_cur hU.pos hA _)), if_neg]
    · rw [bind_returns (itAt_getCur ..), bind_returns (readPtr_ok hA (by omega) (hU.inside i (by omega))),
        bind_returns (incr_ok hA hadj (hO.tbl hk rfl) (by omega)),
        show P + i + 1 = P + (i + 1) by omega, bind_returns (ih (i + 1) (by omega)),
        List.drop_eq_getElem_cons (show i < l.length by omega)]
      rfl
    · intro h
      have := (ptrEq_pos hA hadj hO.1 hU.last hU.pos (by omega) hfit).1 h
      omega

theorem plus_neg {w : World α} (hA : 0 < cfg.A) (hadj : AdjUp cfg) {own : Nat} {t : List Nat}
    (hT : Tbl w own t) (n i : Nat) (hi : 0 < i) (hn : n + i ≤ t.length * cfg.A) :
    Returns (plus cfg (itAt cfg.A t own (n + i)) (-(i : Int))) w (itAt cfg.A t own n) w := by
  unfold plus Returns
  rw [bind_returns (copyIter_itAt ..), if_pos (by omega), show (-(-(i : Int))).toNat = i by omega]
  exact decrN_ok hA hadj hT i hn

theorem plus_pos {w : World α} (hA : 0 < cfg.A) (hadj : AdjUp cfg) {own : Nat} {t : List Nat}
    (hT : Tbl w own t) (n i : Nat) (hn : n + i ≤ t.length * cfg.A) :
    Returns (plus cfg (itAt cfg.A t own n) (i : Int)) w (itAt cfg.A t own (n + i)) w := by
  unfold plus Returns
  rw [bind_returns (copyIter_itAt ..), if_neg (by omega), show ((i : Int)).toNat = i by omega]
  exact incrN_ok hA hadj hT i hn

theorem indexRef_ok (hA : 0 < cfg.A) (hadj : AdjUp cfg) {w : World α} {k : Nat} {d : Deque}
    {l : List α} {P : Nat} (hk : w.obj k = some d) (hO : OwnOk w d.tbl) (hU : Used cfg w k d l P)
    {i : Int} {x : α} (hx : elemAt l i = some x) :
    ∃ j, ∃ h : j < l.length, l[j] = x ∧ Returns (indexRef cfg k i) w (curAt cfg.A d.tbl (P + j)) w := by
  have hT := hO.tbl hk rfl
  have hfit := hU.fits
  unfold elemAt at hx
  by_cases h0 : 0 ≤ i
  · rw [if_pos h0] at hx
    obtain ⟨hj, hx'⟩ := List.getElem?_eq_some_iff.1 hx
    refine ⟨i.toNat, hj, hx', ?_⟩
    unfold indexRef Returns
    have hi : i = ((i.toNat : Nat) : Int) := by omega
    rw [bind_returns (getObj_ok hk), hU.beg, hU.fin]
    have hp : Returns (if i < 0 then plus cfg (itAt cfg.A d.tbl k (P + l.length)) i
        else plus cfg (itAt cfg.A d.tbl k P) i) w (itAt cfg.A d.tbl k (P + i.toNat)) w := by
      rw [if_neg (by omega), hi]
      exact plus_pos hA hadj hT P i.toNat (by omega)
    rw [bind_returns hp]
    rfl
  · rw [if_neg h0] at hx
    by_cases h1 : 0 ≤ (l.length : Int) + i
    · rw [if_pos h1] at hx
      obtain ⟨hj, hx'⟩ := List.getElem?_eq_some_iff.1 hx
      refine ⟨((l.length : Int) + i).toNat, hj, hx', ?_⟩
      obtain ⟨n, hn⟩ : ∃ n : Nat, i = -(n : Int) := ⟨(-i).toNat, by omega⟩
      subst hn
      unfold indexRef Returns
      rw [bind_returns (getObj_ok hk), hU.beg, hU.fin]
      have hp : Returns (if -(n : Int) < 0 then plus cfg (itAt cfg.A d.tbl k (P + l.length)) (-(n : Int))
          else plus cfg (itAt cfg.A d.tbl k P) (-(n : Int))) w
            (itAt cfg.A d.tbl k (P + ((l.length : Int) + -(n : Int)).toNat)) w := by
        rw [if_pos (by omega)]
        have := plus_neg hA hadj hT (P + (l.length - n)) n (by omega) (by omega)
        rw [show P + (l.length - n) + n = P + l.length by omega] at this
        rw [show ((l.length : Int) + -(n : Int)).toNat = l.length - n by omega]
        exact this
      rw [bind_returns hp]
      rfl
    · rw [if_neg h1] at hx; cases hx

theorem Used.shows (hA : 0 < cfg.A) (hadj : AdjUp cfg) {w : World α} {k : Nat} {d : Deque}
    {l : List α} {P : Nat} (hk : w.obj k = some d) (hO : OwnOk w d.tbl) (hU : Used cfg w k d l P) :
    ShowsSeq cfg w k l where
  iter := by
    unfold iterate Returns
    rw [bind_returns (getObj_ok hk), hU.beg, hU.fin, bind_returns (copyIter_itAt ..),
      bind_returns (copyIter_itAt ..)]
    exact iterateFrom_ok hA hadj hk hO hU l.length 0 (by omega)
  size := by
    unfold size Returns; rw [bind_returns (getObj_ok hk), hU.sz]; rfl
  empty := by
    unfold empty Returns; rw [bind_returns (getObj_ok hk), hU.sz]; rfl
  front x hx := by
    obtain ⟨t, rfl⟩ : ∃ t, l = x :: t := by
      cases l with
      | nil => cases hx
      | cons y t => simp only [List.head?_cons, Option.some.injEq] at hx; exact ⟨t, by rw [hx]⟩
    have hfit := hU.fits
    rw [List.length_cons] at hfit
    unfold front Returns
    rw [bind_returns (getObj_ok hk), hU.beg, bind_returns (itAt_getCur ..)]
    exact readPtr_ok hA (by omega) (hU.inside 0 (by simp))
  back x hx := by
    have hl : l ≠ [] := fun h => by rw [h] at hx; cases hx
    have hlen := List.length_pos_iff.2 hl
    have hfit := hU.fits
    unfold back Returns
    have := plus_neg hA hadj (hO.tbl hk rfl) (P + (l.length - 1)) 1 (by omega) (by omega)
    rw [show P + (l.length - 1) + 1 = P + l.length by omega, show (-((1 : Nat) : Int)) = -1 from rfl] at this
    rw [bind_returns (getObj_ok hk), hU.fin, bind_returns this, bind_returns (itAt_getCur ..)]
    have hs := hU.inside (l.length - 1) (by omega)
    have : l[l.length - 1] = x := by
      rw [List.getLast?_eq_getElem?, List.getElem?_eq_getElem (by omega)] at hx
      exact Option.some.inj hx
    rw [this] at hs
    exact readPtr_ok hA (by omega) hs
  index i x hx := by
    obtain ⟨j, hj, hjx, hr⟩ := indexRef_ok hA hadj hk hO hU hx
    unfold index Returns
    rw [bind_returns hr]
    have hs := hU.inside j hj
    rw [hjx] at hs
    exact readPtr_ok hA (by have := hU.fits; omega) hs

/-- A deque whose iterators are equal and that holds nothing. -/
structure Nulled (d : Deque) : Prop where
  tbl : d.tbl = []
  cap : d.cap = 0
  sz : d.sz = 0
  it : ∃ i j c, d.beg.idx = some i ∧ d.fin.idx = some j ∧ d.beg.cur = some c ∧ d.fin.cur = some c

theorem copyIter_some {it : Iter} {i : Int} {c : CPtr} (h1 : it.idx = some i) (h2 : it.cur = some c)
    (w : World α) : Returns (copyIter it) w it w := by
  unfold copyIter Returns Iter.getIdx Iter.getCur
  rw [h1, h2]; rfl

theorem getCur_some {it : Iter} {c : CPtr} (h2 : it.cur = some c) (w : World α) :
    Returns it.getCur w c w := by
  unfold Returns Iter.getCur
  rw [h2]; rfl

theorem Nulled.shows {w : World α} {k : Nat} {d : Deque}
    (hk : w.obj k = some d) (h : Nulled d) : ShowsSeq cfg w k [] where
  iter := by
    obtain ⟨i, j, c, h1, h2, h3, h4⟩ := h.it
    unfold iterate Returns
    rw [bind_returns (getObj_ok hk), bind_returns (copyIter_some h1 h3 w), bind_returns (copyIter_some h2 h4 w)]
    unfold iterateFrom
    rw [bind_returns (getCur_some h3 w), bind_returns (getCur_some h4 w), bind_returns (cmp_self ..),
      if_pos rfl]
    rfl
  size := by
    unfold size Returns; rw [bind_returns (getObj_ok hk), h.sz]; rfl
  empty := by
    unfold empty Returns; rw [bind_returns (getObj_ok hk), h.sz]; rfl
  front x hx := by cases hx
  back x hx := by cases hx
  index i x hx := by
    unfold elemAt at hx
    simp at hx

/-! ## Copying -/

/-- `copyLoop`, when the elements from position `Q + i` of the source on remain. -/
theorem copyLoop_ok (hA : 0 < cfg.A) (hadj : AdjUp cfg) {k s : Nat} (hks : s ≠ k) {src : Deque}
    {u : List α} {Q : Nat} (r : Nat) {w : World α} {i : Nat} {d : Deque} (hk : w.obj k = some d)
    (hs : w.obj s = some src) (hn0 : 1 ≤ w.next) (hOk : OwnOk w d.tbl) (hOs : OwnOk w src.tbl)
    (hUs : Used cfg w s src u Q) (hdis : ∀ b ∈ src.tbl, b ∉ d.tbl) (hr : i + r = u.length)
    (hR : Ready cfg w k d (u.take i)) (hi : i = 0 ∨ ∃ P, Used cfg w k d (u.take i) P) :
    wp (copyLoop cfg k (itAt cfg.A src.tbl s (Q + i)) (itAt cfg.A src.tbl s (Q + u.length))) (fun _ w' =>
      ∃ d', w'.obj k = some d' ∧ Step cfg w w' k d.tbl d'.tbl ∧
        if r = 0 then d' = d ∧ w' = w else ∃ P', Used cfg w' k d' u P') w := by
  have hfit := hUs.fits
  induction r generalizing w i d with
  | zero =>
    have hi' : i = u.length := by omega
    subst hi'
    unfold copyLoop
    rw [wp_bind, wp_of_returns (itAt_getCur ..), wp_bind, wp_of_returns (itAt_getCur ..), wp_bind,
      wp_of_returns (cmp_ok ((hOs.tbl hs rfl).live_cur hUs.pos hA _) ((hOs.tbl hs rfl).live_cur hUs.pos hA _)), wp_ite]
    refine ⟨fun _ => ?_, fun h => absurd (ptrEq_self _) h⟩
    rw [wp_pure]
    exact ⟨d, hk, Step.refl, by rw [if_pos rfl]; exact ⟨rfl, rfl⟩⟩
  | succ r ih =>
    unfold copyLoop
    rw [wp_bind, wp_of_returns (itAt_getCur ..), wp_bind, wp_of_returns (itAt_getCur ..), wp_bind,
      wp_of_returns (cmp_ok ((hOs.tbl hs rfl).live_cur hUs.pos hA _) ((hOs.tbl hs rfl).live_cur hUs.pos hA _)), wp_ite]
    refine ⟨fun h => ?_, fun _ => ?_⟩
    · have := (ptrEq_pos hA hadj hOs.1 hUs.last hUs.pos (by omega) hfit).1 h
      omega
    · rw [wp_bind, wp_of_returns (itAt_getCur ..), wp_bind]
      have hin := hUs.inside i (by omega)
      obtain ⟨f, hf1, hf2⟩ := slotAt_some hin
      have ha : ArgLive cfg w (.ref (curAt cfg.A src.tbl (Q + i))) (u[i]'(by omega)) :=
        Or.inr ⟨_, _, f, rfl, (hOs.2 _ (mem_getD (bidx_lt hUs.pos))).2.1, hf1, boff_lt hA (by omega), hf2⟩
      refine wp_mono (pushBack_ok hA hadj hk hn0 hOk hR ha) ?_
      rintro _ w1 ⟨d1, P1, hk1, hU1, st1, _⟩
      have hs1 : w1.obj s = some src := by rw [st1.objs s hks]; exact hs
      have hb1 : ∀ b ∈ src.tbl, w1.blk b = w.blk b := fun b hb =>
        st1.keep b (hdis b hb) (hOs.2 b hb).2.1
      have hOs1 : OwnOk w1 src.tbl := ⟨hOs.1, fun b hb => by
        obtain ⟨g1, g2, g3⟩ := hOs.2 b hb
        exact ⟨g1, by have := st1.next; omega, by rw [hb1 b hb]; exact g3⟩⟩
      have hUs1 := hUs.congr hb1
      have hdis1 : ∀ b ∈ src.tbl, b ∉ d1.tbl := by
        intro b hb hbd
        rcases st1.sub b hbd with h | h
        · exact hdis b hb h
        · have := (hOs.2 b hb).2.1; omega
      have htk : u.take i ++ [u[i]'(by omega)] = u.take (i + 1) := by
        rw [List.take_append_getElem]
      rw [htk] at hU1
      rw [wp_bind, wp_of_returns (incr_ok hA hadj (hOs1.tbl hs1 rfl) (by omega)),
        show Q + i + 1 = Q + (i + 1) by omega]
      refine wp_mono (ih hk1 hs1 (by have := st1.next; omega) (st1.ok hOk) hOs1 hUs1 hdis1 (by omega)
        (Or.inr ⟨P1, hU1⟩) (Or.inr ⟨P1, hU1⟩)) ?_
      rintro _ w2 ⟨d2, hk2, st2, h2⟩
      refine ⟨d2, hk2, st1.trans st2, ?_⟩
      rw [if_neg (by omega)]
      by_cases hr0 : r = 0
      · rw [if_pos hr0] at h2
        obtain ⟨rfl, rfl⟩ := h2
        rw [show i + 1 = u.length by omega, List.take_length] at hU1
        exact ⟨P1, hU1⟩
      · rwa [if_neg hr0] at h2

/-! ## Histories -/

/-- The iterators left behind by clearing a deque with elements: they delimit slots of blocks
that no longer exist. -/
structure Dangling (cfg : Cfg α) (w : World α) (d : Deque) : Prop where
  tbl : d.tbl = []
  cap : d.cap = 0
  sz : d.sz = 0
  it : ∃ t own P n, d.beg = itAt cfg.A t own P ∧ d.fin = itAt cfg.A t own (P + n) ∧ 0 < n ∧
    P + n ≤ t.length * cfg.A ∧ 0 < t.length ∧ t.Nodup ∧ LastMax t ∧ ∀ b ∈ t, b < w.next ∧ w.blk b = none

/-- What is known about a deque in a given phase. -/
def ObjInv (cfg : Cfg α) (m : World α) (k : Nat) (d : Deque) (s : SD α) : Prop :=
  match s.ph with
  | .fresh => d = Deque.fresh ∧ s.l = []
  | .used => ∃ P, Used cfg m k d s.l P
  | .null => Nulled d ∧ s.l = []
  | .cleared => Dangling cfg m d ∧ s.l = []
  | .stale => ∃ own P, own ≠ k ∧ Used cfg m own d s.l P

/-- The table of a deque that may not exist. -/
def tblOf : Option Deque → List Nat
  | none => []
  | some d => d.tbl

def ObjOpt (cfg : Cfg α) (m : World α) (k : Nat) : Option Deque → Option (SD α) → Prop
  | none, none => True
  | some d, some s => ObjInv cfg m k d s
  | _, _ => False

/-- The invariant of histories. -/
structure WInv (cfg : Cfg α) (m : World α) (w : SWorld α) : Prop where
  obj : ∀ k, ObjOpt cfg m k (m.obj k) (w k)
  own : ∀ k, OwnOk m (tblOf (m.obj k))
  disj : ∀ k j, k ≠ j → ∀ b ∈ tblOf (m.obj k), b ∉ tblOf (m.obj j)
  owned : ∀ b f, m.blk b = some f → ∃ k, b ∈ tblOf (m.obj k)
  elem : m.lostElem = 0
  bal : Bal cfg m

theorem WInv.init : WInv cfg (World.init : World α) (fun _ => none) where
  obj _ := trivial
  own _ := ⟨List.nodup_nil, by simp [World.init, tblOf]⟩
  disj _ _ _ b hb := by simp [World.init, tblOf] at hb
  owned b f h := by cases h
  elem := rfl
  bal := ⟨rfl, Nat.le_refl _, rfl⟩

theorem WInv.get {m : World α} {w : SWorld α} (h : WInv cfg m w) {k : Nat} {s : SD α}
    (hs : w k = some s) : ∃ d, m.obj k = some d ∧ ObjInv cfg m k d s ∧ OwnOk m d.tbl := by
  have h1 := h.obj k
  have h2 := h.own k
  rw [hs] at h1
  cases hd : m.obj k with
  | none => rw [hd] at h1; exact absurd h1 (by simp [ObjOpt])
  | some d =>
    rw [hd] at h1 h2
    exact ⟨d, rfl, h1, h2⟩

theorem ObjInv.congr {m m' : World α} {k : Nat} {d : Deque} {s : SD α} (h : ObjInv cfg m k d s)
    (hb : ∀ b ∈ d.tbl, m'.blk b = m.blk b) (hn : m.next ≤ m'.next)
    (hdead : ∀ b, b < m.next → m.blk b = none → m'.blk b = none) : ObjInv cfg m' k d s := by
  unfold ObjInv at h ⊢
  cases hp : s.ph <;> rw [hp] at h
  · exact h
  · obtain ⟨P, hU⟩ := h
    exact ⟨P, hU.congr hb⟩
  · exact h
  · obtain ⟨⟨h1, h2, h3, t, own, P, n, a1, a2, a3, a4, a5, a6, a8, a7⟩, h5⟩ := h
    refine ⟨⟨h1, h2, h3, t, own, P, n, a1, a2, a3, a4, a5, a6, a8, fun b hbt => ?_⟩, h5⟩
    obtain ⟨c1, c2⟩ := a7 b hbt
    exact ⟨by omega, hdead b c1 c2⟩
  · obtain ⟨own, P, ho, hU⟩ := h
    exact ⟨own, P, ho, hU.congr hb⟩

/-- Working on one deque preserves the invariant. -/
theorem WInv.update {m m' : World α} {w : SWorld α} {k : Nat} (h : WInv cfg m w)
    (st : Step cfg m m' k (tblOf (m.obj k)) (tblOf (m'.obj k))) {v : Option (SD α)}
    (hv : ObjOpt cfg m' k (m'.obj k) v) : WInv cfg m' (w.put k v) := by
  have hother : ∀ j, j ≠ k → ∀ b ∈ tblOf (m.obj j), m'.blk b = m.blk b := by
    intro j hj b hb
    exact st.keep b (h.disj j k hj b hb) ((h.own j).2 b hb).2.1
  have hsub : ∀ j, j ≠ k → ∀ b ∈ tblOf (m.obj j), b ∉ tblOf (m'.obj k) := by
    intro j hj b hb hbk
    rcases st.sub b hbk with h1 | h1
    · exact h.disj j k hj b hb h1
    · have := ((h.own j).2 b hb).2.1; omega
  refine ⟨?_, ?_, ?_, ?_, by rw [st.elem]; exact h.elem, st.bal (h.own k) h.bal⟩
  · intro j
    by_cases hj : j = k
    · subst hj; simp only [SWorld.put, if_pos]; exact hv
    · have h1 := h.obj j
      have h2 := hother j hj
      rw [st.objs j hj]
      simp only [SWorld.put, if_neg hj]
      cases hd : m.obj j with
      | none => rw [hd] at h1; cases hw : w j <;> rw [hw] at h1 <;> exact h1
      | some d =>
        rw [hd] at h1 h2
        cases hw : w j with
        | none => rw [hw] at h1; exact h1
        | some s =>
          rw [hw] at h1
          refine ObjInv.congr h1 h2 st.next ?_
          intro b hbn hdead
          rw [st.keep b _ hbn]; exact hdead
          intro hbk
          obtain ⟨_, _, f, hf⟩ := (h.own k).2 b hbk
          rw [hdead] at hf; cases hf
  · intro j
    by_cases hj : j = k
    · subst hj; exact st.ok (h.own j)
    · rw [st.objs j hj]
      refine ⟨(h.own j).1, fun b hb => ?_⟩
      obtain ⟨g1, g2, g3⟩ := (h.own j).2 b hb
      exact ⟨g1, by have := st.next; omega, by rw [hother j hj b hb]; exact g3⟩
  · intro i j hij b hb
    by_cases hi : i = k
    · subst hi
      have hj : j ≠ i := fun h => hij h.symm
      rw [st.objs j hj]
      intro hbj
      exact hsub j hj b hbj hb
    · rw [st.objs i hi] at hb
      by_cases hj : j = k
      · subst hj; exact hsub i hi b hb
      · rw [st.objs j hj]; exact h.disj i j hij b hb
  · intro b f hf
    rcases st.gone b f hf with h1 | ⟨h1, h2⟩
    · exact ⟨k, h1⟩
    · obtain ⟨j, hj⟩ := h.owned b f h2
      refine ⟨j, ?_⟩
      have : j ≠ k := fun he => by subst he; exact h1 hj
      rw [st.objs j this]; exact hj

theorem ObjInv.ready {m : World α} {k : Nat} {d : Deque} {s : SD α} (h : ObjInv cfg m k d s)
    (hp : s.ph ≠ .stale) : Ready cfg m k d s.l := by
  unfold ObjInv at h
  cases hp' : s.ph <;> rw [hp'] at h
  · obtain ⟨rfl, h2⟩ := h; exact Or.inl ⟨rfl, rfl, rfl, h2⟩
  · exact Or.inr h
  · exact Or.inl ⟨h.1.tbl, h.1.cap, h.1.sz, h.2⟩
  · exact Or.inl ⟨h.1.tbl, h.1.cap, h.1.sz, h.2⟩
  · exact absurd hp' hp

theorem ObjInv.used {m : World α} {k : Nat} {d : Deque} {s : SD α} (h : ObjInv cfg m k d s)
    (hp : s.ph ≠ .stale) (hl : s.l ≠ []) : s.ph = .used ∧ ∃ P, Used cfg m k d s.l P := by
  unfold ObjInv at h
  cases hp' : s.ph <;> rw [hp'] at h
  · exact absurd h.2 hl
  · exact ⟨rfl, h⟩
  · exact absurd h.2 hl
  · exact absurd h.2 hl
  · exact absurd hp' hp

/-- `clear()`, in any phase but `stale`. -/
theorem clear_ok (hA : 0 < cfg.A) (hadj : AdjUp cfg) {m : World α} {k : Nat} {d : Deque} {s : SD α}
    (hk : m.obj k = some d) (hO : OwnOk m d.tbl) (hI : ObjInv cfg m k d s) (hp : s.ph ≠ .stale) :
    wp (onlyClear cfg k) (fun _ m' => ∃ d', m'.obj k = some d' ∧ Step cfg m m' k d.tbl d'.tbl ∧
      ObjInv cfg m' k d' s.clear ∧ d'.tbl = [] ∧ d'.cap = 0 ∧ d'.sz = 0) m := by
  by_cases hu : s.ph = .used
  · have hI' := hI
    unfold ObjInv at hI
    rw [hu] at hI
    obtain ⟨P, hU⟩ := hI
    refine wp_mono (onlyClear_ok hA hadj hk hO hU) ?_
    rintro _ m' ⟨h1, h2, h3⟩
    refine ⟨_, h1, h2, ?_, rfl, rfl, rfl⟩
    unfold ObjInv SD.clear
    rw [if_pos hu]
    by_cases hl : s.l = []
    · simp only [hl, List.isEmpty_nil, if_true]
      have hf := hU.fin
      have hb := hU.beg
      rw [hl, List.length_nil, Nat.add_zero] at hf
      refine ⟨⟨rfl, rfl, rfl, (bidx cfg.A d.tbl.length P : Nat), (bidx cfg.A d.tbl.length P : Nat),
        curAt cfg.A d.tbl P, ?_, ?_, ?_, ?_⟩, trivial⟩
      · show d.beg.idx = _; rw [hb]; rfl
      · show d.fin.idx = _; rw [hf]; rfl
      · show d.beg.cur = _; rw [hb]; rfl
      · show d.fin.cur = _; rw [hf]; rfl
    · have : s.l.isEmpty = false := by simpa using hl
      simp only [this, Bool.false_eq_true, if_false]
      refine ⟨⟨rfl, rfl, rfl, d.tbl, k, P, s.l.length, hU.beg, hU.fin, List.length_pos_iff.2 hl, hU.fits,
        hU.pos, hO.1, hU.last, fun b hb => ⟨?_, h3 b hb⟩⟩, trivial⟩
      have := (hO.2 b hb).2.1
      have := h2.next; omega
  · have hR := hI.ready hp
    have hidle : d.tbl = [] ∧ d.cap = 0 ∧ d.sz = 0 ∧ s.l = [] := by
      rcases hR with h | h
      · exact h
      · unfold ObjInv at hI
        cases hp' : s.ph <;> rw [hp'] at hI
        · obtain ⟨rfl, h2⟩ := hI; exact ⟨rfl, rfl, rfl, h2⟩
        · exact absurd hp' hu
        · exact ⟨hI.1.tbl, hI.1.cap, hI.1.sz, hI.2⟩
        · exact ⟨hI.1.tbl, hI.1.cap, hI.1.sz, hI.2⟩
        · exact absurd hp' hp
    rw [wp_of_returns (onlyClear_idle hk hidle.1)]
    refine ⟨d, hk, Step.refl, ?_, hidle.1, hidle.2.1, hidle.2.2.1⟩
    have : s.clear = s := by
      unfold SD.clear
      rw [if_neg hu]
      cases s; simp only at hidle; simp [hidle.2.2.2]
    rw [this]; exact hI

/-- A value or an element of another deque, as argument of a push. -/
theorem argLive_elem (hA : 0 < cfg.A) (hadj : AdjUp cfg) {m : World α} {w : SWorld α} (h : WInv cfg m w)
    {j : Nat} {t : SD α} (hj : w j = some t) (hp : t.ph ≠ .stale) {i : Int} {x : α}
    (hx : elemAt t.l i = some x) :
    ∃ c, Returns (indexRef cfg j i) m c m ∧ ArgLive cfg m (.ref c) x := by
  obtain ⟨d, hd, hI, hO⟩ := h.get hj
  have hl : t.l ≠ [] := by
    intro h0
    rw [h0] at hx
    unfold elemAt at hx
    simp at hx
  obtain ⟨_, P, hU⟩ := hI.used hp hl
  obtain ⟨n, hn, hnx, hr⟩ := indexRef_ok hA hadj hd hO hU hx
  refine ⟨_, hr, Or.inr ?_⟩
  have hs := hU.inside n hn
  rw [hnx] at hs
  obtain ⟨f, hf1, hf2⟩ := slotAt_some hs
  exact ⟨_, _, f, rfl, (hO.2 _ (mem_getD (bidx_lt hU.pos))).2.1, hf1,
    boff_lt hA (by have := hU.fits; omega), hf2⟩

theorem pushBack_world (hA : 0 < cfg.A) (hadj : AdjUp cfg) {m : World α} {w : SWorld α}
    (h : WInv cfg m w) {k : Nat} {s : SD α} (hs : w k = some s) (hp : s.ph ≠ .stale) {a : Arg α} {x : α}
    (ha : ArgLive cfg m a x) :
    wp (pushBack cfg k a) (fun _ m' => WInv cfg m' (w.put k (some ⟨s.l ++ [x], .used⟩))) m := by
  obtain ⟨d, hd, hI, hO⟩ := h.get hs
  refine wp_mono (pushBack_ok hA hadj hd h.bal.2.1 hO (hI.ready hp) ha) ?_
  rintro _ m' ⟨d', P', h1, h2, h3, _⟩
  refine h.update (k := k) ?_ ?_
  · rw [hd, h1]; exact h3
  · rw [h1]; exact ⟨P', h2⟩

theorem pushFront_world (hA : 0 < cfg.A) (hadj : AdjUp cfg) {m : World α} {w : SWorld α}
    (h : WInv cfg m w) {k : Nat} {s : SD α} (hs : w k = some s) (hp : s.ph ≠ .stale) {a : Arg α} {x : α}
    (ha : ArgLive cfg m a x) :
    wp (pushFront cfg k a) (fun _ m' => WInv cfg m' (w.put k (some ⟨x :: s.l, .used⟩))) m := by
  obtain ⟨d, hd, hI, hO⟩ := h.get hs
  refine wp_mono (pushFront_ok hA hadj hd h.bal.2.1 hO (hI.ready hp) ha) ?_
  rintro _ m' ⟨d', P', h1, h2, h3, _⟩
  refine h.update (k := k) ?_ ?_
  · rw [hd, h1]; exact h3
  · rw [h1]; exact ⟨P', h2⟩

theorem popBack_world (hA : 0 < cfg.A) (hadj : AdjUp cfg) {m : World α} {w : SWorld α}
    (h : WInv cfg m w) {k : Nat} {s : SD α} (hs : w k = some s) (hp : s.ph ≠ .stale) (hl : s.l ≠ []) :
    wp (popBack cfg k) (fun _ m' => WInv cfg m' (w.put k (some ⟨s.l.dropLast, s.ph⟩)) ∧
      m'.next = m.next ∧ ∃ d d', m.obj k = some d ∧ m'.obj k = some d' ∧ d'.tbl = d.tbl ∧ d'.cap = d.cap) m := by
  obtain ⟨d, hd, hI, hO⟩ := h.get hs
  obtain ⟨hpu, P, hU⟩ := hI.used hp hl
  refine wp_mono (popBack_ok hA hadj hd hO hU hl) ?_
  rintro _ m' ⟨d', h1, h2, h3, h4, h5, h6⟩
  refine ⟨h.update (k := k) ?_ ?_, h6, d, d', hd, h1, h4, h5⟩
  · rw [hd, h1]; exact h3
  · rw [h1, hpu]; exact ⟨P, h2⟩

theorem popFront_world (hA : 0 < cfg.A) (hadj : AdjUp cfg) {m : World α} {w : SWorld α}
    (h : WInv cfg m w) {k : Nat} {s : SD α} (hs : w k = some s) (hp : s.ph ≠ .stale) (hl : s.l ≠ []) :
    wp (popFront cfg k) (fun _ m' => WInv cfg m' (w.put k (some ⟨s.l.tail, s.ph⟩)) ∧
      m'.next = m.next ∧ ∃ d d', m.obj k = some d ∧ m'.obj k = some d' ∧ d'.tbl = d.tbl ∧ d'.cap = d.cap) m := by
  obtain ⟨d, hd, hI, hO⟩ := h.get hs
  obtain ⟨hpu, P, hU⟩ := hI.used hp hl
  refine wp_mono (popFront_ok hA hadj hd hO hU hl) ?_
  rintro _ m' ⟨d', h1, h2, h3, h4, h5, h6⟩
  refine ⟨h.update (k := k) ?_ ?_, h6, d, d', hd, h1, h4, h5⟩
  · rw [hd, h1]; exact h3
  · rw [h1, hpu]; exact ⟨P + 1, h2⟩

/-- `*(begin() + i) = x` on a deque in use. -/
theorem setElem_ok (hA : 0 < cfg.A) (hadj : AdjUp cfg) {w : World α} {k : Nat} {d : Deque}
    {l : List α} {P : Nat} (hk : w.obj k = some d) (hO : OwnOk w d.tbl) (hU : Used cfg w k d l P)
    {i : Nat} (hi : i < l.length) (x : α) :
    wp (setElem cfg k i x) (fun _ w' => w'.obj k = some d ∧ Used cfg w' k d (l.set i x) P ∧
        Step cfg w w' k d.tbl d.tbl) w := by
  have hfit := hU.fits
  have hb : Returns (begin_ k) w (itAt cfg.A d.tbl k P) w := by
    unfold begin_ Returns
    rw [bind_returns (getObj_ok hk), hU.beg]
    exact copyIter_itAt ..
  unfold setElem
  rw [wp_bind, wp_of_returns hb, wp_bind,
    wp_of_returns (plus_pos hA hadj (hO.tbl hk rfl) P i (by omega)), wp_bind,
    wp_of_returns (itAt_getCur ..)]
  refine wp_mono (write_ok (k := k) hA hO (by omega) (hU.inside i hi) x) ?_
  rintro _ w1 ⟨st, ho1, _, hsl⟩
  have hls : (l.set i x).length = l.length := List.length_set
  refine ⟨by rw [ho1]; exact hk, ⟨?_, hU.cap, hU.two, hU.even, hU.last, hU.beg, ?_, ?_, ?_, ?_⟩, st⟩
  · rw [hls]; exact hU.sz
  · rw [hls]; exact hU.fin
  · rw [hls]; exact hfit
  · intro j hj
    rw [hls] at hj
    rw [hsl _ (by omega)]
    by_cases h : j = i
    · subst h; rw [if_pos rfl, List.getElem_set_self]
    · rw [if_neg (by omega), hU.inside j hj, List.getElem_set_ne (Ne.symm h)]
  · intro n hn ho
    rw [hls] at ho
    rw [hsl n hn, if_neg (by omega)]
    exact hU.outside n hn ho

theorem set_world (hA : 0 < cfg.A) (hadj : AdjUp cfg) {m : World α} {w : SWorld α}
    (h : WInv cfg m w) {k : Nat} {s : SD α} (hs : w k = some s) (hp : s.ph ≠ .stale) {i : Nat}
    (hi : i < s.l.length) (x : α) :
    wp (setElem cfg k i x) (fun _ m' => WInv cfg m' (w.put k (some ⟨s.l.set i x, s.ph⟩))) m := by
  obtain ⟨d, hd, hI, hO⟩ := h.get hs
  have hl : s.l ≠ [] := fun h0 => by rw [h0] at hi; simp at hi
  obtain ⟨hpu, P, hU⟩ := hI.used hp hl
  refine wp_mono (setElem_ok hA hadj hd hO hU hi x) ?_
  rintro _ m' ⟨h1, h2, h3⟩
  refine h.update (k := k) ?_ ?_
  · rw [hd, h1]; exact h3
  · rw [h1, hpu]; exact ⟨P, h2⟩

theorem clear_world (hA : 0 < cfg.A) (hadj : AdjUp cfg) {m : World α} {w : SWorld α}
    (h : WInv cfg m w) {k : Nat} {s : SD α} (hs : w k = some s) (hp : s.ph ≠ .stale) :
    wp (onlyClear cfg k) (fun _ m' => WInv cfg m' (w.put k (some s.clear)) ∧
      (∀ j, j ≠ k → m'.obj j = m.obj j) ∧
      ∃ d', m'.obj k = some d' ∧ d'.tbl = [] ∧ d'.cap = 0 ∧ d'.sz = 0 ∧
        Step cfg m m' k (tblOf (m.obj k)) d'.tbl) m := by
  obtain ⟨d, hd, hI, hO⟩ := h.get hs
  refine wp_mono (clear_ok hA hadj hd hO hI hp) ?_
  rintro _ m' ⟨d', h1, h2, h3, h4, h5, h6⟩
  refine ⟨h.update (k := k) ?_ ?_, h2.objs, d', h1, h4, h5, h6, by rw [hd]; exact h2⟩
  · rw [hd, h1]; exact h2
  · rw [h1]; exact h3

theorem SWorld.put_put (w : SWorld α) (k : Nat) (a b : Option (SD α)) : (w.put k a).put k b = w.put k b := by
  funext x
  unfold SWorld.put
  by_cases h : x = k <;> simp [h]

theorem SWorld.put_self (w : SWorld α) (k : Nat) (a : Option (SD α)) : (w.put k a) k = a := by
  simp [SWorld.put]

theorem SWorld.put_other (w : SWorld α) {k j : Nat} (a : Option (SD α)) (h : j ≠ k) : (w.put k a) j = w j := by
  simp [SWorld.put, h]

theorem SD.clear_l (s : SD α) : s.clear.l = [] := rfl

theorem SD.clear_ph (s : SD α) (h : s.ph ≠ .stale) : s.clear.ph ≠ .stale := by
  unfold SD.clear
  simp only
  split
  · split <;> simp
  · exact h

theorem copy_world (hA : 0 < cfg.A) (hadj : AdjUp cfg) {m : World α} {w : SWorld α}
    (h : WInv cfg m w) {d s : Nat} (hds : d ≠ s) {t u : SD α} (ht : w d = some t) (hu : w s = some u)
    (hpt : t.ph ≠ .stale) (hpu : u.ph = .used ∨ u.ph = .null) :
    wp (copyAssign cfg d s) (fun _ m' => WInv cfg m' (w.put d (some (if u.l = [] then t.clear
      else ⟨u.l, .used⟩))) ∧ ∃ own', Step cfg m m' d (tblOf (m.obj d)) own') m := by
  unfold copyAssign
  rw [wp_bind]
  refine wp_mono (clear_world hA hadj h ht hpt) ?_
  rintro _ m1 ⟨h1, _, d1, hd1, e1, e2, e3, st1⟩
  have hsd : s ≠ d := fun h => hds h.symm
  have hu1 : (w.put d (some t.clear)) s = some u := by rw [SWorld.put_other _ _ hsd]; exact hu
  obtain ⟨src, hsrc, hI, hO⟩ := h1.get hu1
  rw [wp_bind, wp_of_returns (getObj_ok hsrc)]
  rcases hpu with hp | hp
  · unfold ObjInv at hI
    rw [hp] at hI
    obtain ⟨Q, hU⟩ := hI
    rw [hU.beg, hU.fin, wp_bind, wp_of_returns (copyIter_itAt ..), wp_bind, wp_of_returns (copyIter_itAt ..)]
    have hOd : OwnOk m1 d1.tbl := by have := h1.own d; rw [hd1] at this; exact this
    have := copyLoop_ok hA hadj hsd (k := d) (s := s) (u := u.l) (Q := Q) u.l.length (i := 0) hd1 hsrc h1.bal.2.1
      hOd hO hU (by rw [e1]; simp) (by omega) (Or.inl ⟨e1, e2, e3, by simp⟩) (Or.inl rfl)
    rw [Nat.add_zero] at this
    refine wp_mono this ?_
    rintro _ m2 ⟨d2, hd2, st, hcase⟩
    refine ⟨?_, _, st1.trans st⟩
    by_cases hl : u.l = []
    · rw [if_pos (by rw [hl]; rfl)] at hcase
      obtain ⟨_, rfl⟩ := hcase
      rw [if_pos hl]; exact h1
    · rw [if_neg (by have := List.length_pos_iff.2 hl; omega)] at hcase
      rw [if_neg hl]
      obtain ⟨P', hU'⟩ := hcase
      have := h1.update (k := d) (m' := m2) (v := some ⟨u.l, .used⟩) (by rw [hd1, hd2]; exact st)
        (by rw [hd2]; exact ⟨P', hU'⟩)
      rwa [SWorld.put_put] at this
  · unfold ObjInv at hI
    rw [hp] at hI
    obtain ⟨i, j, c, a1, a2, a3, a4⟩ := hI.1.it
    rw [wp_bind, wp_of_returns (copyIter_some a1 a3 m1), wp_bind, wp_of_returns (copyIter_some a2 a4 m1)]
    unfold copyLoop
    rw [wp_bind, wp_of_returns (getCur_some a3 m1), wp_bind, wp_of_returns (getCur_some a4 m1), wp_bind,
      wp_of_returns (cmp_self ..), wp_ite]
    refine ⟨fun _ => ?_, fun h => absurd rfl h⟩
    rw [wp_pure, if_pos hI.2]
    exact ⟨h1, _, st1⟩

/-- The state of a deque that was moved from (DoubleEndedQueue.hpp:186-201). -/
def Deque.moved : Deque := { sz := 0, cap := 0, tbl := [], beg := .movedFrom, fin := .movedFrom }

theorem Deque.moved_nulled : Nulled Deque.moved :=
  ⟨rfl, rfl, rfl, 0, 0, .null, rfl, rfl, rfl, rfl⟩

/-- The world after `d = move(s)`. -/
def movedW (m : World α) (d s : Nat) (src : Deque) : World α :=
  setObj (setObj m d (some src)) s (some Deque.moved)

theorem moveTail_ok {m : World α} {d s : Nat} (hds : d ≠ s) {x src : Deque} (hd : m.obj d = some x)
    (hs : m.obj s = some src) {i j : Int} {c e : CPtr} (h1 : src.beg.idx = some i)
    (h2 : src.fin.idx = some j) (h3 : src.beg.cur = some c) (h4 : src.fin.cur = some e) :
    Returns (do
      let src ← getObj s
      updObj d fun x => { x with sz := src.sz, cap := src.cap, tbl := src.tbl }
      updObj s fun x => { x with tbl := [] }
      let b ← copyIter src.beg
      updObj d fun x => { x with beg := b }
      updObj s fun x => { x with beg := .movedFrom }
      let e ← copyIter src.fin
      updObj d fun x => { x with fin := e }
      updObj s fun x => { x with fin := .movedFrom }
      updObj s fun x => { x with sz := 0, cap := 0, tbl := [] }) m () (movedW m d s src) := by
  have hsd : s ≠ d := fun h => hds h.symm
  have g1 : ∀ (w : World α) (a b : Option Deque), (setObj (setObj w d a) s b).obj d = a := by
    intro w a b; rw [setObj_other _ _ hds, setObj_obj]
  have g2 : ∀ (w : World α) (a b c : Option Deque), setObj (setObj (setObj w d a) s b) d c =
      setObj (setObj w d c) s b := by
    intro w a b c
    unfold setObj
    congr 1
    funext x
    by_cases hx : x = d
    · subst hx; simp [hds]
    · simp [hx]
  unfold Returns
  rw [bind_returns (getObj_ok hs), bind_returns (updObj_ok hd _),
    bind_returns (updObj_ok (d := src) (by rw [setObj_other _ _ hsd]; exact hs) _),
    bind_returns (copyIter_some h1 h3 _), bind_returns (updObj_ok (g1 ..) _), g2,
    bind_returns (updObj_ok (setObj_obj ..) _), setObj_setObj,
    bind_returns (copyIter_some h2 h4 _), bind_returns (updObj_ok (g1 ..) _), g2,
    bind_returns (updObj_ok (setObj_obj ..) _), setObj_setObj]
  have := updObj_ok (w := setObj (setObj m d (some src)) s (some { src with beg := Iter.movedFrom, fin := Iter.movedFrom, tbl := [] }))
    (setObj_obj ..) (fun x => { x with sz := 0, cap := 0, tbl := [] })
  rw [setObj_setObj] at this
  exact this

theorem movedW_ok {m : World α} {w : SWorld α} (h : WInv cfg m w) {d s : Nat} (hds : d ≠ s)
    {x src : Deque} (hd : m.obj d = some x) (hx : x.tbl = []) (hs : m.obj s = some src) {u : SD α}
    (hu : w s = some u) (hp : u.ph ≠ .fresh ∧ u.ph ≠ .stale) :
    WInv cfg (movedW m d s src) ((w.put d (some ⟨u.l, if u.ph = .used then .stale else u.ph⟩)).put s
        (some ⟨[], .null⟩)) := by
  have hsd : s ≠ d := fun h => hds h.symm
  have o1 : (movedW m d s src).obj s = some Deque.moved := setObj_obj ..
  have o2 : (movedW m d s src).obj d = some src := by
    unfold movedW; rw [setObj_other _ _ hds, setObj_obj]
  have o3 : ∀ j, j ≠ d → j ≠ s → (movedW m d s src).obj j = m.obj j := by
    intro j h1 h2; unfold movedW; rw [setObj_other _ _ h2, setObj_other _ _ h1]
  have hI : ObjInv cfg m s src u := by
    have := h.obj s; rw [hs, hu] at this; exact this
  have hOs : OwnOk m src.tbl := by have := h.own s; rw [hs] at this; exact this
  have htb : ∀ j, tblOf ((movedW m d s src).obj j) = if j = d then tblOf (m.obj s) else
      if j = s then [] else tblOf (m.obj j) := by
    intro j
    by_cases h1 : j = d
    · subst h1; rw [if_pos rfl, o2, hs]
    · rw [if_neg h1]
      by_cases h2 : j = s
      · subst h2; rw [if_pos rfl, o1]; rfl
      · rw [if_neg h2, o3 j h1 h2]
  refine ⟨?_, ?_, ?_, ?_, h.elem, h.bal⟩
  · intro j
    by_cases h2 : j = s
    · subst h2; rw [SWorld.put_self, o1]; exact ⟨Deque.moved_nulled, rfl⟩
    · rw [SWorld.put_other _ _ h2]
      by_cases h1 : j = d
      · subst h1
        rw [SWorld.put_self, o2]
        unfold ObjOpt ObjInv
        unfold ObjInv at hI
        cases hpu : u.ph <;> rw [hpu] at hI
        · exact absurd hpu hp.1
        · obtain ⟨P, hU⟩ := hI
          exact ⟨s, P, hsd, (hU.congr (fun _ _ => rfl))⟩
        · exact hI
        · exact ⟨⟨hI.1.tbl, hI.1.cap, hI.1.sz, hI.1.it⟩, hI.2⟩
        · exact absurd hpu hp.2
      · rw [SWorld.put_other _ _ h1, o3 j h1 h2]
        have := h.obj j
        cases hd' : m.obj j with
        | none => rw [hd'] at this; cases hw : w j <;> rw [hw] at this <;> exact this
        | some y =>
          rw [hd'] at this
          cases hw : w j with
          | none => rw [hw] at this; exact this
          | some v =>
            rw [hw] at this
            exact ObjInv.congr this (fun _ _ => rfl) (Nat.le_refl _) (fun _ _ h => h)
  · intro j
    rw [htb]
    split
    · exact h.own s
    · split
      · exact ⟨List.nodup_nil, by simp⟩
      · exact h.own j
  · intro i j hij b
    rw [htb, htb]
    intro hb
    by_cases hi : i = d
    · rw [if_pos hi] at hb
      rw [if_neg (fun hj => hij (hi.trans hj.symm))]
      split
      · simp
      · rename_i hj; exact h.disj s j (fun he => hj he.symm) b hb
    · rw [if_neg hi] at hb
      by_cases hi2 : i = s
      · rw [if_pos hi2] at hb; simp at hb
      · rw [if_neg hi2] at hb
        split
        · exact h.disj i s hi2 b hb
        · split
          · simp
          · exact h.disj i j hij b hb
  · intro b f hf
    obtain ⟨j, hj⟩ := h.owned b f hf
    by_cases h1 : j = d
    · subst h1; rw [hd] at hj; simp [tblOf, hx] at hj
    · by_cases h2 : j = s
      · subst h2; exact ⟨d, by rw [htb, if_pos rfl]; exact hj⟩
      · exact ⟨j, by rw [htb, if_neg h1, if_neg h2]; exact hj⟩

theorem move_world (hA : 0 < cfg.A) (hadj : AdjUp cfg) {m : World α} {w : SWorld α}
    (h : WInv cfg m w) {d s : Nat} (hds : d ≠ s) {t u : SD α} (ht : w d = some t) (hu : w s = some u)
    (hpt : t.ph ≠ .stale) (hpu : u.ph ≠ .fresh ∧ u.ph ≠ .stale) :
    wp (moveAssign cfg d s) (fun _ m' => WInv cfg m' ((w.put d (some ⟨u.l, if u.ph = .used then .stale
      else u.ph⟩)).put s (some ⟨[], .null⟩)) ∧ ∃ m1 src, m' = movedW m1 d s src ∧ m.obj s = some src ∧
        ∃ own', Step cfg m m1 d (tblOf (m.obj d)) own') m := by
  unfold moveAssign
  rw [wp_bind]
  refine wp_mono (clear_world hA hadj h ht hpt) ?_
  rintro _ m1 ⟨h1, ho, d1, hd1, e1, e2, e3, st1⟩
  have hsd : s ≠ d := fun h => hds h.symm
  have hu1 : (w.put d (some t.clear)) s = some u := by rw [SWorld.put_other _ _ hsd]; exact hu
  obtain ⟨src, hsrc, hI, hO⟩ := h1.get hu1
  have hit : ∃ i j c e, src.beg.idx = some i ∧ src.fin.idx = some j ∧ src.beg.cur = some c ∧ src.fin.cur = some e := by
    unfold ObjInv at hI
    cases hp : u.ph <;> rw [hp] at hI
    · exact absurd hp hpu.1
    · obtain ⟨P, hU⟩ := hI
      exact ⟨_, _, _, _, by rw [hU.beg]; rfl, by rw [hU.fin]; rfl, by rw [hU.beg]; rfl, by rw [hU.fin]; rfl⟩
    · obtain ⟨i, j, c, a1, a2, a3, a4⟩ := hI.1.it
      exact ⟨i, j, c, c, a1, a2, a3, a4⟩
    · obtain ⟨t, own, P, n, a1, a2, _⟩ := hI.1.it
      exact ⟨_, _, _, _, by rw [a1]; rfl, by rw [a2]; rfl, by rw [a1]; rfl, by rw [a2]; rfl⟩
    · exact absurd hp hpu.2
  obtain ⟨i, j, c, e, g1, g2, g3, g4⟩ := hit
  have := moveTail_ok hds hd1 hsrc g1 g2 g3 g4
  refine (wp_of_returns this _).2 ⟨?_, m1, src, rfl, by rw [← ho s hsd]; exact hsrc, _, st1⟩
  have := movedW_ok h1 hds hd1 e1 hsrc hu1 hpu
  rwa [SWorld.put_put] at this

theorem new_world {m : World α} {w : SWorld α} (h : WInv cfg m w) {k : Nat} (hk : w k = none) :
    WInv cfg (setObj m k (some .fresh)) (w.put k (some ⟨[], .fresh⟩)) := by
  have hm : m.obj k = none := by
    have := h.obj k
    rw [hk] at this
    cases hd : m.obj k with
    | none => rfl
    | some d => rw [hd] at this; exact absurd this (by simp [ObjOpt])
  refine h.update (k := k) ?_ ?_
  · rw [hm, setObj_obj]; exact Step.setObj _
  · rw [setObj_obj]; exact ⟨rfl, rfl⟩

/-- One operation of a history. -/
theorem step_ok (hA : 0 < cfg.A) (hadj : AdjUp cfg) {m : World α} {w w' : SWorld α} (h : WInv cfg m w)
    {op : Op α} (hspec : specStep op w = some w') (hav : Avoids op w) :
    wp (step cfg op) (fun _ m' => WInv cfg m' w') m := by
  cases op with
  | new k =>
    simp only [specStep] at hspec
    by_cases hk : w k = none
    · rw [hk] at hspec
      simp only [Option.isNone_none, if_true, Option.some.injEq] at hspec
      subst hspec
      exact (wp_of_returns (putObj_ok ..) _).2 (new_world h hk)
    · cases hw : w k with
      | none => exact absurd hw hk
      | some s => rw [hw] at hspec; simp at hspec
  | pushBack k x =>
    cases hs : w k with
    | none => simp [specStep, hs] at hspec
    | some s =>
      simp only [specStep, hs, Option.bind_some, Option.some.injEq] at hspec
      subst hspec
      exact pushBack_world hA hadj h hs (hav s hs) (Or.inl rfl)
  | pushFront k x =>
    cases hs : w k with
    | none => simp [specStep, hs] at hspec
    | some s =>
      simp only [specStep, hs, Option.bind_some, Option.some.injEq] at hspec
      subst hspec
      exact pushFront_world hA hadj h hs (hav s hs) (Or.inl rfl)
  | pushBackElem k j i =>
    cases hs : w k with
    | none => simp [specStep, hs] at hspec
    | some s =>
      cases ht : w j with
      | none => simp [specStep, hs, ht] at hspec
      | some t =>
        cases hx : elemAt t.l i with
        | none => simp [specStep, hs, ht, hx] at hspec
        | some x =>
          simp only [specStep, hs, ht, hx, Option.bind_some, Option.some.injEq] at hspec
          subst hspec
          obtain ⟨c, h1, h2⟩ := argLive_elem hA hadj h ht (hav.2 t ht) hx
          show wp (indexRef cfg j i >>= fun c => pushBack cfg k (.ref c)) _ m
          rw [wp_bind, wp_of_returns h1]
          exact pushBack_world hA hadj h hs (hav.1 s hs) h2
  | pushFrontElem k j i =>
    cases hs : w k with
    | none => simp [specStep, hs] at hspec
    | some s =>
      cases ht : w j with
      | none => simp [specStep, hs, ht] at hspec
      | some t =>
        cases hx : elemAt t.l i with
        | none => simp [specStep, hs, ht, hx] at hspec
        | some x =>
          simp only [specStep, hs, ht, hx, Option.bind_some, Option.some.injEq] at hspec
          subst hspec
          obtain ⟨c, h1, h2⟩ := argLive_elem hA hadj h ht (hav.2 t ht) hx
          show wp (indexRef cfg j i >>= fun c => pushFront cfg k (.ref c)) _ m
          rw [wp_bind, wp_of_returns h1]
          exact pushFront_world hA hadj h hs (hav.1 s hs) h2
  | popBack k =>
    cases hs : w k with
    | none => simp [specStep, hs] at hspec
    | some s =>
      by_cases hl : s.l = []
      · simp [specStep, hs, hl] at hspec
      · simp only [specStep, hs, hl, Option.bind_some, if_false, Option.some.injEq] at hspec
        subst hspec
        exact wp_mono (popBack_world hA hadj h hs (hav s hs) hl) (fun _ _ h => h.1)
  | popFront k =>
    cases hs : w k with
    | none => simp [specStep, hs] at hspec
    | some s =>
      by_cases hl : s.l = []
      · simp [specStep, hs, hl] at hspec
      · simp only [specStep, hs, hl, Option.bind_some, if_false, Option.some.injEq] at hspec
        subst hspec
        exact wp_mono (popFront_world hA hadj h hs (hav s hs) hl) (fun _ _ h => h.1)
  | clear k =>
    cases hs : w k with
    | none => simp [specStep, hs] at hspec
    | some s =>
      simp only [specStep, hs, Option.bind_some, Option.some.injEq] at hspec
      subst hspec
      exact wp_mono (clear_world hA hadj h hs (hav s hs)) (fun _ _ h => h.1)
  | set k i x =>
    cases hs : w k with
    | none => simp [specStep, hs] at hspec
    | some s =>
      by_cases hi : i < s.l.length
      · simp only [specStep, hs, hi, Option.bind_some, if_true, Option.some.injEq] at hspec
        subst hspec
        exact set_world hA hadj h hs (hav s hs) hi x
      · simp [specStep, hs, hi] at hspec
  | copy d s =>
    cases ht : w d with
    | none => simp [specStep, ht] at hspec
    | some t =>
      cases hu : w s with
      | none => simp [specStep, ht, hu] at hspec
      | some u =>
        simp only [specStep, ht, hu, Option.bind_some] at hspec
        obtain ⟨x, hx, _⟩ := h.get ht
        obtain ⟨y, hy, _⟩ := h.get hu
        show wp (getObj d >>= fun _ => getObj s >>= fun _ => if d = s then pure () else copyAssign cfg d s) _ m
        rw [wp_bind, wp_of_returns (getObj_ok hx), wp_bind, wp_of_returns (getObj_ok hy), wp_ite]
        constructor
        · intro hds
          rw [if_pos hds] at hspec
          cases hspec
          rw [wp_pure]; exact h
        · intro hds
          rw [if_neg hds] at hspec
          cases hspec
          rcases hav with hav | hav
          · exact absurd hav hds
          · exact wp_mono (copy_world hA hadj h hds ht hu (hav.1 t ht) (hav.2 u hu)) (fun _ _ h => h.1)
  | move d s =>
    cases ht : w d with
    | none => simp [specStep, ht] at hspec
    | some t =>
      cases hu : w s with
      | none => simp [specStep, ht, hu] at hspec
      | some u =>
        simp only [specStep, ht, hu, Option.bind_some] at hspec
        obtain ⟨x, hx, _⟩ := h.get ht
        obtain ⟨y, hy, _⟩ := h.get hu
        show wp (getObj d >>= fun _ => getObj s >>= fun _ => if d = s then pure () else moveAssign cfg d s) _ m
        rw [wp_bind, wp_of_returns (getObj_ok hx), wp_bind, wp_of_returns (getObj_ok hy), wp_ite]
        constructor
        · intro hds
          rw [if_pos hds] at hspec
          cases hspec
          rw [wp_pure]; exact h
        · intro hds
          rw [if_neg hds] at hspec
          cases hspec
          rcases hav with hav | hav
          · exact absurd hav hds
          · exact wp_mono (move_world hA hadj h hds ht hu (hav.1 t ht) (hav.2 u hu)) (fun _ _ h => h.1)
  | drop k =>
    cases hs : w k with
    | none => simp [specStep, hs] at hspec
    | some s =>
      simp only [specStep, hs, Option.bind_some, Option.some.injEq] at hspec
      subst hspec
      show wp (onlyClear cfg k >>= fun _ => putObj k none) _ m
      rw [wp_bind]
      refine wp_mono (clear_world hA hadj h hs (hav s hs)) ?_
      rintro _ m' ⟨h1, _, d', h2, h3, _, _⟩
      rw [wp_of_returns (putObj_ok ..)]
      have := h1.update (k := k) (m' := setObj m' k none) (v := none) ?_ ?_
      · rwa [SWorld.put_put] at this
      · rw [h2, setObj_obj]
        show Step cfg m' _ k d'.tbl []
        rw [h3]; exact Step.setObj _
      · rw [setObj_obj]; exact trivial

theorem run_ok (hA : 0 < cfg.A) (hadj : AdjUp cfg) {m : World α} {w w' : SWorld α} (h : WInv cfg m w)
    {ops : List (Op α)} (hspec : specRun ops w = some w') (hav : AvoidsAll ops w) :
    wp (run cfg ops) (fun _ m' => WInv cfg m' w') m := by
  induction ops generalizing m w with
  | nil =>
    cases hspec
    exact (wp_pure _ _ _).2 h
  | cons op ops ih =>
    simp only [specRun] at hspec
    cases hs : specStep op w with
    | none => rw [hs] at hspec; cases hspec
    | some w1 =>
      rw [hs] at hspec
      show wp (step cfg op >>= fun _ => run cfg ops) _ m
      rw [wp_bind]
      refine wp_mono (step_ok hA hadj h hs hav.1) ?_
      rintro _ m1 h1
      exact ih h1 hspec (hav.2 w1 hs)

/-- The invariant determines what the observers show. -/
theorem WInv.shows (hA : 0 < cfg.A) (hadj : AdjUp cfg) {m : World α} {w : SWorld α} (h : WInv cfg m w) :
    Shows cfg m w := by
  intro k
  constructor
  · intro hk
    have := h.obj k
    rw [hk] at this
    cases hd : m.obj k with
    | none => rfl
    | some d => rw [hd] at this; exact absurd this (by simp [ObjOpt])
  · intro s hs
    obtain ⟨d, hd, hI, hO⟩ := h.get hs
    have hsz : d.sz = s.l.length := by
      unfold ObjInv at hI
      cases hp : s.ph <;> rw [hp] at hI
      · rw [hI.1, hI.2]; rfl
      · obtain ⟨P, hU⟩ := hI; exact hU.sz
      · rw [hI.1.sz, hI.2]; rfl
      · rw [hI.1.sz, hI.2]; rfl
      · obtain ⟨_, P, _, hU⟩ := hI; exact hU.sz
    refine ⟨?_, ?_, ?_⟩
    · unfold size Returns; rw [bind_returns (getObj_ok hd), hsz]; rfl
    · unfold empty Returns; rw [bind_returns (getObj_ok hd), hsz]; rfl
    · intro hp
      unfold ObjInv at hI
      rcases hp with hp | hp <;> rw [hp] at hI
      · obtain ⟨P, hU⟩ := hI; exact hU.shows hA hadj hd hO
      · rw [hI.2]; exact hI.1.shows hd

end Verif.Deq
