import Verif.DequeWorld

/-! # Lemmas about the defective uses of a deque -/

namespace Verif.Deq

open Prog

variable {α : Type} {cfg : Cfg α}

theorem bind_faults_of {σ β γ : Type} {p : Prog σ β} {f : β → Prog σ γ} {s s' : σ} {a : β} {e : Fault}
    (h : Returns p s a s') (hf : Faults (f a) s' e) : Faults (p >>= f) s e := by
  unfold Faults at *
  rw [bind_returns h]; exact hf

/-! ## Iterators that refer to the table of a deque without blocks -/

theorem tblAt_empty {w : World α} {s : Nat} {e : Deque} (he : w.obj s = some e) (ht : e.tbl = [])
    (i : Nat) : Faults (tblAt (some s) (i : Int)) w .assert := by
  have h : Returns (table (some s)) w [] w := by
    show (getObj s >>= fun d => pure d.tbl) w = _
    rw [bind_returns (getObj_ok he), ht]; rfl
  refine bind_faults_of h ?_
  unfold listAt
  simp only [show ¬ ((i : Int) < 0) by omega, if_false]
  exact bind_faults (faults_dassert (by simp) w)

theorem incr_stale (hA : 0 < cfg.A) {w : World α} {s : Nat} {e : Deque} (he : w.obj s = some e)
    (ht : e.tbl = []) {t : List Nat} {n : Nat} (hn : n < t.length * cfg.A) :
    Faults (incr cfg (itAt cfg.A t s n)) w .assert := by
  unfold incr
  refine bind_faults_of (itAt_getCur ..) ?_
  have h1 : Returns ((curAt cfg.A t n).incr cfg) w
      (.at (t.getD (bidx cfg.A t.length n) 0) (boff cfg.A t.length n + 1)) w := by
    unfold curAt CPtr.incr Returns Prog.check
    simp only [bind, Prog.bind, boff_lt hA hn, if_true]
    rfl
  refine bind_faults_of h1 ?_
  refine bind_faults_of (itAt_getIdx ..) ?_
  exact bind_faults (tblAt_empty he ht _)

theorem decr_stale {w : World α} {s : Nat} {e : Deque} (he : w.obj s = some e)
    (ht : e.tbl = []) {t : List Nat} {n : Nat} :
    Faults (decr cfg (itAt cfg.A t s n)) w .assert := by
  unfold decr
  refine bind_faults_of (itAt_getCur ..) ?_
  refine bind_faults_of (itAt_getIdx ..) ?_
  exact bind_faults (tblAt_empty he ht _)

/-- The deque `d` holds `l` but its iterators refer to the table of `s`, which has no blocks. -/
structure Stale (cfg : Cfg α) (w : World α) (d s : Nat) (l : List α) : Prop where
  ne : d ≠ s
  src : ∃ e, w.obj s = some e ∧ e.tbl = []
  dst : ∃ x P, w.obj d = some x ∧ OwnOk w x.tbl ∧ Used cfg w s x l P

theorem Stale.iterate (hA : 0 < cfg.A) (hadj : AdjUp cfg) {w : World α} {d s : Nat} {l : List α}
    (h : Stale cfg w d s l) (hl : l ≠ []) : Faults (iterate cfg d) w .assert := by
  obtain ⟨e, he, ht⟩ := h.src
  obtain ⟨x, P, hx, hO, hU⟩ := h.dst
  have hpos := List.length_pos_iff.2 hl
  have hfit := hU.fits
  unfold Deq.iterate
  refine bind_faults_of (getObj_ok hx) ?_
  rw [hU.beg, hU.fin]
  refine bind_faults_of (copyIter_itAt ..) ?_
  refine bind_faults_of (copyIter_itAt ..) ?_
  unfold iterateFrom
  refine bind_faults_of (itAt_getCur ..) ?_
  refine bind_faults_of (itAt_getCur ..) ?_
  refine bind_faults_of (cmp_ok ((hO.tbl hx rfl).live_cur hU.pos hA _) ((hO.tbl hx rfl).live_cur hU.pos hA _)) ?_
  rw [if_neg (by
    rw [ptrEq_pos hA hadj hO.1 hU.last hU.pos (by omega) hfit]; omega)]
  refine bind_faults_of (itAt_getCur ..) ?_
  have hin := hU.inside 0 hpos
  rw [Nat.add_zero] at hin
  refine bind_faults_of (readPtr_ok hA (by omega) hin) ?_
  exact bind_faults (incr_stale hA he ht (by omega))

theorem Stale.back {w : World α} {d s : Nat} {l : List α}
    (h : Stale cfg w d s l) : Faults (back cfg d) w .assert := by
  obtain ⟨e, he, ht⟩ := h.src
  obtain ⟨x, P, hx, hO, hU⟩ := h.dst
  unfold Deq.back
  refine bind_faults_of (getObj_ok hx) ?_
  rw [hU.fin]
  refine bind_faults ?_
  unfold plus
  refine bind_faults_of (copyIter_itAt ..) ?_
  rw [if_pos (by omega)]
  exact bind_faults (decr_stale he ht)

theorem Stale.index (hA : 0 < cfg.A) {w : World α} {d s : Nat} {l : List α}
    (h : Stale cfg w d s l) (hl : l ≠ []) {i : Int} (hi : i ≠ 0) : Faults (index cfg d i) w .assert := by
  obtain ⟨e, he, ht⟩ := h.src
  obtain ⟨x, P, hx, hO, hU⟩ := h.dst
  have hpos := List.length_pos_iff.2 hl
  have hfit := hU.fits
  unfold Deq.index indexRef
  refine bind_faults ?_
  refine bind_faults_of (getObj_ok hx) ?_
  refine bind_faults ?_
  rw [hU.beg, hU.fin]
  unfold plus
  by_cases h0 : i < 0
  · rw [if_pos h0]
    refine bind_faults_of (copyIter_itAt ..) ?_
    rw [if_pos h0]
    obtain ⟨n, hn⟩ : ∃ n, (-i).toNat = n + 1 := ⟨(-i).toNat - 1, by omega⟩
    rw [hn]
    exact bind_faults (decr_stale he ht)
  · rw [if_neg h0]
    refine bind_faults_of (copyIter_itAt ..) ?_
    rw [if_neg h0]
    obtain ⟨n, hn⟩ : ∃ n, i.toNat = n + 1 := ⟨i.toNat - 1, by omega⟩
    rw [hn]
    exact bind_faults (incr_stale hA he ht (by omega))

theorem Stale.popBack {w : World α} {d s : Nat} {l : List α}
    (h : Stale cfg w d s l) : Faults (popBack cfg d) w .assert := by
  obtain ⟨e, he, ht⟩ := h.src
  obtain ⟨x, P, hx, hO, hU⟩ := h.dst
  unfold Deq.popBack
  refine bind_faults_of (getObj_ok hx) ?_
  rw [hU.fin]
  exact bind_faults (decr_stale he ht)

theorem Stale.popFront (hA : 0 < cfg.A) {w : World α} {d s : Nat} {l : List α}
    (h : Stale cfg w d s l) (hl : l ≠ []) : Faults (popFront cfg d) w .assert := by
  obtain ⟨e, he, ht⟩ := h.src
  obtain ⟨x, P, hx, hO, hU⟩ := h.dst
  have hpos := List.length_pos_iff.2 hl
  have hfit := hU.fits
  unfold Deq.popFront
  refine bind_faults_of (getObj_ok hx) ?_
  rw [hU.beg]
  refine bind_faults_of (itAt_getCur ..) ?_
  have hin := hU.inside 0 hpos
  rw [Nat.add_zero] at hin
  refine faults_bind_of_wp (wp_mono (destroy_ok (k := d) hA hO (by omega) hin) ?_)
  rintro _ w1 ⟨_, ho, _⟩
  exact bind_faults (incr_stale hA (by rw [ho]; exact he) ht (by omega))

theorem Stale.clear (hA : 0 < cfg.A) (hadj : AdjUp cfg) {w : World α} {d s : Nat} {l : List α}
    (h : Stale cfg w d s l) (hl : l ≠ []) : Faults (onlyClear cfg d) w .assert := by
  obtain ⟨e, he, ht⟩ := h.src
  obtain ⟨x, P, hx, hO, hU⟩ := h.dst
  have hpos := List.length_pos_iff.2 hl
  have hfit := hU.fits
  have hp := hU.pos
  unfold onlyClear
  refine bind_faults_of (getObj_ok hx) ?_
  have htne : x.tbl ≠ [] := List.length_pos_iff.1 hU.pos
  have hcap : x.cap ≠ 0 := by
    rw [hU.cap]
    have := Nat.mul_pos hU.pos hA; omega
  unfold Prog.when
  rw [if_pos htne, dassert_pos hcap]
  refine bind_faults_of rfl ?_
  rw [hU.beg, hU.fin]
  refine bind_faults_of (copyIter_itAt ..) ?_
  refine bind_faults ?_
  unfold destroyLoop
  refine bind_faults_of (itAt_getCur ..) ?_
  refine bind_faults_of (itAt_getCur ..) ?_
  refine bind_faults_of (cmp_ok ((hO.tbl hx rfl).live_cur hU.pos hA _) ((hO.tbl hx rfl).live_cur hU.pos hA _)) ?_
  rw [if_neg (by
    rw [ptrEq_pos hA hadj hO.1 hU.last hU.pos (by omega) hfit]; omega)]
  refine bind_faults_of (itAt_getCur ..) ?_
  have hin := hU.inside 0 hpos
  rw [Nat.add_zero] at hin
  refine faults_bind_of_wp (wp_mono (destroy_ok (k := d) hA hO (by omega) hin) ?_)
  rintro _ w1 ⟨_, ho, _⟩
  exact bind_faults (incr_stale hA (by rw [ho]; exact he) ht (by omega))

theorem Stale.pushBack (hA : 0 < cfg.A) (hadj : AdjUp cfg) {w : World α} {d s : Nat} {l : List α}
    (h : Stale cfg w d s l) (x : α) : Faults (pushBack cfg d (.val x)) w .assert := by
  obtain ⟨e, he, ht⟩ := h.src
  obtain ⟨y, P, hy, hO, hU⟩ := h.dst
  have hpos := hU.pos
  -- the part after the growth
  have tail : ∀ (w1 : World α) (y1 : Deque) (P1 : Nat), w1.obj d = some y1 → w1.obj s = some e →
      OwnOk w1 y1.tbl → Used cfg w1 s y1 l P1 → P1 + l.length < y1.tbl.length * cfg.A →
      Faults (do
        let d' ← getObj d
        construct cfg (← d'.fin.getCur) (.val x)
        let it ← incr cfg d'.fin
        updObj d fun d => { d with fin := it, sz := d.sz + 1 }) w1 .assert := by
    intro w1 y1 P1 h1 h2 h3 h4 h5
    refine bind_faults_of (getObj_ok h1) ?_
    rw [h4.fin]
    refine bind_faults_of (itAt_getCur ..) ?_
    obtain ⟨sl, hs1, hs2⟩ := h4.outside (P1 + l.length) h5 (Or.inr (Nat.le_refl _))
    refine faults_bind_of_wp (wp_mono (construct_ok (k := d) (x := x) hA h3 h5 hs1 hs2 rfl) ?_)
    rintro _ w2 ⟨_, ho, _⟩
    exact bind_faults (incr_stale hA (by rw [ho]; exact h2) ht h5)
  unfold Deq.pushBack
  refine bind_faults_of (getObj_ok hy) ?_
  have hcap : y.cap ≠ 0 := by
    rw [hU.cap]
    have := Nat.mul_pos hU.pos hA; omega
  refine faults_bind_of_wp ?_
  rw [if_neg hcap, wp_bind, wp_dassert]
  refine ⟨hpos, ?_⟩
  have hT := hO.tbl hy rfl
  obtain ⟨g1, g2, f, g3⟩ := hT.get (show y.tbl.length - 1 < y.tbl.length by omega)
  rw [wp_bind, show ((y.tbl.length : Int) - 1) = ((y.tbl.length - 1 : Nat) : Int) by omega,
    wp_of_returns (listAt_ok g1 _), wp_bind, wp_of_returns (arrEnd_ok g2 g3), wp_bind, hU.fin,
    wp_of_returns (itAt_getCur ..), wp_bind,
      wp_of_returns (cmp_ok (hT.live_cur hpos hA _) (live_at g3 (by omega))), wp_when]
  have hend : CPtr.at (y.tbl.getD (y.tbl.length - 1) 0) cfg.A = curAt cfg.A y.tbl (y.tbl.length * cfg.A) := by
    simp only [curAt, bidx_end, boff_end]
  constructor
  · intro hc
    rw [hend] at hc
    have hfull := (ptrEq_pos hA hadj hO.1 hU.last hpos hU.fits (Nat.le_refl _)).1 hc
    refine wp_mono (grow_ok hA hadj hy hO hU (Or.inr hfull)) ?_
    rintro _ w1 ⟨d1, P1, hk1, hU1, st1, _, hroom, _⟩
    exact tail w1 d1 P1 hk1 (by rw [st1.objs s (fun hh => h.ne hh.symm)]; exact he) (st1.ok hO) hU1 hroom
  · intro hc
    have hroom : P + l.length < y.tbl.length * cfg.A := by
      rcases Nat.lt_or_ge (P + l.length) (y.tbl.length * cfg.A) with h | h
      · exact h
      · exfalso; apply hc
        rw [hend, show P + l.length = y.tbl.length * cfg.A by have := hU.fits; omega]
        exact ptrEq_self _
    exact tail w y P hy he hO hU hroom

theorem Stale.pushFront (hA : 0 < cfg.A) (hadj : AdjUp cfg) {w : World α} {d s : Nat} {l : List α}
    (h : Stale cfg w d s l) (x : α) : Faults (pushFront cfg d (.val x)) w .assert := by
  obtain ⟨e, he, ht⟩ := h.src
  obtain ⟨y, P, hy, hO, hU⟩ := h.dst
  have hpos := hU.pos
  have tail : ∀ (w1 : World α) (y1 : Deque) (P1 : Nat), w1.obj d = some y1 → w1.obj s = some e →
      Used cfg w1 s y1 l P1 →
      Faults (do
        let d' ← getObj d
        let it ← decr cfg d'.beg
        updObj d fun d => { d with beg := it }
        construct cfg (← it.getCur) (.val x)
        updObj d fun d => { d with sz := d.sz + 1 }) w1 .assert := by
    intro w1 y1 P1 h1 h2 h4
    refine bind_faults_of (getObj_ok h1) ?_
    rw [h4.beg]
    exact bind_faults (decr_stale h2 ht)
  unfold Deq.pushFront
  refine bind_faults_of (getObj_ok hy) ?_
  have hcap : y.cap ≠ 0 := by
    rw [hU.cap]
    have := Nat.mul_pos hU.pos hA; omega
  refine faults_bind_of_wp ?_
  rw [if_neg hcap]
  have hT := hO.tbl hy rfl
  obtain ⟨g1, g2, f, g3⟩ := hT.get hpos
  rw [wp_bind, show (0 : Int) = ((0 : Nat) : Int) from rfl, wp_of_returns (listAt_ok g1 _), wp_bind,
    wp_of_returns (arrBegin_ok g2 g3), wp_bind, hU.beg, wp_of_returns (itAt_getCur ..), wp_bind,
      wp_of_returns (cmp_ok (hT.live_cur hpos hA _) (live_at g3 (by omega))), wp_when]
  have hz : CPtr.at (y.tbl.getD 0 0) 0 = curAt cfg.A y.tbl 0 := by
    have h0 : 0 < y.tbl.length * cfg.A := Nat.mul_pos hpos hA
    simp [curAt, bidx, boff, h0]
  constructor
  · intro hc
    rw [hz] at hc
    have hfull := (ptrEq_pos hA hadj hO.1 hU.last hpos (by have := hU.fits; omega) (Nat.zero_le _)).1 hc
    refine wp_mono (grow_ok hA hadj hy hO hU (Or.inl hfull)) ?_
    rintro _ w1 ⟨d1, P1, hk1, hU1, st1, _⟩
    exact tail w1 d1 P1 hk1 (by rw [st1.objs s (fun hh => h.ne hh.symm)]; exact he) hU1
  · intro _
    exact tail w y P hy he hU

/-- `front()` does not step an iterator and still works. -/
theorem Stale.front (hA : 0 < cfg.A) {w : World α} {d s : Nat} {l : List α}
    (h : Stale cfg w d s l) {x : α} (hl : l.head? = some x) : Returns (front cfg d) w x w := by
  obtain ⟨y, P, hy, hO, hU⟩ := h.dst
  cases l with
  | nil => cases hl
  | cons a l =>
    cases hl
    have hfit := hU.fits
    have hin := hU.inside 0 (by simp)
    rw [Nat.add_zero] at hin
    unfold Deq.front Returns
    rw [bind_returns (getObj_ok hy), hU.beg, bind_returns (itAt_getCur ..)]
    refine readPtr_ok hA ?_ hin
    rw [List.length_cons] at hfit; omega

/-! ## Deques that were never used, or were cleared -/

theorem iterate_fresh {w : World α} {k : Nat} (hk : w.obj k = some .fresh) :
    Faults (iterate cfg k) w .uninit := by
  unfold iterate
  exact bind_faults_of (getObj_ok hk) rfl

theorem readPtr_dead {w : World α} {b o : Nat} (h : w.blk b = none) :
    Faults (readPtr cfg (.at b o)) w .useAfterFree := by
  unfold readPtr
  refine bind_faults ?_
  unfold Faults access
  simp only [h]

/-- Comparing different pointers one of which dangles. -/
theorem cmp_dead {w : World α} {b o : Nat} {q : CPtr} (h : w.blk b = none) (hne : CPtr.at b o ≠ q) :
    Faults (cmp cfg (.at b o) q) w .useAfterFree := by
  unfold Faults cmp
  rw [if_neg hne, if_neg]
  simp [CPtr.live, h]

theorem iterate_dangling {w : World α} {k : Nat} {d : Deque}
    (hk : w.obj k = some d) (h : Dangling cfg w d) : Faults (iterate cfg k) w .useAfterFree := by
  obtain ⟨t, own, P, n, h1, h2, hn, hfit, ht, hnd, hlast, hdead⟩ := h.it
  unfold iterate
  refine bind_faults_of (getObj_ok hk) ?_
  rw [h1, h2]
  refine bind_faults_of (copyIter_itAt ..) ?_
  refine bind_faults_of (copyIter_itAt ..) ?_
  unfold iterateFrom
  refine bind_faults_of (itAt_getCur ..) ?_
  refine bind_faults_of (itAt_getCur ..) ?_
  refine bind_faults (cmp_dead (hdead _ (mem_getD (bidx_lt ht))).2 fun e => ?_)
  have := curAt_inj hnd ht (by omega) hfit e
  omega

theorem copy_fresh (hA : 0 < cfg.A) (hadj : AdjUp cfg) {m : World α} {w : SWorld α} (h : WInv cfg m w)
    {d s : Nat} (hds : d ≠ s) {t u : SD α} (hd : w d = some t) (hs : w s = some u)
    (ht : t.ph ≠ .stale) (hu : u.ph = .fresh) :
    Faults (copyAssign cfg d s) m .uninit ∧ Faults (moveAssign cfg d s) m .uninit := by
  have hsd : s ≠ d := fun h => hds h.symm
  obtain ⟨src, hsrc, hI, _⟩ := h.get hs
  unfold ObjInv at hI
  rw [hu] at hI
  obtain ⟨rfl, _⟩ := hI
  constructor
  · unfold copyAssign
    refine faults_bind_of_wp (wp_mono (clear_world hA hadj h hd ht) ?_)
    rintro _ m1 ⟨h1, ho, d1, hd1, _⟩
    exact bind_faults_of (getObj_ok (d := .fresh) (by rw [ho s hsd]; exact hsrc)) rfl
  · unfold moveAssign
    refine faults_bind_of_wp (wp_mono (clear_world hA hadj h hd ht) ?_)
    rintro _ m1 ⟨h1, ho, d1, hd1, _⟩
    refine bind_faults_of (getObj_ok (d := .fresh) (by rw [ho s hsd]; exact hsrc)) ?_
    refine bind_faults_of (updObj_ok hd1 _) ?_
    refine bind_faults_of (updObj_ok (d := .fresh)
      (by rw [setObj_other _ _ hsd, ho s hsd]; exact hsrc) _) ?_
    rfl

theorem copy_cleared (hA : 0 < cfg.A) (hadj : AdjUp cfg) {m : World α} {w : SWorld α} (h : WInv cfg m w)
    {d s : Nat} (hds : d ≠ s) {t u : SD α} (hd : w d = some t) (hs : w s = some u)
    (ht : t.ph ≠ .stale) (hu : u.ph = .cleared) :
    Faults (copyAssign cfg d s) m .useAfterFree := by
  have hsd : s ≠ d := fun h => hds h.symm
  unfold copyAssign
  refine faults_bind_of_wp (wp_mono (clear_world hA hadj h hd ht) ?_)
  rintro _ m1 ⟨h1, ho, d1, hd1, e1, e2, e3⟩
  obtain ⟨src, hsrc, hI, _⟩ := h1.get (k := s) (s := u) (by rw [SWorld.put_other _ _ hsd]; exact hs)
  unfold ObjInv at hI
  rw [hu] at hI
  obtain ⟨t', own, P, n, g1, g2, hn, hfit, ht', hnd, hlast, hdead⟩ := hI.1.it
  refine bind_faults_of (getObj_ok hsrc) ?_
  rw [g1, g2]
  refine bind_faults_of (copyIter_itAt ..) ?_
  refine bind_faults_of (copyIter_itAt ..) ?_
  unfold copyLoop
  refine bind_faults_of (itAt_getCur ..) ?_
  refine bind_faults_of (itAt_getCur ..) ?_
  refine bind_faults (cmp_dead (hdead _ (mem_getD (bidx_lt ht'))).2 fun e => ?_)
  have := curAt_inj hnd ht' (by omega) hfit e
  omega

end Verif.Deq
