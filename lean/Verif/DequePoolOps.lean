import Verif.DequePoolPrims
import Verif.Spec.DequePool

/-!
# Deques in the pool: the operations
-/

namespace Verif.DeqPool

open Prog Pool
open Deq (CPtr Iter Deque Arg Op)

variable {α β γ : Type} {C : Ctx α} {T T' : List (Nat × Int)} {X X' : Nat → Prop} {w : PWorld α} {κ : ℕ∞}

/-! ## Reading -/

theorem rd_getObj (k : Nat) : Reads w (Deq.getObj k) (on (Deq.getObj k)) := reads_on (ro_getObj k)
theorem rd_getCur (it : Iter) : Reads w it.getCur (on it.getCur) := reads_on (ro_getCur it)
theorem rd_getIdx (it : Iter) : Reads w it.getIdx (on it.getIdx) := reads_on (ro_getIdx it)
theorem rd_copyIter (it : Iter) : Reads w (Deq.copyIter it) (on (Deq.copyIter it)) := reads_on (ro_copyIter it)
theorem rd_pincr (c : CPtr) : Reads w (c.incr C.acfg) (on (c.incr C.P.deq)) := by
  have : (CPtr.incr C.P.deq c : Prog (Deq.World α) CPtr) = c.incr C.acfg := by cases c <;> rfl
  rw [this]; exact reads_on (ro_pincr c)
theorem rd_pdecr (c : CPtr) : Reads w c.decr (on c.decr) := reads_on (ro_pdecr c)
theorem rd_listAt (t : List Nat) (i : Int) : Reads w (Deq.listAt t i) (on (Deq.listAt t i)) := reads_on (ro_listAt t i)
theorem rd_table (t : Option Nat) : Reads w (Deq.table t) (on (Deq.table t)) := reads_on (ro_table t)
theorem rd_tblAt (t : Option Nat) (i : Int) : Reads w (Deq.tblAt t i) (on (Deq.tblAt t i)) := reads_on (ro_tblAt t i)
theorem rd_arrBegin (b : Nat) : Reads w (Deq.arrBegin b) (on (Deq.arrBegin b)) := reads_on (ro_arrBegin b)
theorem rd_arrEnd (b : Nat) : Reads w (Deq.arrEnd C.acfg b) (on (Deq.arrEnd C.P.deq b)) :=
  reads_on (ro_arrEnd (cfg := C.acfg) b)
theorem rd_readPtr (c : CPtr) : Reads w (Deq.readPtr C.acfg c) (on (Deq.readPtr C.P.deq c)) := by
  have : Deq.readPtr C.P.deq c = Deq.readPtr C.acfg c := by cases c <;> rfl
  rw [this]; exact reads_on (ro_readPtr c)
theorem rd_begin (k : Nat) : Reads w (Deq.begin_ k) (on (Deq.begin_ k)) := reads_on (ro_begin k)

macro "rd0" : tactic => `(tactic| with_reducible first
  | exact Reads.pure _
  | exact Rel.cmp ‹Ctx.Ok _› ‹Rel _ _ _ _› _ _
  | exact rd_getObj _ | exact rd_getCur _ | exact rd_getIdx _ | exact rd_copyIter _ | exact rd_pincr _
  | exact rd_pdecr _ | exact rd_listAt _ _ | exact rd_table _ | exact rd_tblAt _ _ | exact rd_arrBegin _
  | exact rd_arrEnd _ | exact rd_readPtr _ | exact rd_begin _ | exact Reads.dassert _ | exact Reads.check _ _)

macro "rd1" : tactic => `(tactic| with_reducible first
  | rd0
  | (refine Reads.bind (by rd0) fun _ _ => ?_)
  | (refine Reads.ite (fun _ => ?_) fun _ => ?_))

theorem rd_incr (hC : C.Ok) (h : Rel C T X w) (it : Iter) : Reads w (Deq.incr C.acfg it) (incr C.P it) := by
  unfold Deq.incr incr
  repeat' rd1

theorem rd_decr (hC : C.Ok) (h : Rel C T X w) (it : Iter) : Reads w (Deq.decr C.acfg it) (decr C.P it) := by
  unfold Deq.decr decr
  repeat' rd1

theorem rd_incrN (hC : C.Ok) (h : Rel C T X w) (n : Nat) (it : Iter) :
    Reads w (Deq.incrN C.acfg n it) (incrN C.P n it) := by
  induction n generalizing it with
  | zero => exact Reads.pure _
  | succ n ih => exact Reads.bind (rd_incr hC h it) fun a _ => ih a

theorem rd_decrN (hC : C.Ok) (h : Rel C T X w) (n : Nat) (it : Iter) :
    Reads w (Deq.decrN C.acfg n it) (decrN C.P n it) := by
  induction n generalizing it with
  | zero => exact Reads.pure _
  | succ n ih => exact Reads.bind (rd_decr hC h it) fun a _ => ih a

theorem rd_plus (hC : C.Ok) (h : Rel C T X w) (it : Iter) (n : Int) :
    Reads w (Deq.plus C.acfg it n) (plus C.P it n) :=
  Reads.bind (rd_copyIter it) fun a _ => Reads.ite (fun _ => rd_decrN hC h _ a) fun _ => rd_incrN hC h _ a

theorem rd_back (hC : C.Ok) (h : Rel C T X w) (k : Nat) : Reads w (Deq.back C.acfg k) (back C.P k) :=
  Reads.bind (rd_getObj k) fun _ _ => Reads.bind (rd_plus hC h _ _) fun _ _ =>
    Reads.bind (rd_getCur _) fun _ _ => rd_readPtr _

theorem rd_indexRef (hC : C.Ok) (h : Rel C T X w) (k : Nat) (i : Int) :
    Reads w (Deq.indexRef C.acfg k i) (indexRef C.P k i) :=
  Reads.bind (rd_getObj k) fun _ _ => Reads.bind (Reads.ite (fun _ => rd_plus hC h _ _) fun _ => rd_plus hC h _ _)
    fun _ _ => rd_getCur _

theorem rd_index (hC : C.Ok) (h : Rel C T X w) (k : Nat) (i : Int) :
    Reads w (Deq.index C.acfg k i) (index C.P k i) :=
  Reads.bind (rd_indexRef hC h k i) fun _ _ => rd_readPtr _

theorem rd_front (k : Nat) : Reads w (Deq.front C.acfg k) (on (Deq.front C.P.deq k)) := by
  have e : Deq.front C.P.deq k = Deq.front C.acfg k := by unfold Deq.front; congr 1
  rw [e]
  exact reads_on (Pres.bind Pre.eq (ro_getObj k) fun _ => Pres.bind Pre.eq (ro_getCur _) fun _ => ro_readPtr _)

theorem rd_size (k : Nat) : Reads w (Deq.size k) (on (Deq.size k)) :=
  reads_on (Pres.bind Pre.eq (ro_getObj k) fun _ => Pres.pure Pre.eq _)

theorem rd_empty (k : Nat) : Reads w (Deq.empty k) (on (Deq.empty k)) :=
  reads_on (Pres.bind Pre.eq (ro_getObj k) fun _ => Pres.pure Pre.eq _)

theorem Reads.skip {p : Prog (Deq.World α) β} {p2 : β → Prog (Deq.World α) γ} {q : Prog (PWorld α) γ} {a : β}
    (h : Returns p w.deq a w.deq) (h2 : Reads w (p2 a) q) : Reads w (p >>= p2) q := by
  intro b m hr
  exact h2 b m ((bind_returns h).symm.trans hr)

theorem Sim.skip {p : Prog (Deq.World α) β} {p2 : β → Prog (Deq.World α) γ} {q : Prog (PWorld α) γ} {a : β}
    (h : Returns p w.deq a w.deq) (h2 : Sim C κ T X w (p2 a) q) : Sim C κ T X w (p >>= p2) q := by
  intro b m hr
  exact h2 b m ((bind_returns h).symm.trans hr)

theorem rd_iterateFrom (hC : C.Ok) (h : Rel C T X w) (it e : Iter) :
    Reads w (Deq.iterateFrom C.acfg it e) (iterateFrom C.P it e) := by
  have key := Deq.iterateFrom.fixpoint_induct (cfg := C.acfg) e
    (motive := fun X => ∀ it s a t, Returns (X it) s a t → s = w.deq →
      t = w.deq ∧ Returns (iterateFrom C.P it e) w a w)
    (adm_one fun it s a t => s = w.deq → t = w.deq ∧ Returns (iterateFrom C.P it e) w a w)
    (fun X ih it s a t hr hs => by
      subst hs
      refine (?_ : Reads w _ _) a t hr
      rw [iterateFrom]
      refine Reads.bind (rd_getCur it) fun c hc => Reads.bind (rd_getCur e) fun c' _ =>
        Reads.bind (h.cmp hC c c') fun q _ => Reads.ite (fun _ => Reads.pure _) fun _ => Reads.skip hc
          (Reads.bind (rd_readPtr c) fun x _ => Reads.bind (rd_incr hC h it) fun it' _ =>
            Reads.bind (fun a m hm => ih it' _ a m hm rfl) fun xs _ => Reads.pure _))
  exact fun a m hr => key it _ a m hr rfl

theorem rd_iterate (hC : C.Ok) (h : Rel C T X w) (k : Nat) : Reads w (Deq.iterate C.acfg k) (iterate C.P k) :=
  Reads.bind (rd_getObj k) fun _ _ => Reads.bind (rd_copyIter _) fun _ _ => Reads.bind (rd_copyIter _) fun _ _ =>
    rd_iterateFrom hC h _ _

/-! ## What keeps the tables -/

/-- The tables have the same lengths. -/
def LenR (s t : Deq.World α) : Prop := ∀ j, lenOf t j = lenOf s j

theorem Pre.len : Pre (LenR (α := α)) := ⟨fun _ _ => rfl, fun h1 h2 j => (h2 j).trans (h1 j)⟩

theorem len_keep {p : Prog (Deq.World α) β} (h : Pres KeepR p) : Pres LenR p :=
  fun s a t hr => (h s a t hr).len

theorem len_ro {p : Prog (Deq.World α) β} (h : Pres (fun s t => t = s) p) : Pres LenR p := len_keep (keep_ro h)

theorem len_upd {k : Nat} {f : Deque → Deque} {s t : Deq.World α} {a : Unit} (h : Returns (Deq.updObj k f) s a t)
    (hf : ∀ d, (f d).tbl.length = d.tbl.length) : LenR s t := by
  obtain ⟨d, hd, rfl⟩ := returns_updObj h
  intro j
  rw [lenOf_put]
  split
  · rename_i e
    subst e
    rw [lenOf_some hd]
    exact hf d
  · rfl

theorem len_newBlock (cfg : Deq.Cfg α) : Pres LenR (Deq.newBlock cfg) := by
  intro s a t hr
  cases hr
  exact fun _ => rfl

theorem len_freeBlock (cfg : Deq.Cfg α) (b : Nat) : Pres LenR (Deq.freeBlock cfg b) := by
  intro s a t hr
  unfold Returns Deq.freeBlock at hr
  split at hr
  · cases hr
  · cases hr
    exact fun _ => rfl

theorem ro_cmp (cfg : Deq.Cfg α) (p q : CPtr) : Pres (fun s t => t = s) (Deq.cmp cfg p q) := by
  intro s a t hr
  unfold Returns Deq.cmp at hr
  split at hr
  · cases hr; rfl
  · split at hr
    · cases hr; rfl
    · cases hr

macro "len1" : tactic => `(tactic| with_reducible first
  | exact len_newBlock _
  | exact len_freeBlock _ _
  | exact len_keep (keep_setTbl _ _ _)
  | exact len_keep (keep_destroy _)
  | exact len_keep (keep_updObj fun _ => ⟨rfl, rfl⟩)
  | exact len_ro (ro_cmp _ _ _)
  | exact Pres.pure Pre.len _
  | exact Pres.dassert Pre.len _
  | exact len_ro (ro_getObj _)
  | exact len_ro (ro_getCur _)
  | exact len_ro (ro_getIdx _)
  | exact len_ro (ro_copyIter _)
  | exact len_ro (ro_pincr _)
  | exact len_ro (ro_listAt _ _)
  | exact len_ro (ro_table _)
  | exact len_ro (ro_tblAt _ _)
  | exact len_ro (ro_arrBegin _)
  | exact len_ro (ro_arrEnd _)
  | refine Pres.bind Pre.len ?_ fun _ => ?_
  | refine Pres.ite ?_ ?_
  | refine Pres.when Pre.len ?_
  | refine Pres.forRange Pre.len (fun _ _ => ?_) _ _ _)

theorem len_fillStep (cfg : Deq.Cfg α) (k : Nat) (old : List Nat) (a b c : Int) (i : Nat) :
    Pres LenR (Deq.fillStep cfg k old a b c i) := by
  unfold Deq.fillStep
  repeat' len1

theorem len_releaseStep (cfg : Deq.Cfg α) (old : List Nat) (a b : Int) (i : Nat) :
    Pres LenR (Deq.releaseStep cfg old a b i) := by
  unfold Deq.releaseStep
  repeat' len1

theorem len_resizeFix (cfg : Deq.Cfg α) (k : Nat) (e : Int) : Pres LenR (Deq.resizeFix cfg k e) := by
  unfold Deq.resizeFix
  repeat' len1

theorem len_incr (cfg : Deq.Cfg α) (it : Iter) : Pres LenR (Deq.incr cfg it) := by
  unfold Deq.incr
  repeat' len1

theorem len_destroyLoop (cfg : Deq.Cfg α) (it fin : Iter) : Pres LenR (Deq.destroyLoop cfg it fin) := by
  refine Deq.destroyLoop.fixpoint_induct cfg fin (fun X => ∀ it s a t, Returns (X it) s a t → LenR s t)
    (adm_one _) ?_ it
  intro X ih it
  show Pres LenR _
  repeat' with_reducible first | exact len_incr _ _ | len1
  exact ih _

theorem len_freeAll (cfg : Deq.Cfg α) (l : List Nat) : Pres LenR (seqAll (l.map (Deq.freeBlock cfg))) := by
  refine Pres.seqAll Pre.len fun p hp => ?_
  obtain ⟨b, _, rfl⟩ := List.mem_map.1 hp
  exact len_freeBlock _ b

/-! ## Operations -/

theorem sim_destroy (h : Rel C T X w) (c : CPtr) :
    Sim C κ T X w (Deq.destroy C.acfg c) (on (Deq.destroy C.P.deq c)) := by
  have : Deq.destroy C.P.deq c = Deq.destroy C.acfg c := by cases c <;> rfl
  rw [this]
  exact sim_keep (keep_destroy c) h

theorem sim_construct (h : Rel C T X w) (c : CPtr) (x : Arg α) :
    Sim C κ T X w (Deq.construct C.acfg c x) (on (Deq.construct C.P.deq c x)) := by
  have : Deq.construct C.P.deq c x = Deq.construct C.acfg c x := by cases c <;> rfl
  rw [this]
  exact sim_keep (keep_construct c x) h

theorem sim_writePtr (h : Rel C T X w) (c : CPtr) (x : α) :
    Sim C κ T X w (Deq.writePtr C.acfg c x) (on (Deq.writePtr C.P.deq c x)) := by
  have : Deq.writePtr C.P.deq c x = Deq.writePtr C.acfg c x := by cases c <;> rfl
  rw [this]
  exact sim_keep (keep_writePtr c x) h

theorem sim_setIters (h : Rel C T X w) (k : Nat) {f : Deque → Deque}
    (hf : ∀ d, (f d).tbl.length = d.tbl.length ∧ (f d).cap = d.cap) :
    Sim C κ T X w (Deq.updObj k f) (on (Deq.updObj k f)) := sim_keep (keep_updObj hf) h

theorem newSlot_sim (hC : C.Ok) (h : Rel C T X w) (k i : Nat) :
    Sim C (blockRoom C.P : ℕ∞) T X w (do let b ← Deq.newBlock C.acfg; Deq.setTbl k i b)
      (do let b ← newBlock C.P; on (Deq.setTbl k i b)) :=
  Sim.then (newBlock_sim hC h) (fun _ => mono_keep (keep_setTbl _ _ _)) fun _ _ h1 _ => sim_keep (keep_setTbl _ _ _) h1

theorem onlyInit_sim (hC : C.Ok) (h : Rel C T X w) (k : Nat) :
    Sim C (firstRoom C.P : ℕ∞) T X w (Deq.onlyInit C.acfg k) (onlyInit C.P k) := by
  unfold Deq.onlyInit onlyInit
  refine Sim.reads (rd_getObj k) fun d hd => Sim.reads (Reads.dassert _) fun _ ha => ?_
  obtain ⟨hd, _⟩ := returns_getObj hd
  obtain ⟨⟨ht, _⟩, _⟩ := returns_check ha
  have hpos := hC.A
  rw [show ((firstRoom C.P : ℕ) : ℕ∞) = (tableRoom 2 : ℕ∞) + ((2 : ℕ) : ℕ∞) * (blockRoom C.P : ℕ∞) by
    unfold firstRoom; push_cast; rfl]
  refine Sim.add (resizeTable_sim (X' := X) hC h (by rw [lenOf_some hd, ht]; rfl) (by omega) (fun _ _ e => e)
    fun d _ => ⟨rfl, fun _ => ?_⟩) (fun _ => ?_) fun _ w1 h1 _ => ?_
  · show 2 * C.P.A / C.P.A ≤ 2
    rw [Nat.mul_div_cancel _ hpos]
  · repeat' mono1
  refine Sim.then (Sim.forRange (fun i g w hw => newSlot_sim hC hw k i) (fun _ _ => ?_) 2 0 () h1) (fun _ => ?_)
    fun _ w2 h2 _ => ?_
  · repeat' mono1
  · repeat' mono1
  refine Sim.reads (rd_tblAt _ _) fun b _ => Sim.reads (rd_arrBegin b) fun c _ => ?_
  exact sim_setIters h2 k fun _ => ⟨rfl, rfl⟩

theorem fillStep_sim (hC : C.Ok) (h : Rel C T X w) (k : Nat) (old : List Nat) (a b c : Int) (i : Nat) :
    Sim C (blockRoom C.P : ℕ∞) T X w (Deq.fillStep C.acfg k old a b c i) (fillStep C.P k old a b c i) :=
  Sim.ite (fun _ => newSlot_sim hC h k i) fun _ => Sim.reads (rd_listAt _ _) fun _ _ => sim_keep (keep_setTbl _ _ _) h

theorem releaseStep_sim (hC : C.Ok) (h : Rel C T X w) (old : List Nat) (a b : Int) (i : Nat) :
    Sim C κ T X w (Deq.releaseStep C.acfg old a b i) (releaseStep C.P old a b i) :=
  Sim.when h fun _ => Sim.reads (rd_listAt _ _) fun b _ => freeBlock_sim hC h b

theorem resizeFix_sim (hC : C.Ok) (h : Rel C T X w) (k : Nat) (e : Int) :
    Sim C κ T X w (Deq.resizeFix C.acfg k e) (resizeFix C.P k e) := by
  unfold Deq.resizeFix resizeFix
  refine Sim.reads (rd_getObj k) fun d _ => Sim.reads (rd_tblAt _ _) fun b _ => Sim.reads (rd_arrEnd b) fun e _ =>
    Sim.reads (rd_getCur _) fun c _ => Sim.reads (h.cmp hC c e) fun q _ => Sim.when h fun _ =>
    Sim.reads (rd_tblAt _ _) fun b' _ => Sim.reads (rd_arrBegin b') fun c' _ =>
    Sim.bind (sim_setIters h k fun _ => ⟨rfl, rfl⟩) (fun _ => ?_) fun _ w1 h1 _ =>
    Sim.reads (rd_getCur _) fun cb _ => Sim.reads (h1.cmp hC cb e) fun r _ => Sim.when h1 fun _ =>
    sim_setIters h1 k fun _ => ⟨rfl, rfl⟩
  repeat' mono1

theorem Sim.copyTable (hC : C.Ok) (h : Rel C T X w) {n : Nat} (hn : 8 * n + 8 < 2 ^ 31)
    {p : Prog (Deq.World α) β} {q : Nat → Prog (PWorld α) β}
    (h2 : ∀ a w1, w1.deq = w.deq → (a = 0 ↔ n = 0) → Rel C (entry a n ++ T) X w1 → Sim C κ T' X' w1 p (q a)) :
    Sim C (tableRoom n + κ) T' X' w p ((if n = 0 then Pure.pure 0 else DeqPool.newTable C.P n) >>= q) := by
  by_cases h0 : n = 0
  · rw [if_pos h0]
    have he : entry 0 n = [] := if_pos h0
    exact (h2 0 w rfl ⟨fun _ => h0, fun _ => rfl⟩ (by rw [he]; exact h)).cost (le_add_of_nonneg_left zero_le)
  · rw [if_neg h0]
    exact Sim.newTable hC h h0 hn fun a w1 e1 e2 e3 => h2 a w1 e1 ⟨fun e => absurd e e2, fun e => absurd e h0⟩ e3

theorem resize_sim (hC : C.Ok) (h : Rel C T X w) (k n : Nat) (hn : n / C.P.A ≤ 2 * lenOf w.deq k + 1)
    (hκ : ∀ d, w.deq.obj k = some d → (resizeRoom C.P d n : ℕ∞) ≤ κ) :
    Sim C κ T X w (Deq.resize C.acfg k n) (resize C.P k n) := by
  unfold Deq.resize resize
  refine Sim.reads (rd_getObj k) fun d hd => Sim.reads (rd_getIdx _) fun i _ => Sim.reads (rd_getIdx _) fun j _ =>
    Sim.ite (fun _ => Sim.pure h _) fun _ => ?_
  obtain ⟨hd, _⟩ := returns_getObj hd
  rw [lenOf_some hd] at hn
  have hl := lenOf_some hd
  have hM := hC.M
  refine Sim.cost (hκ d hd) ?_
  rw [show ((resizeRoom C.P d n : ℕ) : ℕ∞) = (tableRoom d.tbl.length : ℕ∞) + ((tableRoom (n / C.P.A) : ℕ∞) +
    ((n / C.P.A : ℕ) : ℕ∞) * (blockRoom C.P : ℕ∞)) by unfold resizeRoom; push_cast; rfl]
  refine Sim.copyTable hC h (by rw [← hl]; exact h.small k) fun old w1 e1 hz h1 => ?_
  rw [← e1] at hl hd
  have h16 := h1.two_tables hC hl
  refine Sim.add (resizeTable_sim (X' := fun x => X x ∨ x = k) hC h1 hl (by omega)
    (fun x _ hx e => hx (Or.inl e)) fun d' hd' => ⟨?_, fun hx => absurd (Or.inr rfl) hx⟩) (fun _ => ?_)
    fun _ w2 h2 r2 => ?_
  · rw [hd] at hd'
    cases hd'
    rw [List.length_append, List.length_take, List.length_replicate]
    show min (n / C.P.A) _ + (n / C.P.A - _) = _
    omega
  · repeat' with_reducible first
      | exact mono_fillStep _ _ _ _ _ _ | exact mono_releaseStep _ _ _ _ | exact mono_resizeFix _ _ | mono1
  obtain ⟨d2, hd2, r2⟩ := returns_updObj r2
  have l2 : lenOf w2.deq k = n / C.P.A := by
    rw [r2, lenOf_put, if_pos rfl]
    rw [hd] at hd2
    cases hd2
    show (_ ++ _ : List Nat).length = _
    rw [List.length_append, List.length_take, List.length_replicate]
    show min (n / C.P.A) _ + (n / C.P.A - _) = _
    omega
  refine Sim.then (Sim.forRange (fun i g w hw => fillStep_sim hC hw k _ _ _ _ i) (fun _ _ => mono_fillStep _ _ _ _ _ _)
    _ 0 () h2) (fun _ => ?_) fun _ w3 h3 r3 => ?_
  · repeat' with_reducible first
      | exact mono_releaseStep _ _ _ _ | exact mono_resizeFix _ _ | mono1
  have l3 := Pres.forRange Pre.len (fun _ _ => len_fillStep _ _ _ _ _ _ _) _ _ _ _ _ _ r3 k
  refine Sim.bind (Sim.forRange0 (fun i g w hw => releaseStep_sim hC hw _ _ _ i) (fun _ _ => mono_releaseStep _ _ _ _)
    _ 0 () h3) (fun _ => ?_) fun _ w4 h4 r4 => ?_
  · repeat' with_reducible first
      | exact mono_resizeFix _ _ | mono1
  have l4 := Pres.forRange Pre.len (fun _ _ => len_releaseStep _ _ _ _ _) _ _ _ _ _ _ r4 k
  refine Sim.bind (sim_setIters h4 k fun _ => ⟨rfl, rfl⟩) (fun _ => ?_) fun _ w5 h5 r5 => ?_
  · repeat' with_reducible first
      | exact mono_resizeFix _ _ | mono1
  have l5 := len_upd r5 (fun _ => rfl) k
  refine Sim.bind (resizeFix_sim hC h5 k _) (fun _ => ?_) fun _ w6 h6 r6 => ?_
  · repeat' mono1
  have l6 := len_resizeFix _ _ _ _ _ _ r6 k
  refine Sim.freeTable hC hz (by rw [← hl, e1]; exact h.small k) ?_
  refine sim_upd h6 (fun d6 hd6 => ⟨rfl, fun _ => ?_⟩) fun x hx hx' e => e.elim hx' hx
  rw [← lenOf_some hd6, l6, l5, l4, l3, l2]

theorem destroyLoop_sim (hC : C.Ok) (h : Rel C T X w) (it fin : Iter) :
    Sim C κ T X w (Deq.destroyLoop C.acfg it fin) (destroyLoop C.P it fin) := by
  have key := Deq.destroyLoop.fixpoint_induct (cfg := C.acfg) fin
    (motive := fun p => ∀ it s a t, Returns (p it) s a t → ∀ w, Rel C T X w → s = w.deq →
      Fits C κ T X w (destroyLoop C.P it fin) a t)
    (adm_one fun it s a t => ∀ w, Rel C T X w → s = w.deq → Fits C κ T X w (destroyLoop C.P it fin) a t)
    (fun p ih it s a t hr w h hs => by
      subst hs
      refine (?_ : Sim C κ T X w _ (destroyLoop C.P it fin)) a t hr
      rw [destroyLoop]
      refine Sim.reads (rd_getCur it) fun c hc => Sim.reads (rd_getCur fin) fun c' _ =>
        Sim.reads (h.cmp hC c c') fun q _ => Sim.ite (fun _ => Sim.pure h _) fun _ => Sim.skip hc
          (Sim.bind (sim_destroy h c) (fun _ => ?_) fun _ w1 h1 _ => Sim.reads (rd_incr hC h1 it) fun it' _ =>
            fun a m hm => ih it' _ a m hm _ h1 rfl)
      repeat' with_reducible first | exact mono_incr _ | exact mono_destroyLoop _ _ | mono1)
  exact fun a m hr => key it _ a m hr w h rfl

theorem onlyClear_sim (hC : C.Ok) (h : Rel C T X w) (k : Nat) :
    Sim C κ T X w (Deq.onlyClear C.acfg k) (onlyClear C.P k) := by
  unfold Deq.onlyClear onlyClear
  refine Sim.reads (rd_getObj k) fun d hd => Sim.when h fun _ => Sim.reads (Reads.dassert _) fun _ _ =>
    Sim.reads (rd_copyIter _) fun it _ => ?_
  obtain ⟨hd, _⟩ := returns_getObj hd
  have hmf : Mono (seqAll (d.tbl.map (freeBlock C.P))) := by
    refine Pres.seqAll Pre.later fun p hp => ?_
    obtain ⟨b, _, rfl⟩ := List.mem_map.1 hp
    exact mono_freeBlock b
  refine Sim.bind (destroyLoop_sim hC h it _) (fun _ => Pres.bind Pre.later hmf fun _ => mono_clearTable _ _ _)
    fun _ w1 h1 r1 => ?_
  have l1 := len_destroyLoop _ _ _ _ _ _ r1 k
  refine Sim.bind (Sim.seqAll (fun b w hw => freeBlock_sim hC hw b) (fun b => mono_freeBlock b) d.tbl h1)
    (fun _ => mono_clearTable _ _ _) fun _ w2 h2 r2 => ?_
  have l2 := len_freeAll _ _ _ _ _ r2 k
  exact clearTable_sim hC h2 (by rw [l2, l1, lenOf_some hd]) fun _ => ⟨rfl, rfl⟩

theorem some_onlyClear {cfg : Deq.Cfg α} {k : Nat} {s t : Deq.World α} {a : Unit}
    (h : Returns (Deq.onlyClear cfg k) s a t) : ∃ x, t.obj k = some x := by
  obtain ⟨d, s1, r1, r2⟩ := returns_bind h
  obtain ⟨hd, rfl⟩ := returns_getObj r1
  unfold Prog.when at r2
  split at r2
  · obtain ⟨_, _, _, r2⟩ := returns_bind r2
    obtain ⟨_, _, _, r2⟩ := returns_bind r2
    obtain ⟨_, _, _, r2⟩ := returns_bind r2
    obtain ⟨_, _, _, r2⟩ := returns_bind r2
    obtain ⟨y, _, rfl⟩ := returns_updObj r2
    exact ⟨_, if_pos rfl⟩
  · obtain ⟨rfl, rfl⟩ := returns_pure r2
    exact ⟨d, hd⟩

theorem grow_le (hC : C.Ok) (h : Rel C T X w) {k : Nat} (hk : ¬ X k) {d : Deque} (hd : w.deq.obj k = some d) :
    d.cap * 2 / C.P.A ≤ 2 * lenOf w.deq k + 1 := by
  have h1 := h.cap k hk
  rw [capOf_some hd] at h1
  have hp := hC.A
  have h2 : d.cap < C.P.A * (d.cap / C.P.A + 1) := Nat.lt_mul_div_succ _ hp
  have h3 : d.cap * 2 / C.P.A < 2 * (d.cap / C.P.A + 1) := by
    refine (Nat.div_lt_iff_lt_mul hp).2 ?_
    rw [Nat.mul_assoc, Nat.mul_comm _ C.P.A]
    omega
  omega

theorem shrink_le (h : Rel C T X w) {k : Nat} (hk : ¬ X k) {d : Deque} (hd : w.deq.obj k = some d) :
    d.cap / 2 / C.P.A ≤ 2 * lenOf w.deq k + 1 := by
  have h1 := h.cap k hk
  rw [capOf_some hd] at h1
  have : d.cap / 2 / C.P.A ≤ d.cap / C.P.A := Nat.div_le_div_right (by omega)
  omega

/-- Blocks that cannot touch: equal pointers are the same. -/
theorem cmp_same (hf : C.fin = none) {p q : CPtr} {m m' : Deq.World α} {r : Bool}
    (h : Returns (Deq.cmp C.acfg p q) m r m') (hr : r = true) : p = q := by
  subst hr
  unfold Returns Deq.cmp at h
  split at h
  · assumption
  · split at h
    · have e : Deq.ptrEq C.acfg p q = true := by injection h with h; injection h with h; injection h
      cases p <;> cases q
      · rfl
      · cases e
      · cases e
      · simp only [Deq.ptrEq, Ctx.acfg, hf, Bool.and_false, Bool.or_false, Bool.and_eq_true, beq_iff_eq] at e
        rw [e.1, e.2]
    · cases h

theorem listAt_last {t : List Nat} {b : Nat} {m m' : Deq.World α}
    (h : Returns (Deq.listAt t ((t.length : Int) - 1)) m b m') (h0 : 0 < t.length) : t.getLast? = some b := by
  unfold Deq.listAt at h
  rw [if_neg (by omega)] at h
  obtain ⟨_, _, _, h⟩ := returns_bind h
  obtain ⟨_, _, _, h⟩ := returns_bind h
  rw [show ((t.length : Int) - 1).toNat = t.length - 1 by omega, ← List.getLast?_eq_getElem?] at h
  split at h
  · rename_i x hx
    obtain ⟨rfl, _⟩ := returns_pure h
    exact hx
  · cases h

theorem listAt_head {t : List Nat} {b : Nat} {m m' : Deq.World α} (h : Returns (Deq.listAt t 0) m b m') :
    t.head? = some b := by
  unfold Deq.listAt at h
  rw [if_neg (by omega)] at h
  obtain ⟨_, _, _, h⟩ := returns_bind h
  obtain ⟨_, _, _, h⟩ := returns_bind h
  rw [show ((0 : Int)).toNat = 0 by rfl, ← List.head?_eq_getElem?] at h
  split at h
  · rename_i x hx
    obtain ⟨rfl, _⟩ := returns_pure h
    exact hx
  · cases h

theorem returns_getCur {it : Iter} {c : CPtr} {m m' : Deq.World α} (h : Returns it.getCur m c m') : it.cur = some c := by
  unfold Iter.getCur at h
  split at h
  · cases h
  · rename_i x hx
    obtain ⟨rfl, _⟩ := returns_pure h
    exact hx

theorem returns_arrBegin {b : Nat} {c : CPtr} {m m' : Deq.World α} (h : Returns (Deq.arrBegin b) m c m') : c = .at b 0 := by
  unfold Returns Deq.arrBegin at h
  split at h
  · cases h
  · split at h
    · cases h
    · cases h
      rfl

theorem returns_arrEnd {b : Nat} {c : CPtr} {m m' : Deq.World α} (h : Returns (Deq.arrEnd C.acfg b) m c m') :
    c = .at b C.P.A := by
  obtain ⟨_, _, _, h⟩ := returns_bind h
  exact (returns_pure h).1

theorem pushBack_sim (hC : C.Ok) (h : Rel C T X w) {k : Nat} (hk : ¬ X k) (x : Arg α)
    (hκ : ∀ d, w.deq.obj k = some d → (d.cap = 0 → (firstRoom C.P : ℕ∞) ≤ κ) ∧ (d.cap ≠ 0 →
      (C.fin = none → d.fin.cur = d.tbl.getLast?.map (.at · C.P.A)) → (resizeRoom C.P d (d.cap * 2) : ℕ∞) ≤ κ)) :
    Sim C κ T X w (Deq.pushBack C.acfg k x) (pushBack C.P k x) := by
  unfold Deq.pushBack pushBack
  refine Sim.reads (rd_getObj k) fun d hd => ?_
  obtain ⟨hd, _⟩ := returns_getObj hd
  refine Sim.then (T := T) (X := X) (Sim.ite (fun h0 => Sim.reads (Reads.dassert _) fun _ _ =>
    (onlyInit_sim hC h k).cost ((hκ d hd).1 h0)) fun h0 =>
    Sim.reads (Reads.dassert _) fun _ ha => Sim.reads (rd_listAt _ _) fun b hb => Sim.reads (rd_arrEnd b) fun e he =>
    Sim.reads (rd_getCur _) fun c hc => Sim.reads (h.cmp hC c e) fun q hq => Sim.when h fun hq' =>
    resize_sim hC h k _ (grow_le hC h hk hd) fun d' hd' => ?_) (fun _ => ?_) fun _ w1 h1 _ => ?_
  · rw [hd] at hd'
    cases hd'
    refine (hκ d hd).2 h0 fun hf => ?_
    rw [returns_getCur hc, cmp_same hf hq hq', returns_arrEnd he, listAt_last hb (returns_check ha).1]
    rfl
  · repeat' with_reducible first | exact mono_incr _ | mono1
  refine Sim.reads (rd_getObj k) fun d1 _ => Sim.reads (rd_getCur _) fun c _ =>
    Sim.bind (sim_construct h1 c x) (fun _ => ?_) fun _ w2 h2 _ => Sim.reads (rd_incr hC h2 _) fun it _ =>
    sim_setIters h2 k fun _ => ⟨rfl, rfl⟩
  repeat' with_reducible first | exact mono_incr _ | mono1

theorem pushFront_sim (hC : C.Ok) (h : Rel C T X w) {k : Nat} (hk : ¬ X k) (x : Arg α)
    (hκ : ∀ d, w.deq.obj k = some d → (d.cap = 0 → (firstRoom C.P : ℕ∞) ≤ κ) ∧ (d.cap ≠ 0 →
      (C.fin = none → d.beg.cur = d.tbl.head?.map (.at · 0)) → (resizeRoom C.P d (d.cap * 2) : ℕ∞) ≤ κ)) :
    Sim C κ T X w (Deq.pushFront C.acfg k x) (pushFront C.P k x) := by
  unfold Deq.pushFront pushFront
  refine Sim.reads (rd_getObj k) fun d hd => ?_
  obtain ⟨hd, _⟩ := returns_getObj hd
  refine Sim.then (T := T) (X := X) (Sim.ite (fun h0 => Sim.reads (Reads.dassert _) fun _ _ =>
    (onlyInit_sim hC h k).cost ((hκ d hd).1 h0)) fun h0 =>
    Sim.reads (rd_listAt _ _) fun b hb => Sim.reads (rd_arrBegin b) fun e he =>
    Sim.reads (rd_getCur _) fun c hc => Sim.reads (h.cmp hC c e) fun q hq => Sim.when h fun hq' =>
    resize_sim hC h k _ (grow_le hC h hk hd) fun d' hd' => ?_) (fun _ => ?_) fun _ w1 h1 _ => ?_
  · rw [hd] at hd'
    cases hd'
    refine (hκ d hd).2 h0 fun hf => ?_
    rw [returns_getCur hc, cmp_same hf hq hq', returns_arrBegin he, listAt_head hb]
    rfl
  · repeat' with_reducible first | exact mono_decr _ | mono1
  refine Sim.reads (rd_getObj k) fun d1 _ => Sim.reads (rd_decr hC h1 _) fun it _ =>
    Sim.bind (sim_setIters h1 k fun _ => ⟨rfl, rfl⟩) (fun _ => ?_) fun _ w2 h2 _ => Sim.reads (rd_getCur _) fun c _ =>
    Sim.bind (sim_construct h2 c x) (fun _ => ?_) fun _ w3 h3 _ => sim_setIters h3 k fun _ => ⟨rfl, rfl⟩
  all_goals repeat' mono1

theorem maybeShrink_sim (hC : C.Ok) (h : Rel C T X w) {k : Nat} (hk : ¬ X k)
    (hκ : ∀ d, w.deq.obj k = some d → d.sz ≤ d.cap / 3 ∧ d.tbl.length > 2 → (resizeRoom C.P d (d.cap / 2) : ℕ∞) ≤ κ) :
    Sim C κ T X w (Deq.maybeShrink C.acfg k) (maybeShrink C.P k) :=
  Sim.reads (rd_getObj k) fun d hd => Sim.when h fun hs =>
    resize_sim hC h k _ (shrink_le h hk (returns_getObj hd).1) fun d' hd' => by
      have := (returns_getObj hd).1
      rw [this] at hd'
      cases hd'
      exact hκ d this hs

theorem obj_destroy {cfg : Deq.Cfg α} {c : CPtr} {m m' : Deq.World α} (h : Returns (Deq.destroy cfg c) m () m') :
    m'.obj = m.obj := by
  have hR : Pre fun s t : Deq.World α => t.obj = s.obj := ⟨fun _ => rfl, fun h1 h2 => h2.trans h1⟩
  refine (Pres.bind hR (Pres.check hR _ _) fun _ => Pres.bind hR ?_ fun x => Pres.bind hR (Pres.check hR _ _) fun _ =>
    Pres.modify fun _ => rfl : Pres (fun s t : Deq.World α => t.obj = s.obj) (Deq.destroy cfg c)) m () m' h
  exact Pres.mono (fun s t (e : t = s) => by rw [e]) (ro_access c)

/-- What a pop leaves. -/
theorem pop_room {d d' : Deque} (h1 : d'.tbl = d.tbl) (h2 : d'.cap = d.cap) (h3 : d'.sz = Deq.decSize d.sz)
    (hκ : (popRoom C.P d : ℕ∞) ≤ κ) (hs : d'.sz ≤ d'.cap / 3 ∧ d'.tbl.length > 2) :
    (resizeRoom C.P d' (d'.cap / 2) : ℕ∞) ≤ κ := by
  have e : resizeRoom C.P d' (d'.cap / 2) = popRoom C.P d := by
    rw [h1, h2, h3] at hs
    unfold popRoom
    rw [if_pos ⟨by unfold Deq.decSize at hs; split at hs <;> omega, hs.2⟩]
    unfold resizeRoom
    rw [h1, h2]
  rw [e]
  exact hκ

theorem popBack_sim (hC : C.Ok) (h : Rel C T X w) {k : Nat} (hk : ¬ X k)
    (hκ : ∀ d, w.deq.obj k = some d → (popRoom C.P d : ℕ∞) ≤ κ) :
    Sim C κ T X w (Deq.popBack C.acfg k) (popBack C.P k) := by
  unfold Deq.popBack popBack
  refine Sim.reads (rd_getObj k) fun d hd => Sim.reads (rd_decr hC h _) fun it _ =>
    Sim.bind (sim_setIters h k fun _ => ⟨rfl, rfl⟩) (fun _ => ?_) fun _ w1 h1 r1 => Sim.reads (rd_getCur _) fun c _ =>
    Sim.bind (sim_destroy h1 c) (fun _ => mono_maybeShrink _) fun _ w2 h2 r2 => maybeShrink_sim hC h2 hk
      fun d' hd' => ?_
  · repeat' with_reducible first | exact mono_maybeShrink _ | mono1
  · obtain ⟨x, hx, e⟩ := returns_updObj r1
    rw [obj_destroy r2, e] at hd'
    have hd' : (if k = k then some _ else _) = some d' := hd'
    rw [if_pos rfl] at hd'
    cases hd'
    exact pop_room (d := x) rfl rfl rfl (hκ x hx)

theorem popFront_sim (hC : C.Ok) (h : Rel C T X w) {k : Nat} (hk : ¬ X k)
    (hκ : ∀ d, w.deq.obj k = some d → (popRoom C.P d : ℕ∞) ≤ κ) :
    Sim C κ T X w (Deq.popFront C.acfg k) (popFront C.P k) := by
  unfold Deq.popFront popFront
  refine Sim.reads (rd_getObj k) fun d hd => Sim.reads (rd_getCur _) fun c _ =>
    Sim.bind (sim_destroy h c) (fun _ => ?_) fun _ w1 h1 r1 => Sim.reads (rd_incr hC h1 _) fun it _ =>
    Sim.bind (sim_setIters h1 k fun _ => ⟨rfl, rfl⟩) (fun _ => mono_maybeShrink _) fun _ w2 h2 r2 =>
    maybeShrink_sim hC h2 hk fun d' hd' => ?_
  · repeat' with_reducible first | exact mono_incr _ | exact mono_maybeShrink _ | mono1
  · obtain ⟨x, hx, e⟩ := returns_updObj r2
    rw [e] at hd'
    have hd' : (if k = k then some _ else _) = some d' := hd'
    rw [if_pos rfl] at hd'
    cases hd'
    exact pop_room (d := x) rfl rfl rfl (hκ x (by rw [← obj_destroy r1]; exact hx))

theorem setElem_sim (hC : C.Ok) (h : Rel C T X w) (k i : Nat) (x : α) :
    Sim C κ T X w (Deq.setElem C.acfg k i x) (setElem C.P k i x) :=
  Sim.reads (rd_begin k) fun _ _ => Sim.reads (rd_plus hC h _ _) fun _ _ => Sim.reads (rd_getCur _) fun c _ =>
    sim_writePtr h c x

theorem copyLoop_sim (hC : C.Ok) (h : Rel C T X w) {d : Nat} (hd : ¬ X d) (it e : Iter) :
    Sim C ⊤ T X w (Deq.copyLoop C.acfg d it e) (copyLoop C.P d it e) := by
  have key := Deq.copyLoop.fixpoint_induct (cfg := C.acfg) d e
    (motive := fun p => ∀ it s a t, Returns (p it) s a t → ∀ w, Rel C T X w → s = w.deq →
      Fits C ⊤ T X w (copyLoop C.P d it e) a t)
    (adm_one fun it s a t => ∀ w, Rel C T X w → s = w.deq → Fits C ⊤ T X w (copyLoop C.P d it e) a t)
    (fun p ih it s a t hr w h hs => by
      subst hs
      refine (?_ : Sim C ⊤ T X w _ (copyLoop C.P d it e)) a t hr
      rw [copyLoop]
      refine Sim.reads (rd_getCur it) fun c hc => Sim.reads (rd_getCur e) fun c' _ =>
        Sim.reads (h.cmp hC c c') fun q _ => Sim.ite (fun _ => Sim.pure h _) fun _ => Sim.skip hc
          (Sim.add (pushBack_sim hC h hd (.ref c) fun _ _ => ⟨fun _ => le_top, fun _ _ => le_top⟩) (fun _ => ?_) fun _ w1 h1 _ =>
            Sim.reads (rd_incr hC h1 it) fun it' _ => fun a m hm => ih it' _ a m hm _ h1 rfl)
      repeat' with_reducible first | exact mono_incr _ | exact mono_copyLoop _ _ _ | mono1)
  exact fun a m hr => key it _ a m hr w h rfl

theorem copyAssign_sim (hC : C.Ok) (h : Rel C T X w) {d : Nat} (hd : ¬ X d) (s : Nat) :
    Sim C ⊤ T X w (Deq.copyAssign C.acfg d s) (copyAssign C.P d s) := by
  unfold Deq.copyAssign copyAssign
  refine Sim.bind (onlyClear_sim hC h d) (fun _ => ?_) fun _ w1 h1 _ => Sim.reads (rd_getObj s) fun _ _ =>
    Sim.reads (rd_copyIter _) fun _ _ => Sim.reads (rd_copyIter _) fun _ _ => copyLoop_sim hC h1 hd _ _
  repeat' with_reducible first | exact mono_copyLoop _ _ _ | mono1

theorem moveTable_sim (hC : C.Ok) (h : Rel C T (fun _ => False) w) {d s : Nat} (hne : d ≠ s) {x src : Deque}
    (hd : w.deq.obj d = some x) (hs : w.deq.obj s = some src) :
    Sim C κ T (fun j => j = s) w
      (do
        Deq.updObj d fun x => { x with sz := src.sz, cap := src.cap, tbl := src.tbl }
        Deq.updObj s fun x => { x with tbl := [] })
      (moveTable C.P d s x.tbl.length src) := by
  intro a m hr
  have hr0 := hr
  obtain ⟨_, m1, r1, r2⟩ := returns_bind hr
  obtain ⟨x', hx', rfl⟩ := returns_updObj r1
  rw [hd] at hx'
  cases hx'
  obtain ⟨y, hy, rfl⟩ := returns_updObj r2
  have hy : (if s = d then _ else w.deq.obj s) = some y := hy
  rw [if_neg (Ne.symm hne), hs] at hy
  cases hy
  obtain ⟨bs, ts, hsp, hh⟩ := h.holds.split d
  rw [lenOf_some hd] at hh
  obtain ⟨s', e1, e2, e3⟩ := freeTable_ok hC (w := w) hh (by rw [h.tab_zero hC d, lenOf_some hd])
    (by rw [← lenOf_some hd]; exact h.small d)
  have h0 := h.retable (v := none) (a := 0) (n := 0) (s' := s') (X' := fun _ => False) hsp rfl (fun _ => rfl)
    (by omega) (fun _ _ e => e) (fun _ => by simp) e2
  obtain ⟨bs1, ts1, hsp1, hh1⟩ := h0.holds.split s
  simp only [if_neg (Ne.symm hne)] at hh1
  have hl0 : ∀ j, lenOf { w.deq with obj := fun x => if x = d then none else w.deq.obj x } j =
      if j = d then 0 else lenOf w.deq j := fun j => by rw [lenOf_put]; rfl
  have hl1 : ∀ j, lenOf { w.deq with
      obj := fun y => if y = s then some { src with tbl := [] } else
        if y = d then some { x with sz := src.sz, cap := src.cap, tbl := src.tbl } else w.deq.obj y } j =
      if j = s then 0 else if j = d then src.tbl.length else lenOf w.deq j := fun j => by
    unfold lenOf
    simp only
    split
    · rfl
    · split <;> rfl
  have hc1 : ∀ j, capOf { w.deq with
      obj := fun y => if y = s then some { src with tbl := [] } else
        if y = d then some { x with sz := src.sz, cap := src.cap, tbl := src.tbl } else w.deq.obj y } j =
      if j = s then src.cap else if j = d then src.cap else capOf w.deq j := fun j => by
    unfold capOf
    simp only
    split
    · rfl
    · split <;> rfl
  have hls := lenOf_some hs
  refine Or.inl ⟨{ w with
      deq := { w.deq with
        obj := fun y => if y = s then some { src with tbl := [] } else
          if y = d then some { x with sz := src.sz, cap := src.cap, tbl := src.tbl } else w.deq.obj y }
      pool := s'
      tab := fun y => if y = s then 0 else if y = d then w.tab s else w.tab y }, ?_, rfl, ?_,
    fun r hr => e3 r hr.drop⟩
  · unfold moveTable Returns
    rw [bind_returns (show Returns Prog.get _ _ _ from rfl), bind_returns e1]
    exact on_returns (w := { w with
      pool := s'
      tab := fun y => if y = s then 0 else if y = d then w.tab s else w.tab y }) hr0
  · constructor
    · exact h.old
    · refine Split.join (k := d) (bs := bs1) (ts := ts1) ⟨hsp1.nd, hsp1.blocks, hsp1.nd', fun j => ?_⟩ ?_
      · rw [hsp1.tabs j]
        simp only
        rw [hl0, hl1]
        by_cases e : j = s
        · simp [e]
        · by_cases e' : j = d
          · simp [e']
          · simp [e, e']
      · simp only
        rw [hl1, if_neg hne, if_neg hne, if_pos rfl, if_pos trivial]
        rw [hl0, if_neg (Ne.symm hne), hls] at hh1
        have ho := ownOf_congr (C := C) (bs := bs1) (ts := ts1) (w := { w with
          deq := { w.deq with obj := fun x => if x = d then none else w.deq.obj x }
          pool := s'
          tab := fun x => if x = d then 0 else w.tab x }) (w' := { w with
          deq := { w.deq with
            obj := fun y => if y = s then some { src with tbl := [] } else
              if y = d then some { x with sz := src.sz, cap := src.cap, tbl := src.tbl } else w.deq.obj y }
          pool := s'
          tab := fun y => if y = s then 0 else if y = d then w.tab s else w.tab y }) (fun _ _ => rfl) fun j hj => ?_
        · rw [ho]
          exact hh1
        · obtain ⟨g1, g2⟩ := (hsp1.tabs j).1 hj
          simp only at g2
          rw [hl0] at g2
          have g3 : j ≠ d := fun e => g2 (if_pos e)
          refine ⟨by simp only [if_neg g1, if_neg g3], ?_⟩
          simp only
          rw [hl0, hl1, if_neg g1, if_neg g3, if_neg g3]
    · intro j hj
      simp only at hj ⊢
      rw [hl1] at hj
      split
      · rfl
      · rename_i e
        rw [if_neg e] at hj
        split
        · rename_i e'
          rw [if_pos e'] at hj
          exact h.none s (by rw [hls]; exact hj)
        · rename_i e'
          rw [if_neg e'] at hj
          exact h.none j hj
    · intro j
      simp only
      rw [hl1]
      split
      · omega
      · split
        · rw [← hls]; exact h.small s
        · exact h.small j
    · intro j hj
      simp only
      rw [hl1, hc1, if_neg hj, if_neg hj]
      split
      · rw [← hls, ← capOf_some hs]
        exact h.cap s id
      · exact h.cap j id
    · exact h.hit
    · exact h.up
    · exact h.agree

theorem Sim.assoc {δ : Type} {p1 : Prog (Deq.World α) β} {p2 : β → Prog (Deq.World α) γ}
    {p3 : γ → Prog (Deq.World α) δ} {q : Prog (PWorld α) δ} (h : Sim C κ T X w ((p1 >>= p2) >>= p3) q) :
    Sim C κ T X w (p1 >>= fun a => p2 a >>= p3) q := by
  intro a m hr
  obtain ⟨b, m1, r1, r2⟩ := returns_bind hr
  obtain ⟨c, m2, r3, r4⟩ := returns_bind r2
  exact h a m ((bind_returns ((bind_returns r1).trans r3)).trans r4)

theorem moveAssign_sim (hC : C.Ok) (h : Rel C T (fun _ => False) w) {d s : Nat} (hne : d ≠ s) :
    Sim C κ T (fun _ => False) w (Deq.moveAssign C.acfg d s) (moveAssign C.P d s) := by
  unfold Deq.moveAssign moveAssign
  refine Sim.bind (onlyClear_sim hC h d) (fun _ => ?_) fun _ w1 h1 _ => Sim.reads (rd_getObj s) fun src hsrc => ?_
  · repeat' with_reducible first | exact mono_moveTable _ _ _ _ | mono1
  obtain ⟨hsrc, _⟩ := returns_getObj hsrc
  refine Sim.assoc ?_
  intro a m hr
  obtain ⟨_, m1, r1, r2⟩ := returns_bind hr
  obtain ⟨_, m2, r3, r4⟩ := returns_bind r1
  obtain ⟨x, hx, _⟩ := returns_updObj r3
  have hg : Returns (on (Deq.getObj d)) w1 x w1 := (rd_getObj d x w1.deq (by unfold Returns Deq.getObj; rw [hx])).2
  have key : Sim C κ T (fun _ => False) w1 ((do
        Deq.updObj d fun x => { x with sz := src.sz, cap := src.cap, tbl := src.tbl }
        Deq.updObj s fun x => { x with tbl := [] }) >>= fun _ => do
      let b ← Deq.copyIter src.beg
      Deq.updObj d fun x => { x with beg := b }
      Deq.updObj s fun x => { x with beg := .movedFrom }
      let e ← Deq.copyIter src.fin
      Deq.updObj d fun x => { x with fin := e }
      Deq.updObj s fun x => { x with fin := .movedFrom }
      Deq.updObj s fun x => { x with sz := 0, cap := 0, tbl := [] })
      (do
        moveTable C.P d s x.tbl.length src
        let b ← on (Deq.copyIter src.beg)
        on (Deq.updObj d fun x => { x with beg := b })
        on (Deq.updObj s fun x => { x with beg := .movedFrom })
        let e ← on (Deq.copyIter src.fin)
        on (Deq.updObj d fun x => { x with fin := e })
        on (Deq.updObj s fun x => { x with fin := .movedFrom })
        on (Deq.updObj s fun x => { x with sz := 0, cap := 0, tbl := [] })) := by
    refine Sim.bind (moveTable_sim hC h1 hne hx hsrc) (fun _ => ?_) fun _ w2 h2 q2 =>
      Sim.reads (rd_copyIter _) fun b _ => Sim.bind (sim_setIters h2 d fun _ => ⟨rfl, rfl⟩) (fun _ => ?_)
      fun _ w3 h3 q3 => Sim.bind (sim_setIters h3 s fun _ => ⟨rfl, rfl⟩) (fun _ => ?_) fun _ w4 h4 q4 =>
      Sim.reads (rd_copyIter _) fun e _ => Sim.bind (sim_setIters h4 d fun _ => ⟨rfl, rfl⟩) (fun _ => ?_)
      fun _ w5 h5 q5 => Sim.bind (sim_setIters h5 s fun _ => ⟨rfl, rfl⟩) (fun _ => ?_) fun _ w6 h6 q6 => ?_
    rotate_right
    · refine sim_upd h6 (fun y hy => ⟨?_, fun _ => ?_⟩) fun j hj _ => hj
      · have l0 : lenOf w2.deq s = 0 := by
          obtain ⟨_, m5, t1, t2⟩ := returns_bind q2
          obtain ⟨z, hz, e⟩ := returns_updObj t2
          rw [e, lenOf_put, if_pos rfl]
          rfl
        rw [← lenOf_some hy, len_upd q6 (fun _ => rfl) s, len_upd q5 (fun _ => rfl) s, len_upd q4 (fun _ => rfl) s,
          len_upd q3 (fun _ => rfl) s, l0]
        rfl
      · show 0 / C.P.A ≤ _
        rw [Nat.zero_div]
        exact Nat.zero_le _
    all_goals repeat' mono1
  rcases key a m hr with ⟨w2, g1, g2, g3, g4⟩ | ⟨e, e'⟩ | ⟨f, hf, e⟩
  · exact Or.inl ⟨w2, (bind_returns hg).trans g1, g2, g3, g4⟩
  · exact Or.inr (Or.inl ⟨(bind_returns hg).trans e, e'⟩)
  · refine Or.inr (Or.inr ⟨f, hf, fun a' w' hq => ?_⟩)
    exact e a' w' ((bind_returns hg).symm.trans hq)

/-- What the operation requests. -/
def cost (C : Ctx α) (w : PWorld α) (op : Op α) : ℕ∞ :=
  match C.fin with
  | some _ => ⊤
  | none => (needs C.P w op).elim ⊤ fun n => (n : ℕ∞)

theorem le_cost {n : Nat} {op : Op α} (h : C.fin = none → ∀ m, needs C.P w op = some m → n ≤ m) : (n : ℕ∞) ≤ cost C w op := by
  unfold cost
  cases hf : C.fin with
  | some f => exact le_top
  | none =>
    cases hn : needs C.P w op with
    | none => exact le_top
    | some m => exact Nat.cast_le.2 (h hf m hn)

theorem le_pushRoom {full : Deque → Prop} [DecidablePred full] {d : Deque} {r : Option Deque} (hr : r = some d) {op : Op α}
    (hn : needs C.P w op = some (r.elim 0 fun d => pushRoom C.P d (full d))) :
    (d.cap = 0 → (firstRoom C.P : ℕ∞) ≤ cost C w op) ∧
      (d.cap ≠ 0 → (C.fin = none → full d) → (resizeRoom C.P d (d.cap * 2) : ℕ∞) ≤ cost C w op) := by
  subst hr
  refine ⟨fun h0 => le_cost fun _ m hm => ?_, fun h0 hf => le_cost fun he m hm => ?_⟩
  · rw [hn] at hm
    cases hm
    show _ ≤ pushRoom C.P d (full d)
    unfold pushRoom
    rw [if_pos h0]
  · rw [hn] at hm
    cases hm
    show _ ≤ pushRoom C.P d (full d)
    unfold pushRoom
    rw [if_neg h0, if_pos (hf he)]

theorem step_sim (hC : C.Ok) (h : Rel C [] (fun _ => False) w) (op : Op α)
    (hnew : ∀ k, op = .new k → w.deq.obj k = none) :
    Sim C (cost C w op) [] (fun _ => False) w (Deq.step C.acfg op) (step C.P op) := by
  cases op with
  | new k => exact new_sim h (hnew k rfl)
  | pushBack k x =>
    exact pushBack_sim hC h id _ fun d hd =>
      le_pushRoom (full := fun d => d.fin.cur = d.tbl.getLast?.map (.at · C.P.A)) hd rfl
  | pushFront k x =>
    exact pushFront_sim hC h id _ fun d hd =>
      le_pushRoom (full := fun d => d.beg.cur = d.tbl.head?.map (.at · 0)) hd rfl
  | pushBackElem k j i =>
    exact Sim.reads (rd_indexRef hC h j i) fun c _ =>
      pushBack_sim hC h id _ fun d hd =>
      le_pushRoom (full := fun d => d.fin.cur = d.tbl.getLast?.map (.at · C.P.A)) hd rfl
  | pushFrontElem k j i =>
    exact Sim.reads (rd_indexRef hC h j i) fun c _ =>
      pushFront_sim hC h id _ fun d hd =>
      le_pushRoom (full := fun d => d.beg.cur = d.tbl.head?.map (.at · 0)) hd rfl
  | popBack k =>
    exact popBack_sim hC h id fun d hd => le_cost fun _ m hm => by
      simp only [needs, hd, Option.elim_some, Option.some.injEq] at hm; exact hm ▸ Nat.le_refl _
  | popFront k =>
    exact popFront_sim hC h id fun d hd => le_cost fun _ m hm => by
      simp only [needs, hd, Option.elim_some, Option.some.injEq] at hm; exact hm ▸ Nat.le_refl _
  | clear k => exact onlyClear_sim hC h k
  | set k i x => exact setElem_sim hC h k i x
  | copy d s =>
    exact Sim.reads (rd_getObj d) fun _ _ => Sim.reads (rd_getObj s) fun _ _ =>
      Sim.ite (fun _ => Sim.pure h _) fun hne => by
        rw [show cost C w (.copy d s) = ⊤ by unfold cost; cases C.fin <;> simp [needs, hne]]
        exact copyAssign_sim hC h id s
  | move d s =>
    exact Sim.reads (rd_getObj d) fun _ _ => Sim.reads (rd_getObj s) fun _ _ =>
      Sim.ite (fun _ => Sim.pure h _) fun hne => moveAssign_sim hC h hne
  | drop k =>
    show Sim C _ _ _ w (Deq.onlyClear C.acfg k >>= fun _ => Deq.putObj k none) (onlyClear C.P k >>= fun _ => dropTable C.P k)
    refine Sim.bind (onlyClear_sim hC h k) (fun _ => mono_dropTable k) fun _ w1 h1 r1 => ?_
    obtain ⟨x, hx⟩ := some_onlyClear r1
    exact fun a m hr => dropTable_sim hC h1 k a m
      ((bind_returns (show Returns (Deq.getObj k) w1.deq x w1.deq by unfold Returns Deq.getObj; rw [hx])).trans hr)

end Verif.DeqPool
