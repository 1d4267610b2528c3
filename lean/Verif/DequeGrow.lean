import Verif.DequeLemmas

/-! # Lemmas about the deque model: allocation, growth -/

namespace Verif.Deq

open Prog

variable {α : Type} {cfg : Cfg α}

/-! ## Allocating and releasing blocks -/

/-- The world after allocating a block. -/
def withBlock (cfg : Cfg α) (w : World α) : World α :=
  { w with blk := fun b => if b = w.next then some (fun _ => .dflt cfg.d) else w.blk b
           next := w.next + 1 }

theorem newBlock_ok (w : World α) : Returns (newBlock cfg) w w.next (withBlock cfg w) := rfl

theorem cntD_new (A : Nat) (x : α) : cntD A (some (fun _ => Slot.dflt x)) = A := by
  simp [cntD, Slot.isDflt, List.countP_true]

theorem withBlock_bal {w : World α} (h : Bal cfg w) : Bal cfg (withBlock cfg w) := by
  obtain ⟨h1, h2, h3⟩ := h
  refine ⟨?_, ?_, ?_⟩
  · show w.lostDflt + (totD cfg.A (withBlock cfg w).blk w.next + cntD cfg.A ((withBlock cfg w).blk w.next)) = _
    have e1 : totD cfg.A (withBlock cfg w).blk w.next = totD cfg.A w.blk w.next :=
      totD_congr (fun b hb => by simp [withBlock, Nat.ne_of_lt hb])
    have e2 : cntD cfg.A ((withBlock cfg w).blk w.next) = cfg.A := by
      simp only [withBlock, if_true]; exact cntD_new _ _
    rw [e1, e2, show (withBlock cfg w).next - 1 = (w.next - 1) + 1 by simp [withBlock]; omega, Nat.mul_add]
    omega
  · show 1 ≤ w.next + 1; omega
  · show (if 0 = w.next then _ else w.blk 0) = none
    rw [if_neg (by omega)]; exact h3

/-- The world after releasing block `b`. -/
def without (cfg : Cfg α) (w : World α) (b : Nat) (f : Nat → Slot α) : World α :=
  { w with blk := fun x => if x = b then none else w.blk x
           lostElem := w.lostElem + (List.range cfg.A).countP (fun i => (f i).isElem)
           lostDflt := w.lostDflt + (List.range cfg.A).countP (fun i => (f i).isDflt) }

theorem freeBlock_ok {w : World α} {b : Nat} {f : Nat → Slot α} (h : w.blk b = some f) :
    Returns (freeBlock cfg b) w () (without cfg w b f) := by
  unfold Returns freeBlock; rw [h]; rfl

theorem without_bal {w : World α} {b : Nat} {f : Nat → Slot α} (h : w.blk b = some f)
    (hb : b < w.next) (hw : Bal cfg w) : Bal cfg (without cfg w b f) := by
  obtain ⟨h1, h2, h3⟩ := hw
  refine ⟨?_, h2, ?_⟩
  · have e := totD_update (A := cfg.A) (f := (without cfg w b f).blk) (g := w.blk) hb
      (fun c hc => by simp [without, hc])
    rw [h] at e
    have e2 : cntD cfg.A ((without cfg w b f).blk b) = 0 := by simp [without, cntD]
    rw [e2] at e
    show w.lostDflt + _ + totD cfg.A (without cfg w b f).blk w.next = _
    simp only [cntD] at e
    show w.lostDflt + _ + totD cfg.A (without cfg w b f).blk w.next = cfg.A * (w.next - 1)
    omega
  · show (if 0 = b then none else w.blk 0) = none
    rw [h3]; split <;> rfl

/-- Releasing a list of blocks without elements. -/
theorem freeAll_ok {w : World α} {k : Nat} {t : List Nat} (hO : OwnOk w t)
    (hne : ∀ b ∈ t, ∀ f, w.blk b = some f → ∀ i, i < cfg.A → (f i).isElem = false) :
    wp (seqAll (t.map (freeBlock cfg))) (fun _ w' => Step cfg w w' k t [] ∧ w'.obj = w.obj ∧
      w'.next = w.next) w := by
  induction t generalizing w with
  | nil => exact (wp_pure _ _ _).2 ⟨Step.refl, rfl, rfl⟩
  | cons b t ih =>
    obtain ⟨hb0, hbn, f, hf⟩ := hO.2 b (List.mem_cons_self ..)
    have hnd := List.nodup_cons.1 hO.1
    show wp (freeBlock cfg b >>= fun _ => seqAll (t.map (freeBlock cfg))) _ w
    rw [wp_bind, wp_of_returns (freeBlock_ok hf)]
    have hother : ∀ c, c ≠ b → (without cfg w b f).blk c = w.blk c := fun c hc => by simp [without, hc]
    have hO1 : OwnOk (without cfg w b f) t := by
      refine ⟨hnd.2, fun c hc => ?_⟩
      obtain ⟨g1, g2, g3⟩ := hO.2 c (List.mem_cons_of_mem _ hc)
      exact ⟨g1, g2, by rw [hother c (fun h => hnd.1 (h ▸ hc))]; exact g3⟩
    have s1 : Step cfg w (without cfg w b f) k (b :: t) t := by
      refine ⟨fun _ _ => rfl, ?_, Nat.le_refl _, fun c hc => Or.inl (List.mem_cons_of_mem _ hc), ?_,
        fun _ => hO1, ?_, fun _ hw => without_bal hf hbn hw⟩
      · intro c hc _
        exact hother c (fun h => hc (h ▸ List.mem_cons_self ..))
      · intro c g hg
        have hcb : c ≠ b := fun h => by subst h; simp [without] at hg
        rw [hother c hcb] at hg
        by_cases hct : c ∈ t
        · exact Or.inl hct
        · exact Or.inr ⟨by simp [hcb, hct], hg⟩
      · show w.lostElem + _ = w.lostElem
        have : (List.range cfg.A).countP (fun i => (f i).isElem) = 0 := by
          rw [List.countP_eq_zero]
          intro i hi
          rw [hne b (List.mem_cons_self ..) f hf i (List.mem_range.1 hi)]; simp
        omega
    refine wp_mono (ih hO1 ?_) ?_
    · intro c hc g hg
      rw [hother c (fun h => hnd.1 (h ▸ hc))] at hg
      exact hne c (List.mem_cons_of_mem _ hc) g hg
    · rintro _ w' ⟨s2, o2, n2⟩
      exact ⟨s1.trans s2, o2, n2⟩

/-! ## The state of a deque in use -/

/-- Deque `k` is in use, with contents `l` starting at position `P`; its iterators refer to the
table of `own`. -/
structure Used (cfg : Cfg α) (w : World α) (own : Nat) (d : Deque) (l : List α) (P : Nat) : Prop where
  sz : d.sz = l.length
  cap : d.cap = d.tbl.length * cfg.A
  two : 2 ≤ d.tbl.length
  even : d.tbl.length % 2 = 0
  last : LastMax d.tbl
  beg : d.beg = itAt cfg.A d.tbl own P
  fin : d.fin = itAt cfg.A d.tbl own (P + l.length)
  fits : P + l.length ≤ d.tbl.length * cfg.A
  inside : ∀ j (h : j < l.length), slotAt w cfg.A d.tbl (P + j) = some (.elem l[j])
  outside : ∀ n, n < d.tbl.length * cfg.A → n < P ∨ P + l.length ≤ n →
    ∃ s, slotAt w cfg.A d.tbl n = some s ∧ s.isElem = false

/-- Slots depend only on the blocks of the table. -/
theorem slotAt_congr {w w' : World α} {A : Nat} {t : List Nat} (ht : 0 < t.length)
    (h : ∀ b ∈ t, w'.blk b = w.blk b) (n : Nat) : slotAt w' A t n = slotAt w A t n := by
  have hbm : t.getD (bidx A t.length n) 0 ∈ t := by
    rw [List.getD_eq_getElem?_getD, List.getElem?_eq_getElem (bidx_lt ht)]
    exact List.getElem_mem _
  simp only [slotAt, h _ hbm]

theorem Used.congr {w w' : World α} {own : Nat} {d : Deque} {l : List α} {P : Nat}
    (h : Used cfg w own d l P) (hb : ∀ b ∈ d.tbl, w'.blk b = w.blk b) : Used cfg w' own d l P where
  sz := h.sz
  cap := h.cap
  two := h.two
  even := h.even
  last := h.last
  beg := h.beg
  fin := h.fin
  fits := h.fits
  inside j hj := by rw [slotAt_congr (by have := h.two; omega) hb]; exact h.inside j hj
  outside n hn hp := by rw [slotAt_congr (by have := h.two; omega) hb]; exact h.outside n hn hp

/-- `_only_init()` gives an empty deque with two blocks. -/
theorem onlyInit_ok (hA : 0 < cfg.A) {w : World α} {k : Nat} {d : Deque} (hk : w.obj k = some d)
    (ht : d.tbl = []) (hc : d.cap = 0) (hn0 : 1 ≤ w.next) :
    wp (onlyInit cfg k) (fun _ w' => ∃ d', w'.obj k = some d' ∧ Used cfg w' k d' ([] : List α) cfg.A ∧
      Step cfg w w' k [] d'.tbl ∧ d'.tbl.length = 2 ∧ w'.next = w.next + 2) w := by
  unfold onlyInit
  rw [wp_bind, wp_of_returns (getObj_ok hk), wp_bind, wp_dassert]
  refine ⟨⟨ht, hc⟩, ?_⟩
  rw [wp_bind, wp_of_returns (updObj_ok hk _)]
  generalize hd1 : ({ d with sz := 0, cap := 2 * cfg.A, tbl := [0, 0] } : Deque) = d1
  rw [wp_bind]
  have hset : ∀ (w : World α) (d : Deque) (i b : Nat), w.obj k = some d → i < d.tbl.length →
      Returns (setTbl k i b) w () (setObj w k (some { d with tbl := d.tbl.set i b })) := by
    intro w d i b h1 h2
    unfold setTbl Returns
    rw [bind_returns (getObj_ok h1), dassert_pos h2]
    rfl
  have hloop : Returns (forRange 2 0 () fun i _ => do
      let b ← newBlock cfg
      setTbl k i b) (setObj w k (some d1)) ()
      (setObj (withBlock cfg (withBlock cfg w)) k (some { d1 with tbl := [w.next, w.next + 1] })) := by
    unfold forRange forRange forRange Returns
    have e1 : Returns (do let b ← newBlock cfg; setTbl k 0 b) (setObj w k (some d1)) ()
        (setObj (withBlock cfg w) k (some { d1 with tbl := [w.next, 0] })) := by
      unfold Returns
      rw [bind_returns (newBlock_ok _)]
      have := hset (withBlock cfg (setObj w k (some d1))) d1 0 w.next (by simp [withBlock])
        (by subst hd1; simp)
      unfold Returns at this
      rw [show (setObj w k (some d1)).next = w.next from rfl, this]
      subst hd1
      show some (Except.ok ((), setObj (setObj (withBlock cfg w) k _) k _)) = _
      rw [setObj_setObj]; rfl
    have e2 : Returns (do let b ← newBlock cfg; setTbl k (0 + 1) b)
        (setObj (withBlock cfg w) k (some { d1 with tbl := [w.next, 0] })) ()
        (setObj (withBlock cfg (withBlock cfg w)) k (some { d1 with tbl := [w.next, w.next + 1] })) := by
      unfold Returns
      rw [bind_returns (newBlock_ok _)]
      have := hset (withBlock cfg (setObj (withBlock cfg w) k (some { d1 with tbl := [w.next, 0] })))
        { d1 with tbl := [w.next, 0] } 1 (w.next + 1) (by simp [withBlock]) (by simp)
      unfold Returns at this
      rw [show (setObj (withBlock cfg w) k (some { d1 with tbl := [w.next, 0] })).next = w.next + 1 from rfl,
        this]
      show some (Except.ok ((), setObj (setObj (withBlock cfg (withBlock cfg w)) k _) k _)) = _
      rw [setObj_setObj]; rfl
    rw [bind_returns e1, bind_returns e2]; rfl
  rw [wp_of_returns hloop]
  generalize hw2 : withBlock cfg (withBlock cfg w) = w2
  generalize hd2 : ({ d1 with tbl := [w.next, w.next + 1] } : Deque) = d2
  have ht2 : d2.tbl = [w.next, w.next + 1] := by subst hd2; rfl
  have hb1 : w2.blk w.next = some fun _ => .dflt cfg.d := by
    subst hw2; simp [withBlock]
  have hb2 : w2.blk (w.next + 1) = some fun _ => .dflt cfg.d := by
    subst hw2; simp [withBlock]
  have hn2 : w2.next = w.next + 2 := by subst hw2; rfl
  have hother : ∀ b, b < w.next → w2.blk b = w.blk b := by
    intro b hb; subst hw2
    have h1 : b ≠ w.next + 1 := by omega
    have h2 : b ≠ w.next := by omega
    simp [withBlock, h1, h2]
  have hO2 : OwnOk w2 [w.next, w.next + 1] := by
    refine ⟨by simp, ?_⟩
    intro b hb
    simp only [List.mem_cons, List.not_mem_nil, or_false] at hb
    rcases hb with rfl | rfl
    · exact ⟨by omega, by omega, _, hb1⟩
    · exact ⟨by omega, by omega, _, hb2⟩
  have hT : Tbl (setObj w2 k (some d2)) k [w.next, w.next + 1] :=
    ⟨⟨d2, by simp, ht2⟩, fun b hb => ⟨(hO2.2 b hb).1, (hO2.2 b hb).2.2⟩⟩
  rw [wp_bind, show (1 : Int) = ((1 : Nat) : Int) by rfl,
    wp_of_returns (tblAt_ok hT (b := w.next + 1) (i := 1) rfl), wp_bind,
    wp_of_returns (arrBegin_ok (w := setObj w2 k (some d2)) (show w.next + 1 ≠ 0 by omega) hb2),
    wp_of_returns (updObj_ok (setObj_obj ..) _), setObj_setObj]
  refine ⟨_, setObj_obj .., ?_, ?_, by show d2.tbl.length = 2; rw [ht2]; rfl, hn2⟩
  · have hd2c : d2.cap = 2 * cfg.A ∧ d2.sz = 0 := by subst hd2 hd1; exact ⟨rfl, rfl⟩
    have e1 : bidx cfg.A 2 cfg.A = 1 := by
      have := bidx_of (A := cfg.A) (nb := 2) (q := 1) (r := 0) (by omega) hA
      simpa using this
    have e2 : boff cfg.A 2 cfg.A = 0 := by
      have := boff_of (A := cfg.A) (nb := 2) (q := 1) (r := 0) (by omega) hA
      simpa using this
    have hit : itAt cfg.A d2.tbl k cfg.A = { idx := some ((1 : Nat) : Int), cur := some (.at (w.next + 1) 0), tbl := some k } := by
      simp only [itAt, curAt, ht2, List.length_cons, List.length_nil, Nat.zero_add, Nat.reduceAdd, e1, e2]
      rfl
    refine ⟨hd2c.2, ?_, ?_, ?_, ?_, ?_, ?_, ?_, ?_, ?_⟩
    · show d2.cap = d2.tbl.length * cfg.A
      rw [hd2c.1, ht2]; rfl
    · show 2 ≤ d2.tbl.length
      rw [ht2]; exact Nat.le_refl _
    · show d2.tbl.length % 2 = 0
      rw [ht2]; simp
    · show LastMax d2.tbl
      rw [ht2]
      intro b hb
      simp only [List.mem_cons, List.not_mem_nil, or_false] at hb
      show b ≤ w.next + 1
      omega
    · exact hit.symm
    · exact hit.symm
    · show cfg.A + 0 ≤ d2.tbl.length * cfg.A
      rw [ht2]; simp only [List.length_cons, List.length_nil]; omega
    · intro j h; simp at h
    · intro n hn _
      have hq : bidx cfg.A d2.tbl.length n < d2.tbl.length := bidx_lt (by rw [ht2]; simp)
      refine ⟨.dflt cfg.d, ?_, rfl⟩
      show slotAt w2 cfg.A d2.tbl n = _
      unfold slotAt
      rw [ht2] at hq ⊢
      have : w2.blk ([w.next, w.next + 1].getD (bidx cfg.A [w.next, w.next + 1].length n) 0) =
          some fun _ => .dflt cfg.d := by
        generalize bidx cfg.A [w.next, w.next + 1].length n = q at hq
        simp only [List.length_cons, List.length_nil] at hq
        have : q = 0 ∨ q = 1 := by omega
        rcases this with rfl | rfl
        · exact hb1
        · exact hb2
      rw [this]; rfl
  · refine Step.trans (w1 := w2) ?_ (Step.setObj _)
    show Step cfg w w2 k [] d2.tbl
    rw [ht2]
    refine ⟨?_, fun b _ hb => hother b hb, by omega, ?_, ?_, fun _ => hO2, ?_, ?_⟩
    · intro j hj; subst hw2; rfl
    · intro b hb
      simp only [List.mem_cons, List.not_mem_nil, or_false] at hb
      exact Or.inr (by omega)
    · intro b f hf
      by_cases h1 : b = w.next
      · simp [h1]
      · by_cases h2 : b = w.next + 1
        · simp [h2]
        · refine Or.inr ⟨by simp, ?_⟩
          rw [← hf]; subst hw2
          simp [withBlock, h1, h2]
    · subst hw2; rfl
    · intro _ hb; subst hw2; exact withBlock_bal (withBlock_bal hb)

/-! ## Growth -/

/-- Number of blocks allocated by the first `i` steps of the loop that builds the new table, when
the blocks kept go to the indices `ns … ns + an`. -/
def fr (ns an i : Nat) : Nat := if i ≤ ns then i else if i ≤ ns + an + 1 then ns else i - (an + 1)

/-- Entry `i` of the new table. -/
def ent (old : List Nat) (nx bi ns an i : Nat) : Nat :=
  if i < ns ∨ ns + an < i then nx + fr ns an i else old.getD (bi + (i - ns)) 0

/-- The world during the construction of the new table. -/
def fillW (cfg : Cfg α) (w : World α) (n : Nat) : World α :=
  { w with blk := fun b => if w.next ≤ b ∧ b < w.next + n then some (fun _ => .dflt cfg.d) else w.blk b
           next := w.next + n }

theorem fillW_succ (w : World α) (n : Nat) : withBlock cfg (fillW cfg w n) = fillW cfg w (n + 1) := by
  unfold withBlock fillW
  simp only [World.mk.injEq, and_true]
  refine ⟨?_, by omega⟩
  funext b
  by_cases h1 : b = w.next + n
  · rw [if_pos h1, if_pos (by omega)]
  · rw [if_neg h1]
    by_cases h2 : w.next ≤ b ∧ b < w.next + n
    · rw [if_pos h2, if_pos (by omega)]
    · rw [if_neg h2, if_neg (by omega)]

theorem setObj_withBlock (w : World α) (k : Nat) (d : Option Deque) :
    withBlock cfg (setObj w k d) = setObj (withBlock cfg w) k d := rfl

theorem setTbl_ok {w : World α} {d : Deque} {k i b : Nat} (h1 : w.obj k = some d) (h2 : i < d.tbl.length) :
    Returns (setTbl k i b) w () (setObj w k (some { d with tbl := d.tbl.set i b })) := by
  unfold setTbl Returns
  rw [bind_returns (getObj_ok h1), dassert_pos h2]
  rfl

/-- The loop that builds the new table. -/
theorem fill_ok {w : World α} {k : Nat} {d : Deque} {old : List Nat} {bi ns an N : Nat}
    (hlen : d.tbl.length = N) (hin : bi + an < old.length) :
    Returns (forRange N 0 () fun i _ => fillStep cfg k old (bi : Int) (ns : Int) ((ns + an : Nat) : Int) i)
      (setObj w k (some d)) ()
      (setObj (fillW cfg w (fr ns an N)) k
        (some { d with tbl := (List.range N).map (ent old w.next bi ns an) })) := by
  have key := wp_forRange (σ := World α)
    (I := fun i (_ : Unit) (x : World α) => x = setObj (fillW cfg w (fr ns an i)) k
        (some { d with tbl := (List.range i).map (ent old w.next bi ns an) ++ d.tbl.drop i }))
    (f := fun i _ => fillStep cfg k old (bi : Int) (ns : Int) ((ns + an : Nat) : Int) i) N 0 ()
    (setObj w k (some d))
    (by
      have : fillW cfg w 0 = w := by
        unfold fillW
        have : (fun b => if w.next ≤ b ∧ b < w.next then some (fun _ => Slot.dflt cfg.d) else w.blk b) = w.blk := by
          funext b; rw [if_neg (by omega)]
        simp only [Nat.add_zero, this]
      simp [fr, this])
    (by
      intro i _ x _ hi hx
      subst hx
      generalize hD : ({ d with tbl := (List.range i).map (ent old w.next bi ns an) ++ d.tbl.drop i } : Deque) = D
      have hDt : D.tbl = (List.range i).map (ent old w.next bi ns an) ++ d.tbl.drop i := by rw [← hD]
      have hDl : i < D.tbl.length := by
        rw [hDt]; simp only [List.length_append, List.length_map, List.length_range, List.length_drop]; omega
      have hnew : ∀ b, b = ent old w.next bi ns an i →
          ({ D with tbl := D.tbl.set i b } : Deque) =
            { d with tbl := (List.range (i + 1)).map (ent old w.next bi ns an) ++ d.tbl.drop (i + 1) } := by
        rintro b rfl
        subst hD
        simp only [Deque.mk.injEq, and_true, true_and]
        rw [List.set_append_right _ _ (by simp)]
        simp only [List.length_map, List.length_range, Nat.sub_self]
        rw [List.range_succ, List.map_append]
        have hd : d.tbl.drop i = d.tbl[i]'(by omega) :: d.tbl.drop (i + 1) :=
          List.drop_eq_getElem_cons (by omega)
        rw [hd, List.set_cons_zero]
        simp
      unfold fillStep
      by_cases hc : (i : Int) < (ns : Int) ∨ ((ns + an : Nat) : Int) < (i : Int)
      · rw [if_pos hc, wp_bind, wp_of_returns (newBlock_ok _), setObj_withBlock, fillW_succ]
        have hc' : i < ns ∨ ns + an < i := by omega
        have hfr : fr ns an (i + 1) = fr ns an i + 1 := by
          unfold fr
          repeat' split
          all_goals omega
        rw [wp_of_returns (setTbl_ok (setObj_obj ..) hDl), setObj_setObj, hfr]
        rw [hnew]
        show (setObj (fillW cfg w (fr ns an i)) k (some D)).next = _
        unfold ent
        rw [if_pos hc']; rfl
      · rw [if_neg hc, wp_bind]
        have hc' : ¬ (i < ns ∨ ns + an < i) := by omega
        have hfr : fr ns an (i + 1) = fr ns an i := by
          unfold fr
          repeat' split
          all_goals omega
        rw [show ((bi : Int) + ((i : Int) - (ns : Int))) = ((bi + (i - ns) : Nat) : Int) by omega]
        have hg : old[bi + (i - ns)]? = some (old.getD (bi + (i - ns)) 0) := by
          rw [List.getD_eq_getElem?_getD, List.getElem?_eq_getElem (by omega)]; rfl
        rw [wp_of_returns (listAt_ok hg _), wp_of_returns (setTbl_ok (setObj_obj ..) hDl), setObj_setObj, hfr]
        rw [hnew]
        unfold ent
        rw [if_neg hc'])
  obtain ⟨_, x, h1, h2⟩ := key
  unfold Returns
  rw [h1, h2]
  simp only [Nat.zero_add]
  rw [List.drop_eq_nil_of_le (by omega), List.append_nil]

open Classical in
/-- The loop that releases the old blocks outside `bi … ei`. -/
theorem release_ok {w : World α} {old : List Nat} {bi ei : Nat} (hnd : old.Nodup)
    (hlive : ∀ b ∈ old, b < w.next ∧ ∃ f, w.blk b = some f ∧
      ((∃ i, old[i]? = some b ∧ (i < bi ∨ ei < i)) → ∀ j, j < cfg.A → (f j).isElem = false)) :
    wp (forRange old.length 0 () fun i _ => releaseStep cfg old (bi : Int) (ei : Int) i)
      (fun _ w' => w'.obj = w.obj ∧ w'.next = w.next ∧ w'.lostElem = w.lostElem ∧
        (Bal cfg w → Bal cfg w') ∧
        ∀ b, w'.blk b = if ∃ i, old[i]? = some b ∧ (i < bi ∨ ei < i) then none else w.blk b) w := by
  have hinj : ∀ (i j : Nat) (b : Nat), old[i]? = some b → old[j]? = some b → i = j := by
    intro i j b hi hj
    obtain ⟨h1, h2⟩ := List.getElem?_eq_some_iff.1 hi
    obtain ⟨h3, h4⟩ := List.getElem?_eq_some_iff.1 hj
    exact (List.getElem_inj hnd).1 (h2.trans h4.symm)
  refine wp_mono (wp_forRange (σ := World α)
    (I := fun n (_ : Unit) (x : World α) => x.obj = w.obj ∧ x.next = w.next ∧ x.lostElem = w.lostElem ∧
        (Bal cfg w → Bal cfg x) ∧
        ∀ b, x.blk b = if ∃ i, i < n ∧ old[i]? = some b ∧ (i < bi ∨ ei < i) then none else w.blk b)
    (f := fun i _ => releaseStep cfg old (bi : Int) (ei : Int) i) old.length 0 () w ?_ ?_) ?_
  · refine ⟨rfl, rfl, rfl, id, fun b => ?_⟩
    rw [if_neg]; rintro ⟨i, h, _⟩; omega
  · rintro n _ x _ hn ⟨h1, h2, h3, h4, h5⟩
    simp only [Nat.zero_add] at hn
    have hbn : old[n]? = some old[n] := List.getElem?_eq_getElem hn
    unfold releaseStep
    rw [wp_when]
    constructor
    · intro hc
      have hc' : n < bi ∨ ei < n := by omega
      obtain ⟨g1, f, g2, g3⟩ := hlive old[n] (List.getElem_mem hn)
      have hx : x.blk old[n] = some f := by
        rw [h5, if_neg]
        · exact g2
        · rintro ⟨i, hi, hi2, _⟩
          have := hinj i n _ hi2 hbn; omega
      rw [wp_bind, wp_of_returns (listAt_ok hbn _), wp_of_returns (freeBlock_ok hx)]
      refine ⟨h1, h2, ?_, fun hb => without_bal hx (by rw [h2]; exact g1) (h4 hb), ?_⟩
      · show x.lostElem + _ = _
        have : (List.range cfg.A).countP (fun i => (f i).isElem) = 0 := by
          rw [List.countP_eq_zero]
          intro i hi
          rw [g3 ⟨n, hbn, hc'⟩ i (List.mem_range.1 hi)]; simp
        omega
      · intro b
        show (if b = old[n] then none else x.blk b) = _
        by_cases hb : b = old[n]
        · rw [if_pos hb, if_pos]
          exact ⟨n, by omega, by rw [hb]; exact hbn, hc'⟩
        · rw [if_neg hb, h5]
          have : (∃ i, i < n ∧ old[i]? = some b ∧ (i < bi ∨ ei < i)) ↔
              ∃ i, i < n + 1 ∧ old[i]? = some b ∧ (i < bi ∨ ei < i) := by
            constructor
            · rintro ⟨i, a1, a2⟩; exact ⟨i, by omega, a2⟩
            · rintro ⟨i, a1, a2, a3⟩
              refine ⟨i, ?_, a2, a3⟩
              have : i ≠ n := fun h => by subst h; rw [hbn] at a2; cases a2; exact hb rfl
              omega
          by_cases hp : ∃ i, i < n ∧ old[i]? = some b ∧ (i < bi ∨ ei < i)
          · rw [if_pos hp, if_pos (this.1 hp)]
          · rw [if_neg hp, if_neg (fun h => hp (this.2 h))]
    · intro hc
      refine ⟨h1, h2, h3, h4, fun b => ?_⟩
      rw [h5]
      have : (∃ i, i < n ∧ old[i]? = some b ∧ (i < bi ∨ ei < i)) ↔
          ∃ i, i < n + 1 ∧ old[i]? = some b ∧ (i < bi ∨ ei < i) := by
        constructor
        · rintro ⟨i, a1, a2⟩; exact ⟨i, by omega, a2⟩
        · rintro ⟨i, a1, a2, a3⟩
          refine ⟨i, ?_, a2, a3⟩
          have : i ≠ n := fun h => by subst h; omega
          omega
      by_cases hp : ∃ i, i < n ∧ old[i]? = some b ∧ (i < bi ∨ ei < i)
      · rw [if_pos hp, if_pos (this.1 hp)]
      · rw [if_neg hp, if_neg (fun h => hp (this.2 h))]
  · rintro _ x ⟨h1, h2, h3, h4, h5⟩
    refine ⟨h1, h2, h3, h4, fun b => ?_⟩
    rw [h5]
    have : (∃ i, i < 0 + old.length ∧ old[i]? = some b ∧ (i < bi ∨ ei < i)) ↔
        ∃ i, old[i]? = some b ∧ (i < bi ∨ ei < i) := by
      constructor
      · rintro ⟨i, _, a⟩; exact ⟨i, a⟩
      · rintro ⟨i, a, b⟩
        obtain ⟨c, _⟩ := List.getElem?_eq_some_iff.1 a
        exact ⟨i, by omega, a, b⟩
    by_cases hp : ∃ i, i < 0 + old.length ∧ old[i]? = some b ∧ (i < bi ∨ ei < i)
    · rw [if_pos hp, if_pos (this.1 hp)]
    · rw [if_neg hp, if_neg (fun h => hp (this.2 h))]

end Verif.Deq
