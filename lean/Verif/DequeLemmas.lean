import Verif.Spec.Deque

/-! # Lemmas about the deque model: positions, slots, primitive operations -/

namespace Verif.Deq

open Prog

variable {α : Type} {cfg : Cfg α}

/-! ## Pointer comparison -/

theorem ptrEq_self (p : CPtr) : ptrEq cfg p p = true := by
  cases p <;> simp [ptrEq]

theorem ptrEq_at {b o c p : Nat} (h1 : o = cfg.A → p = 0 → cfg.adj b c = false)
    (h2 : p = cfg.A → o = 0 → cfg.adj c b = false) :
    ptrEq cfg (.at b o) (.at c p) = true ↔ b = c ∧ o = p := by
  simp only [ptrEq, Bool.or_eq_true, Bool.and_eq_true, beq_iff_eq]
  constructor
  · rintro ((h | ⟨⟨a1, a2⟩, a3⟩) | ⟨⟨a1, a2⟩, a3⟩)
    · exact h
    · rw [h1 a1 a2] at a3; cases a3
    · rw [h2 a1 a2] at a3; cases a3
  · exact fun h => Or.inl (Or.inl h)

theorem AdjUp.self (h : AdjUp cfg) (b : Nat) : cfg.adj b b = false := by
  cases hb : cfg.adj b b with
  | false => rfl
  | true => have := h b b hb; omega

theorem ptrEq_same (h : AdjUp cfg) {b o p : Nat} :
    ptrEq cfg (.at b o) (.at b p) = true ↔ o = p := by
  rw [ptrEq_at (fun _ _ => h.self b) (fun _ _ => h.self b)]; simp

theorem cmp_self (p : CPtr) (w : World α) : Returns (cmp cfg p p) w true w := by
  unfold Returns cmp; rw [if_pos rfl]

theorem cmp_ok {w : World α} {p q : CPtr} (hp : p.live cfg w = true) (hq : q.live cfg w = true) :
    Returns (cmp cfg p q) w (ptrEq cfg p q) w := by
  unfold Returns cmp
  by_cases h : p = q
  · rw [if_pos h, h, ptrEq_self]
  · rw [if_neg h, hp, hq]; rfl

theorem live_at {w : World α} {b : Nat} {f : Nat → Slot α} (h : w.blk b = some f) {o : Nat}
    (ho : o ≤ cfg.A) : (CPtr.at b o).live cfg w = true := by
  show ((w.blk b).isSome && decide (o ≤ cfg.A)) = true
  rw [h, decide_eq_true ho]; rfl

/-! ## Objects -/

theorem getObj_ok {w : World α} {k : Nat} {d : Deque} (h : w.obj k = some d) :
    Returns (getObj k) w d w := by
  unfold Returns getObj; rw [h]

def setObj (w : World α) (k : Nat) (d : Option Deque) : World α :=
  { w with obj := fun x => if x = k then d else w.obj x }

theorem putObj_ok (w : World α) (k : Nat) (d : Option Deque) :
    Returns (putObj k d) w () (setObj w k d) := rfl

theorem updObj_ok {w : World α} {k : Nat} {d : Deque} (h : w.obj k = some d) (f : Deque → Deque) :
    Returns (updObj k f) w () (setObj w k (some (f d))) := by
  unfold updObj Returns; rw [bind_returns (getObj_ok h)]; rfl

@[simp] theorem setObj_obj (w : World α) (k : Nat) (d : Option Deque) : (setObj w k d).obj k = d := by
  simp [setObj]

theorem setObj_other (w : World α) {k j : Nat} (d : Option Deque) (h : j ≠ k) :
    (setObj w k d).obj j = w.obj j := by simp [setObj, h]

@[simp] theorem setObj_blk (w : World α) (k : Nat) (d : Option Deque) : (setObj w k d).blk = w.blk := rfl

theorem setObj_setObj (w : World α) (k : Nat) (d e : Option Deque) :
    setObj (setObj w k d) k e = setObj w k e := by
  unfold setObj
  congr 1
  funext x
  by_cases h : x = k <;> simp [h]

/-! ## Positions -/

/-- Block index of position `n` in a table of `nb` blocks of `A` slots; the last position is the
end of the last block. -/
def bidx (A nb n : Nat) : Nat := if n < nb * A then n / A else nb - 1

/-- Offset of position `n` in its block. -/
def boff (A nb n : Nat) : Nat := if n < nb * A then n % A else A

theorem pos_eq {A nb n : Nat} (hnb : 0 < nb) (h : n ≤ nb * A) :
    n = bidx A nb n * A + boff A nb n := by
  unfold bidx boff
  split
  · have := Nat.div_add_mod n A
    rw [Nat.mul_comm] at this; omega
  · have : n = nb * A := by omega
    have e : nb * A = (nb - 1) * A + A := by
      rw [← Nat.succ_mul]; congr 1; omega
    omega

theorem bidx_lt {A nb n : Nat} (hnb : 0 < nb) : bidx A nb n < nb := by
  unfold bidx
  split
  · rename_i h
    exact Nat.div_lt_of_lt_mul (by rwa [Nat.mul_comm])
  · omega

theorem boff_le {A nb n : Nat} (hA : 0 < A) : boff A nb n ≤ A := by
  unfold boff
  split
  · exact Nat.le_of_lt (Nat.mod_lt _ hA)
  · exact Nat.le_refl _

theorem boff_lt {A nb n : Nat} (hA : 0 < A) (h : n < nb * A) : boff A nb n < A := by
  unfold boff
  rw [if_pos h]
  exact Nat.mod_lt _ hA

theorem bidx_of {A nb q r : Nat} (hq : q < nb) (hr : r < A) : bidx A nb (q * A + r) = q := by
  have h : q * A + r < nb * A := by
    have := Nat.mul_le_mul_right A (show q + 1 ≤ nb by omega)
    rw [Nat.add_mul] at this; omega
  unfold bidx
  rw [if_pos h, Nat.add_comm, Nat.add_mul_div_right _ _ (by omega), Nat.div_eq_of_lt hr]
  omega

theorem boff_of {A nb q r : Nat} (hq : q < nb) (hr : r < A) : boff A nb (q * A + r) = r := by
  have h : q * A + r < nb * A := by
    have := Nat.mul_le_mul_right A (show q + 1 ≤ nb by omega)
    rw [Nat.add_mul] at this; omega
  unfold boff
  rw [if_pos h, Nat.add_comm, Nat.add_mul_mod_self_right, Nat.mod_eq_of_lt hr]

theorem bidx_end {A nb : Nat} : bidx A nb (nb * A) = nb - 1 := by simp [bidx]

theorem boff_end {A nb : Nat} : boff A nb (nb * A) = A := by simp [boff]

/-- The pointer to position `n`. -/
def curAt (A : Nat) (t : List Nat) (n : Nat) : CPtr :=
  .at (t.getD (bidx A t.length n) 0) (boff A t.length n)

/-- An iterator at position `n` that refers to the table of deque `own`. -/
def itAt (A : Nat) (t : List Nat) (own n : Nat) : Iter :=
  { idx := some (bidx A t.length n : Nat), cur := some (curAt A t n), tbl := some own }

@[simp] theorem itAt_getCur (A : Nat) (t : List Nat) (own n : Nat) (w : World α) :
    Returns (itAt A t own n).getCur w (curAt A t n) w := rfl

@[simp] theorem itAt_getIdx (A : Nat) (t : List Nat) (own n : Nat) (w : World α) :
    Returns (itAt A t own n).getIdx w ((bidx A t.length n : Nat) : Int) w := rfl

theorem copyIter_itAt (A : Nat) (t : List Nat) (own n : Nat) (w : World α) :
    Returns (copyIter (itAt A t own n)) w (itAt A t own n) w := rfl

/-! ## Tables -/

/-- The deque `own` has the table `t`, all of whose blocks are live. -/
structure Tbl (w : World α) (own : Nat) (t : List Nat) : Prop where
  obj : ∃ d, w.obj own = some d ∧ d.tbl = t
  live : ∀ b ∈ t, b ≠ 0 ∧ ∃ f, w.blk b = some f

theorem listAt_ok {t : List Nat} {i b : Nat} (h : t[i]? = some b) (w : World α) :
    Returns (listAt t (i : Int)) w b w := by
  obtain ⟨hi, hb⟩ := List.getElem?_eq_some_iff.1 h
  unfold listAt Returns
  simp only [show ¬ ((i : Int) < 0) by omega, if_false]
  rw [dassert_pos (by omega)]
  show ((check (0 ≤ (i : Int)) .outOfBounds >>= fun _ => _) w) = _
  simp only [check, bind, Prog.bind, if_pos (show (0 : Int) ≤ i by omega), Int.toNat_natCast, h]
  rfl

theorem table_ok {w : World α} {own : Nat} {t : List Nat} (h : Tbl w own t) :
    Returns (table (some own)) w t w := by
  obtain ⟨d, h1, h2⟩ := h.obj
  show (getObj own >>= fun d => pure d.tbl) w = _
  rw [bind_returns (getObj_ok h1), h2]; rfl

theorem tblAt_ok {w : World α} {own : Nat} {t : List Nat} (h : Tbl w own t) {i b : Nat}
    (hb : t[i]? = some b) : Returns (tblAt (some own) (i : Int)) w b w := by
  unfold tblAt Returns
  rw [bind_returns (table_ok h)]
  exact listAt_ok hb w

theorem arrBegin_ok {w : World α} {b : Nat} (h0 : b ≠ 0) {f : Nat → Slot α} (h : w.blk b = some f) :
    Returns (arrBegin b) w (.at b 0) w := by
  unfold Returns arrBegin; rw [if_neg h0, h]

theorem arrEnd_ok {w : World α} {b : Nat} (h0 : b ≠ 0) {f : Nat → Slot α} (h : w.blk b = some f) :
    Returns (arrEnd cfg b) w (.at b cfg.A) w := by
  unfold arrEnd Returns
  rw [bind_returns (arrBegin_ok h0 h)]; rfl

theorem Tbl.get {w : World α} {own : Nat} {t : List Nat} (h : Tbl w own t) {i : Nat}
    (hi : i < t.length) : t[i]? = some (t.getD i 0) ∧ t.getD i 0 ≠ 0 ∧
      ∃ f, w.blk (t.getD i 0) = some f := by
  have e : t[i]? = some (t.getD i 0) := by
    rw [List.getD_eq_getElem?_getD, List.getElem?_eq_getElem hi]; rfl
  have hm : t.getD i 0 ∈ t := List.mem_of_getElem? e
  exact ⟨e, h.live _ hm⟩

theorem Tbl.live_cur {w : World α} {own : Nat} {t : List Nat} (h : Tbl w own t) (ht : 0 < t.length)
    (hA : 0 < cfg.A) (n : Nat) : (curAt cfg.A t n).live cfg w = true := by
  obtain ⟨_, _, f, g⟩ := h.get (bidx_lt (A := cfg.A) (n := n) ht)
  exact live_at g (boff_le hA)

/-! ## Moving iterators -/

theorem incr_ok (hA : 0 < cfg.A) (hadj : AdjUp cfg) {w : World α} {own : Nat} {t : List Nat}
    (hT : Tbl w own t) {n : Nat} (hn : n < t.length * cfg.A) :
    Returns (incr cfg (itAt cfg.A t own n)) w (itAt cfg.A t own (n + 1)) w := by
  have hnb : 0 < t.length := by
    rcases Nat.eq_zero_or_pos t.length with h | h
    · rw [h] at hn; simp at hn
    · exact h
  have hp := pos_eq (A := cfg.A) hnb (Nat.le_of_lt hn)
  have hq := bidx_lt (A := cfg.A) (n := n) hnb
  have hr := boff_lt hA hn
  obtain ⟨g1, g2, f, g3⟩ := hT.get hq
  have hi1 : Returns (CPtr.incr cfg (curAt cfg.A t n)) w
      (.at (t.getD (bidx cfg.A t.length n) 0) (boff cfg.A t.length n + 1)) w := by
    show (check _ _ >>= fun _ => _) w = _
    simp only [check, bind, Prog.bind, if_pos hr]; rfl
  unfold incr Returns
  rw [bind_returns (itAt_getCur ..), bind_returns hi1, bind_returns (itAt_getIdx ..),
    show (itAt cfg.A t own n).tbl = some own from rfl, bind_returns (tblAt_ok hT g1),
    bind_returns (arrEnd_ok g2 g3), bind_returns (cmp_ok (live_at g3 hr) (live_at g3 (Nat.le_refl _)))]
  generalize hqe : bidx cfg.A t.length n = q at *
  generalize hre : boff cfg.A t.length n = r at *
  by_cases hb : r + 1 = cfg.A
  · rw [if_pos ((ptrEq_same hadj).2 hb), bind_returns (table_ok hT)]
    have hn1 : n + 1 = (q + 1) * cfg.A := by rw [Nat.add_mul]; omega
    by_cases hq1 : q + 1 < t.length
    · rw [if_pos (by omega)]
      obtain ⟨k1, k2, f', k3⟩ := hT.get hq1
      rw [show ((q : Nat) : Int) + 1 = ((q + 1 : Nat) : Int) by omega, bind_returns (tblAt_ok hT k1),
        bind_returns (arrBegin_ok k2 k3)]
      have e1 : bidx cfg.A t.length (n + 1) = q + 1 := by
        rw [hn1, show (q + 1) * cfg.A = (q + 1) * cfg.A + 0 by rfl]; exact bidx_of hq1 hA
      have e2 : boff cfg.A t.length (n + 1) = 0 := by
        rw [hn1, show (q + 1) * cfg.A = (q + 1) * cfg.A + 0 by rfl]; exact boff_of hq1 hA
      simp only [itAt, curAt, e1, e2]; rfl
    · rw [if_neg (by omega)]
      have hql : q + 1 = t.length := by omega
      have e1 : bidx cfg.A t.length (n + 1) = q := by rw [hn1, hql, bidx_end]; omega
      have e2 : boff cfg.A t.length (n + 1) = cfg.A := by rw [hn1, hql, boff_end]
      simp only [itAt, curAt, e1, e2, hqe, hb]; rfl
  · rw [if_neg (fun h => hb ((ptrEq_same hadj).1 h))]
    have e1 : bidx cfg.A t.length (n + 1) = q := by
      rw [hp, Nat.add_assoc]; exact bidx_of hq (by omega)
    have e2 : boff cfg.A t.length (n + 1) = r + 1 := by
      rw [hp, Nat.add_assoc]; exact boff_of hq (by omega)
    simp only [itAt, curAt, e1, e2, hqe]; rfl

theorem decr_ok (hA : 0 < cfg.A) (hadj : AdjUp cfg) {w : World α} {own : Nat} {t : List Nat}
    (hT : Tbl w own t) {n : Nat} (hn : n + 1 ≤ t.length * cfg.A) :
    Returns (decr cfg (itAt cfg.A t own (n + 1))) w (itAt cfg.A t own n) w := by
  have hnb : 0 < t.length := by
    rcases Nat.eq_zero_or_pos t.length with h | h
    · rw [h] at hn; simp at hn
    · exact h
  have hp := pos_eq (A := cfg.A) hnb hn
  have hq := bidx_lt (A := cfg.A) (n := n + 1) hnb
  have hr := boff_le (A := cfg.A) (nb := t.length) (n := n + 1) hA
  obtain ⟨g1, g2, f, g3⟩ := hT.get hq
  unfold decr Returns
  rw [bind_returns (itAt_getCur ..), bind_returns (itAt_getIdx ..),
    show (itAt cfg.A t own (n + 1)).tbl = some own from rfl, bind_returns (tblAt_ok hT g1),
    bind_returns (arrBegin_ok g2 g3)]
  rw [show curAt cfg.A t (n + 1) =
    .at (t.getD (bidx cfg.A t.length (n + 1)) 0) (boff cfg.A t.length (n + 1)) from rfl,
    bind_returns (cmp_ok (live_at g3 hr) (live_at g3 (Nat.zero_le _)))]
  generalize hqe : bidx cfg.A t.length (n + 1) = q at *
  generalize hre : boff cfg.A t.length (n + 1) = r at *
  by_cases hb : r = 0
  · rw [if_pos ((ptrEq_same hadj).2 hb)]
    subst hb
    have hq0 : 0 < q := by
      rcases Nat.eq_zero_or_pos q with h | h
      · subst h; omega
      · exact h
    obtain ⟨k1, k2, f', k3⟩ := hT.get (show q - 1 < t.length by omega)
    rw [show ((q : Nat) : Int) - 1 = ((q - 1 : Nat) : Int) by omega, bind_returns (tblAt_ok hT k1),
      bind_returns (arrEnd_ok k2 k3)]
    have hdec : Returns (CPtr.decr (.at (t.getD (q - 1) 0) cfg.A)) w
        (.at (t.getD (q - 1) 0) (cfg.A - 1)) w := by
      show (check _ _ >>= fun _ => _) w = _
      simp only [check, bind, Prog.bind, if_pos hA]; rfl
    rw [bind_returns hdec]
    have hn1 : n = (q - 1) * cfg.A + (cfg.A - 1) := by
      have : q * cfg.A = (q - 1) * cfg.A + cfg.A := by
        rw [← Nat.succ_mul]; congr 1; omega
      omega
    have e1 : bidx cfg.A t.length n = q - 1 := by
      rw [hn1]; exact bidx_of (by omega) (by omega)
    have e2 : boff cfg.A t.length n = cfg.A - 1 := by
      rw [hn1]; exact boff_of (by omega) (by omega)
    simp only [itAt, curAt, e1, e2]; rfl
  · rw [if_neg (fun h => hb ((ptrEq_same hadj).1 h))]
    have hdec : Returns (CPtr.decr (.at (t.getD q 0) r)) w (.at (t.getD q 0) (r - 1)) w := by
      show (check _ _ >>= fun _ => _) w = _
      simp only [check, bind, Prog.bind, if_pos (show 0 < r by omega)]; rfl
    rw [bind_returns hdec]
    have hn1 : n = q * cfg.A + (r - 1) := by omega
    have e1 : bidx cfg.A t.length n = q := by
      rw [hn1]; exact bidx_of hq (by omega)
    have e2 : boff cfg.A t.length n = r - 1 := by
      rw [hn1]; exact boff_of hq (by omega)
    simp only [itAt, curAt, e1, e2, hqe]; rfl

theorem incrN_ok (hA : 0 < cfg.A) (hadj : AdjUp cfg) {w : World α} {own : Nat} {t : List Nat}
    (hT : Tbl w own t) (i : Nat) {n : Nat} (hn : n + i ≤ t.length * cfg.A) :
    Returns (incrN cfg i (itAt cfg.A t own n)) w (itAt cfg.A t own (n + i)) w := by
  induction i generalizing n with
  | zero => rfl
  | succ i ih =>
    unfold incrN Returns
    rw [bind_returns (incr_ok hA hadj hT (by omega))]
    have := ih (n := n + 1) (by omega)
    rwa [show n + 1 + i = n + (i + 1) by omega] at this

theorem decrN_ok (hA : 0 < cfg.A) (hadj : AdjUp cfg) {w : World α} {own : Nat} {t : List Nat}
    (hT : Tbl w own t) (i : Nat) {n : Nat} (hn : n + i ≤ t.length * cfg.A) :
    Returns (decrN cfg i (itAt cfg.A t own (n + i))) w (itAt cfg.A t own n) w := by
  induction i with
  | zero => rfl
  | succ i ih =>
    unfold decrN Returns
    rw [show n + (i + 1) = n + i + 1 by omega, bind_returns (decr_ok hA hadj hT (by omega))]
    exact ih (by omega)

theorem curAt_inj {A : Nat} {t : List Nat} (hnd : t.Nodup) {m n : Nat} (ht : 0 < t.length)
    (hm : m ≤ t.length * A) (hn : n ≤ t.length * A) (h : curAt A t m = curAt A t n) : m = n := by
  simp only [curAt, CPtr.at.injEq] at h
  obtain ⟨h1, h2⟩ := h
  have hqm := bidx_lt (A := A) (n := m) ht
  have hqn := bidx_lt (A := A) (n := n) ht
  have h3 : bidx A t.length m = bidx A t.length n := by
    rw [List.getD_eq_getElem?_getD, List.getD_eq_getElem?_getD, List.getElem?_eq_getElem hqm,
      List.getElem?_eq_getElem hqn] at h1
    exact (List.getElem_inj hnd).1 h1
  rw [pos_eq (A := A) ht hm, pos_eq (A := A) ht hn, h2, h3]

/-- No block of the table was allocated after the last one. -/
def LastMax (t : List Nat) : Prop := ∀ b ∈ t, b ≤ t.getD (t.length - 1) 0

theorem boff_eq_A {A nb n : Nat} (hA : 0 < A) (h : n ≤ nb * A) (he : boff A nb n = A) : n = nb * A := by
  unfold boff at he
  split at he
  · have := Nat.mod_lt n hA; omega
  · omega

/-- Pointers into the blocks of a table compare equal iff their positions do. -/
theorem ptrEq_pos (hA : 0 < cfg.A) (hadj : AdjUp cfg) {t : List Nat} (hnd : t.Nodup) (hmax : LastMax t)
    (ht : 0 < t.length) {m n : Nat} (hm : m ≤ t.length * cfg.A) (hn : n ≤ t.length * cfg.A) :
    ptrEq cfg (curAt cfg.A t m) (curAt cfg.A t n) = true ↔ m = n := by
  have key : ∀ m n, m ≤ t.length * cfg.A → boff cfg.A t.length m = cfg.A →
      cfg.adj (t.getD (bidx cfg.A t.length m) 0) (t.getD (bidx cfg.A t.length n) 0) = false := by
    intro m n hm he
    cases hb : cfg.adj (t.getD (bidx cfg.A t.length m) 0) (t.getD (bidx cfg.A t.length n) 0) with
    | false => rfl
    | true =>
      have h1 := hadj _ _ hb
      rw [boff_eq_A hA hm he, bidx_end] at h1
      have hmem : t.getD (bidx cfg.A t.length n) 0 ∈ t := by
        rw [List.getD_eq_getElem?_getD, List.getElem?_eq_getElem (bidx_lt ht)]
        exact List.getElem_mem _
      have := hmax _ hmem
      omega
  constructor
  · intro h
    apply curAt_inj (A := cfg.A) hnd ht hm hn
    unfold curAt at h ⊢
    obtain ⟨h1, h2⟩ := (ptrEq_at (fun he _ => key m n hm he) (fun he _ => key n m hn he)).1 h
    rw [h1, h2]
  · rintro rfl; exact ptrEq_self _

/-! ## Slots -/

/-- The slot at position `n` of the table `t`. -/
def slotAt (w : World α) (A : Nat) (t : List Nat) (n : Nat) : Option (Slot α) :=
  (w.blk (t.getD (bidx A t.length n) 0)).map fun f => f (boff A t.length n)

theorem slotAt_some {w : World α} {A : Nat} {t : List Nat} {n : Nat} {s : Slot α}
    (h : slotAt w A t n = some s) : ∃ f, w.blk (t.getD (bidx A t.length n) 0) = some f ∧
      f (boff A t.length n) = s := by
  simpa [slotAt] using h

theorem access_ok (hA : 0 < cfg.A) {w : World α} {t : List Nat} {n : Nat} (hn : n < t.length * cfg.A)
    {f : Nat → Slot α} (h : w.blk (t.getD (bidx cfg.A t.length n) 0) = some f) :
    Returns (access cfg (curAt cfg.A t n)) w
      (t.getD (bidx cfg.A t.length n) 0, boff cfg.A t.length n, f) w := by
  unfold Returns
  simp only [access, curAt, h, if_pos (boff_lt hA hn)]

theorem readPtr_ok (hA : 0 < cfg.A) {w : World α} {t : List Nat} {n : Nat} (hn : n < t.length * cfg.A)
    {x : α} (h : slotAt w cfg.A t n = some (.elem x)) :
    Returns (readPtr cfg (curAt cfg.A t n)) w x w := by
  obtain ⟨f, h1, h2⟩ := slotAt_some h
  unfold readPtr Returns
  rw [bind_returns (access_ok hA hn h1)]
  simp only [h2]; rfl

/-- The world after storing `s` in the slot at position `n`. -/
def setSlot (w : World α) (A : Nat) (t : List Nat) (n : Nat) (s : Slot α) : World α :=
  { w with blk := fun x => if x = t.getD (bidx A t.length n) 0 then
      (w.blk x).map fun f y => if y = boff A t.length n then s else f y else w.blk x }

theorem slotAt_setSlot {w : World α} {A : Nat} {t : List Nat} {n m : Nat} {s : Slot α} (_hA : 0 < A)
    (hnd : t.Nodup) (hn : n < t.length * A) (hm : m < t.length * A)
    (hl : ∃ o, slotAt w A t n = some o) :
    slotAt (setSlot w A t n s) A t m = if m = n then some s else slotAt w A t m := by
  obtain ⟨o, ho⟩ := hl
  obtain ⟨f, h1, h2⟩ := slotAt_some ho
  have ht : 0 < t.length := by
    rcases Nat.eq_zero_or_pos t.length with h | h
    · rw [h] at hn; simp at hn
    · exact h
  by_cases hmn : m = n
  · subst hmn; simp only [slotAt, setSlot, if_true, h1, Option.map]
  · rw [if_neg hmn]
    unfold slotAt setSlot
    simp only
    by_cases hb : t.getD (bidx A t.length m) 0 = t.getD (bidx A t.length n) 0
    · rw [if_pos hb]
      have hne : boff A t.length m ≠ boff A t.length n := by
        intro he
        exact hmn (curAt_inj (A := A) hnd ht (by omega) (by omega) (by simp only [curAt, he, hb]))
      cases w.blk (t.getD (bidx A t.length m) 0) <;> simp [hne]
    · rw [if_neg hb]

/-! ## Ownership of blocks -/

/-- The blocks `own` are distinct, live and properly numbered. -/
def OwnOk (w : World α) (own : List Nat) : Prop :=
  own.Nodup ∧ ∀ b ∈ own, b ≠ 0 ∧ b < w.next ∧ ∃ f, w.blk b = some f

/-- Number of default objects in a block. -/
def cntD (A : Nat) : Option (Nat → Slot α) → Nat
  | none => 0
  | some f => (List.range A).countP fun i => (f i).isDflt

/-- Number of default objects in all blocks numbered below `n`. -/
def totD (A : Nat) (blk : Nat → Option (Nat → Slot α)) : Nat → Nat
  | 0 => 0
  | n + 1 => totD A blk n + cntD A (blk n)

/-- All default objects ever created are accounted for: each is lost or still in its slot. -/
def Bal (cfg : Cfg α) (w : World α) : Prop :=
  w.lostDflt + totD cfg.A w.blk w.next = cfg.A * (w.next - 1) ∧ 1 ≤ w.next ∧ w.blk 0 = none

/-- `w'` comes from `w` by working on deque `k` only, whose blocks were `own` and are now
`own'`. -/
structure Step (cfg : Cfg α) (w w' : World α) (k : Nat) (own own' : List Nat) : Prop where
  objs : ∀ j, j ≠ k → w'.obj j = w.obj j
  keep : ∀ b, b ∉ own → b < w.next → w'.blk b = w.blk b
  next : w.next ≤ w'.next
  sub : ∀ b ∈ own', b ∈ own ∨ w.next ≤ b
  gone : ∀ b f, w'.blk b = some f → b ∈ own' ∨ (b ∉ own ∧ w.blk b = some f)
  ok : OwnOk w own → OwnOk w' own'
  elem : w'.lostElem = w.lostElem
  bal : OwnOk w own → Bal cfg w → Bal cfg w'

theorem Step.refl {w : World α} {k : Nat} {own : List Nat} : Step cfg w w k own own where
  objs _ _ := rfl
  keep _ _ _ := rfl
  next := Nat.le_refl _
  sub _ h := Or.inl h
  gone b f h := by by_cases hb : b ∈ own <;> simp [hb, h]
  ok h := h
  elem := rfl
  bal _ h := h

theorem Step.trans {w w1 w2 : World α} {k : Nat} {o o1 o2 : List Nat} (h : Step cfg w w1 k o o1)
    (h' : Step cfg w1 w2 k o1 o2) : Step cfg w w2 k o o2 where
  objs j hj := (h'.objs j hj).trans (h.objs j hj)
  keep b hb hn := by
    have : b ∉ o1 := fun hc => by
      rcases h.sub b hc with h1 | h1
      · exact hb h1
      · omega
    rw [h'.keep b this (by have := h.next; omega), h.keep b hb hn]
  next := Nat.le_trans h.next h'.next
  sub b hb := by
    rcases h'.sub b hb with h1 | h1
    · exact h.sub b h1
    · exact Or.inr (Nat.le_trans h.next h1)
  gone b f hf := by
    rcases h'.gone b f hf with h1 | ⟨h1, h2⟩
    · exact Or.inl h1
    · rcases h.gone b f h2 with h3 | h3
      · exact absurd h3 h1
      · exact Or.inr h3
  ok h0 := h'.ok (h.ok h0)
  elem := h'.elem.trans h.elem
  bal h0 hb := h'.bal (h.ok h0) (h.bal h0 hb)

theorem Step.setObj {w : World α} {k : Nat} {own : List Nat} (d : Option Deque) :
    Step cfg w (setObj w k d) k own own where
  objs _ hj := setObj_other w d hj
  keep _ _ _ := rfl
  next := Nat.le_refl _
  sub _ h := Or.inl h
  gone b f h := by by_cases hb : b ∈ own <;> simp_all
  ok h := h
  elem := rfl
  bal _ h := h

theorem totD_congr {A : Nat} {f g : Nat → Option (Nat → Slot α)} {n : Nat}
    (h : ∀ b, b < n → cntD A (f b) = cntD A (g b)) : totD A f n = totD A g n := by
  induction n with
  | zero => rfl
  | succ n ih =>
    simp only [totD]
    rw [ih (fun b hb => h b (by omega)), h n (by omega)]

/-- Changing one block changes the total accordingly. -/
theorem totD_update {A : Nat} {f g : Nat → Option (Nat → Slot α)} {n b : Nat} (hb : b < n)
    (h : ∀ c, c ≠ b → f c = g c) : totD A f n + cntD A (g b) = totD A g n + cntD A (f b) := by
  induction n with
  | zero => omega
  | succ n ih =>
    simp only [totD]
    rcases Nat.lt_or_ge b n with h1 | h1
    · have := ih h1
      have e : cntD A (f n) = cntD A (g n) := by rw [h n (by omega)]
      omega
    · have : b = n := by omega
      subst this
      have e : totD A f b = totD A g b := totD_congr (fun c hc => by rw [h c (by omega)])
      omega

/-! ## Element operations -/

theorem countP_update {A : Nat} {f : Nat → Slot α} {p : Slot α → Bool} {o : Nat} {s : Slot α} (h : o < A) :
    (List.range A).countP (fun i => p (if i = o then s else f i)) + (if p (f o) then 1 else 0) =
      (List.range A).countP (fun i => p (f i)) + (if p s then 1 else 0) := by
  induction A with
  | zero => omega
  | succ A ih =>
    rw [List.range_succ, List.countP_append, List.countP_append]
    simp only [List.countP_cons, List.countP_nil]
    rcases Nat.lt_or_ge o A with h1 | h1
    · have := ih h1
      rw [if_neg (show ¬ A = o by omega)]; omega
    · have : o = A := by omega
      subst this
      have e : (List.range o).countP (fun i => p (if i = o then s else f i)) =
          (List.range o).countP (fun i => p (f i)) := by
        apply List.countP_congr
        intro x hx
        rw [List.mem_range] at hx
        rw [if_neg (by omega)]
      rw [if_pos rfl, e]; omega

/-- The argument refers to a value that reading gives. -/
def ArgIs (cfg : Cfg α) (w : World α) (a : Arg α) (x : α) : Prop := Returns (a.get cfg) w x w

theorem OwnOk.tbl {w : World α} {own : List Nat} (h : OwnOk w own) {k : Nat} {d : Deque}
    (hk : w.obj k = some d) (hd : d.tbl = own) : Tbl w k own :=
  ⟨⟨d, hk, hd⟩, fun b hb => ⟨(h.2 b hb).1, (h.2 b hb).2.2⟩⟩

theorem construct_ok (hA : 0 < cfg.A) {w : World α} {k : Nat} {t : List Nat} {n : Nat}
    (hO : OwnOk w t) (hn : n < t.length * cfg.A) {s : Slot α} (hs : slotAt w cfg.A t n = some s)
    (hne : s.isElem = false) {a : Arg α} {x : α} (ha : ArgIs cfg w a x) :
    wp (construct cfg (curAt cfg.A t n) a) (fun _ w' => Step cfg w w' k t t ∧ w'.obj = w.obj ∧
      w'.next = w.next ∧ ∀ m, m < t.length * cfg.A → slotAt w' cfg.A t m = if m = n then some (.elem x) else
        slotAt w cfg.A t m) w := by
  obtain ⟨f, h1, h2⟩ := slotAt_some hs
  have ht : 0 < t.length := by
    rcases Nat.eq_zero_or_pos t.length with h | h
    · rw [h] at hn; simp at hn
    · exact h
  have hbm : t.getD (bidx cfg.A t.length n) 0 ∈ t := by
    rw [List.getD_eq_getElem?_getD, List.getElem?_eq_getElem (bidx_lt ht)]
    exact List.getElem_mem _
  unfold construct
  rw [wp_bind, wp_check]
  refine ⟨by simp [curAt], ?_⟩
  rw [wp_bind, wp_of_returns ha, wp_bind, wp_of_returns (access_ok hA hn h1)]
  simp only
  rw [wp_modify]
  have hset : ∀ y, (World.put w (t.getD (bidx cfg.A t.length n) 0) (boff cfg.A t.length n) f (.elem x)).blk y
      = (setSlot w cfg.A t n (.elem x)).blk y := by
    intro y
    simp only [World.put, setSlot]
    by_cases hy : y = t.getD (bidx cfg.A t.length n) 0
    · rw [if_pos hy, if_pos hy, hy, h1]; rfl
    · rw [if_neg hy, if_neg hy]
  refine ⟨?_, rfl, rfl, ?_⟩
  · have hblk : ∀ y, y ≠ t.getD (bidx cfg.A t.length n) 0 →
        (World.put w (t.getD (bidx cfg.A t.length n) 0) (boff cfg.A t.length n) f (.elem x)).blk y = w.blk y := by
      intro y hy
      simp only [World.put, if_neg hy]
    have hO' : OwnOk (World.put w (t.getD (bidx cfg.A t.length n) 0) (boff cfg.A t.length n) f (.elem x)) t := by
      refine ⟨hO.1, fun b hb => ?_⟩
      obtain ⟨g1, g2, g3⟩ := hO.2 b hb
      refine ⟨g1, g2, ?_⟩
      by_cases hy : b = t.getD (bidx cfg.A t.length n) 0
      · simp only [World.put, if_pos hy]; exact ⟨_, rfl⟩
      · rw [hblk b hy]; exact g3
    refine ⟨fun _ _ => rfl, ?_, Nat.le_refl _, fun _ h => Or.inl h, ?_, fun _ => hO', ?_, ?_⟩
    · intro b hb _
      exact hblk b (fun h => hb (h ▸ hbm))
    · intro b g hg
      by_cases hb : b ∈ t
      · exact Or.inl hb
      · refine Or.inr ⟨hb, ?_⟩
        rwa [← hblk b (fun h => hb (h ▸ hbm))]
    · show w.lostElem + _ = _
      rw [h2, hne]; simp
    · intro _ hbal
      obtain ⟨q1, q2, q3⟩ := hbal
      refine ⟨?_, q2, ?_⟩
      · obtain ⟨_, g2, _⟩ := hO.2 _ hbm
        have e1 := totD_update (A := cfg.A) (b := t.getD (bidx cfg.A t.length n) 0) (n := w.next) g2 hblk
        have e2 := countP_update (p := Slot.isDflt) (f := f) (s := .elem x) (boff_lt hA hn)
        simp only [cntD, h1, World.put, if_true] at e1
        rw [h2] at e2 ⊢
        rw [show (Slot.elem x).isDflt = false from rfl] at e2
        simp only [World.put] at e1 ⊢
        simp only [Bool.false_eq_true, if_false] at e2
        show w.lostDflt + _ + _ = _
        cases hsd : s.isDflt <;> simp only [hsd, Bool.false_eq_true, if_false, if_true] at e2 ⊢ <;> omega
      · show (World.put w _ _ f _).blk 0 = none
        rw [hblk 0 (hO.2 _ hbm).1.symm]; exact q3
  · intro m hm
    have : ∀ w1 w2 : World α, (∀ y, w1.blk y = w2.blk y) → slotAt w1 cfg.A t m = slotAt w2 cfg.A t m := by
      intro w1 w2 h; simp [slotAt, h]
    refine (this _ (setSlot w cfg.A t n (.elem x)) hset).trans ?_
    exact slotAt_setSlot hA hO.1 hn hm ⟨s, hs⟩

theorem write_ok (hA : 0 < cfg.A) {w : World α} {k : Nat} {t : List Nat} {n : Nat}
    (hO : OwnOk w t) (hn : n < t.length * cfg.A) {x : α} (hs : slotAt w cfg.A t n = some (.elem x)) (y : α) :
    wp (writePtr cfg (curAt cfg.A t n) y) (fun _ w' => Step cfg w w' k t t ∧ w'.obj = w.obj ∧
      w'.next = w.next ∧
      ∀ m, m < t.length * cfg.A → slotAt w' cfg.A t m = if m = n then some (.elem y) else
        slotAt w cfg.A t m) w := by
  obtain ⟨f, h1, h2⟩ := slotAt_some hs
  have ht : 0 < t.length := by
    rcases Nat.eq_zero_or_pos t.length with h | h
    · rw [h] at hn; simp at hn
    · exact h
  have hbm : t.getD (bidx cfg.A t.length n) 0 ∈ t := by
    rw [List.getD_eq_getElem?_getD, List.getElem?_eq_getElem (bidx_lt ht)]
    exact List.getElem_mem _
  unfold writePtr
  rw [wp_bind, wp_of_returns (access_ok hA hn h1)]
  simp only [h2]
  rw [wp_modify]
  have hset : ∀ z, (World.put w (t.getD (bidx cfg.A t.length n) 0) (boff cfg.A t.length n) f (.elem y)).blk z
      = (setSlot w cfg.A t n (.elem y)).blk z := by
    intro z
    simp only [World.put, setSlot]
    by_cases hz : z = t.getD (bidx cfg.A t.length n) 0
    · rw [if_pos hz, if_pos hz, hz, h1]; rfl
    · rw [if_neg hz, if_neg hz]
  refine ⟨?_, rfl, rfl, ?_⟩
  · have hblk : ∀ z, z ≠ t.getD (bidx cfg.A t.length n) 0 →
        (World.put w (t.getD (bidx cfg.A t.length n) 0) (boff cfg.A t.length n) f (.elem y)).blk z = w.blk z := by
      intro z hz
      simp only [World.put, if_neg hz]
    have hO' : OwnOk (World.put w (t.getD (bidx cfg.A t.length n) 0) (boff cfg.A t.length n) f (.elem y)) t := by
      refine ⟨hO.1, fun b hb => ?_⟩
      obtain ⟨g1, g2, g3⟩ := hO.2 b hb
      refine ⟨g1, g2, ?_⟩
      by_cases hz : b = t.getD (bidx cfg.A t.length n) 0
      · simp only [World.put, if_pos hz]; exact ⟨_, rfl⟩
      · rw [hblk b hz]; exact g3
    refine ⟨fun _ _ => rfl, ?_, Nat.le_refl _, fun _ h => Or.inl h, ?_, fun _ => hO', rfl, ?_⟩
    · intro b hb _
      exact hblk b (fun h => hb (h ▸ hbm))
    · intro b g hg
      by_cases hb : b ∈ t
      · exact Or.inl hb
      · refine Or.inr ⟨hb, ?_⟩
        rwa [← hblk b (fun h => hb (h ▸ hbm))]
    · intro _ hbal
      obtain ⟨q1, q2, q3⟩ := hbal
      refine ⟨?_, q2, ?_⟩
      · obtain ⟨_, g2, _⟩ := hO.2 _ hbm
        have e1 := totD_update (A := cfg.A) (b := t.getD (bidx cfg.A t.length n) 0) (n := w.next) g2 hblk
        have e2 := countP_update (p := Slot.isDflt) (f := f) (s := .elem y) (boff_lt hA hn)
        simp only [cntD, h1, World.put, if_true] at e1
        rw [h2] at e2
        rw [show (Slot.elem y).isDflt = false from rfl, show (Slot.elem x).isDflt = false from rfl] at e2
        simp only [World.put] at e1 ⊢
        simp only [Bool.false_eq_true, if_false] at e2
        omega
      · show (World.put w _ _ f _).blk 0 = none
        rw [hblk 0 (hO.2 _ hbm).1.symm]; exact q3
  · intro m hm
    have : ∀ w1 w2 : World α, (∀ y, w1.blk y = w2.blk y) → slotAt w1 cfg.A t m = slotAt w2 cfg.A t m := by
      intro w1 w2 h; simp [slotAt, h]
    refine (this _ (setSlot w cfg.A t n (.elem y)) hset).trans ?_
    exact slotAt_setSlot hA hO.1 hn hm ⟨_, hs⟩

theorem destroy_ok (hA : 0 < cfg.A) {w : World α} {k : Nat} {t : List Nat} {n : Nat}
    (hO : OwnOk w t) (hn : n < t.length * cfg.A) {x : α} (hs : slotAt w cfg.A t n = some (.elem x)) :
    wp (destroy cfg (curAt cfg.A t n)) (fun _ w' => Step cfg w w' k t t ∧ w'.obj = w.obj ∧
      w'.next = w.next ∧
      ∀ m, m < t.length * cfg.A → slotAt w' cfg.A t m = if m = n then some .raw else
        slotAt w cfg.A t m) w := by
  obtain ⟨f, h1, h2⟩ := slotAt_some hs
  have ht : 0 < t.length := by
    rcases Nat.eq_zero_or_pos t.length with h | h
    · rw [h] at hn; simp at hn
    · exact h
  have hbm : t.getD (bidx cfg.A t.length n) 0 ∈ t := by
    rw [List.getD_eq_getElem?_getD, List.getElem?_eq_getElem (bidx_lt ht)]
    exact List.getElem_mem _
  unfold destroy
  rw [wp_bind, wp_check]
  refine ⟨by simp [curAt], ?_⟩
  rw [wp_bind, wp_of_returns (access_ok hA hn h1)]
  simp only
  rw [wp_bind, wp_check]
  refine ⟨by rw [h2]; exact Or.inl rfl, ?_⟩
  rw [wp_modify]
  have hset : ∀ y, (World.put w (t.getD (bidx cfg.A t.length n) 0) (boff cfg.A t.length n) f .raw).blk y
      = (setSlot w cfg.A t n .raw).blk y := by
    intro y
    simp only [World.put, setSlot]
    by_cases hy : y = t.getD (bidx cfg.A t.length n) 0
    · rw [if_pos hy, if_pos hy, hy, h1]; rfl
    · rw [if_neg hy, if_neg hy]
  refine ⟨?_, rfl, rfl, ?_⟩
  · have hblk : ∀ y, y ≠ t.getD (bidx cfg.A t.length n) 0 →
        (World.put w (t.getD (bidx cfg.A t.length n) 0) (boff cfg.A t.length n) f .raw).blk y = w.blk y := by
      intro y hy
      simp only [World.put, if_neg hy]
    have hO' : OwnOk (World.put w (t.getD (bidx cfg.A t.length n) 0) (boff cfg.A t.length n) f .raw) t := by
      refine ⟨hO.1, fun b hb => ?_⟩
      obtain ⟨g1, g2, g3⟩ := hO.2 b hb
      refine ⟨g1, g2, ?_⟩
      by_cases hy : b = t.getD (bidx cfg.A t.length n) 0
      · simp only [World.put, if_pos hy]; exact ⟨_, rfl⟩
      · rw [hblk b hy]; exact g3
    refine ⟨fun _ _ => rfl, ?_, Nat.le_refl _, fun _ h => Or.inl h, ?_, fun _ => hO', rfl, ?_⟩
    · intro b hb _
      exact hblk b (fun h => hb (h ▸ hbm))
    · intro b g hg
      by_cases hb : b ∈ t
      · exact Or.inl hb
      · refine Or.inr ⟨hb, ?_⟩
        rwa [← hblk b (fun h => hb (h ▸ hbm))]
    · intro _ hbal
      obtain ⟨q1, q2, q3⟩ := hbal
      refine ⟨?_, q2, ?_⟩
      · obtain ⟨_, g2, _⟩ := hO.2 _ hbm
        have e1 := totD_update (A := cfg.A) (b := t.getD (bidx cfg.A t.length n) 0) (n := w.next) g2 hblk
        have e2 := countP_update (p := Slot.isDflt) (f := f) (s := .raw) (boff_lt hA hn)
        simp only [cntD, h1, World.put, if_true] at e1
        rw [h2, show (Slot.elem x).isDflt = false from rfl,
          show (Slot.raw : Slot α).isDflt = false from rfl] at e2
        simp only [Bool.false_eq_true, if_false] at e2
        simp only [World.put] at e1 ⊢
        show w.lostDflt + _ = _
        omega
      · show (World.put w _ _ f _).blk 0 = none
        rw [hblk 0 (hO.2 _ hbm).1.symm]; exact q3
  · intro m hm
    have : ∀ w1 w2 : World α, (∀ y, w1.blk y = w2.blk y) → slotAt w1 cfg.A t m = slotAt w2 cfg.A t m := by
      intro w1 w2 h; simp [slotAt, h]
    rw [this _ (setSlot w cfg.A t n .raw) hset]
    exact slotAt_setSlot hA hO.1 hn hm ⟨_, hs⟩

end Verif.Deq
