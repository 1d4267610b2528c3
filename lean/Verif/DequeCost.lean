import Verif.DequeWorld

/-! # How the storage of a deque develops

Lemmas for `Verif.Props.DequeCost`: a history of pushes and pops seen as a history of three numbers,
the number of blocks in the table, the position of the first element and the number of elements. -/

namespace Verif.Deq

open Prog

variable {α : Type} {cfg : Cfg α}

/-- What a push or pop does to a deque in use: `nb` blocks, the first of `len` elements at position
`P`; `new` blocks are allocated. -/
def ActRel (A : Nat) (a : Act α) (nb P len nb' P' new : Nat) : Prop :=
  match a with
  | .pushBack _ => (P + len < nb * A ∧ nb' = nb ∧ P' = P ∧ new = 0) ∨
      (P + len = nb * A ∧ Grown A nb nb' P P' len new)
  | .pushFront _ => (0 < P ∧ nb' = nb ∧ P' + 1 = P ∧ new = 0) ∨
      (P = 0 ∧ Grown A nb nb' P (P' + 1) len new)
  | .popBack => nb' = nb ∧ P' = P ∧ new = 0
  | .popFront => nb' = nb ∧ P' = P + 1 ∧ new = 0

/-- Deque `0` is in use. -/
structure In (cfg : Cfg α) (m : World α) (nb P : Nat) (l : List α) : Prop where
  used : ∃ d, m.obj 0 = some d ∧ OwnOk m d.tbl ∧ Used cfg m 0 d l P ∧ d.tbl.length = nb
  next : 1 ≤ m.next

theorem In.fits {m : World α} {nb P : Nat} {l : List α} (h : In cfg m nb P l) :
    P + l.length ≤ nb * cfg.A ∧ 2 ≤ nb ∧ nb % 2 = 0 := by
  obtain ⟨d, _, _, hU, rfl⟩ := h.used
  exact ⟨hU.fits, hU.two, hU.even⟩

theorem In.capacity {m : World α} {nb P : Nat} {l : List α} (h : In cfg m nb P l) :
    Returns (capacity 0) m (nb * cfg.A) m := by
  obtain ⟨d, hd, _, hU, rfl⟩ := h.used
  unfold Deq.capacity Returns; rw [bind_returns (getObj_ok hd), hU.cap]; rfl

theorem In.shows (hA : 0 < cfg.A) (hadj : AdjUp cfg) {m : World α} {nb P : Nat} {l : List α}
    (h : In cfg m nb P l) : ShowsSeq cfg m 0 l := by
  obtain ⟨d, hd, hO, hU, _⟩ := h.used
  exact hU.shows hA hadj hd hO

/-- One push or pop; `l'` is the sequence afterwards. -/
theorem act_ok (hA : 0 < cfg.A) (hadj : AdjUp cfg) {m : World α} {nb P : Nat} {l l' : List α}
    (h : In cfg m nb P l) {a : Act α} (hs : seqRun [a] l = some l') :
    wp (step cfg (a.op 0)) (fun _ m' => ∃ nb' P' new, In cfg m' nb' P' l' ∧ m'.next = m.next + new ∧
      ActRel cfg.A a nb P l.length nb' P' new) m := by
  obtain ⟨⟨d, hd, hO, hU, rfl⟩, hn⟩ := h
  have hfit := hU.fits
  cases a with
  | pushBack x =>
    cases hs
    refine wp_mono (pushBack_ok hA hadj hd hn hO (Or.inr ⟨P, hU⟩) (Or.inl rfl)) ?_
    rintro _ m' ⟨d', P', h1, h2, h3, h4, _⟩
    have hin : In cfg m' d'.tbl.length P' (l ++ [x]) :=
      ⟨⟨d', h1, h3.ok hO, h2, rfl⟩, by have := h3.next; omega⟩
    rcases h4 with ⟨e, _⟩ | ⟨P0, hU0, h4⟩
    · have := hU.two; rw [e] at this; simp at this
    · rw [hU.unique hA hadj hO hU0]
      rcases h4 with ⟨e1, e2, e3, e4⟩ | ⟨e1, new, e2, e3⟩
      · exact ⟨_, P', 0, hin, e4, Or.inl ⟨by have := hU0.fits; omega, by rw [e2], e3, rfl⟩⟩
      · exact ⟨_, P', new, hin, e2, Or.inr ⟨e1, e3⟩⟩
  | pushFront x =>
    cases hs
    refine wp_mono (pushFront_ok hA hadj hd hn hO (Or.inr ⟨P, hU⟩) (Or.inl rfl)) ?_
    rintro _ m' ⟨d', P', h1, h2, h3, h4, _⟩
    have hin : In cfg m' d'.tbl.length P' (x :: l) :=
      ⟨⟨d', h1, h3.ok hO, h2, rfl⟩, by have := h3.next; omega⟩
    rcases h4 with ⟨e, _⟩ | ⟨P0, hU0, h4⟩
    · have := hU.two; rw [e] at this; simp at this
    · rw [hU.unique hA hadj hO hU0]
      rcases h4 with ⟨e1, e2, e3, e4⟩ | ⟨e1, new, e2, e3⟩
      · exact ⟨_, P', 0, hin, e4, Or.inl ⟨by omega, by rw [e2], e3, rfl⟩⟩
      · exact ⟨_, P', new, hin, e2, Or.inr ⟨e1, e3⟩⟩
  | popBack =>
    simp only [seqRun] at hs
    split at hs
    · cases hs
    · rename_i hl
      cases hs
      refine wp_mono (popBack_ok hA hadj hd hO hU hl) ?_
      rintro _ m' ⟨d', h1, h2, h3, h4, _, h6⟩
      exact ⟨d.tbl.length, P, 0, ⟨⟨d', h1, h3.ok hO, h2, by rw [h4]⟩, by omega⟩, h6, rfl, rfl, rfl⟩
  | popFront =>
    simp only [seqRun] at hs
    split at hs
    · cases hs
    · rename_i hl
      cases hs
      refine wp_mono (popFront_ok hA hadj hd hO hU hl) ?_
      rintro _ m' ⟨d', h1, h2, h3, h4, _, h6⟩
      exact ⟨d.tbl.length, P + 1, 0, ⟨⟨d', h1, h3.ok hO, h2, by rw [h4]⟩, by omega⟩, h6, rfl, rfl, rfl⟩

theorem seqRun_cons {a : Act α} {as : List (Act α)} {l l' : List α} (h : seqRun (a :: as) l = some l') :
    ∃ l1, seqRun [a] l = some l1 ∧ seqRun as l1 = some l' := by
  cases a with
  | pushBack x => exact ⟨_, rfl, h⟩
  | pushFront x => exact ⟨_, rfl, h⟩
  | popBack =>
    simp only [seqRun] at h ⊢
    split at h
    · cases h
    · rename_i hl; exact ⟨_, by rw [if_neg hl], h⟩
  | popFront =>
    simp only [seqRun] at h ⊢
    split at h
    · cases h
    · rename_i hl; exact ⟨_, by rw [if_neg hl], h⟩

theorem seqRun_append {as bs : List (Act α)} {l : List α} :
    seqRun (as ++ bs) l = (seqRun as l).bind (seqRun bs) := by
  induction as generalizing l with
  | nil => rfl
  | cons a as ih =>
    cases a with
    | pushBack x => exact ih
    | pushFront x => exact ih
    | popBack =>
      simp only [List.cons_append, seqRun]
      split
      · rfl
      · exact ih
    | popFront =>
      simp only [List.cons_append, seqRun]
      split
      · rfl
      · exact ih

/-- Any history: an invariant of the three numbers, the number of blocks allocated and the actions
still to come that holds at first holds at the end. -/
theorem acts_ok (hA : 0 < cfg.A) (hadj : AdjUp cfg) {I : List (Act α) → Nat → Nat → List α → Nat → Prop}
    (hI : ∀ a as nb P l l' N nb' P' new, 2 ≤ nb → nb % 2 = 0 → P + l.length ≤ nb * cfg.A →
      I (a :: as) nb P l N → seqRun [a] l = some l' → ActRel cfg.A a nb P l.length nb' P' new →
      I as nb' P' l' (N + new))
    (acts : List (Act α)) {m : World α} {nb P : Nat} {l l' : List α} (h : In cfg m nb P l)
    (hi : I acts nb P l m.next) (hs : seqRun acts l = some l') :
    wp (run cfg (acts.map (Act.op 0))) (fun _ m' => ∃ nb' P', In cfg m' nb' P' l' ∧
      I [] nb' P' l' m'.next) m := by
  induction acts generalizing m nb P l with
  | nil =>
    cases hs
    exact (wp_pure _ _ _).2 ⟨nb, P, h, hi⟩
  | cons a as ih =>
    obtain ⟨l1, h1, h2⟩ := seqRun_cons hs
    show wp (step cfg (a.op 0) >>= fun _ => run cfg (as.map (Act.op 0))) _ m
    rw [wp_bind]
    refine wp_mono (act_ok hA hadj h h1) ?_
    rintro _ m1 ⟨nb1, P1, new, k1, k2, k3⟩
    obtain ⟨f1, f2, f3⟩ := h.fits
    exact ih k1 (by rw [k2]; exact hI a as nb P l l1 m.next nb1 P1 new f2 f3 f1 hi h1 k3) h2

/-- The first operation on a new deque is a push; it allocates two blocks and starts in the middle. -/
theorem first_ok (hA : 0 < cfg.A) (hadj : AdjUp cfg) {a : Act α} {l' : List α} (hs : seqRun [a] [] = some l') :
    wp (run cfg [.new 0, a.op 0]) (fun _ m => ∃ P, In cfg m 2 P l' ∧ m.next = 3 ∧ l'.length = 1 ∧
      ((∃ x, a = .pushBack x) ∧ P = cfg.A ∨ (∃ x, a = .pushFront x) ∧ P + 1 = cfg.A)) World.init := by
  show wp (step cfg (.new 0) >>= fun _ => step cfg (a.op 0) >>= fun _ => pure ()) _ World.init
  rw [wp_bind, wp_of_returns (show Returns (step cfg (.new 0)) World.init () _ from putObj_ok _ 0 _)]
  generalize hw : setObj (World.init : World α) 0 (some .fresh) = w
  have hd : w.obj 0 = some .fresh := by subst hw; exact setObj_obj ..
  have hn : w.next = 1 := by subst hw; rfl
  have hO : OwnOk w (Deque.fresh).tbl := ⟨List.nodup_nil, by intro b hb; cases hb⟩
  have hR : Ready cfg w 0 .fresh ([] : List α) := Or.inl ⟨rfl, rfl, rfl, rfl⟩
  have no : ∀ P, ¬ Used cfg w 0 .fresh ([] : List α) P := by
    intro P hU; exact absurd hU.two (by decide)
  rw [wp_bind]
  cases a with
  | pushBack x =>
    cases hs
    refine wp_mono (pushBack_ok hA hadj hd (by omega) hO hR (Or.inl rfl)) ?_
    rintro _ m' ⟨d', P', h1, h2, h3, h4, _⟩
    rcases h4 with ⟨_, e1, e2, e3⟩ | ⟨P0, hU0, _⟩
    · exact (wp_pure _ _ _).2 ⟨P', ⟨⟨d', h1, h3.ok hO, h2, e1⟩, by omega⟩, by omega, rfl, Or.inl ⟨⟨x, rfl⟩, e2⟩⟩
    · exact absurd hU0 (no P0)
  | pushFront x =>
    cases hs
    refine wp_mono (pushFront_ok hA hadj hd (by omega) hO hR (Or.inl rfl)) ?_
    rintro _ m' ⟨d', P', h1, h2, h3, h4, _⟩
    rcases h4 with ⟨_, e1, e2, e3⟩ | ⟨P0, hU0, _⟩
    · exact (wp_pure _ _ _).2 ⟨P', ⟨⟨d', h1, h3.ok hO, h2, e1⟩, by omega⟩, by omega, rfl, Or.inr ⟨⟨x, rfl⟩, e2⟩⟩
    · exact absurd hU0 (no P0)
  | popBack => cases hs
  | popFront => cases hs

/-- A history that begins with a first push, followed by `acts`. -/
theorem history_ok (hA : 0 < cfg.A) (hadj : AdjUp cfg)
    {I : List (Act α) → Nat → Nat → List α → Nat → Prop}
    (hI : ∀ a as nb P l l' N nb' P' new, 2 ≤ nb → nb % 2 = 0 → P + l.length ≤ nb * cfg.A →
      I (a :: as) nb P l N → seqRun [a] l = some l' → ActRel cfg.A a nb P l.length nb' P' new →
      I as nb' P' l' (N + new))
    (a : Act α) (acts : List (Act α)) {l1 l' : List α} (h1 : seqRun [a] [] = some l1)
    (h0 : ∀ P, ((∃ x, a = .pushBack x) ∧ P = cfg.A ∨ (∃ x, a = .pushFront x) ∧ P + 1 = cfg.A) →
      l1.length = 1 → I acts 2 P l1 3)
    (hs : seqRun acts l1 = some l') :
    wp (run cfg (.new 0 :: (a :: acts).map (Act.op 0))) (fun _ m' => ∃ nb' P', In cfg m' nb' P' l' ∧
      I [] nb' P' l' m'.next) World.init := by
  have e : run cfg (.new 0 :: (a :: acts).map (Act.op 0)) =
      (run cfg [.new 0, a.op 0] >>= fun _ => run cfg (acts.map (Act.op 0))) := by
    show (step cfg (.new 0) >>= fun _ => step cfg (a.op 0) >>= fun _ => run cfg (acts.map (Act.op 0))) = 
      ((step cfg (.new 0) >>= fun _ => step cfg (a.op 0) >>= fun _ => pure ()) >>= fun _ => _)
    funext s
    simp only [Prog.bind_apply]
    cases step cfg (.new 0) s with
    | none => rfl
    | some r =>
      cases r with
      | error e => rfl
      | ok r =>
        obtain ⟨u, s1⟩ := r
        dsimp only
        cases step cfg (a.op 0) s1 with
        | none => rfl
        | some r => cases r <;> rfl
  rw [e, wp_bind]
  refine wp_mono (first_ok hA hadj h1) ?_
  rintro _ m ⟨P, k1, k2, k3, k4⟩
  exact acts_ok hA hadj hI acts k1 (by rw [k2]; exact h0 P k4 k3) hs

/-- The room left at both ends after doubling. -/
theorem Grown.room {A nb nb' P P' len new : Nat} (hA : 0 < A) (h2 : 2 ≤ nb) (hev : nb % 2 = 0)
    (hfit : P + len ≤ nb * A) (h : Grown A nb nb' P P' len new) :
    nb' * A = 2 * (nb * A) ∧ new * A ≤ 2 * (nb * A) ∧ nb * A ≤ 2 * P' ∧
      4 * (P' + len) + nb * A ≤ 8 * (nb * A) ∧ 2 * P' + len ≤ 2 * (nb * A) + 2 * A ∧
      2 * (nb * A) ≤ 2 * P' + len + 2 * A := by
  obtain ⟨h1, hp, hn, _⟩ := h
  have hbo := boff_le (A := A) (nb := nb) (n := P) hA
  have hpe := pos_eq (A := A) (nb := nb) (by omega) (show P ≤ nb * A by omega)
  have hboP : boff A nb P + len ≤ nb * A := by
    generalize bidx A nb P * A = z at hpe; omega
  generalize boff A nb P = bo at *
  have hA2 : 2 * A ≤ nb * A := Nat.mul_le_mul_right A h2
  have hn' : new * A ≤ 2 * (nb * A) := by
    rw [← Nat.mul_assoc]; exact Nat.mul_le_mul_right A hn
  have e1 : nb' * A = 2 * (nb * A) := by rw [h1, Nat.mul_assoc]
  have hq : nb / 2 ≤ (nb * A * 2 - len) / 2 / A := by
    refine (Nat.le_div_iff_mul_le hA).2 ?_
    have : 2 * (nb / 2 * A) = nb * A := by rw [← Nat.mul_assoc]; congr 1; omega
    omega
  have hq2 : nb * A ≤ 2 * ((nb * A * 2 - len) / 2 / A * A) := by
    have h3 := Nat.mul_le_mul_right A hq
    have : 2 * (nb / 2 * A) = nb * A := by rw [← Nat.mul_assoc]; congr 1; omega
    omega
  have hd := Nat.div_add_mod ((nb * A * 2 - len) / 2) A
  have hm := Nat.mod_lt ((nb * A * 2 - len) / 2) hA
  rw [Nat.mul_comm] at hd
  generalize (nb * A * 2 - len) / 2 / A * A = n at *
  generalize (nb * A * 2 - len) / 2 % A = r at *
  clear hq hpe h1 hn
  generalize nb * A = C at *
  refine ⟨e1, hn', ?_, ?_, ?_, ?_⟩ <;> omega

end Verif.Deq
