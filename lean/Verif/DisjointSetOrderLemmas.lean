import Verif.Spec.DisjointSetOrder
import Verif.DisjointSetExact

/-! # Lemmas about the order of evaluation in `DisjointSet` -/

namespace Verif.DSU

open Prog Vec

variable {n : Nat} {ps : List (Nat × Nat)} {ρ : Nat → Nat} {v : Vec} {m : Mem Int} {dead : Nat → Prop}
  {A B : List Int}

theorem store_ok (hw : m.WF) (hr : Rep m v A) (hlen : A.length < 2 ^ 31) {i : Nat} (hi : i < A.length) (y : Int) :
    wp (store (.ref v.c (i : Int)) y) (fun _ m' => Rep m' v (A.set i y) ∧ m'.WF) m := by
  have h := setIndex_ok (x := y) hw hr hlen (i : Int) i hi (Or.inl rfl)
  have hsz := hr.size
  unfold setIndex at h
  rw [normIndex_ok v _ (by omega) (by omega), if_neg (by omega)] at h
  simp only at h
  rw [dassert_pos (by rw [bmod32 _ (by omega) (by omega)]; omega)] at h
  exact wp_mono h fun _ _ h => ⟨h.1, h.2.2⟩

theorem findC_ok {v : Vec} (d : Nat) : ∀ {c : Nat → Bool} {a : Arg Int} {A : List Int} {m : Mem Int} {i r : Nat},
    Rep m v A → m.WF → A.length < 2 ^ 31 → ArgIs v a A i → Root A i r d →
    wp (findC v c a) (fun a' m' => ∃ B, Rep m' v B ∧ m'.WF ∧ Compr A B d ∧ ArgIs v a' B r) m := by
  induction d with
  | zero =>
    intro c a A m i r hr hw hlen ha hroot
    rw [findC, wp_bind, wp_of_returns (ha.get hr), wp_bind, wp_of_returns (refAt_ok hr hlen i hroot.lt),
      wp_bind]
    cases hroot with
    | base h hx =>
      obtain ⟨h2, h3⟩ := List.getElem?_eq_some_iff.1 h
      have h4 := hr.read_ok i h2
      rw [h3] at h4
      rw [wp_of_returns (show Returns (Arg.get (.ref v.c (i : Int))) m _ m from h4), if_pos hx, wp_pure]
      exact ⟨A, hr, hw, Compr.refl _ _, ha⟩
  | succ d ih =>
    intro c a A m i r hr hw hlen ha hroot
    have hi := hroot.lt
    have hroot' := hroot
    rw [findC, wp_bind, wp_of_returns (ha.get hr), wp_bind, wp_of_returns (refAt_ok hr hlen i hi),
      wp_bind]
    cases hroot with
    | @step _ q _ _ h hq =>
      have hs : ArgIs v (.ref v.c (i : Int)) A q := Or.inr ⟨i, rfl, h⟩
      rw [wp_of_returns (hs.get hr), if_neg (by omega)]
      have hend : ∀ {B : List Int} {m1 : Mem Int}, Rep m1 v B → m1.WF → Compr A B d →
          wp (do store (.ref v.c (i : Int)) r; pure (.ref v.c (i : Int))) (fun a' m' => ∃ B, Rep m' v B ∧ m'.WF ∧
            Compr A B (d + 1) ∧ ArgIs v a' B r) m1 := by
        intro B m1 r1 w1 c1
        have hBl : B.length = A.length := c1.length
        rw [wp_bind]
        refine wp_mono (store_ok w1 r1 (by omega) (by omega) r) ?_
        rintro _ m2 ⟨r2, w2⟩
        rw [wp_pure]
        refine ⟨_, r2, w2, ?_, Or.inr ⟨i, rfl, ?_⟩⟩
        · intro j
          by_cases hj : j = i
          · subst hj
            exact Or.inr ⟨r, d + 1, by omega, Nat.le_refl _, hroot', by rw [List.getElem?_set_self (by omega)]⟩
          · rw [List.getElem?_set_ne (Ne.symm hj)]
            rcases c1 j with h1 | ⟨r', k, h1, h2, h3, h4⟩
            · exact Or.inl h1
            · exact Or.inr ⟨r', k, h1, by omega, h3, h4⟩
        · rw [List.getElem?_set_self (by omega)]
      split
      · rw [wp_bind, wp_of_returns (ha.get hr), wp_bind, wp_of_returns (refAt_ok hr hlen i hi), wp_bind,
          wp_of_returns (ha.get hr), wp_bind, wp_of_returns (refAt_ok hr hlen i hi), wp_bind]
        refine wp_mono (ih hr hw hlen hs hq) ?_
        rintro a1 m1 ⟨B, r1, w1, c1, b1⟩
        rw [wp_bind, wp_of_returns (b1.get r1)]
        exact hend r1 w1 c1
      · rw [wp_bind, wp_of_returns (ha.get hr), wp_bind, wp_of_returns (refAt_ok hr hlen i hi), wp_bind]
        refine wp_mono (ih hr hw hlen hs hq) ?_
        rintro a1 m1 ⟨B, r1, w1, c1, b1⟩
        have hBl : B.length = A.length := c1.length
        have haB : ArgIs v a B i := by
          rcases ha with rfl | ⟨j, rfl, hj⟩
          · exact Or.inl rfl
          · refine Or.inr ⟨j, rfl, ?_⟩
            rcases c1 j with h1 | ⟨r', k, _, h2, h3, _⟩
            · rw [h1, hj]
            · have := (h3.det (.step hj hroot')).2
              omega
        rw [wp_bind, wp_of_returns (b1.get r1), wp_bind, wp_of_returns (haB.get r1), wp_bind,
          wp_of_returns (refAt_ok r1 (by omega) i (by omega))]
        exact hend r1 w1 c1

theorem findC_diverges {v : Vec} {r : Nat} : ∀ (c : Nat → Bool) (a : Arg Int) (m : Mem Int),
    (∃ A i, Rep m v A ∧ A.length < 2 ^ 31 ∧ ArgIs v a A i ∧ Loop A r i) → findC v c a m = none := by
  refine findC.fixpoint_induct (v := v) (fun f => ∀ (c : Nat → Bool) (a : Arg Int) (m : Mem Int),
    (∃ A i, Rep m v A ∧ A.length < 2 ^ 31 ∧ ArgIs v a A i ∧ Loop A r i) → f c a m = none) ?_ ?_
  · refine Lean.Order.admissible_pi_apply (fun (c : Nat → Bool) (g : Arg Int → Prog (Mem Int) (Arg Int)) =>
      ∀ (a : Arg Int) (m : Mem Int), (∃ A i, Rep m v A ∧ A.length < 2 ^ 31 ∧ ArgIs v a A i ∧ Loop A r i) →
        g a m = none) (fun c => ?_)
    exact Prog.admissible_diverges _
  rintro f ih c a m ⟨A, i, hr, hlen, ha, hl⟩
  show Diverges (a.get >>= _) m
  unfold Diverges
  obtain ⟨q, hq, hl'⟩ := hl.next
  have hi := (List.getElem?_eq_some_iff.1 hq).1
  have hs : ArgIs v (.ref v.c (i : Int)) A q := Or.inr ⟨i, rfl, hq⟩
  rw [bind_returns (ha.get hr), bind_returns (refAt_ok hr hlen i hi), bind_returns (hs.get hr),
    if_neg (by omega)]
  split
  · rw [bind_returns (ha.get hr), bind_returns (refAt_ok hr hlen i hi), bind_returns (ha.get hr),
      bind_returns (refAt_ok hr hlen i hi)]
    exact bind_diverges (ih _ _ m ⟨A, q, hr, hlen, hs, hl'⟩)
  · rw [bind_returns (ha.get hr), bind_returns (refAt_ok hr hlen i hi)]
    exact bind_diverges (ih _ _ m ⟨A, q, hr, hlen, hs, hl'⟩)

/-! ## One operation -/

theorem gfindC (c : Nat → Bool) (hw : m.WF) (hr : Rep m v A) (hi : GInv n ps dead ρ A) {i : Nat} (h : i < n)
    (hd : ¬ dead i) :
    wp (findC v c (.val (i : Int))) (fun a m' => m'.WF ∧ ∃ B d, Rep m' v B ∧ Compr A B d ∧ GInv n ps dead ρ B ∧
      ArgIs v a B (ρ i)) m := by
  obtain ⟨d, hd⟩ := hi.root i h hd
  have hs := hi.small
  refine wp_mono (findC_ok d hr hw (by rw [hi.len]; exact hs) (Or.inl rfl) hd) ?_
  rintro a m' ⟨B, h1, h2, h3, h4⟩
  exact ⟨h2, B, d, h1, h3, hi.compr h3, h4⟩

theorem gfindC_diverges (c : Nat → Bool) (hr : Rep m v A) (hi : GInv n ps dead ρ A) {i : Nat} (h : i < n)
    (hd : dead i) : Diverges (findC v c (.val (i : Int))) m :=
  findC_diverges c (.val (i : Int)) m ⟨A, i, hr, by rw [hi.len]; exact hi.small, Or.inl rfl, hi.loop i h hd⟩

theorem gfindValC (c : Nat → Bool) (h : GHolds n ps dead ρ v m) {i : Nat} (hi : i < n) (hd : ¬ dead i) :
    wp (findValC c v (i : Int)) (fun x m' => x = (ρ i : Int) ∧ GHolds n ps dead ρ v m') m := by
  obtain ⟨hw, A, hr, hI⟩ := h
  unfold findValC
  rw [wp_bind]
  refine wp_mono (gfindC c hw hr hI hi hd) ?_
  rintro a m' ⟨h1, B, _, h2, _, h3, h4⟩
  rw [wp_of_returns (h4.get h2)]
  exact ⟨rfl, h1, B, h2, h3⟩

theorem gfindValC_diverges (c : Nat → Bool) (h : GHolds n ps dead ρ v m) {i : Nat} (hi : i < n) (hd : dead i) :
    Diverges (findValC c v (i : Int)) m := by
  obtain ⟨hw, A, hr, hI⟩ := h
  exact bind_diverges (gfindC_diverges c hr hI hi hd)

theorem gconnectedIn (c : Choice) (h : GHolds n ps dead ρ v m) {i j : Nat} (hi : i < n) (hj : j < n) (hdi : ¬ dead i)
    (hdj : ¬ dead j) :
    wp (connectedIn c v (i : Int) (j : Int)) (fun x m' => (x = true ↔ ρ i = ρ j) ∧ GHolds n ps dead ρ v m') m := by
  obtain ⟨hw, A, hr, hI⟩ := h
  unfold connectedIn
  rw [wp_bind]
  refine wp_mono (gfindC c.c1 hw hr hI hi hdi) ?_
  rintro a m1 ⟨w1, B, _, r1, _, i1, a1⟩
  split
  · rw [wp_bind, wp_of_returns (a1.get r1), wp_bind]
    refine wp_mono (gfindC c.c2 w1 r1 i1 hj hdj) ?_
    rintro b m2 ⟨w2, C, _, r2, c2, i2, b2⟩
    rw [wp_bind, wp_of_returns (b2.get r2), wp_pure]
    refine ⟨?_, w2, C, r2, i2⟩
    simp only [beq_iff_eq]
    omega
  · rw [wp_bind]
    refine wp_mono (gfindC c.c2 w1 r1 i1 hj hdj) ?_
    rintro b m2 ⟨w2, C, _, r2, c2, i2, b2⟩
    have a2 : ArgIs v a C (ρ i) := by
      rcases a1 with rfl | ⟨k, rfl, hk⟩
      · exact Or.inl rfl
      · refine Or.inr ⟨k, rfl, ?_⟩
        obtain ⟨e, he⟩ := i1.root i hi hdi
        have hrk : Root B k (ρ i) 1 := .step hk he.root_self
        rcases c2 k with h1 | ⟨r, k', _, _, h3, h4⟩
        · rw [h1, hk]
        · rw [h4, (h3.det hrk).1]
    rw [wp_bind, wp_of_returns (a2.get r2), wp_bind, wp_of_returns (b2.get r2), wp_pure]
    refine ⟨?_, w2, C, r2, i2⟩
    simp only [beq_iff_eq]
    omega

theorem gconnectedIn_diverges (c : Choice) (h : GHolds n ps dead ρ v m) {i j : Nat} (hi : i < n) (hj : j < n)
    (hd : dead i ∨ dead j) : Diverges (connectedIn c v (i : Int) (j : Int)) m := by
  obtain ⟨hw, A, hr, hI⟩ := h
  by_cases hdi : dead i
  · exact bind_diverges (gfindC_diverges c.c1 hr hI hi hdi)
  · refine diverges_of_wp (wp_mono (gfindC c.c1 hw hr hI hi hdi) ?_)
    rintro a m1 ⟨w1, B, _, r1, _, i1, a1⟩
    have := gfindC_diverges c.c2 r1 i1 hj (hd.resolve_left hdi)
    split
    · exact diverges_of_wp ((wp_of_returns (a1.get r1) _).2 (bind_diverges this))
    · exact bind_diverges this

theorem gconnectedC (c : Choice) (h : GHolds n ps dead ρ v m) {i j : Nat} (hi : i < n) (hj : j < n) (hdi : ¬ dead i)
    (hdj : ¬ dead j) :
    wp (connectedC c v (i : Int) (j : Int)) (fun x m' => (x = true ↔ ρ i = ρ j) ∧ GHolds n ps dead ρ v m') m := by
  unfold connectedC
  split
  · exact wp_mono (gconnectedIn c h hj hi hdj hdi) fun _ _ h => ⟨h.1.trans eq_comm, h.2⟩
  · exact gconnectedIn c h hi hj hdi hdj

theorem gconnectedC_diverges (c : Choice) (h : GHolds n ps dead ρ v m) {i j : Nat} (hi : i < n) (hj : j < n)
    (hd : dead i ∨ dead j) : Diverges (connectedC c v (i : Int) (j : Int)) m := by
  unfold connectedC
  split
  · exact gconnectedIn_diverges c h hj hi hd.symm
  · exact gconnectedIn_diverges c h hi hj hd

theorem gconnectC (c : Choice) (h : GHolds n ps dead ρ v m) {a b : Nat} (ha : a < n) (hb : b < n) (hda : ¬ dead a)
    (hdb : ¬ dead b) :
    wp (connectC c v (a : Int) (b : Int)) (fun _ m' => GHolds n (ps ++ [(a, b)])
      (fun x => dead x ∨ Conn ps a b ∧ Conn ps a x) (join ρ (a, b)) v m') m := by
  unfold connectC
  rw [wp_bind]
  refine wp_mono (gfindValC c.c1 h ha hda) ?_
  rintro x m1 ⟨rfl, h1⟩
  rw [wp_bind]
  refine wp_mono (gfindValC c.c2 h1 hb hdb) ?_
  rintro y m2 ⟨rfl, hw, A, hr, hI⟩
  refine wp_mono (gunion hw hr hI ha hb hda hdb) ?_
  rintro _ m3 ⟨w3, A1, r3, l3, e1, e2, e3, e4⟩
  exact ⟨w3, _, r3, hI.union ha hb hda hdb l3 e1 e2 e3 e4⟩

theorem gconnectC_diverges (c : Choice) (h : GHolds n ps dead ρ v m) {i j : Nat} (hi : i < n) (hj : j < n)
    (hd : dead i ∨ dead j) : Diverges (connectC c v (i : Int) (j : Int)) m := by
  by_cases hdi : dead i
  · exact bind_diverges (gfindValC_diverges c.c1 h hi hdi)
  · refine diverges_of_wp (wp_mono (gfindValC c.c1 h hi hdi) ?_)
    rintro x m1 ⟨_, h1⟩
    exact bind_diverges (gfindValC_diverges c.c2 h1 hj (hd.resolve_left hdi))

/-! ## Histories -/

/-- The reply an operation should give. -/
def specReply (ps : List (Nat × Nat)) : Op → Reply
  | .find i => .root (repr ps i)
  | .connected i j => .same (decide (repr ps i = repr ps j))
  | .connect _ _ => .done

theorem specReplies_cons (ps : List (Nat × Nat)) (op : Op) (ops : List Op) :
    specReplies ps (op :: ops) = specReply ps op :: specReplies (ps ++ op.pair) ops := by
  cases op <;> simp [specReplies, specReply, Op.pair]

theorem repr_snoc (ps : List (Nat × Nat)) (p : Nat × Nat) : repr (ps ++ [p]) = join (repr ps) p := by
  simp [repr]

theorem greplyC (c : Choice) {pre : List Op} {op : Op}
    (h : GHolds n (pairs pre) (Dead pre) (repr (pairs pre)) v m) (hv : op.Valid n)
    (hu : ∀ x ∈ op.args, ¬ Dead pre x) :
    wp (replyC c v op) (fun r m' => r = specReply (pairs pre) op ∧
      GHolds n (pairs (pre ++ [op])) (Dead (pre ++ [op])) (repr (pairs (pre ++ [op]))) v m') m := by
  cases op with
  | find i =>
    rw [pairs_snoc, dead_snoc_query rfl]
    simp only [replyC, wp_bind, wp_pure, Op.pair, List.append_nil]
    refine wp_mono (gfindValC c.c1 h hv (hu i (by simp [Op.args]))) ?_
    rintro _ m1 ⟨rfl, h1⟩
    exact ⟨rfl, h1⟩
  | connected i j =>
    rw [pairs_snoc, dead_snoc_query rfl]
    simp only [replyC, wp_bind, wp_pure, Op.pair, List.append_nil]
    refine wp_mono (gconnectedC c h hv.1 hv.2 (hu i (by simp [Op.args])) (hu j (by simp [Op.args]))) ?_
    rintro b m1 ⟨hb, h1⟩
    refine ⟨congrArg Reply.same ?_, h1⟩
    rw [Bool.eq_iff_iff, hb, decide_eq_true_eq]
  | connect i j =>
    rw [pairs_snoc, dead_snoc_connect]
    simp only [replyC, wp_bind, wp_pure, Op.pair, repr_snoc]
    refine wp_mono (gconnectC c h hv.1 hv.2 (hu i (by simp [Op.args])) (hu j (by simp [Op.args]))) ?_
    rintro _ m1 h1
    exact ⟨rfl, h1⟩

theorem greplyC_diverges (c : Choice) {pre : List Op} {op : Op} (h : GHolds n (pairs pre) (Dead pre) ρ v m)
    (hv : op.Valid n) {x : Nat} (hx : x ∈ op.args) (hd : Dead pre x) : Diverges (replyC c v op) m := by
  cases op with
  | find i =>
    simp only [Op.args, List.mem_singleton] at hx
    subst hx
    exact bind_diverges (gfindValC_diverges c.c1 h hv hd)
  | connected i j =>
    simp only [Op.args, List.mem_cons, List.not_mem_nil, or_false] at hx
    refine bind_diverges (gconnectedC_diverges c h hv.1 hv.2 ?_)
    rcases hx with rfl | rfl
    · exact Or.inl hd
    · exact Or.inr hd
  | connect i j =>
    simp only [Op.args, List.mem_cons, List.not_mem_nil, or_false] at hx
    refine bind_diverges (gconnectC_diverges c h hv.1 hv.2 ?_)
    rcases hx with rfl | rfl
    · exact Or.inl hd
    · exact Or.inr hd

theorem grepliesC (ops : List Op) : ∀ {c : Nat → Choice} {pre : List Op} {m : Mem Int},
    GHolds n (pairs pre) (Dead pre) (repr (pairs pre)) v m → (∀ op ∈ ops, op.Valid n) → Usable pre ops →
    wp (repliesC v c ops) (fun rs _ => rs = specReplies (pairs pre) ops) m := by
  induction ops with
  | nil => intro c pre m _ _ _; exact (wp_pure _ _ _).2 rfl
  | cons op ops ih =>
    intro c pre m h hv hu
    rw [repliesC, wp_bind]
    refine wp_mono (greplyC (c 0) h (hv op (by simp)) fun x hx => by simpa using hu [] op ops rfl x hx) ?_
    rintro r m1 ⟨rfl, h1⟩
    rw [wp_bind]
    refine wp_mono (ih h1 (fun o ho => hv o (by simp [ho])) hu.tail) ?_
    rintro rs m2 rfl
    rw [wp_pure, specReplies_cons, pairs_snoc]

theorem grepliesC_diverges (ops : List Op) : ∀ {c : Nat → Choice} {pre : List Op} {m : Mem Int},
    GHolds n (pairs pre) (Dead pre) (repr (pairs pre)) v m → (∀ op ∈ ops, op.Valid n) → ¬ Usable pre ops →
    Diverges (repliesC v c ops) m := by
  induction ops with
  | nil =>
    intro c pre m h _ hu
    exact (hu (by rintro a o b e; simp at e)).elim
  | cons op ops ih =>
    intro c pre m h hv hu
    show Diverges (replyC (c 0) v op >>= _) m
    by_cases hx : ∀ x ∈ op.args, ¬ Dead pre x
    · refine diverges_of_wp (wp_mono (greplyC (c 0) h (hv op (by simp)) hx) ?_)
      rintro _ m1 ⟨_, h1⟩
      exact bind_diverges (ih h1 (fun o ho => hv o (by simp [ho])) fun h' => hu (usable_cons hx h'))
    · simp only [Classical.not_forall, Classical.not_not] at hx
      obtain ⟨x, hx, hd⟩ := hx
      exact bind_diverges (greplyC_diverges (c 0) h (hv op (by simp)) hx hd)

/-! ## The order that `Verif.DisjointSet` fixes -/

theorem greply {pre : List Op} {op : Op}
    (h : GHolds n (pairs pre) (Dead pre) (repr (pairs pre)) v m) (hv : op.Valid n)
    (hu : ∀ x ∈ op.args, ¬ Dead pre x) :
    wp (reply v op) (fun r m' => r = specReply (pairs pre) op ∧
      GHolds n (pairs (pre ++ [op])) (Dead (pre ++ [op])) (repr (pairs (pre ++ [op]))) v m') m := by
  cases op with
  | find i =>
    rw [pairs_snoc, dead_snoc_query rfl]
    simp only [reply, wp_bind, wp_pure, Op.pair, List.append_nil]
    refine wp_mono (gfindVal h hv (hu i (by simp [Op.args]))) ?_
    rintro _ m1 ⟨rfl, h1⟩
    exact ⟨rfl, h1⟩
  | connected i j =>
    rw [pairs_snoc, dead_snoc_query rfl]
    simp only [reply, wp_bind, wp_pure, Op.pair, List.append_nil]
    refine wp_mono (gconnected h hv.1 hv.2 (hu i (by simp [Op.args])) (hu j (by simp [Op.args]))) ?_
    rintro b m1 ⟨hb, h1⟩
    refine ⟨congrArg Reply.same ?_, h1⟩
    rw [Bool.eq_iff_iff, hb, decide_eq_true_eq]
  | connect i j =>
    rw [pairs_snoc, dead_snoc_connect]
    simp only [reply, wp_bind, wp_pure, Op.pair, repr_snoc]
    refine wp_mono (gconnect h hv.1 hv.2 (hu i (by simp [Op.args])) (hu j (by simp [Op.args]))) ?_
    rintro _ m1 h1
    exact ⟨rfl, h1⟩

theorem greplies (ops : List Op) : ∀ {pre : List Op} {m : Mem Int},
    GHolds n (pairs pre) (Dead pre) (repr (pairs pre)) v m → (∀ op ∈ ops, op.Valid n) → Usable pre ops →
    wp (replies v ops) (fun rs _ => rs = specReplies (pairs pre) ops) m := by
  induction ops with
  | nil => intro pre m _ _ _; exact (wp_pure _ _ _).2 rfl
  | cons op ops ih =>
    intro pre m h hv hu
    rw [replies, wp_bind]
    refine wp_mono (greply h (hv op (by simp)) fun x hx => by simpa using hu [] op ops rfl x hx) ?_
    rintro r m1 ⟨rfl, h1⟩
    rw [wp_bind]
    refine wp_mono (ih h1 (fun o ho => hv o (by simp [ho])) hu.tail) ?_
    rintro rs m2 rfl
    rw [wp_pure, specReplies_cons, pairs_snoc]

end Verif.DSU
