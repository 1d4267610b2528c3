import Verif.SharedPoolSound

/-! Helper lemmas: groups of objects in one pool. -/

namespace Verif.Shared

open Prog Vec Pool

variable {n : Nat} {cls : Fin n → Class} {M : ∀ i, Meaning (cls i)} {c : Sma.Cfg}

theorem upd_same {β : Fin n → Type} (f : ∀ j, β j) (i : Fin n) (x : β i) : upd f i x i = x := by simp [upd]

theorem upd_ne {β : Fin n → Type} (f : ∀ j, β j) {i j : Fin n} (x : β i) (h : j ≠ i) : upd f i x j = f j := by
  simp [upd, h]

theorem step_returns {md : Sma.Mode} {o : Op cls} {w : World cls} {v : (cls o.group).World}
    {r : (cls o.group).Out} (h : Returns ((cls o.group).step md c o.op) (w.view o.group) r v) :
    Returns (step md c o) w r ⟨(cls o.group).pool v, upd w.part o.group ((cls o.group).objs v)⟩ := by
  unfold Returns step at *
  rw [h]

theorem step_faults {md : Sma.Mode} {o : Op cls} {w : World cls} {e : Fault}
    (h : Faults ((cls o.group).step md c o.op) (w.view o.group) e) : Faults (step md c o) w e := by
  unfold Faults step at *
  rw [h]

/-- The blocks of the other groups. -/
def others (own : Fin n → List (Nat × Int)) (i : Fin n) : List (Nat × Int) := ((List.finRange n).erase i).flatMap own

theorem split_perm (own : Fin n → List (Nat × Int)) (i : Fin n) :
    (own i ++ others own i).Perm ((List.finRange n).flatMap own) := by
  have := (List.perm_cons_erase (List.mem_finRange i)).flatMap_right own
  simpa [others] using this.symm

theorem mem_others {own : Fin n → List (Nat × Int)} {i j : Fin n} (h : j ≠ i) {p : Nat × Int} (hp : p ∈ own j) :
    p ∈ others own i :=
  List.mem_flatMap.2 ⟨j, (List.mem_erase_of_ne h).2 (List.mem_finRange j), hp⟩

theorem others_upd (own : Fin n → List (Nat × Int)) (i : Fin n) (l : List (Nat × Int)) :
    others (fun j => if j = i then l else own j) i = others own i := by
  unfold others
  rw [List.flatMap_def, List.flatMap_def]
  congr 1
  refine List.map_congr_left fun j hj => ?_
  have : j ≠ i := by rintro rfl; exact (List.nodup_finRange n).not_mem_erase hj
  rw [if_neg this]

/-- Every group keeps to its own blocks. -/
structure Good (S : ∀ i, Sound c (cls i) (M i)) (w : World cls) (sp : ∀ i, (M i).Spec)
    (own : Fin n → List (Nat × Int)) : Prop where
  part : ∀ i, (S i).Inv ⟨others own i, w.pool.mem⟩ w.pool (w.part i) (sp i) (own i)
  all : ∃ L, L.Perm ((List.finRange n).flatMap own) ∧ Sma.Reach c ⟨w.pool, L⟩

theorem Good.init (S : ∀ i, Sound c (cls i) (M i)) {s0 s : Sma.St} (h : Returns (Sma.construct c) s0 () s) :
    Good S (World.start cls s) (fun i => (M i).start) (fun _ => []) := by
  have e : ∀ i : Fin n, others (fun _ => []) i = [] := by intro i; simp [others]
  refine ⟨fun i => (S i).init ⟨[], ?_, .init h⟩ ?_, [], ?_, .init h⟩
  · rw [e]
    exact .refl _
  · intro p hp
    rw [e] at hp
    cases hp
  · simp

theorem Good.step {S : ∀ i, Sound c (cls i) (M i)} {w : World cls} {sp : ∀ i, (M i).Spec}
    {own : Fin n → List (Nat × Int)} (h : Good S w sp own) {o : Op cls} (hok : (M o.group).Ok o.op (sp o.group)) :
    ((M o.group).Stops c (w.view o.group) o.op ∧ Faults (step .port c o) w .crash) ∨ ∃ r w' x own', Returns (step .port c o) w r w' ∧
      (M o.group).Returned o.op (sp o.group) r ∧ (M o.group).next o.op (sp o.group) x ∧ Good S w' (upd (β := fun i => (M i).Spec) sp o.group x) own' ∧
      ∀ j, j ≠ o.group → w'.part j = w.part j ∧ own' j = own j ∧ Same (own j) w.pool w'.pool := by
  obtain ⟨i, op⟩ := o
  rcases (S i).step (h.part i) hok with ⟨hst, hf⟩ | ⟨r, v, x, l, h1, hr0, h2, h3⟩
  · exact Or.inl ⟨hst, step_faults hf⟩
  refine Or.inr ⟨r, _, x, fun j => if j = i then l else own j, step_returns (o := ⟨i, op⟩) h1, hr0, h2, ?_⟩
  obtain ⟨⟨L, hp, hr⟩, hk⟩ := (S i).owned h3
  have hall : L.Perm ((List.finRange n).flatMap fun j => if j = i then l else own j) := by
    refine hp.trans (List.Perm.trans ?_ (split_perm _ i))
    rw [others_upd]
    simp
  have howned : ∀ j, Owned c ⟨others (fun j => if j = i then l else own j) j, ((cls i).pool v).mem⟩
      (if j = i then l else own j) ((cls i).pool v) :=
    fun j => ⟨L, hall.trans (split_perm (fun j => if j = i then l else own j) j).symm, hr⟩
  refine ⟨⟨fun j => ?_, L, hall, hr⟩, fun j hj => ⟨upd_ne _ _ hj, if_neg hj, fun p hp y y1 y2 =>
    hk p (mem_others hj hp) y y1 y2⟩⟩
  by_cases hj : j = i
  · subst hj
    have := howned j
    simp only [if_pos] at this ⊢
    rw [upd_same, upd_same]
    exact (S j).reframe h3 this (fun _ _ _ _ _ => rfl) (fun _ _ _ _ _ => rfl)
  · have := howned j
    simp only [if_neg hj] at this ⊢
    rw [upd_ne _ _ hj, upd_ne _ _ hj]
    exact (S j).reframe (h.part j) this (fun _ _ _ _ _ => rfl)
      (fun p hp y y1 y2 => hk p (mem_others hj hp) y y1 y2)

theorem proj_same {i : Fin n} {op : (cls i).Op} {ops : List (Op cls)} :
    proj i (⟨i, op⟩ :: ops) = op :: proj i ops := by simp [proj]

theorem replies_same {i : Fin n} {r : (cls i).Out} {rs : List (Reply cls)} :
    replies i (⟨i, r⟩ :: rs) = r :: replies i rs := by simp [replies]

theorem replies_ne {i : Fin n} {r : Reply cls} {rs : List (Reply cls)} (h : r.group ≠ i) :
    replies i (r :: rs) = replies i rs := by simp [replies, h]

theorem run_cons {md : Sma.Mode} {o : Op cls} {ops : List (Op cls)} {r : (cls o.group).Out} {rs : List (Reply cls)}
    {w w1 w2 : World cls} (h1 : Returns (step md c o) w r w1) (h2 : Returns (run md c ops) w1 rs w2) :
    Returns (run md c (o :: ops)) w (⟨o.group, r⟩ :: rs) w2 :=
  (bind_returns h1).trans ((bind_returns h2).trans rfl)

theorem proj_ne {i : Fin n} {o : Op cls} {ops : List (Op cls)} (h : o.group ≠ i) :
    proj i (o :: ops) = proj i ops := by simp [proj, h]

theorem Good.run {S : ∀ i, Sound c (cls i) (M i)} (ops : List (Op cls)) {w : World cls} {sp : ∀ i, (M i).Spec}
    {own : Fin n → List (Nat × Int)} (h : Good S w sp own) (hl : ∀ i, (M i).Legal (proj i ops) (sp i)) :
    (Faults (run .port c ops) w .crash ∧ ∃ ops1 o ops2 rs w1, ops = ops1 ++ o :: ops2 ∧
      Returns (run .port c ops1) w rs w1 ∧ Faults (Shared.step .port c o) w1 .crash ∧
      (M o.group).Stops c (w1.view o.group) o.op) ∨ ∃ rs w' sp' own', Returns (run .port c ops) w rs w' ∧
      (∀ i, (M i).Runs (proj i ops) (replies i rs) (sp i) (sp' i)) ∧ Good S w' sp' own' := by
  induction ops generalizing w sp own with
  | nil => exact Or.inr ⟨[], w, sp, own, rfl, fun _ => ⟨rfl, rfl⟩, h⟩
  | cons o ops ih =>
    have hl0 := hl o.group
    rw [show proj o.group (o :: ops) = o.op :: proj o.group ops from proj_same] at hl0
    rcases h.step hl0.1 with ⟨hst, hf⟩ | ⟨r, w1, x, own1, r1, hr0, h1, h2, _⟩
    · exact Or.inl ⟨bind_faults hf, [], o, ops, [], w, rfl, rfl, hf, hst⟩
    have hl1 : ∀ i, (M i).Legal (proj i ops) (upd (β := fun i => (M i).Spec) sp o.group x i) := by
      intro i
      by_cases hi : i = o.group
      · subst hi
        rw [upd_same]
        exact hl0.2 x h1
      · rw [upd_ne _ _ hi]
        have := hl i
        rw [proj_ne (Ne.symm hi)] at this
        exact this
    rcases ih h2 hl1 with ⟨g, ops1, o', ops2, rs, w2, g1, g2, g3⟩ | ⟨rs, w', sp', own', g1, g2, g3⟩
    · exact Or.inl ⟨(bind_returns r1).trans (bind_faults g), o :: ops1, o', ops2, _, w2, by rw [g1]; rfl, run_cons r1 g2, g3⟩
    · refine Or.inr ⟨_, w', sp', own', run_cons r1 g1, fun i => ?_, g3⟩
      have := g2 i
      by_cases hi : i = o.group
      · subst hi
        rw [upd_same] at this
        rw [show proj o.group (o :: ops) = o.op :: proj o.group ops from proj_same, replies_same]
        exact ⟨r, _, x, rfl, hr0, h1, this⟩
      · rw [upd_ne _ _ hi] at this
        rw [proj_ne (Ne.symm hi), replies_ne (Ne.symm hi)]
        exact this

/-! ## What a state shows -/

theorem flatMap_perm {β γ : Type} {l : List β} {f g : β → List γ} (h : ∀ x ∈ l, (f x).Perm (g x)) :
    (l.flatMap f).Perm (l.flatMap g) := by
  induction l with
  | nil => exact .refl _
  | cons x l ih =>
    rw [List.flatMap_cons, List.flatMap_cons]
    exact (h x List.mem_cons_self).append (ih fun y hy => h y (List.mem_cons_of_mem _ hy))

theorem Good.uses {S : ∀ i, Sound c (cls i) (M i)} {w : World cls} {sp : ∀ i, (M i).Spec}
    {own : Fin n → List (Nat × Int)} (h : Good S w sp own) :
    ∃ bs : Fin n → List Sma.Block, (∀ i, (M i).Uses (w.view i) (bs i) ∧ (bs i).Perm (Sma.taken (own i))) ∧
      ∃ L, Sma.Reach c ⟨w.pool, L⟩ ∧ (blocks bs).Perm (Sma.taken L) := by
  have hu := fun i => (S i).uses (h.part i)
  refine ⟨fun i => (hu i).choose, fun i => (hu i).choose_spec, ?_⟩
  obtain ⟨L, h1, h2⟩ := h.all
  refine ⟨L, h2, (flatMap_perm fun i _ => (hu i).choose_spec.2).trans ?_⟩
  refine List.Perm.trans (.of_eq ?_) (h1.map _).symm
  rw [List.map_flatMap]
  rfl

end Verif.Shared
