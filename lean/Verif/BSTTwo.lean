import Verif.BSTSafety

/-! # Deleting a node with two children; the shape of a tree after a list of pushes -/

namespace Verif.BST

open Prog Verif.Tree
open Verif.AVL (StrictWeak Ascending Equiv same with_ without same_iff asc_append split_spec)

variable {α : Type} {lt : α → α → Bool}

/-! ## Two children -/

theorem spine_none {s : St α} {pa : Ptr} {l r : T α} {p : Nat} {d : α} (h : Rep s pa r) (hl : l ≠ .nil) (hr : r ≠ .nil) :
    fTry (.node l p d r) = none ↔ ∃ m, RightOf s r.root m ∧ s.lft m = none := by
  induction r generalizing pa l p d with
  | nil => exact absurd rfl hr
  | node rl rp rd rr _ ih =>
    obtain ⟨h1, h2, h3, h4, h5, h6⟩ := h
    cases l with
    | nil => exact absurd rfl hl
    | node a1 q1 e1 b1 =>
      cases rl with
      | nil =>
        refine ⟨fun _ => ⟨rp, .here rp, h3⟩, fun _ => rfl⟩
      | node a q e b =>
        simp only [fTry, Option.map_eq_none_iff, T.root]
        cases rr with
        | nil =>
          refine ⟨fun e => (by rw [try_one (Or.inr ⟨rfl, rfl⟩)] at e; cases e), ?_⟩
          rintro ⟨m, hm, hn⟩
          cases hm with
          | here => rw [h3] at hn; cases hn
          | next hm => rw [h4] at hm; cases hm
        | node a2 q2 e2 b2 =>
          rw [ih h6 (by simp) (by simp)]
          constructor
          · rintro ⟨m, hm, hn⟩
            exact ⟨m, .next (by rw [h4]; exact hm), hn⟩
          · rintro ⟨m, hm, hn⟩
            cases hm with
            | here => rw [h3] at hn; cases hn
            | next hm => rw [h4] at hm; exact ⟨m, hm, hn⟩

/-- The search comes by the hole of a context. -/
theorem find_plug (w : StrictWeak lt) {y : α} (c : Ctx α) (u : T α) (h1 : ∀ a ∈ c.before, lt a.2 y = true)
    (h2 : ∀ a ∈ c.after, lt y a.2 = true) : fFind lt y (c.plug u) = fFind lt y u := by
  induction c generalizing u with
  | top => rfl
  | left c p d r ih =>
    simp only [Ctx.plug]
    rw [ih _ (fun a ha => h1 a ha) (fun a ha => h2 a (by simp [Ctx.after, ha]))]
    have := h2 (p, d) (by simp [Ctx.after])
    simp only [fFind]
    rw [if_pos this]
  | right c l p d ih =>
    simp only [Ctx.plug]
    rw [ih _ (fun a ha => h1 a (by simp [Ctx.before, ha])) (fun a ha => h2 a ha)]
    have := h1 (p, d) (by simp [Ctx.before])
    simp only [fFind]
    rw [if_neg (by simp [w.asymm this]), if_pos this]

/-- What deleting a node with two children leaves. -/
theorem two_wrong (w : StrictWeak lt) {c : Ctx α} {l r u : T α} {p z : Nat} {d x : α}
    (ha : Good lt (c.plug (.node l p d r))) (he : Equiv lt x d) (hl : l ≠ .nil) (hr : r ≠ .nil)
    (ht : fTry (.node l p d r) = some (u, z)) :
    u.root = some p ∧ (vals (c.plug u)).Perm (without lt (vals (c.plug (.node l p d r))) x) ∧
      ¬ Ascending lt (vals (c.plug u)) ∧ (∃ y ∈ vals (c.plug u), fFind lt y (c.plug u) = none) ∧
      ∃ v y, (∃ q, (q, v) ∈ u.inorder ∧ u.root = some q) ∧ y ∈ vals (c.plug (.node l p d r)) ∧ lt x y = true ∧ lt y v = true := by
  obtain ⟨rl, rp, rd, rr, r', rfl, hrl, rfl, hp⟩ := try_two hl hr ht
  have e : vals (c.plug (.node l p d (.node rl rp rd rr))) =
      (c.before.map (·.2) ++ vals l) ++ d :: (vals rl ++ rd :: vals rr ++ c.after.map (·.2)) := by
    rw [vals_plug, vals_node, vals_node]; simp
  have hg := ha
  unfold Good at ha
  rw [e] at ha
  obtain ⟨f1, _, _⟩ := split_spec w ha he
  obtain ⟨a1, a2, a3, a4, _⟩ := asc_append ha
  have eu : vals (c.plug (.node l p rd r')) = (c.before.map (·.2) ++ vals l) ++ rd :: (vals r' ++ c.after.map (·.2)) := by
    rw [vals_plug, vals_node]; simp
  obtain ⟨y, hy⟩ : ∃ y, y ∈ vals rl := by
    cases hv : vals rl with
    | nil => exact absurd (vals_eq_nil.1 hv) hrl
    | cons b bs => exact ⟨b, by simp⟩
  have hyr' : y ∈ vals r' := hp.mem_iff.2 (List.mem_append_left _ hy)
  have hdy : lt d y = true := a4 y (by simp [hy])
  have a2' : Ascending lt (vals rl ++ rd :: (vals rr ++ c.after.map (·.2))) := by simpa using a2
  obtain ⟨b1, b2, b3, b4, _⟩ := asc_append a2'
  have hyrd : lt y rd = true := b3 y hy
  refine ⟨rfl, ?_, ?_, ⟨y, by rw [eu]; simp [hyr'], ?_⟩, rd, y, ⟨p, by simp [T.inorder], rfl⟩, by rw [e]; simp [hy],
    w.lt_of_equiv he hdy, hyrd⟩
  · rw [eu, e, f1]
    refine List.Perm.append_left _ ?_
    have h1 : (rd :: (vals r' ++ c.after.map (·.2))).Perm (rd :: (vals rl ++ vals rr ++ c.after.map (·.2))) :=
      (hp.append_right _).cons rd
    refine h1.trans ?_
    have h2 : (rd :: (vals rl ++ (vals rr ++ c.after.map (·.2)))).Perm (vals rl ++ rd :: (vals rr ++ c.after.map (·.2))) :=
      List.perm_middle.symm
    simpa using h2
  · intro h
    rw [eu] at h
    obtain ⟨_, _, _, h4, _⟩ := asc_append h
    have := h4 y (by simp [hyr'])
    rw [w.asymm hyrd] at this; cases this
  · have hb : ∀ a ∈ c.before, lt a.2 y = true := fun a m =>
      w.trans _ _ _ (a3 a.2 (List.mem_append_left _ (List.mem_map_of_mem m))) hdy
    have hc : ∀ a ∈ c.after, lt y a.2 = true := fun a m =>
      w.trans _ _ _ hyrd (b4 a.2 (List.mem_append_right _ (List.mem_map_of_mem m)))
    rw [find_plug w c _ hb hc]
    simp only [fFind]
    rw [if_pos hyrd]
    have al : Ascending lt (vals l) := by
      unfold Ascending at a1 ⊢
      rw [List.pairwise_append] at a1; exact a1.2.1
    rw [find_none w al]
    intro v hv hev
    have := w.trans _ _ _ (a3 v (List.mem_append_right _ hv)) hdy
    rw [hev.2] at this; cases this

/-- Where the element is that is to be deleted. -/
theorem two_at (w : StrictWeak lt) {s : St α} {t : T α} (h : IsTree s t) (hg : Good lt t) {n : Nat} {d x : α} (hn : n ∈ t.ptrs)
    (hd : s.dat n = some (some d)) (hx : Equiv lt x d) :
    ∃ (c : Ctx α) (l r : T α), t = c.plug (.node l n d r) ∧ fFind lt x t = some n ∧
      fDel lt x t = (fTry (.node l n d r)).map fun u => (c.plug u.1, u.2) := by
  have hf := find_of_mem w hg (item_dat h.rep hn hd) hx
  obtain ⟨c, l, d', r, e1, e2, e3⟩ := find_split' hf
  have : d' = d := by
    subst e1
    have := h.at.dat
    rw [hd] at this; cases this; rfl
  subst this
  exact ⟨c, l, r, e1, hf, e3⟩

/-! ## The shape of a tree -/

/-- The tree with the addresses left out. -/
def strip : T α → T α
  | .nil => .nil
  | .node l _ d r => .node (strip l) 0 d (strip r)

theorem strip_ins (x : α) (q : Nat) (t : T α) : strip (fIns lt x q t) = fIns lt x 0 (strip t) := by
  induction t with
  | nil => rfl
  | node l p d r ihl ihr =>
    simp only [fIns, strip]
    split
    · simp only [strip, ihl]
    · simp only [strip, ihr]

theorem strip_find (x : α) (t : T α) : (fFind lt x (strip t)).isSome = (fFind lt x t).isSome := by
  induction t with
  | nil => rfl
  | node l p d r ihl ihr =>
    simp only [fFind, strip]
    split
    · exact ihl
    · split
      · exact ihr
      · rfl

theorem strip_nil {t : T α} (h : strip t = .nil) : t = .nil := by
  cases t with
  | nil => rfl
  | node l p d r => cases h

theorem strip_node {t a b : T α} {d : α} (h : strip t = .node a 0 d b) :
    ∃ l p r, t = .node l p d r ∧ strip l = a ∧ strip r = b := by
  cases t with
  | nil => cases h
  | node l p e r => cases h; exact ⟨l, p, r, rfl, rfl, rfl⟩

/-- The shape after pushing absent elements. -/
def shape (lt : α → α → Bool) : List α → T α → Option (T α)
  | [], t => some t
  | x :: xs, t => if (fFind lt x t).isSome then none else shape lt xs (fIns lt x 0 t)

theorem build_from (hw : StrictWeak lt) (xs : List α) {w : World α} {sw : SWorld α} {g : Nat → Option (T α)} {c : Nat → Nat}
    (hr : Reach lt w sw) (h : HoldsSized (Good lt) w g c) (hl : Link sw g c) {t t' : T α} (ht : g 0 = some t)
    (hs : shape lt xs (strip t) = some t') :
    ∃ w' sw' g' c' u, Reach lt w' sw' ∧ HoldsSized (Good lt) w' g' c' ∧ Link sw' g' c' ∧ g' 0 = some u ∧ strip u = t' := by
  induction xs generalizing w sw g c t with
  | nil =>
    cases hs
    exact ⟨w, sw, g, c, t, hr, h, hl, ht, rfl⟩
  | cons x xs ih =>
    simp only [shape] at hs
    split at hs
    · cases hs
    · rename_i hf
      rw [strip_find] at hf
      obtain ⟨o, ho⟩ : ∃ o, sw 0 = some o := by
        rcases hl 0 with ⟨h1, _⟩ | ⟨t1, m, _, h2, _⟩
        · rw [h1] at ht; cases ht
        · exact ⟨_, h2⟩
      obtain ⟨w1, t1, h1, h2, h3, h4⟩ := push_obj hw h hl ho (obj := .val x) rfl
      have e := h4 t ht (by simpa using hf)
      have hr1 : Reach lt w1 (sw.put 0 (some (add lt o x))) :=
        hr.step (op := .push 0 x) (by simp [specStep, ho]) trivial (step_none h1)
      refine ih hr1 h2 h3 (t := t1) (upd_self _ _ _) ?_
      rw [e, strip_ins]; exact hs

theorem build (hw : StrictWeak lt) (xs : List α) {t' : T α} (hs : shape lt xs .nil = some t') :
    ∃ w sw g c u, Reach lt w sw ∧ HoldsSized (Good lt) w g c ∧ Link sw g c ∧ g 0 = some u ∧ strip u = t' := by
  have h0 : HoldsSet lt (World.init : World α) (fun _ => none) := HoldsSet.init
  have hr : Reach lt (World.init : World α) (fun _ => none) := .init
  have hs' : specStep lt (.new 0) (fun _ => none) = some (SWorld.put (fun _ => none) 0 (some (([], 0) : List α × Nat))) := rfl
  obtain ⟨w1, h1, h2⟩ := step_ok hw h0 hs' trivial
  have hr1 := hr.step hs' trivial h1
  obtain ⟨g, c, h, hl⟩ := h2
  obtain ⟨t, ht, hv, _⟩ := hl.get (k := 0) (o := ([], 0)) rfl
  rw [vals_eq_nil] at hv
  subst hv
  exact build_from hw xs hr1 h hl ht hs

end Verif.BST
