import Verif.AVLSwap
import Verif.Spec.AVLSwap

/-! Helper lemmas: `_swap_node` on two arbitrary nodes, computed link by link. -/

namespace Verif.AVL

open Prog Tree

variable {α : Type}

theorem replaceChild_any {s : St α} {p a b : Ptr} (h : ∀ k, p = some k → Live s.dat k) :
    Returns (replaceChild p a b) s () { s with
      lft := fun n => if some n = p ∧ s.lft n = a then b else s.lft n
      rgt := fun n => if some n = p ∧ s.rgt n = a then b else s.rgt n } := by
  cases p with
  | none =>
    unfold replaceChild Returns Prog.when
    rw [if_neg (by simp), if_neg (by simp)]
    simp [Pure.pure, Prog.pure, Bind.bind, Prog.bind]
  | some k =>
    have hk := h k rfl
    have key : wp (replaceChild (some k) a b) (fun _ s' => s' = { s with
      lft := fun n => if some n = some k ∧ s.lft n = a then b else s.lft n
      rgt := fun n => if some n = some k ∧ s.rgt n = a then b else s.rgt n }) s := by
      unfold replaceChild
      rw [wp_bind, wp_when]
      refine ⟨fun _ => ?_, fun h => absurd (by simp) h⟩
      rw [wp_bind, wp_getLeft hk, wp_when]
      have hset : ∀ (f : Nat → Ptr), f k = a →
          upd f k b = fun n => if some n = some k ∧ f n = a then b else f n := by
        intro f hf; funext n; simp only [upd]
        by_cases e : n = k
        · subst e; simp [hf]
        · simp [e]
      have hkeep : ∀ (f : Nat → Ptr), f k ≠ a →
          f = fun n => if some n = some k ∧ f n = a then b else f n := by
        intro f hf; funext n
        by_cases e : n = k
        · subst e; simp [hf]
        · simp [e]
      constructor
      · intro hl
        rw [wp_setLeft hk, wp_when]
        refine ⟨fun _ => ?_, fun h => absurd (by simp) h⟩
        rw [wp_bind, wp_getRight (by exact hk), wp_when]
        constructor
        · intro hr
          rw [wp_setRight (by exact hk)]
          rw [← hset _ hl, ← hset _ hr]
        · intro hr
          rw [← hset _ hl, ← hkeep _ hr]
      · intro hl
        rw [wp_when]
        refine ⟨fun _ => ?_, fun h => absurd (by simp) h⟩
        rw [wp_bind, wp_getRight hk, wp_when]
        constructor
        · intro hr
          rw [wp_setRight hk, ← hkeep _ hl, ← hset _ hr]
        · intro hr
          rw [← hkeep _ hl, ← hkeep _ hr]
    obtain ⟨_, s', h1, rfl⟩ := key
    exact h1

/-- The links after the part of `_swap_node` for adjacent nodes. -/
theorem swapAdjacent_any {s : St α} {a b : Nat} {ap al ar bl br : Ptr} (ha : Live s.dat a) (hb : Live s.dat b)
    (h1 : ∀ k, ap = some k → Live s.dat k) (h2 : ∀ k, al = some k → Live s.dat k)
    (h3 : ∀ k, ar = some k → Live s.dat k) (h4 : ∀ k, bl = some k → Live s.dat k)
    (h5 : ∀ k, br = some k → Live s.dat k) :
    ∃ s', Returns (swapAdjacent (some a) (some b) ap al ar bl br) s () s' ∧
      s'.dat = s.dat ∧ s'.next = s.next ∧ s'.lost = s.lost ∧ s'.root = s.root ∧ s'.size = s.size ∧
      (∀ n, s'.par n = if some n = bl then some a else if some n = br then some a else if n = a then some b
        else if some n = (if s.rgt a = some b then al else ar) then some b
        else if n = b then ap else s.par n) ∧
      (∀ n, s'.lft n =
        (let f := if n = a then bl else if n = b then (if s.rgt a = some b then al else some a) else s.lft n
         if some n = ap ∧ f = some a then some b else f)) ∧
      (∀ n, s'.rgt n =
        (let f := if n = a then br else if n = b then (if s.rgt a = some b then some a else ar) else s.rgt n
         if some n = ap ∧ f = some a then some b else f)) := by
  suffices key : wp (swapAdjacent (some a) (some b) ap al ar bl br) (fun _ s' => 
      s'.dat = s.dat ∧ s'.next = s.next ∧ s'.lost = s.lost ∧ s'.root = s.root ∧ s'.size = s.size ∧
      (∀ n, s'.par n = if some n = bl then some a else if some n = br then some a else if n = a then some b
        else if some n = (if s.rgt a = some b then al else ar) then some b
        else if n = b then ap else s.par n) ∧
      (∀ n, s'.lft n =
        (let f := if n = a then bl else if n = b then (if s.rgt a = some b then al else some a) else s.lft n
         if some n = ap ∧ f = some a then some b else f)) ∧
      (∀ n, s'.rgt n =
        (let f := if n = a then br else if n = b then (if s.rgt a = some b then some a else ar) else s.rgt n
         if some n = ap ∧ f = some a then some b else f))) s by
    obtain ⟨_, s', g1, g2⟩ := key
    exact ⟨s', g1, g2⟩
  unfold swapAdjacent
  rw [wp_bind, wp_setParent hb, wp_bind, wp_getRight (by exact ha), wp_bind]
  simp only
  by_cases hr : s.rgt a = some b
  · rw [if_pos hr]
    rw [wp_bind, wp_setLeft (by exact hb), wp_bind, wp_setRight (by exact hb), wp_of_returns (when_setParent (by exact h2)),
      wp_bind, wp_setRight (by exact ha), wp_bind, wp_setLeft (by exact ha), wp_bind, wp_setParent (by exact ha), wp_bind,
      wp_of_returns (replaceChild_any (by exact h1)), wp_bind, wp_of_returns (when_setParent (by exact h5)),
      wp_of_returns (when_setParent (by exact h4))]
    refine ⟨rfl, rfl, rfl, rfl, rfl, fun n => ?_, fun n => ?_, fun n => ?_⟩ <;> simp only [upd, hr, if_true]
  · rw [if_neg hr]
    rw [wp_bind, wp_setLeft (by exact hb), wp_bind, wp_setRight (by exact hb), wp_of_returns (when_setParent (by exact h3)),
      wp_bind, wp_setRight (by exact ha), wp_bind, wp_setLeft (by exact ha), wp_bind, wp_setParent (by exact ha), wp_bind,
      wp_of_returns (replaceChild_any (by exact h1)), wp_bind, wp_of_returns (when_setParent (by exact h5)),
      wp_of_returns (when_setParent (by exact h4))]
    refine ⟨rfl, rfl, rfl, rfl, rfl, fun n => ?_, fun n => ?_, fun n => ?_⟩ <;> simp only [upd, hr, if_false]

/-- The links after the part of `_swap_node` for the other nodes. -/
theorem swapApart_any {s : St α} {a b : Nat} {ap al ar bp bl br : Ptr} (ha : Live s.dat a) (hb : Live s.dat b)
    (h1 : ∀ k, ap = some k → Live s.dat k) (h2 : ∀ k, al = some k → Live s.dat k)
    (h3 : ∀ k, ar = some k → Live s.dat k) (h4 : ∀ k, bl = some k → Live s.dat k)
    (h5 : ∀ k, br = some k → Live s.dat k) (h6 : ∀ k, bp = some k → Live s.dat k) :
    ∃ s', Returns (swapApart (some a) (some b) ap al ar bp bl br) s () s' ∧
      s'.dat = s.dat ∧ s'.next = s.next ∧ s'.lost = s.lost ∧ s'.root = s.root ∧ s'.size = s.size ∧
      (∀ n, s'.par n = if some n = br then some a else if some n = bl then some a
        else if some n = ar then some b else if some n = al then some b
        else if n = a then bp else if n = b then ap else s.par n) ∧
      (∀ n, s'.lft n = if n = a then bl else if n = b then al else
        (let f := if some n = ap ∧ s.lft n = some a then some b else s.lft n
         if some n = bp ∧ f = some b then some a else f)) ∧
      (∀ n, s'.rgt n = if n = a then br else if n = b then ar else
        (let f := if some n = ap ∧ s.rgt n = some a then some b else s.rgt n
         if some n = bp ∧ f = some b then some a else f)) := by
  suffices key : wp (swapApart (some a) (some b) ap al ar bp bl br) (fun _ s' => 
      s'.dat = s.dat ∧ s'.next = s.next ∧ s'.lost = s.lost ∧ s'.root = s.root ∧ s'.size = s.size ∧
      (∀ n, s'.par n = if some n = br then some a else if some n = bl then some a
        else if some n = ar then some b else if some n = al then some b
        else if n = a then bp else if n = b then ap else s.par n) ∧
      (∀ n, s'.lft n = if n = a then bl else if n = b then al else
        (let f := if some n = ap ∧ s.lft n = some a then some b else s.lft n
         if some n = bp ∧ f = some b then some a else f)) ∧
      (∀ n, s'.rgt n = if n = a then br else if n = b then ar else
        (let f := if some n = ap ∧ s.rgt n = some a then some b else s.rgt n
         if some n = bp ∧ f = some b then some a else f))) s by
    obtain ⟨_, s', g1, g2⟩ := key
    exact ⟨s', g1, g2⟩
  unfold swapApart
  rw [wp_bind, wp_of_returns (replaceChild_any h1), wp_bind, wp_setParent (by exact hb), wp_bind,
    wp_of_returns (replaceChild_any (by exact h6)), wp_bind, wp_setParent (by exact ha), wp_bind,
    wp_of_returns (when_setParent (by exact h2)), wp_bind, wp_of_returns (when_setParent (by exact h3)), wp_bind,
    wp_setLeft (by exact hb), wp_bind, wp_setRight (by exact hb), wp_bind,
    wp_of_returns (when_setParent (by exact h4)), wp_bind, wp_of_returns (when_setParent (by exact h5)), wp_bind,
    wp_setLeft (by exact ha), wp_setRight (by exact ha)]
  refine ⟨rfl, rfl, rfl, rfl, rfl, fun n => ?_, fun n => ?_, fun n => ?_⟩ <;> simp only [upd]

/-- Heights and root pointer, with both tests of the end of `_swap_node`. -/
theorem swapFinish_any {s : St α} {p q : Nat} {d e : D α} (hp : s.dat p = some (some d))
    (hq : s.dat q = some (some e)) :
    ∃ s', Returns (swapFinish (some p) (some q)) s (some q, some p) s' ∧
      (∀ n, s'.dat n = if n = q then some (some ⟨d.height, e.val⟩) else if n = p then some (some ⟨e.height, d.val⟩) else s.dat n) ∧
      s'.par = s.par ∧ s'.lft = s.lft ∧ s'.rgt = s.rgt ∧ s'.next = s.next ∧ s'.lost = s.lost ∧
      s'.size = s.size ∧
      s'.root = if s.par p = none then some p else if s.par q = none then some q else s.root := by
  suffices key : wp (swapFinish (some p) (some q)) (fun x s' => x = (some q, some p) ∧
      (∀ n, s'.dat n = if n = q then some (some ⟨d.height, e.val⟩) else if n = p then some (some ⟨e.height, d.val⟩) else s.dat n) ∧
      s'.par = s.par ∧ s'.lft = s.lft ∧ s'.rgt = s.rgt ∧ s'.next = s.next ∧ s'.lost = s.lost ∧
      s'.size = s.size ∧
      s'.root = if s.par p = none then some p else if s.par q = none then some q else s.root) s by
    obtain ⟨x, s', g1, rfl, g2⟩ := key
    exact ⟨s', g1, g2⟩
  unfold swapFinish
  have hq' : ∃ e', upd s.dat p (some (some (setH d e.height))) q = some (some e') ∧ e'.val = e.val := by
    by_cases h : q = p
    · subst h
      rw [hp] at hq; cases hq
      exact ⟨_, upd_self _ _ _, rfl⟩
    · exact ⟨e, by rw [upd_ne _ _ h]; exact hq, rfl⟩
  obtain ⟨e', h2, hv⟩ := hq'
  have l2 : Live (upd (upd s.dat p (some (some (setH d e.height)))) q (some (some (setH e' d.height)))) q :=
    ⟨_, upd_self _ _ _⟩
  have l1 : Live (upd (upd s.dat p (some (some (setH d e.height)))) q (some (some (setH e' d.height)))) p :=
    live_upd ⟨_, upd_self _ _ _⟩
  have hdat : ∀ n, upd (upd s.dat p (some (some (setH d e.height)))) q (some (some (setH e' d.height))) n =
      if n = q then some (some ⟨d.height, e.val⟩) else if n = p then some (some ⟨e.height, d.val⟩) else s.dat n := by
    intro n
    simp only [upd, setH, hv]
  have hsame : ∀ x, s.par x = none → upd s.par x none = s.par := by
    intro x hx
    funext n
    by_cases h : n = x
    · rw [h, upd_self, hx]
    · exact upd_ne _ _ h
  rw [wp_bind, wp_getData hp, wp_bind, wp_getData hq, wp_bind, wp_of_returns (setHeight_ok hp _), wp_bind,
    wp_of_returns (setHeight_ok (by exact h2) _), wp_bind, wp_getParent (by exact l2), wp_bind, wp_when]
  simp only
  constructor
  · intro hn
    unfold updateRoot
    rw [wp_bind, wp_modify, wp_when]
    refine ⟨fun _ => ?_, fun h => absurd (by simp) h⟩
    rw [wp_setParent (by exact l2), wp_bind, wp_getParent (by exact l1), wp_bind, wp_when]
    simp only [hsame q hn]
    constructor
    · intro hm
      rw [wp_bind, wp_modify, wp_when]
      refine ⟨fun _ => ?_, fun h => absurd (by simp) h⟩
      rw [wp_setParent (by exact l1), wp_pure]
      simp only [hsame p hm]
      exact ⟨trivial, hdat, trivial, trivial, trivial, trivial, trivial, trivial, by rw [if_pos hm]⟩
    · intro hm
      rw [wp_pure]
      exact ⟨rfl, hdat, rfl, rfl, rfl, rfl, rfl, rfl, by rw [if_neg hm, if_pos hn]⟩
  · intro hn
    rw [wp_bind, wp_getParent (by exact l1), wp_bind, wp_when]
    simp only
    constructor
    · intro hm
      unfold updateRoot
      rw [wp_bind, wp_modify, wp_when]
      refine ⟨fun _ => ?_, fun h => absurd (by simp) h⟩
      rw [wp_setParent (by exact l1), wp_pure]
      simp only [hsame p hm]
      exact ⟨trivial, hdat, trivial, trivial, trivial, trivial, trivial, trivial, by rw [if_pos hm]⟩
    · intro hm
      rw [wp_pure]
      exact ⟨rfl, hdat, rfl, rfl, rfl, rfl, rfl, rfl, by rw [if_neg hm, if_neg hn]⟩

theorem ren_comm (a b : Nat) : ren a b = ren b a := by
  funext x; unfold ren; split <;> split <;> simp_all

theorem swap_ordered {s : St α} (hs : Linked s) {a b : Nat} (ha : Live s.dat a) (hb : Live s.dat b)
    (hra : RootOf s a) (hrb : RootOf s b) (hsib : a = b ∨ s.par a = none ∨ s.par a ≠ s.par b)
    (hab : s.par a ≠ some b) :
    ∃ s', Returns (do
        (if s.par b = some a then swapAdjacent (some a) (some b) (s.par a) (s.lft a) (s.rgt a) (s.lft b) (s.rgt b)
          else swapApart (some a) (some b) (s.par a) (s.lft a) (s.rgt a) (s.par b) (s.lft b) (s.rgt b))
        swapFinish (some a) (some b)) s (some b, some a) s' ∧ Exchanged a b s s' := by
  obtain ⟨da, hda⟩ := ha
  obtain ⟨db, hdb⟩ := hb
  have ha : Live s.dat a := ⟨da, hda⟩
  have hb : Live s.dat b := ⟨db, hdb⟩
  have hdep := hs.acyclic
  have lp : ∀ x, Live s.dat x → ∀ k, s.par x = some k → Live s.dat k := fun x hx k hk => (hs.up x k hx hk).1
  have ll : ∀ x, Live s.dat x → ∀ k, s.lft x = some k → Live s.dat k := fun x hx k hk => (hs.left x k hx hk).1
  have lr : ∀ x, Live s.dat x → ∀ k, s.rgt x = some k → Live s.dat k := fun x hx k hk => (hs.right x k hx hk).1
  by_cases hadj : s.par b = some a
  · have hne : a ≠ b := fun h => hdep b a hb hadj (by rw [← h] at hadj ⊢; exact hadj)
    have hpaa : s.par a ≠ some a := fun h => hdep a a ha h h
    obtain ⟨s1, r1, e1, e2, e3, e4, e5, e6, e7, e8⟩ := swapAdjacent_any (ap := s.par a) (al := s.lft a) (ar := s.rgt a)
      (bl := s.lft b) (br := s.rgt b) ha hb (lp a ha) (ll a ha) (lr a ha) (ll b hb) (lr b hb)
    obtain ⟨s2, r2, f1, f2, f3, f4, f5, f6, f7, f8⟩ := swapFinish_any (s := s1) (by rw [e1]; exact hda) (by rw [e1]; exact hdb)
    refine ⟨s2, ?_, ?_⟩
    · rw [if_pos hadj]; unfold Returns; rw [bind_returns r1]; exact r2
    · refine ⟨?_, ?_, ?_, ?_, ?_, ?_, ?_, ?_, ?_⟩
      · intro x hx
        have i1 := hs.left b x hb
        have i2 := hs.right b x hb
        have i3 := hs.left a x ha
        have i4 := hs.right a x ha
        have i5 := hs.up x a hx
        have i6 := hs.up x b hx
        have i7 := hs.up b a hb hadj
        have i8 := hs.ne a b ha
        have i9 := hdep a b ha
        have i10 := hdep b b hb
        have i11 := hdep x x hx
        rw [f2, e6]
        unfold ren
        rcases hx' : s.par x with _ | px <;> rcases ha' : s.par a with _ | pa <;> grind
      · intro x hx
        have i1 := hs.left x a hx
        have i2 := hs.left x b hx
        have i3 := hs.left b a hb
        have i4 := hs.left b b hb
        have i5 := hs.left a a ha
        have i6 := hs.up a x ha
        have i7 := hs.up b a hb hadj
        have i8 := hs.ne a b ha
        have i9 := hs.ne x a hx
        have i10 := hdep b b hb
        have i11 := hs.left b x hb
        have i12 := hs.left a x ha
        rw [f3, e7]
        clear lp ll lr e6 e7 e8 f1 f2 f3 f4 f8 hdep hs r1 r2 hra hrb
        unfold ren
        by_cases hxa : x = a
        · subst hxa
          rcases hb1 : s.lft b with _ | lb <;> rcases hb2 : s.rgt b with _ | rb <;> grind
        · by_cases hxb : x = b
          · subst hxb
            rcases ha1 : s.lft a with _ | la <;> rcases ha2 : s.rgt a with _ | ra <;> grind
          · rcases hx1 : s.lft x with _ | lx <;> rcases hx2 : s.rgt x with _ | rx <;> grind
      · intro x hx
        have i1 := hs.right x a hx
        have i2 := hs.right x b hx
        have i3 := hs.right b a hb
        have i4 := hs.right b b hb
        have i5 := hs.right a a ha
        have i6 := hs.up a x ha
        have i7 := hs.up b a hb hadj
        have i8 := hs.ne a b ha
        have i9 := hs.ne x a hx
        have i10 := hdep b b hb
        have i11 := hs.right b x hb
        have i12 := hs.right a x ha
        rw [f4, e8]
        clear lp ll lr e6 e7 e8 f1 f2 f3 f4 f8 hdep hs r1 r2 hra hrb
        unfold ren
        by_cases hxa : x = a
        · subst hxa
          rcases hb1 : s.lft b with _ | lb <;> rcases hb2 : s.rgt b with _ | rb <;> grind
        · by_cases hxb : x = b
          · subst hxb
            rcases ha1 : s.lft a with _ | la <;> rcases ha2 : s.rgt a with _ | ra <;> grind
          · rcases hx1 : s.lft x with _ | lx <;> rcases hx2 : s.rgt x with _ | rx <;> grind
      · have i1 := e6 a
        have i2 := e6 b
        have i3 := hs.left b a hb
        have i4 := hs.right b a hb
        have i5 := hs.left b b hb
        have i6 := hs.right b b hb
        have i7 := hs.left a b ha
        have i8 := hs.right a b ha
        have i9 := hs.left a a ha
        have i10 := hs.right a a ha
        have i11 := hs.ne a b ha
        have i12 := hs.up b a hb hadj
        rw [f8, e4]
        unfold RootOf at hra hrb
        unfold ren
        rcases hx : s.root with _ | r <;> rcases ha' : s.par a with _ | pa <;> grind
      · intro x d e hd he
        rw [f1, e1]
        unfold ren at he
        by_cases hxb : x = b
        · subst hxb
          have : x ≠ a := fun h => hne h.symm
          grind
        · by_cases hxa : x = a
          · subst hxa; grind
          · rw [if_neg hxa, if_neg hxb, hd] at he
            injection he with he; injection he with he; subst he
            rw [if_neg hxb, if_neg hxa, hd]
      · intro x hx
        rw [f1, e1]
        have : x ≠ a := fun h => hx (h ▸ ha)
        have : x ≠ b := fun h => hx (h ▸ hb)
        grind
      · rw [f7, e5]
      · rw [f5, e2]
      · rw [f6, e3]
  · obtain ⟨s1, r1, e1, e2, e3, e4, e5, e6, e7, e8⟩ := swapApart_any (ap := s.par a) (al := s.lft a) (ar := s.rgt a)
      (bp := s.par b) (bl := s.lft b) (br := s.rgt b) ha hb (lp a ha) (ll a ha) (lr a ha) (ll b hb) (lr b hb) (lp b hb)
    obtain ⟨s2, r2, f1, f2, f3, f4, f5, f6, f7, f8⟩ := swapFinish_any (s := s1) (by rw [e1]; exact hda) (by rw [e1]; exact hdb)
    refine ⟨s2, ?_, ?_⟩
    · rw [if_neg hadj]; unfold Returns; rw [bind_returns r1]; exact r2
    have hpaa : s.par a ≠ some a := fun h => hdep a a ha h h
    have hpbb : s.par b ≠ some b := fun h => hdep b b hb h h
    have hpar : ∀ x, Live s.dat x → s2.par x = (s.par (ren a b x)).map (ren a b) := by
      intro x hx
      have i1 := hs.left b x hb
      have i2 := hs.right b x hb
      have i3 := hs.left a x ha
      have i4 := hs.right a x ha
      have i5 := hs.up x a hx
      have i6 := hs.up x b hx
      rw [f2, e6]
      clear lp ll lr e6 e7 e8 f1 f2 f3 f4 f8 hdep hs r1 r2 hra hrb
      unfold ren
      by_cases hxa : x = a
      · subst hxa
        rcases hb' : s.par b with _ | pb <;> grind
      · by_cases hxb : x = b
        · subst hxb
          rcases ha' : s.par a with _ | pa <;> grind
        · rcases hx' : s.par x with _ | px <;> grind
    by_cases hne : a = b
    · subst hne
      rw [hda] at hdb; injection hdb with hdb; injection hdb with hdb; subst hdb
      have hr : ∀ x, ren a a x = x := fun x => by unfold ren; split <;> simp_all
      have hr' : ∀ o : Option Nat, o.map (ren a a) = o := fun o => by cases o <;> simp [hr]
      refine ⟨hpar, ?_, ?_, ?_, ?_, ?_, ?_, ?_, ?_⟩
      · intro x _
        rw [f3, e7, hr', hr]; grind
      · intro x _
        rw [f4, e8, hr', hr]; grind
      · have h1 := hpar a ha
        rw [f2, hr', hr] at h1
        rw [f8, e4, hr', h1]
        unfold RootOf at hra
        grind
      · intro x d e hd he
        rw [hr, hd] at he
        injection he with he; injection he with he; subst he
        rw [f1, e1]
        by_cases hx : x = a
        · subst hx
          rw [hda] at hd; injection hd with hd; injection hd with hd; subst hd
          rw [if_pos rfl]
        · rw [if_neg hx, if_neg hx, hd]
      · intro x hx
        have : x ≠ a := fun h => hx (h ▸ ha)
        rw [f1, e1, if_neg this, if_neg this]
      · rw [f7, e5]
      · rw [f5, e2]
      · rw [f6, e3]
    · refine ⟨hpar, ?_, ?_, ?_, ?_, ?_, ?_, ?_, ?_⟩
      · intro x hx
        have i1 := hs.left x a hx
        have i2 := hs.left x b hx
        have i3 := hs.left b a hb
        have i4 := hs.left b b hb
        have i5 := hs.left a a ha
        have i6 := hs.left a b ha
        have i7 := hs.up a x ha
        have i8 := hs.up b x hb
        have i9 := hdep b b hb
        have i10 := hdep a a ha
        rw [f3, e7]
        clear lp ll lr e6 e7 e8 f1 f2 f3 f4 f8 hdep hs r1 r2 hra hrb
        unfold ren
        by_cases hxa : x = a
        · subst hxa
          rcases hb1 : s.lft b with _ | lb <;> rcases hb2 : s.rgt b with _ | rb <;> grind
        · by_cases hxb : x = b
          · subst hxb
            rcases ha1 : s.lft a with _ | la <;> rcases ha2 : s.rgt a with _ | ra <;> grind
          · rcases hx1 : s.lft x with _ | lx <;> rcases hx2 : s.rgt x with _ | rx <;> grind
      · intro x hx
        have i1 := hs.right x a hx
        have i2 := hs.right x b hx
        have i3 := hs.right b a hb
        have i4 := hs.right b b hb
        have i5 := hs.right a a ha
        have i6 := hs.right a b ha
        have i7 := hs.up a x ha
        have i8 := hs.up b x hb
        have i9 := hdep b b hb
        have i10 := hdep a a ha
        rw [f4, e8]
        clear lp ll lr e6 e7 e8 f1 f2 f3 f4 f8 hdep hs r1 r2 hra hrb
        unfold ren
        by_cases hxa : x = a
        · subst hxa
          rcases hb1 : s.lft b with _ | lb <;> rcases hb2 : s.rgt b with _ | rb <;> grind
        · by_cases hxb : x = b
          · subst hxb
            rcases ha1 : s.lft a with _ | la <;> rcases ha2 : s.rgt a with _ | ra <;> grind
          · rcases hx1 : s.lft x with _ | lx <;> rcases hx2 : s.rgt x with _ | rx <;> grind
      · have i1 := hpar a ha
        have i2 := hpar b hb
        rw [f2] at i1 i2
        rw [f8, e4, i1, i2]
        clear lp ll lr e6 e7 e8 f1 f2 f3 f4 f8 hdep hs r1 r2
        unfold RootOf at hra hrb
        unfold ren
        rcases hx : s.root with _ | r <;> rcases ha' : s.par a with _ | pa <;>
          rcases hb' : s.par b with _ | pb <;> grind
      · intro x d e hd he
        rw [f1, e1]
        unfold ren at he
        by_cases hxb : x = b
        · subst hxb
          have : x ≠ a := fun h => hne h.symm
          grind
        · by_cases hxa : x = a
          · subst hxa; grind
          · rw [if_neg hxa, if_neg hxb, hd] at he
            injection he with he; injection he with he; subst he
            rw [if_neg hxb, if_neg hxa, hd]
      · intro x hx
        rw [f1, e1]
        have : x ≠ a := fun h => hx (h ▸ ha)
        have : x ≠ b := fun h => hx (h ▸ hb)
        grind
      · rw [f7, e5]
      · rw [f5, e2]
      · rw [f6, e3]

theorem rep_left {s : St α} {pa : Ptr} {t : Tr α} (h : Rep s pa t) {n c : Nat} (hn : n ∈ t.ptrs)
    (hc : s.lft n = some c) : c ∈ t.ptrs ∧ s.par c = some n := by
  induction t generalizing pa with
  | nil => simp [T.ptrs] at hn
  | node l p d r ihl ihr =>
    obtain ⟨_, _, h3, _, h5, h6⟩ := h
    simp only [T.ptrs, List.mem_append, List.mem_cons] at hn ⊢
    rcases hn with hn | rfl | hn
    · have := ihl h5 hn; exact ⟨.inl this.1, this.2⟩
    · cases l with
      | nil => rw [h3] at hc; cases hc
      | node l1 q e l2 =>
        rw [h3] at hc; cases hc
        exact ⟨.inl (by simp [T.ptrs]), h5.2.1⟩
    · have := ihr h6 hn; exact ⟨.inr (.inr this.1), this.2⟩

theorem rep_right {s : St α} {pa : Ptr} {t : Tr α} (h : Rep s pa t) {n c : Nat} (hn : n ∈ t.ptrs)
    (hc : s.rgt n = some c) : c ∈ t.ptrs ∧ s.par c = some n := by
  induction t generalizing pa with
  | nil => simp [T.ptrs] at hn
  | node l p d r ihl ihr =>
    obtain ⟨_, _, _, h4, h5, h6⟩ := h
    simp only [T.ptrs, List.mem_append, List.mem_cons] at hn ⊢
    rcases hn with hn | rfl | hn
    · have := ihl h5 hn; exact ⟨.inl this.1, this.2⟩
    · cases r with
      | nil => rw [h4] at hc; cases hc
      | node l1 q e l2 =>
        rw [h4] at hc; cases hc
        exact ⟨.inr (.inr (by simp [T.ptrs])), h6.2.1⟩
    · have := ihr h6 hn; exact ⟨.inr (.inr this.1), this.2⟩

theorem rep_up {s : St α} {pa : Ptr} {t : Tr α} (h : Rep s pa t) {n p : Nat} (hn : n ∈ t.ptrs)
    (hp : s.par n = some p) : (t.root = some n ∧ pa = some p) ∨ (p ∈ t.ptrs ∧ (s.lft p = some n ∨ s.rgt p = some n)) := by
  induction t generalizing pa with
  | nil => simp [T.ptrs] at hn
  | node l q d r ihl ihr =>
    obtain ⟨_, h2, h3, h4, h5, h6⟩ := h
    simp only [T.ptrs, List.mem_append, List.mem_cons] at hn ⊢
    rcases hn with hn | rfl | hn
    · rcases ihl h5 hn with ⟨g1, g2⟩ | ⟨g1, g2⟩
      · cases g2
        exact .inr ⟨.inr (.inl rfl), .inl (by rw [h3, g1])⟩
      · exact .inr ⟨.inl g1, g2⟩
    · exact .inl ⟨rfl, by rw [← h2, hp]⟩
    · rcases ihr h6 hn with ⟨g1, g2⟩ | ⟨g1, g2⟩
      · cases g2
        exact .inr ⟨.inr (.inl rfl), .inr (by rw [h4, g1])⟩
      · exact .inr ⟨.inr (.inr g1), g2⟩

theorem rep_ne {s : St α} {pa : Ptr} {t : Tr α} (h : Rep s pa t) (hd : t.ptrs.Nodup) {n c : Nat} (hn : n ∈ t.ptrs)
    (hc : s.lft n = some c) : s.rgt n ≠ some c := by
  induction t generalizing pa with
  | nil => simp [T.ptrs] at hn
  | node l p d r ihl ihr =>
    obtain ⟨_, _, h3, h4, h5, h6⟩ := h
    obtain ⟨d1, d2, _, _, d5⟩ := nodup_node hd
    simp only [T.ptrs, List.mem_append, List.mem_cons] at hn
    rcases hn with hn | rfl | hn
    · exact ihl h5 d1 hn
    · rw [h3] at hc; rw [h4]
      exact fun hr => d5 c (T.root_mem hc) (T.root_mem hr)
    · exact ihr h6 d2 hn

theorem rep_acyclic {s : St α} {pa : Ptr} {t : Tr α} (h : Rep s pa t) (hd : t.ptrs.Nodup)
    (hpa : ∀ k, pa = some k → k ∉ t.ptrs) {c p : Nat} (hc : c ∈ t.ptrs) (hp : p ∈ t.ptrs)
    (h1 : s.par c = some p) : s.par p ≠ some c := by
  induction t generalizing pa with
  | nil => simp [T.ptrs] at hc
  | node l q d r ihl ihr =>
    obtain ⟨_, g2, _, _, h5, h6⟩ := h
    obtain ⟨d1, d2, d3, d4, d5⟩ := nodup_node hd
    have key : ∀ x ∈ (T.node l q d r).ptrs, s.par q ≠ some x := fun x hx e => hpa x (by rw [← g2, e]) hx
    have kl : ∀ x ∈ l.ptrs, ∀ y, s.par x = some y → y = q ∨ y ∈ l.ptrs := by
      intro x hx y hy
      rcases rep_up h5 hx hy with ⟨_, e⟩ | ⟨e, _⟩
      · cases e; exact .inl rfl
      · exact .inr e
    have kr : ∀ x ∈ r.ptrs, ∀ y, s.par x = some y → y = q ∨ y ∈ r.ptrs := by
      intro x hx y hy
      rcases rep_up h6 hx hy with ⟨_, e⟩ | ⟨e, _⟩
      · cases e; exact .inl rfl
      · exact .inr e
    have hc' := hc
    simp only [T.ptrs, List.mem_append, List.mem_cons] at hc'
    rcases hc' with hc' | rfl | hc'
    · rcases kl c hc' p h1 with rfl | e
      · exact key c hc
      · exact ihl h5 d1 (fun k e => by cases e; exact d3) hc' e
    · exact absurd h1 (key p hp)
    · rcases kr c hc' p h1 with rfl | e
      · exact key c hc
      · exact ihr h6 d2 (fun k e => by cases e; exact d4) hc' e

end Verif.AVL
