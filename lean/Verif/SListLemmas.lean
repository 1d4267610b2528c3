import Verif.LinkedListWorld
import Verif.DListLemmas
import Verif.Spec.SList

/-! # Operations of `SinglyLinkedList` on well-formed memories -/

namespace Verif.SL

open Prog Verif.LL
open Verif.DL (abs abs_put SWorld.put_put)

variable {α : Type}

/-- The cached tail is the last node (the sentinel for an empty list). -/
def Tails (m : Mem α) (g : Nat → Option (List (Nat × α))) : Prop :=
  ∀ k ns, g k = some ns → m.tail k = lastOf (.head k) (ptrs ns)

theorem Tails.put {m m' : Mem α} {g} {k : Nat} {ns : List (Nat × α)} (h : Tails m g)
    (ho : ∀ j, j ≠ k → m'.tail j = m.tail j) (hk : m'.tail k = lastOf (.head k) (ptrs ns)) :
    Tails m' (put g k (some ns)) := by
  intro j a ha
  unfold LL.put at ha
  split at ha
  · rename_i e; cases ha; rw [e]; exact hk
  · rename_i e; rw [ho j e]; exact h j a ha

theorem pushBack_ok {m : Mem α} {g} {k : Nat} {ns : List (Nat × α)} {a : Arg α} {x : α}
    (h : WInv .singly m g) (ht : Tails m g) (hk : g k = some ns) (ha : ArgIs m x a) :
    wp (pushBack k a) (fun _ m' => WInv .singly m' (put g k (some (ns ++ [(m.next, x)]))) ∧
      Tails m' (put g k (some (ns ++ [(m.next, x)])))) m := by
  have hr := h.alive k ns hk
  have hf := h.fresh m.next (Nat.le_refl _)
  have hnew : Ptr.node m.next ∉ ptrs ns := fun hp => by have := h.lt_next hk hp; omega
  unfold pushBack
  rw [wp_bind]
  refine wp_mono (newNode_ok hr.head ha hf) ?_
  rintro n m1 ⟨rfl, l1, s1, n1, p1, d1, c1, x1, z1, t1, o1⟩
  have hne : ∀ p ∈ Ptr.head k :: ptrs ns, p ≠ .node m.next := by
    intro p hp e
    rcases List.mem_cons.1 hp with e' | hp
    · rw [e'] at e; cases e
    · rw [e] at hp; exact hnew hp
  have live1 : ∀ p ∈ Ptr.head k :: ptrs ns, Live m1 p := by
    intro p hp
    have := hr.live hp
    rw [live_iff] at this ⊢
    exact ⟨this.1, by rw [s1 p (hne p hp)]; exact this.2⟩
  have hlast := lastOf_mem (.head k) (ptrs ns)
  have hhead : Ptr.head k ∈ Ptr.head k :: ptrs ns := List.mem_cons_self ..
  have hl1 := live1 _ hhead
  rw [wp_bind, wp_of_returns (getTail_ok hl1), t1, ht k ns hk, wp_bind]
  refine wp_mono (linkAdd_ok (kd := .singly) (b := .head k) (live1 _ hlast) l1 hl1
    (by rw [n1 _ (hne _ hlast)]; exact hr.fwd.last) (Ne.symm (hne _ hlast))) ?_
  rintro _ m2 ⟨s2, n2, p2, d2, c2⟩
  have hl2 := s2.live hl1
  rw [wp_bind, wp_of_returns (getSize_ok hl2), wp_bind, wp_of_returns (setSize_ok hl2)]
  have key : WInv .singly { m2 with sz := fun x => if x = k then m2.sz k + 1 else m2.sz x }
      (put g k (some (ns ++ [(m.next, x)]))) := by
    refine h.addBack hk (fun p hp => s2.live (live1 p hp)) ?_ ?_ ?_ (fun e => (by cases e)) ?_ ?_ ?_ ?_ ?_
    · intro p h1 h2
      show nx m2 p = _
      rw [n2, if_neg h1, if_neg h2, n1 p h2]
    · show nx m2 _ = _
      rw [n2, if_pos rfl]
    · show nx m2 _ = _
      rw [n2, if_neg (Ne.symm (hne _ hlast)), if_pos rfl]
    · intro p
      show dt m2 p = _
      rw [d2, d1]
    · intro p h1 h2 h3
      show m2.cell p = _
      rw [c2 p (fun e => ?_) h1 h3, c1 p h3 h1]
      rcases List.mem_cons.1 hlast with e' | e'
      · exact h1 (e.trans e')
      · rw [← e] at e'; exact h2 e'
    · show (fun x => if x = k then m2.sz k + 1 else m2.sz x) = _
      rw [s2.sz, z1]
    · show m2.next = _
      rw [s2.next, x1]
    · show m2.lost = _
      rw [s2.lost, o1]
  rw [wp_of_returns (setTail_ok (key.alive k (ns ++ [(m.next, x)]) (by simp [put])).head)]
  refine ⟨key.setTail _, ht.put ?_ ?_⟩
  · intro j hj
    show (if j = k then _ else m2.tail j) = _
    rw [if_neg hj, s2.tail, t1]
  · show (if k = k then _ else _) = _
    rw [if_pos rfl, show ptrs (ns ++ [(m.next, x)]) = ptrs ns ++ [Ptr.node m.next] by simp,
      lastOf_append]

theorem pushFront_ok {m : Mem α} {g} {k : Nat} {ns : List (Nat × α)} {a : Arg α} {x : α}
    (h : WInv .singly m g) (ht : Tails m g) (hk : g k = some ns) (ha : ArgIs m x a) :
    wp (pushFront k a) (fun _ m' => WInv .singly m' (put g k (some ((m.next, x) :: ns))) ∧
      Tails m' (put g k (some ((m.next, x) :: ns)))) m := by
  unfold pushFront
  rw [wp_bind]
  refine wp_mono (basePushFront_ok h hk ha) ?_
  rintro _ m1 ⟨h1, t1, _⟩
  have hr := h1.alive k ((m.next, x) :: ns) (by simp [put])
  rw [wp_bind, wp_of_returns (getSize_ok hr.head), hr.size]
  cases ns with
  | nil =>
    rw [if_pos (by simp), wp_bind, wp_of_returns (getNext_ok hr.head hr.fwd.first),
      wp_of_returns (setTail_ok hr.head)]
    refine ⟨h1.setTail _, ht.put ?_ ?_⟩
    · intro j hj
      show (if j = k then _ else m1.tail j) = _
      rw [if_neg hj, t1]
    · show (if k = k then _ else _) = _
      rw [if_pos rfl]; rfl
  | cons e ns =>
    rw [if_neg (by simp)]
    refine (wp_pure _ _ _).2 ⟨h1, ht.put (fun j _ => by rw [t1]) ?_⟩
    rw [t1, ht k _ hk]
    simp only [List.map_cons, lastOf_cons]

theorem popFront_ok {m : Mem α} {g} {k : Nat} {e : Nat × α} {ns : List (Nat × α)}
    (h : WInv .singly m g) (ht : Tails m g) (hk : g k = some (e :: ns)) :
    wp (popFront k) (fun _ m' => WInv .singly m' (put g k (some ns)) ∧
      Tails m' (put g k (some ns))) m := by
  unfold popFront
  rw [wp_bind]
  refine wp_mono (basePopFront_ok (i := e.1) (x := e.2) h hk) ?_
  rintro _ m1 ⟨h1, t1, _⟩
  have hr := h1.alive k ns (by simp [put])
  rw [wp_bind, wp_of_returns (getSize_ok hr.head), hr.size]
  cases ns with
  | nil =>
    rw [if_pos (by simp), wp_of_returns (setTail_ok hr.head)]
    refine ⟨h1.setTail _, ht.put ?_ ?_⟩
    · intro j hj
      show (if j = k then _ else m1.tail j) = _
      rw [if_neg hj, t1]
    · show (if k = k then _ else _) = _
      rw [if_pos rfl]; rfl
  | cons f ns =>
    rw [if_neg (by simp)]
    refine (wp_pure _ _ _).2 ⟨h1, ht.put (fun j _ => by rw [t1]) ?_⟩
    rw [t1, ht k _ hk]
    simp only [List.map_cons, lastOf_cons]

/-- The inherited `push` on a non-empty list. -/
theorem push_ok {m : Mem α} {g} {k : Nat} {ns : List (Nat × α)} {x : α}
    (h : WInv .singly m g) (ht : Tails m g) (hk : g k = some ns) (hne : ns ≠ []) :
    wp (basePushFront .singly k (.val x)) (fun _ m' => WInv .singly m' (put g k (some ((m.next, x) :: ns))) ∧
      Tails m' (put g k (some ((m.next, x) :: ns)))) m := by
  refine wp_mono (basePushFront_ok (a := .val x) h hk (x := x) rfl) ?_
  rintro _ m1 ⟨h1, t1, _⟩
  refine ⟨h1, ht.put (fun j _ => by rw [t1]) ?_⟩
  rw [t1, ht k _ hk]
  cases ns with
  | nil => exact absurd rfl hne
  | cons e ns => simp only [List.map_cons, lastOf_cons]

/-- The inherited `pop` on a list of at least two elements. -/
theorem pop_ok {m : Mem α} {g} {k : Nat} {e : Nat × α} {ns : List (Nat × α)}
    (h : WInv .singly m g) (ht : Tails m g) (hk : g k = some (e :: ns)) (hne : ns ≠ []) :
    wp (basePopFront .singly k) (fun _ m' => WInv .singly m' (put g k (some ns)) ∧
      Tails m' (put g k (some ns))) m := by
  refine wp_mono (basePopFront_ok (i := e.1) (x := e.2) h hk) ?_
  rintro _ m1 ⟨h1, t1, _⟩
  refine ⟨h1, ht.put (fun j _ => by rw [t1]) ?_⟩
  rw [t1, ht k _ hk]
  cases ns with
  | nil => exact absurd rfl hne
  | cons e ns => simp only [List.map_cons, lastOf_cons]

theorem clear_ok {m : Mem α} {g} {k : Nat} {ns : List (Nat × α)}
    (h : WInv .singly m g) (ht : Tails m g) (hk : g k = some ns) :
    wp (clear k) (fun _ m' => WInv .singly m' (put g k (some [])) ∧
      Tails m' (put g k (some []))) m := by
  unfold clear
  rw [wp_bind]
  refine wp_mono (baseClear_ok h hk) ?_
  rintro _ m1 ⟨h1, t1, _⟩
  have hr := h1.alive k [] (by simp [put])
  rw [wp_of_returns (setTail_ok hr.head)]
  refine ⟨h1.setTail _, ht.put ?_ ?_⟩
  · intro j hj
    show (if j = k then _ else m1.tail j) = _
    rw [if_neg hj, t1]
  · show (if k = k then _ else _) = _
    rw [if_pos rfl]; rfl

theorem new_ok {m : Mem α} {g} {dflt : Option α} {k : Nat}
    (h : WInv .singly m g) (ht : Tails m g) (hk : g k = none) :
    wp (new dflt k) (fun _ m' => WInv .singly m' (put g k (some [])) ∧
      Tails m' (put g k (some []))) m := by
  unfold new
  rw [wp_bind]
  refine wp_mono (baseNew_ok h hk) ?_
  rintro _ m1 ⟨h1, t1⟩
  have hr := h1.alive k [] (by simp [put])
  rw [wp_of_returns (setTail_ok hr.head)]
  refine ⟨h1.setTail _, ht.put ?_ ?_⟩
  · intro j hj
    show (if j = k then _ else m1.tail j) = _
    rw [if_neg hj, t1]
  · show (if k = k then _ else _) = _
    rw [if_pos rfl]; rfl

theorem findLast_ok {m : Mem α} {k : Nat} {z : Ptr} (hh : Live m (.head k)) (hz : m.tail k = z) :
    ∀ (l : List Ptr) (link : Ptr), Chain (nx m) (link :: l ++ [z]) → z ∉ l →
      (∀ p ∈ link :: l, Live m p) → Returns (findLast k link) m (lastOf link l) m := by
  intro l
  induction l with
  | nil =>
    intro link hc _ hl
    show findLast k link m = some (.ok (link, m))
    unfold findLast
    rw [bind_returns (getNext_ok (hl link (by simp)) hc.1), bind_returns (getTail_ok hh), hz,
      if_pos rfl]
    rfl
  | cons q l ih =>
    intro link hc hzl hl
    have hq : q ≠ z := fun e => hzl (by simp [e])
    have hlk := hl link (by simp)
    unfold findLast Returns
    rw [bind_returns (getNext_ok hlk hc.1), bind_returns (getTail_ok hh), hz, if_neg hq,
      bind_returns (getNext_ok hlk hc.1), lastOf_cons]
    exact ih q hc.2 (fun e => hzl (List.mem_cons_of_mem _ e))
      (fun p hp => hl p (List.mem_cons_of_mem _ hp))

theorem popBack_ok {m : Mem α} {g} {k i : Nat} {x : α} {ns : List (Nat × α)}
    (h : WInv .singly m g) (ht : Tails m g) (hk : g k = some (ns ++ [(i, x)])) :
    wp (popBack k) (fun _ m' => WInv .singly m' (put g k (some ns)) ∧
      Tails m' (put g k (some ns))) m := by
  have hr := h.alive k _ hk
  have hps : ptrs (ns ++ [(i, x)]) = ptrs ns ++ [Ptr.node i] := by simp
  have hnd := hr.nodup
  rw [hps, ← List.cons_append, List.nodup_append] at hnd
  have hne : ∀ p ∈ Ptr.head k :: ptrs ns, p ≠ .node i := fun p hp => hnd.2.2 p hp _ (by simp)
  have hmem : ∀ p ∈ Ptr.head k :: ptrs ns, p ∈ Ptr.head k :: ptrs (ns ++ [(i, x)]) := by
    intro p hp; rw [hps, ← List.cons_append]; exact List.mem_append_left _ hp
  have hli : Live m (.node i) := hr.live (by rw [hps]; simp)
  have hlast := lastOf_mem (.head k) (ptrs ns)
  have htl : m.tail k = .node i := by rw [ht k _ hk, hps, lastOf_append]
  have hch : Chain (nx m) (.head k :: ptrs ns ++ [.node i]) := by
    have := hr.fwd
    unfold Circle at this
    rw [hps, show Ptr.head k :: (ptrs ns ++ [Ptr.node i]) ++ [Ptr.head k]
      = (Ptr.head k :: ptrs ns) ++ Ptr.node i :: [Ptr.head k] by simp, Chain.append] at this
    exact this.1
  unfold popBack
  rw [wp_bind, wp_of_returns (getSize_ok hr.head), wp_bind, wp_dassert]
  refine ⟨by rw [hr.size]; simp, ?_⟩
  rw [wp_bind, wp_of_returns (findLast_ok hr.head htl (ptrs ns) (.head k) hch
    (fun hp => hne _ (List.mem_cons_of_mem _ hp) rfl) (fun p hp => hr.live (hmem p hp)))]
  generalize hL : lastOf (.head k) (ptrs ns) = L
  rw [hL] at hlast
  rw [wp_bind, wp_of_returns (getTail_ok hr.head), htl, wp_bind, wp_of_returns (destroyNode_ok hli)]
  generalize hm1 : ({ m with cell := fun x => if x = Ptr.node i then some none else m.cell x } : Mem α) = m1
  have c1 : ∀ p, m1.cell p = if p = .node i then some none else m.cell p := by subst hm1; intro p; rfl
  have t1 : m1.tail = m.tail := by subst hm1; rfl
  have live1 : ∀ p ∈ Ptr.head k :: ptrs ns, Live m1 p := by
    intro p hp
    obtain ⟨h0, c, hc⟩ := hr.live (hmem p hp)
    exact ⟨h0, c, by rw [c1, if_neg (hne p hp)]; exact hc⟩
  have hh := List.mem_cons_self (a := Ptr.head k) (l := ptrs ns)
  rw [wp_bind, wp_of_returns (getTail_ok (live1 _ hh)), t1, htl, wp_bind,
    wp_of_returns (freeNode_ok (by rw [c1, if_pos rfl]))]
  generalize hm2 : ({ m1 with cell := fun x => if x = Ptr.node i then none else m1.cell x } : Mem α) = m2
  have c2 : ∀ p, m2.cell p = if p = .node i then none else m.cell p := by
    subst hm2; intro p
    show (if p = _ then none else m1.cell p) = _
    rw [c1]; split <;> rfl
  have live2 : ∀ p ∈ Ptr.head k :: ptrs ns, Live m2 p := by
    intro p hp
    obtain ⟨h0, c, hc⟩ := hr.live (hmem p hp)
    exact ⟨h0, c, by rw [c2, if_neg (hne p hp)]; exact hc⟩
  have z2 : m2.sz = m.sz := by subst hm2; subst hm1; rfl
  have t2 : m2.tail = m.tail := by subst hm2; subst hm1; rfl
  have x2 : m2.next = m.next := by subst hm2; subst hm1; rfl
  have o2 : m2.lost = m.lost := by subst hm2; subst hm1; rfl
  rw [wp_bind, wp_of_returns (getSize_ok (live2 _ hh)), wp_bind, wp_of_returns (setSize_ok (live2 _ hh))]
  generalize hm3 : ({ m2 with sz := fun x => if x = k then m2.sz k - 1 else m2.sz x } : Mem α) = m3
  have c3 : ∀ p, m3.cell p = m2.cell p := by subst hm3; intro p; rfl
  have live3 : ∀ p ∈ Ptr.head k :: ptrs ns, Live m3 p := by
    intro p hp
    obtain ⟨h0, c, hc⟩ := live2 p hp
    exact ⟨h0, c, by rw [c3]; exact hc⟩
  rw [wp_bind, wp_of_returns (setTail_ok (live3 _ hh))]
  generalize hm4 : ({ m3 with tail := fun x => if x = k then L else m3.tail x } : Mem α) = m4
  have c4 : ∀ p, m4.cell p = if p = .node i then none else m.cell p := by
    subst hm4; intro p; show m3.cell p = _; rw [c3, c2]
  have live4 : ∀ p ∈ Ptr.head k :: ptrs ns, Live m4 p := by
    intro p hp
    obtain ⟨h0, c, hc⟩ := hr.live (hmem p hp)
    exact ⟨h0, c, by rw [c4, if_neg (hne p hp)]; exact hc⟩
  have z4 : m4.sz = fun x => if x = k then m.sz k - 1 else m.sz x := by
    subst hm4; subst hm3
    show (fun x => if x = k then m2.sz k - 1 else m2.sz x) = _
    rw [z2]
  have t4 : m4.tail = fun x => if x = k then L else m.tail x := by
    subst hm4; subst hm3
    show (fun x => if x = k then L else m2.tail x) = _
    rw [t2]
  have x4 : m4.next = m.next := by subst hm4; subst hm3; exact x2
  have o4 : m4.lost = m.lost := by subst hm4; subst hm3; exact o2
  have nx4 : ∀ p, p ≠ .node i → nx m4 p = nx m p := by
    intro p hp; unfold nx; rw [c4, if_neg hp]
  have dt4 : ∀ p, p ≠ .node i → dt m4 p = dt m p := by
    intro p hp; unfold dt; rw [c4, if_neg hp]
  refine wp_mono (setNext_ok (live4 _ hlast)) ?_
  rintro _ m5 ⟨s5, n5, p5, d5, c5⟩
  have hfree : m5.cell (.node i) = none := by
    rw [c5 _ (Ne.symm (hne _ hlast)), c4, if_pos rfl]
  refine ⟨h.removeBack hk (s5.live (live4 _ hh)) ?_ ?_ (fun e => (by cases e)) ?_ ?_ hfree ?_ ?_ ?_,
    ht.put ?_ ?_⟩
  · intro p h1 h2
    rw [hL] at h1
    rw [n5, if_neg h1, nx4 p h2]
  · rw [hL, n5, if_pos rfl]
  · intro p hp; rw [d5, dt4 p hp]
  · intro p h1 h2 h3
    rw [c5 p (fun e => ?_), c4, if_neg h3]
    rcases List.mem_cons.1 hlast with e' | e'
    · exact h1 (e.trans e')
    · rw [← e] at e'; exact h2 e'
  · rw [s5.sz, z4]
  · rw [s5.next, x4]
  · rw [s5.lost, o4]
  · intro j hj; rw [s5.tail, t4]; simp [hj]
  · rw [s5.tail, t4, hL]; simp

theorem moveAssign_ok {m : Mem α} {g} {d s : Nat} {old ns : List (Nat × α)}
    (h : WInv .singly m g) (ht : Tails m g) (hds : d ≠ s) (hd : g d = some old) (hs : g s = some ns)
    (hne : ns ≠ []) :
    wp (moveAssign d s) (fun _ m' => WInv .singly m' (put (put g d (some ns)) s (some [])) ∧
      Tails m' (put (put g d (some ns)) s (some []))) m := by
  unfold moveAssign
  rw [wp_bind]
  refine wp_mono (baseMove_ok h hds hd hs) ?_
  rintro _ m2 ⟨m1, h1, t1, rs, ld, nd, pd, c2, z2, t2, x2, o2⟩
  have hs1 : put g d (some []) s = some ns := by simp [put, Ne.symm hds, hs]
  have hr := h1.alive s ns hs1
  have hps : ptrs ns ≠ [] := by simpa using hne
  have hnode : ∀ {p : Ptr}, p ∈ ptrs ns → ∀ j, p ≠ .head j := by
    intro p hp j
    obtain ⟨e, _, rfl⟩ := List.mem_map.1 hp; simp
  have hlast : lastOf (.head s) (ptrs ns) ∈ ptrs ns := by
    rcases List.mem_cons.1 (lastOf_mem (.head s) (ptrs ns)) with e | e
    · obtain ⟨xs, z, e'⟩ : ∃ xs z, ptrs ns = xs ++ [z] :=
        ⟨(ptrs ns).dropLast, (ptrs ns).getLast hps, (List.dropLast_concat_getLast hps).symm⟩
      rw [e', lastOf_append]; simp
    · exact e
  have live2 : ∀ p ∈ ptrs ns, Live m2 p := by
    intro p hp
    obtain ⟨h0, c, hc⟩ := hr.live (List.mem_cons_of_mem _ hp)
    exact ⟨h0, c, by rw [c2 p (hnode hp d) (hnode hp s)]; exact hc⟩
  have htl : m2.tail s = lastOf (.head s) (ptrs ns) := by rw [t2, t1, ht s ns hs]
  rw [wp_bind, wp_of_returns (getTail_ok rs.head), htl, wp_bind, wp_of_returns (setTail_ok ld)]
  generalize hm3 : ({ m2 with tail := fun x => if x = d then lastOf (.head s) (ptrs ns) else m2.tail x } : Mem α) = m3
  have c3 : m3.cell = m2.cell := by subst hm3; rfl
  have live3 : ∀ {p}, Live m2 p → Live m3 p := by
    rintro p ⟨h0, c, hc⟩; exact ⟨h0, c, by rw [c3]; exact hc⟩
  have t3 : m3.tail = fun x => if x = d then lastOf (.head s) (ptrs ns) else m2.tail x := by
    subst hm3; rfl
  have ht3 : m3.tail d = lastOf (.head s) (ptrs ns) := by rw [t3]; simp
  rw [wp_bind, wp_of_returns (getTail_ok (live3 ld)), ht3, wp_bind]
  refine wp_mono (setNext_ok (live3 (live2 _ hlast))) ?_
  rintro _ m4 ⟨s4, n4, p4, d4, c4⟩
  rw [wp_of_returns (setTail_ok (s4.live (live3 rs.head)))]
  have hdl : Ptr.head d ≠ lastOf (.head s) (ptrs ns) := Ne.symm (hnode hlast d)
  have hnodup : (ptrs ns).Nodup := (List.nodup_cons.1 hr.nodup).2
  have hz : m4.sz = m2.sz := by rw [s4.sz]; subst hm3; rfl
  have nx3 : ∀ p, nx m3 p = nx m2 p := by intro p; unfold nx; rw [c3]
  have dt3 : ∀ p, dt m3 p = dt m2 p := by intro p; unfold dt; rw [c3]
  have hsame : ∀ p, p ≠ .head d → p ≠ .head s → nx m2 p = nx m1 p ∧ dt m2 p = dt m1 p := by
    intro p h1 h2
    unfold nx dt; rw [c2 p h1 h2]; exact ⟨rfl, rfl⟩
  have hcs : m4.cell (.head s) = m2.cell (.head s) := by
    rw [c4 _ (Ne.symm (hnode hlast s)), c3]
  have res : WInv .singly m4 (put (put (put g d (some [])) d (some ns)) s (some [])) := by
    refine h1.transfer hds (by simp [put]) hs1 ?_ ?_ ?_ ?_ ?_ ?_
    · refine ⟨s4.live (live3 ld), ?_, ?_, fun e => (by cases e), ?_, ?_⟩
      · rw [hz, z2]; simp [hds]
      · refine hr.fwd.rehead hps hnodup ?_ ?_ ?_
        · rw [n4, if_neg hdl, nx3, nd]
        · rw [n4, if_pos rfl]
        · intro p hp hpl
          rw [n4, if_neg hpl, nx3, (hsame p (hnode hp d) (hnode hp s)).1]
      · intro e he
        rw [d4, dt3, (hsame _ (by simp) (by simp)).2]
        exact hr.data e he
      · rw [List.nodup_cons]
        exact ⟨fun hp => hnode hp d rfl, hnodup⟩
    · refine rs.cell_congr (by rw [hz]) ?_
      intro p hp
      rw [List.mem_singleton.1 hp]; exact hcs
    · intro j h1 h2; rw [hz, z2]; simp [h1, h2]
    · intro p h1 h2 h3
      rw [c4 p (fun e => h3 (e ▸ hlast)), c3, c2 p h1 h2]
    · rw [s4.next]; subst hm3; exact x2
    · rw [s4.lost]; subst hm3; exact o2
  rw [put_put] at res
  refine ⟨res.setTail _, ?_⟩
  have ht4 : ∀ j, m4.tail j = if j = d then lastOf (.head s) (ptrs ns) else m.tail j := by
    intro j; rw [s4.tail, t3, t2, t1]
  intro j a ha
  show (if j = s then Ptr.head s else m4.tail j) = _
  unfold put at ha
  split at ha
  · rename_i e; cases ha; rw [if_pos e, e]; rfl
  · rename_i e
    rw [if_neg e, ht4]
    split at ha
    · rename_i e'; cases ha; rw [if_pos e']; exact lastOf_ne_nil _ _ hps
    · rename_i e'; rw [if_neg e']; exact ht j a ha

theorem back_ok {m : Mem α} {g} {k : Nat} {i : Nat} {x : α} {ns : List (Nat × α)}
    (h : WInv .singly m g) (ht : Tails m g) (hk : g k = some (ns ++ [(i, x)])) :
    Returns (back k) m x m := by
  have hr := h.alive k _ hk
  have htl : m.tail k = .node i := by
    rw [ht k _ hk, show ptrs (ns ++ [(i, x)]) = ptrs ns ++ [Ptr.node i] by simp, lastOf_append]
  unfold back Returns
  rw [bind_returns (getSize_ok hr.head), dassert_pos (by rw [hr.size]; simp)]
  show (getTail k >>= _) m = _
  rw [bind_returns (getTail_ok hr.head), htl]
  exact getData_ok (hr.live (by simp)) (hr.data (i, x) (by simp))

/-- Memory `m` holds exactly the lists of `w`, with the right tails. -/
def Holds (m : Mem α) (w : SWorld α) : Prop := ∃ g, WInv .singly m g ∧ Tails m g ∧ abs g = w

theorem Holds.get {m : Mem α} {w : SWorld α} {k : Nat} {l : List α} (h : Holds m w) (hk : w k = some l) :
    ∃ g ns, WInv .singly m g ∧ Tails m g ∧ abs g = w ∧ g k = some ns ∧ ns.map (·.2) = l := by
  obtain ⟨g, h1, h2, rfl⟩ := h
  unfold abs at hk
  rcases e : g k with _ | ns
  · simp [e] at hk
  · simp only [e, Option.map_some, Option.some.injEq] at hk
    exact ⟨g, ns, h1, h2, rfl, e, hk⟩

theorem Holds.shows {m : Mem α} {w : SWorld α} (h : Holds m w) : Shows m w := by
  intro k
  refine ⟨fun hk => ?_, fun l hk => ?_⟩
  · obtain ⟨g, h1, _, rfl⟩ := h
    exact h1.dead k (by simpa [abs] using hk)
  · obtain ⟨g, ns, h1, ht, _, h3, rfl⟩ := h.get hk
    have hr := h1.alive k ns h3
    refine ⟨iterate_ok hr, ?_, ?_, ?_, ?_⟩
    · have := getSize_ok hr.head
      rw [hr.size] at this
      rw [List.length_map]; exact this
    · have := empty_ok hr
      have e : ((ns.map (·.2)).length == 0) = ns.isEmpty := by cases ns <;> simp
      rw [e]; exact this
    · intro x hx
      cases ns with
      | nil => simp at hx
      | cons e ns =>
        simp only [List.map_cons, List.head?_cons, Option.some.injEq] at hx
        subst hx
        exact front_ok hr
    · intro x hx
      cases hn : ns.reverse with
      | nil => simp only [List.reverse_eq_nil_iff] at hn; subst hn; simp at hx
      | cons e t =>
        have hns : ns = t.reverse ++ [e] := by
          rw [← List.reverse_reverse ns, hn]; simp
        subst hns
        simp only [List.map_append, List.map_cons, List.map_nil, List.getLast?_append,
          List.getLast?_singleton, Option.some_or, Option.some.injEq] at hx
        subst hx
        exact back_ok h1 ht h3

theorem fill_ok {m : Mem α} {w : SWorld α} {k : Nat} (n : Nat) (x : α) (l : List α) (h : Holds m w)
    (hk : w k = some l) (i : Nat) :
    wp (forRange n i () fun _ _ => pushBack k (.val x))
      (fun _ m' => Holds m' (w.put k (some (l ++ List.replicate n x)))) m := by
  induction n generalizing m w l i with
  | zero =>
    refine (wp_pure _ _ _).2 ?_
    have : w.put k (some (l ++ List.replicate 0 x)) = w := by
      funext j; unfold DL.SWorld.put; split
      · rename_i e; rw [e, hk]; simp
      · rfl
    rw [this]; exact h
  | succ n ih =>
    obtain ⟨g, ns, h1, ht, h2, h3, h4⟩ := h.get hk
    show wp (pushBack k (.val x) >>= _) _ _
    rw [wp_bind]
    refine wp_mono (pushBack_ok h1 ht h3 (x := x) rfl) ?_
    rintro _ m1 ⟨h5, ht5⟩
    have h6 : Holds m1 (w.put k (some (l ++ [x]))) :=
      ⟨_, h5, ht5, by rw [abs_put, h2]; simp [h4]⟩
    refine wp_mono (ih (l ++ [x]) h6 (by simp [DL.SWorld.put]) (i + 1)) ?_
    rintro _ m2 h7
    rw [SWorld.put_put] at h7
    rw [List.replicate_succ, List.append_cons]
    exact h7

/-! ## All operations -/

theorem step_ok {dflt : Option α} {op : Op α} {m : Mem α} {w w' : SWorld α} (h : Holds m w)
    (hs : specStep op w = some w') (ha : Avoids op w) :
    wp (step dflt op) (fun _ m' => Holds m' w') m := by
  have hnew : ∀ k, (w k).isNone = true → wp (new dflt k) (fun _ m' => Holds m' (w.put k (some []))) m := by
    intro k hk
    obtain ⟨g, h1, ht, rfl⟩ := h
    refine wp_mono (new_ok h1 ht (by simpa [abs] using hk)) ?_
    rintro _ m1 ⟨h2, ht2⟩
    exact ⟨_, h2, ht2, by rw [abs_put]; rfl⟩
  cases op with
  | new k =>
    simp only [specStep] at hs
    split at hs
    · rename_i hk; cases hs; exact hnew k hk
    · cases hs
  | newFill k n x =>
    simp only [specStep] at hs
    split at hs
    · rename_i hk; cases hs
      show wp (newFill dflt k n x) _ _
      unfold newFill
      rw [wp_bind]
      refine wp_mono (hnew k hk) ?_
      rintro _ m1 h1
      refine wp_mono (fill_ok n x [] h1 (by simp [DL.SWorld.put]) 0) ?_
      rintro _ m2 h2
      rw [SWorld.put_put] at h2
      exact h2
    · cases hs
  | pushFront k x =>
    rcases hk : w k with _ | l
    · simp [specStep, hk] at hs
    · simp only [specStep, hk, Option.bind_some, Option.some.injEq] at hs
      subst hs
      obtain ⟨g, ns, h1, ht, rfl, h3, rfl⟩ := h.get hk
      refine wp_mono (pushFront_ok (a := .val x) h1 ht h3 (x := x) rfl) ?_
      rintro _ m1 ⟨h4, ht4⟩
      exact ⟨_, h4, ht4, by rw [abs_put]; rfl⟩
  | push k x =>
    rcases hk : w k with _ | l
    · simp [specStep, hk] at hs
    · simp only [specStep, hk, Option.bind_some, Option.some.injEq] at hs
      subst hs
      obtain ⟨g, ns, h1, ht, rfl, h3, rfl⟩ := h.get hk
      have hne : ns ≠ [] := by rintro rfl; exact ha (by rw [hk]; rfl)
      refine wp_mono (push_ok h1 ht h3 hne) ?_
      rintro _ m1 ⟨h4, ht4⟩
      exact ⟨_, h4, ht4, by rw [abs_put]; rfl⟩
  | pushBack k x =>
    rcases hk : w k with _ | l
    · simp [specStep, hk] at hs
    · simp only [specStep, hk, Option.bind_some, Option.some.injEq] at hs
      subst hs
      obtain ⟨g, ns, h1, ht, rfl, h3, rfl⟩ := h.get hk
      refine wp_mono (pushBack_ok (a := .val x) h1 ht h3 (x := x) rfl) ?_
      rintro _ m1 ⟨h4, ht4⟩
      exact ⟨_, h4, ht4, by rw [abs_put]; simp⟩
  | popFront k =>
    rcases hk : w k with _ | l
    · simp [specStep, hk] at hs
    · simp only [specStep, hk, Option.bind_some] at hs
      split at hs
      · cases hs
      rename_i hne
      cases hs
      obtain ⟨g, ns, h1, ht, rfl, h3, rfl⟩ := h.get hk
      cases ns with
      | nil => simp at hne
      | cons e ns =>
        refine wp_mono (popFront_ok h1 ht h3) ?_
        rintro _ m1 ⟨h4, ht4⟩
        exact ⟨_, h4, ht4, by rw [abs_put]; rfl⟩
  | pop k =>
    rcases hk : w k with _ | l
    · simp [specStep, hk] at hs
    · simp only [specStep, hk, Option.bind_some] at hs
      split at hs
      · cases hs
      rename_i hne
      cases hs
      obtain ⟨g, ns, h1, ht, rfl, h3, rfl⟩ := h.get hk
      cases ns with
      | nil => simp at hne
      | cons e ns =>
        have hne' : ns ≠ [] := by rintro rfl; exact ha e.2 (by rw [hk]; rfl)
        refine wp_mono (pop_ok h1 ht h3 hne') ?_
        rintro _ m1 ⟨h4, ht4⟩
        exact ⟨_, h4, ht4, by rw [abs_put]; rfl⟩
  | popBack k =>
    rcases hk : w k with _ | l
    · simp [specStep, hk] at hs
    · simp only [specStep, hk, Option.bind_some] at hs
      split at hs
      · cases hs
      rename_i hne
      cases hs
      obtain ⟨g, ns, h1, ht, rfl, h3, rfl⟩ := h.get hk
      have hne' : ns ≠ [] := by rintro rfl; simp at hne
      have hsplit : ns = ns.dropLast ++ [((ns.getLast hne').1, (ns.getLast hne').2)] :=
        (List.dropLast_concat_getLast hne').symm
      rw [hsplit] at h3
      refine wp_mono (popBack_ok h1 ht h3) ?_
      rintro _ m1 ⟨h4, ht4⟩
      exact ⟨_, h4, ht4, by rw [abs_put]; simp⟩
  | clear k =>
    rcases hk : w k with _ | l
    · simp [specStep, hk] at hs
    · simp only [specStep, hk, Option.bind_some, Option.some.injEq] at hs
      subst hs
      obtain ⟨g, ns, h1, ht, rfl, h3, rfl⟩ := h.get hk
      refine wp_mono (clear_ok h1 ht h3) ?_
      rintro _ m1 ⟨h4, ht4⟩
      exact ⟨_, h4, ht4, by rw [abs_put]; rfl⟩
  | copy d s =>
    rcases hd : w d with _ | ld
    · simp [specStep, hd] at hs
    rcases hk : w s with _ | ls
    · simp [specStep, hd, hk] at hs
    simp only [specStep, hd, hk, Option.bind_some, Option.some.injEq] at hs
    subst hs
    obtain ⟨g, nd, h1, ht, rfl, h3, rfl⟩ := h.get hd
    obtain ⟨ns, h4, h5⟩ : ∃ ns, g s = some ns ∧ ns.map (·.2) = ls := by
      simpa [abs] using hk
    obtain ⟨_, g1, _⟩ := get_ok (h1.alive d nd h3).head
    obtain ⟨_, g2, _⟩ := get_ok (h1.alive s ns h4).head
    rw [step, wp_bind, wp_of_returns g1, wp_bind, wp_of_returns g2]
    split
    · rename_i hds
      subst hds
      refine (wp_pure _ _ _).2 ⟨g, h1, ht, ?_⟩
      funext j; unfold DL.SWorld.put; split
      · rename_i e; rw [e, hk]
      · rfl
    · rename_i hds
      have hls : ls = [] := by
        rcases ha with ha | ha
        · exact absurd ha hds
        · rw [hk] at ha; simpa using ha
      subst hls
      have hns : ns = [] := by simpa using h5
      subst hns
      unfold copyAssign
      rw [wp_bind]
      refine wp_mono (clear_ok h1 ht h3) ?_
      rintro _ m1 ⟨h6, ht6⟩
      have hr1 := h6.alive s [] (by simp [put, Ne.symm hds, h4])
      rw [wp_bind, wp_of_returns (getSize_ok hr1.head), hr1.size, if_neg (by simp)]
      exact (wp_pure _ _ _).2 ⟨_, h6, ht6, by rw [abs_put]; rfl⟩
  | move d s =>
    rcases hd : w d with _ | ld
    · simp [specStep, hd] at hs
    rcases hk : w s with _ | ls
    · simp [specStep, hd, hk] at hs
    simp only [specStep, hd, hk, Option.bind_some] at hs
    obtain ⟨g, nd, h1, ht, rfl, h3, rfl⟩ := h.get hd
    obtain ⟨ns, h4, h5⟩ : ∃ ns, g s = some ns ∧ ns.map (·.2) = ls := by
      simpa [abs] using hk
    obtain ⟨_, g1, _⟩ := get_ok (h1.alive d nd h3).head
    obtain ⟨_, g2, _⟩ := get_ok (h1.alive s ns h4).head
    rw [step, wp_bind, wp_of_returns g1, wp_bind, wp_of_returns g2]
    by_cases hds : d = s
    · rw [if_pos hds] at hs; cases hs
      rw [if_pos hds]
      exact (wp_pure _ _ _).2 ⟨g, h1, ht, rfl⟩
    · rw [if_neg hds] at hs; cases hs
      rw [if_neg hds]
      have hne : ns ≠ [] := by
        rintro rfl
        rcases ha with ha | ha
        · exact hds ha
        · exact ha (by rw [hk, ← h5]; rfl)
      refine wp_mono (moveAssign_ok h1 ht hds h3 h4 hne) ?_
      rintro _ m1 ⟨h6, ht6⟩
      exact ⟨_, h6, ht6, by rw [abs_put, abs_put]; simp [h5]⟩
  | drop k =>
    rcases hk : w k with _ | l
    · simp [specStep, hk] at hs
    · simp only [specStep, hk, Option.bind_some, Option.some.injEq] at hs
      subst hs
      obtain ⟨g, ns, h1, ht, rfl, h3, rfl⟩ := h.get hk
      refine wp_mono (baseDrop_ok h1 h3) ?_
      rintro _ m1 ⟨h4, t4⟩
      refine ⟨_, h4, ?_, by rw [abs_put]; rfl⟩
      intro j a hj
      rw [t4]
      unfold put at hj
      split at hj
      · cases hj
      · exact ht j a hj

theorem run_ok {dflt : Option α} {ops : List (Op α)} {m : Mem α} {w w' : SWorld α} (h : Holds m w)
    (hs : specRun ops w = some w') (ha : AvoidsAll ops w) :
    wp (run dflt ops) (fun _ m' => Holds m' w') m := by
  induction ops generalizing m w with
  | nil =>
    simp only [specRun, Option.some.injEq] at hs
    subst hs
    exact (wp_pure _ _ _).2 h
  | cons op ops ih =>
    simp only [specRun] at hs
    rcases h1 : specStep op w with _ | w1
    · simp [h1] at hs
    · simp only [h1, Option.bind_some] at hs
      show wp (do step dflt op; run dflt ops) _ m
      rw [wp_bind]
      refine wp_mono (step_ok h h1 ha.1) ?_
      rintro _ m1 h2
      exact ih h2 hs (ha.2 w1 h1)

theorem Holds.init : Holds (Mem.init : Mem α) (fun _ => none) := by
  refine ⟨fun _ => none, ⟨fun _ _ => rfl, ?_, ?_, ?_, fun _ _ => rfl, rfl⟩, ?_, rfl⟩
  · intro k ns h; cases h
  · intro j k a b _ h; cases h
  · intro n h; exact absurd rfl h
  · intro k ns h; cases h

end Verif.SL
