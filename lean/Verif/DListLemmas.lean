import Verif.LinkedListWorld
import Verif.Spec.DList

/-! # Operations of `DoublyLinkedList` on well-formed memories -/

namespace Verif.DL

open Prog Verif.LL

variable {α : Type}

theorem prevHead {m : Mem α} {k : Nat} {ns : List (Nat × α)} (hr : Rep .doubly m k ns) :
    pv m (.head k) = some (lastOf (.head k) (ptrs ns)) := by
  rw [(hr.bwd rfl).first, firstOf_reverse]

theorem pushBack_ok {m : Mem α} {g} {k : Nat} {ns : List (Nat × α)} {a : Arg α} {x : α}
    (h : WInv .doubly m g) (hk : g k = some ns) (ha : ArgIs m x a) :
    wp (pushBack k a) (fun _ m' => WInv .doubly m' (put g k (some (ns ++ [(m.next, x)])))) m := by
  have hr := h.alive k ns hk
  have hf := h.fresh m.next (Nat.le_refl _)
  have hnew : Ptr.node m.next ∉ ptrs ns := fun hp => by have := h.lt_next hk hp; omega
  unfold pushBack
  rw [wp_bind]
  refine wp_mono (newNode_ok hr.head ha hf) ?_
  rintro n m1 ⟨rfl, l1, s1, n1, p1, d1, c1, x1, z1, t1, o1⟩
  have hne : ∀ p ∈ Ptr.head k :: ptrs ns, p ≠ .node m.next := by
    intro p hp e
    rcases List.mem_cons.1 hp with e' | hp
    · rw [e'] at e; cases e
    · rw [e] at hp; exact hnew hp
  have live1 : ∀ p ∈ Ptr.head k :: ptrs ns, Live m1 p := by
    intro p hp
    have := hr.live hp
    rw [live_iff] at this ⊢
    exact ⟨this.1, by rw [s1 p (hne p hp)]; exact this.2⟩
  have hlast := lastOf_mem (.head k) (ptrs ns)
  have hhead : Ptr.head k ∈ Ptr.head k :: ptrs ns := List.mem_cons_self ..
  have hl1 := live1 _ hhead
  rw [wp_bind, wp_of_returns (getPrev_ok hl1 (by rw [p1 _ (by simp)]; exact prevHead hr)), wp_bind]
  refine wp_mono (linkAdd_ok (kd := .doubly) (b := .head k) (live1 _ hlast) l1 hl1
    (by rw [n1 _ (hne _ hlast)]; exact hr.fwd.last) (Ne.symm (hne _ hlast))) ?_
  rintro _ m2 ⟨s2, n2, p2, d2, c2⟩
  have hl2 := s2.live hl1
  rw [wp_bind, wp_of_returns (getSize_ok hl2), wp_of_returns (setSize_ok hl2)]
  refine h.addBack hk (fun p hp => s2.live (live1 p hp)) ?_ ?_ ?_ ?_ ?_ ?_ ?_ ?_ ?_
  · intro p h1 h2
    show nx m2 p = _
    rw [n2, if_neg h1, if_neg h2, n1 p h2]
  · show nx m2 _ = _
    rw [n2, if_pos rfl]
  · show nx m2 _ = _
    rw [n2, if_neg (Ne.symm (hne _ hlast)), if_pos rfl]
  · intro _
    refine ⟨fun p h1 h2 => ?_, ?_, ?_⟩
    · show pv m2 p = _
      rw [p2 rfl, if_neg h1, if_neg h2, p1 p h2]
    · show pv m2 _ = _
      rw [p2 rfl, if_pos rfl]
    · show pv m2 _ = _
      rw [p2 rfl, if_neg (by simp), if_pos rfl]
  · intro p
    show dt m2 p = _
    rw [d2, d1]
  · intro p h1 h2 h3
    show m2.cell p = _
    rw [c2 p (fun e => ?_) h1 h3, c1 p h3 h1]
    rcases List.mem_cons.1 hlast with e' | e'
    · exact h1 (e.trans e')
    · rw [← e] at e'; exact h2 e'
  · show (fun x => if x = k then m2.sz k + 1 else m2.sz x) = _
    rw [s2.sz, z1]
  · show m2.next = _
    rw [s2.next, x1]
  · show m2.lost = _
    rw [s2.lost, o1]

theorem popBack_ok {m : Mem α} {g} {k i : Nat} {x : α} {ns : List (Nat × α)}
    (h : WInv .doubly m g) (hk : g k = some (ns ++ [(i, x)])) :
    wp (popBack k) (fun _ m' => WInv .doubly m' (put g k (some ns))) m := by
  have hr := h.alive k _ hk
  have hps : ptrs (ns ++ [(i, x)]) = ptrs ns ++ [Ptr.node i] := by simp
  have hnd := hr.nodup
  rw [hps, ← List.cons_append, List.nodup_append] at hnd
  have hne : ∀ p ∈ Ptr.head k :: ptrs ns, p ≠ .node i := fun p hp => hnd.2.2 p hp _ (by simp)
  have hmem : ∀ p ∈ Ptr.head k :: ptrs ns, p ∈ Ptr.head k :: ptrs (ns ++ [(i, x)]) := by
    intro p hp; rw [hps, ← List.cons_append]; exact List.mem_append_left _ hp
  have hli : Live m (.node i) := hr.live (by rw [hps]; simp)
  have hlast := lastOf_mem (.head k) (ptrs ns)
  have hpvi : pv m (.node i) = some (lastOf (.head k) (ptrs ns)) := by
    have := hr.bwd rfl
    rw [hps, List.reverse_append] at this
    have := Circle.next_mid (as := []) (b := .node i) (cs := (ptrs ns).reverse) this
    rw [this, firstOf_reverse]
  have hnxi : nx m (.node i) = some (.head k) := by
    have := hr.fwd
    rw [hps] at this
    exact Circle.next_mid (cs := []) this
  unfold popBack
  rw [wp_bind, wp_of_returns (getSize_ok hr.head), wp_bind, wp_dassert]
  refine ⟨by rw [hr.size]; simp, ?_⟩
  rw [wp_bind, wp_of_returns (getPrev_ok hr.head (q := .node i)
    (by rw [prevHead hr, hps, lastOf_append])), wp_bind,
    wp_of_returns (getPrev_ok hli hpvi), wp_bind]
  refine wp_mono (linkDel_ok (kd := .doubly) (hr.live (hmem _ hlast)) hli hr.head hnxi
    (Ne.symm (hne _ hlast))) ?_
  rintro _ m1 ⟨s1, n1, p1, d1, c1⟩
  have hassoc : (do destroyNode (.node i); freeNode (.node i); setSize k ((← getSize k) - 1) : Prog (Mem α) Unit)
      = (do (do destroyNode (.node i); freeNode (.node i)); setSize k ((← getSize k) - 1)) := by
    simp only [bind_assoc]
  rw [hassoc, wp_bind]
  refine release_ok (s1.live hli) _ ?_
  intro m2 c2 x2 z2 t2 o2
  have hl2 : Live m2 (.head k) := by
    obtain ⟨h0, c, hc⟩ := s1.live hr.head
    exact ⟨h0, c, by rw [c2]; simpa using hc⟩
  rw [wp_bind, wp_of_returns (getSize_ok hl2), wp_of_returns (setSize_ok hl2)]
  have nx2 : ∀ p, p ≠ .node i → nx m2 p = nx m1 p := by
    intro p hp; unfold nx; rw [c2, if_neg hp]
  have pv2 : ∀ p, p ≠ .node i → pv m2 p = pv m1 p := by
    intro p hp; unfold pv; rw [c2, if_neg hp]
  have dt2 : ∀ p, p ≠ .node i → dt m2 p = dt m1 p := by
    intro p hp; unfold dt; rw [c2, if_neg hp]
  refine h.removeBack hk hl2 ?_ ?_ ?_ ?_ ?_ ?_ ?_ ?_ ?_
  · intro p h1 h2
    show nx m2 p = _
    rw [nx2 p h2, n1 p h2, if_neg h1]
  · show nx m2 _ = _
    rw [nx2 _ (hne _ hlast), n1 _ (hne _ hlast), if_pos rfl]
  · intro _
    refine ⟨fun p h1 h2 => ?_, ?_⟩
    · show pv m2 p = _
      rw [pv2 p h2, p1 rfl p h2, if_neg h1]
    · show pv m2 _ = _
      rw [pv2 _ (by simp), p1 rfl _ (by simp), if_pos rfl]
  · intro p hp
    show dt m2 p = _
    rw [dt2 p hp, d1]
  · intro p h1 h2 h3
    show m2.cell p = _
    rw [c2, if_neg h3, c1 p (fun e => ?_) h1 h3]
    rcases List.mem_cons.1 hlast with e' | e'
    · exact h1 (e.trans e')
    · rw [← e] at e'; exact h2 e'
  · show m2.cell _ = _
    rw [c2, if_pos rfl]
  · show (fun x => if x = k then m2.sz k - 1 else m2.sz x) = _
    rw [z2, s1.sz]
  · show m2.next = _
    rw [x2, s1.next]
  · show m2.lost = _
    rw [o2, s1.lost]

/-- The elements of every list. -/
def abs (g : Nat → Option (List (Nat × α))) : SWorld α := fun k => (g k).map (·.map (·.2))

theorem abs_put (g : Nat → Option (List (Nat × α))) (k : Nat) (v : Option (List (Nat × α))) :
    abs (put g k v) = (abs g).put k (v.map (·.map (·.2))) := by
  funext x; unfold abs put SWorld.put; split <;> rfl

theorem SWorld.put_put (w : SWorld α) (k : Nat) (a b : Option (List α)) :
    (w.put k a).put k b = w.put k b := by
  funext x; unfold SWorld.put; split <;> rfl

/-- Memory `m` holds exactly the lists of `w`. -/
def Holds (m : Mem α) (w : SWorld α) : Prop := ∃ g, WInv .doubly m g ∧ abs g = w

theorem Holds.get {m : Mem α} {w : SWorld α} {k : Nat} {l : List α} (h : Holds m w) (hk : w k = some l) :
    ∃ g ns, WInv .doubly m g ∧ abs g = w ∧ g k = some ns ∧ ns.map (·.2) = l := by
  obtain ⟨g, h1, rfl⟩ := h
  unfold abs at hk
  rcases e : g k with _ | ns
  · simp [e] at hk
  · simp only [e, Option.map_some, Option.some.injEq] at hk
    exact ⟨g, ns, h1, rfl, e, hk⟩

theorem fill_ok {m : Mem α} {g : Nat → Option (List (Nat × α))} {k : Nat} (n : Nat) (x : α)
    (ns : List (Nat × α)) (h : WInv .doubly m g) (hk : g k = some ns) (i : Nat) :
    wp (forRange n i () fun _ _ => pushBack k (.val x))
      (fun _ m' => ∃ ns', WInv .doubly m' (put g k (some ns')) ∧
        ns'.map (·.2) = ns.map (·.2) ++ List.replicate n x) m := by
  induction n generalizing m g ns i with
  | zero =>
    refine (wp_pure _ _ _).2 ⟨ns, ?_, by simp⟩
    have : put g k (some ns) = g := by rw [← hk, put_self]
    rw [this]; exact h
  | succ n ih =>
    show wp (pushBack k (.val x) >>= _) _ _
    rw [wp_bind]
    refine wp_mono (pushBack_ok h hk (x := x) rfl) ?_
    rintro _ m1 h5
    refine wp_mono (ih (ns ++ [(m.next, x)]) h5 (by simp [put]) (i + 1)) ?_
    rintro _ m2 ⟨ns', h7, h8⟩
    rw [put_put] at h7
    exact ⟨ns', h7, by rw [h8]; simp [List.replicate_succ]⟩

theorem copyLoop_ok {m : Mem α} {g} {d s : Nat} (hds : d ≠ s) (done rest nd : List (Nat × α))
    (h : WInv .doubly m g) (hs : g s = some (done ++ rest)) (hd : g d = some nd) :
    wp (copyLoop d s (firstOf (.head s) (ptrs rest)))
      (fun _ m' => ∃ ns', WInv .doubly m' (put g d (some ns')) ∧
        ns'.map (·.2) = nd.map (·.2) ++ rest.map (·.2)) m := by
  induction rest generalizing m g done nd with
  | nil =>
    unfold copyLoop
    show wp (if Ptr.head s = Ptr.head s then _ else _) _ _
    rw [if_pos rfl]
    refine (wp_pure _ _ _).2 ⟨nd, ?_, by simp⟩
    have : put g d (some nd) = g := by rw [← hd, put_self]
    rw [this]; exact h
  | cons e rest ih =>
    have hr := h.alive s _ hs
    have hmem : Ptr.node e.1 ∈ ptrs (done ++ e :: rest) := by simp
    have hle := hr.live (List.mem_cons_of_mem _ hmem)
    show wp (copyLoop d s (.node e.1)) _ _
    unfold copyLoop
    rw [if_neg (by simp), wp_bind]
    refine wp_mono (pushBack_ok (a := .ref (.node e.1)) h hd ⟨hle, hr.data e (by simp)⟩) ?_
    rintro _ m1 h1
    have hs1 : put g d (some (nd ++ [(m.next, e.2)])) s = some (done ++ e :: rest) := by
      simp [put, Ne.symm hds, hs]
    have hr1 := h1.alive s _ hs1
    have hnx : nx m1 (.node e.1) = some (firstOf (.head s) (ptrs rest)) := by
      have := hr1.fwd
      rw [show ptrs (done ++ e :: rest) = ptrs done ++ Ptr.node e.1 :: ptrs rest by simp] at this
      exact this.next_mid
    rw [wp_bind, wp_of_returns (getNext_ok (hr1.live (List.mem_cons_of_mem _ hmem)) hnx)]
    refine wp_mono (ih (done ++ [e]) (nd ++ [(m.next, e.2)]) h1 (by rw [hs1]; simp) (by simp [put])) ?_
    rintro _ m2 ⟨ns', h2, h3⟩
    rw [put_put] at h2
    exact ⟨ns', h2, by rw [h3]; simp⟩

theorem moveAssign_ok {m : Mem α} {g} {d s : Nat} {old ns : List (Nat × α)}
    (h : WInv .doubly m g) (hds : d ≠ s) (hd : g d = some old) (hs : g s = some ns) (hne : ns ≠ []) :
    wp (moveAssign d s) (fun _ m' => WInv .doubly m' (put (put g d (some ns)) s (some []))) m := by
  unfold moveAssign
  rw [wp_bind]
  refine wp_mono (baseMove_ok h hds hd hs) ?_
  rintro _ m2 ⟨m1, h1, t1, rs, ld, nd, pd, c2, z2, t2, x2, o2⟩
  have hs1 : put g d (some []) s = some ns := by simp [put, Ne.symm hds, hs]
  have hr := h1.alive s ns hs1
  have hps : ptrs ns ≠ [] := by simpa using hne
  have hnode : ∀ {p : Ptr}, p ∈ ptrs ns → ∀ j, p ≠ .head j := by
    intro p hp j
    obtain ⟨e, _, rfl⟩ := List.mem_map.1 hp; simp
  have hlast : lastOf (.head s) (ptrs ns) ∈ ptrs ns := by
    rcases List.mem_cons.1 (lastOf_mem (.head s) (ptrs ns)) with e | e
    · obtain ⟨xs, z, e'⟩ : ∃ xs z, ptrs ns = xs ++ [z] :=
        ⟨(ptrs ns).dropLast, (ptrs ns).getLast hps, (List.dropLast_concat_getLast hps).symm⟩
      rw [e', lastOf_append]; simp
    · exact e
  have hfirst : firstOf (.head s) (ptrs ns) ∈ ptrs ns := by
    cases hp : ptrs ns with
    | nil => exact absurd hp hps
    | cons a b => simp [firstOf]
  have live2 : ∀ p ∈ ptrs ns, Live m2 p := by
    intro p hp
    obtain ⟨h0, c, hc⟩ := hr.live (List.mem_cons_of_mem _ hp)
    exact ⟨h0, c, by rw [c2 p (hnode hp d) (hnode hp s)]; exact hc⟩
  rw [wp_bind, wp_of_returns (getPrev_ok ld (pd.trans (prevHead hr))), wp_bind]
  refine wp_mono (setNext_ok (live2 _ hlast)) ?_
  rintro _ m3 ⟨s3, n3, p3, d3, c3⟩
  have hdl : Ptr.head d ≠ lastOf (.head s) (ptrs ns) := Ne.symm (hnode hlast d)
  rw [wp_bind, wp_of_returns (getNext_ok (s3.live ld) (by
    rw [n3, if_neg hdl, nd]; exact hr.fwd.first))]
  refine wp_mono (setPrev_ok (s3.live (live2 _ hfirst))) ?_
  rintro _ m4 ⟨s4, p4, n4, d4, c4⟩
  have hnodup : (ptrs ns).Nodup := (List.nodup_cons.1 hr.nodup).2
  have hsame : ∀ p, p ≠ .head d → p ≠ .head s → nx m2 p = nx m1 p ∧ pv m2 p = pv m1 p ∧ dt m2 p = dt m1 p := by
    intro p h1 h2
    unfold nx pv dt; rw [c2 p h1 h2]; exact ⟨rfl, rfl, rfl⟩
  have hcs : m4.cell (.head s) = m2.cell (.head s) := by
    rw [c4 _ (Ne.symm (hnode hfirst s)), c3 _ (Ne.symm (hnode hlast s))]
  have hfr : lastOf (.head s) (ptrs ns).reverse = firstOf (.head s) (ptrs ns) := by
    rw [← firstOf_reverse, List.reverse_reverse]
  have hz : m4.sz = m2.sz := by rw [s4.sz, s3.sz]
  have res : WInv .doubly m4 (put (put (put g d (some [])) d (some ns)) s (some [])) := by
    refine h1.transfer hds (by simp [put]) hs1 ?_ ?_ ?_ ?_ ?_ ?_
    · refine ⟨s4.live (s3.live ld), ?_, ?_, ?_, ?_, ?_⟩
      · rw [hz, z2]; simp [hds]
      · refine hr.fwd.rehead hps hnodup ?_ ?_ ?_
        · rw [n4, n3, if_neg hdl, nd]
        · rw [n4, n3, if_pos rfl]
        · intro p hp hpl
          rw [n4, n3, if_neg hpl, (hsame p (hnode hp d) (hnode hp s)).1]
      · intro _
        refine (hr.bwd rfl).rehead (by simpa using hne) (nodup_rev.2 hnodup) ?_ ?_ ?_
        · rw [p4, if_neg (Ne.symm (hnode hfirst d)), p3, pd]
        · rw [hfr, p4, if_pos rfl]
        · intro p hp hpl
          rw [hfr] at hpl
          have hp' : p ∈ ptrs ns := by simpa using hp
          rw [p4, if_neg hpl, p3, (hsame p (hnode hp' d) (hnode hp' s)).2.1]
      · intro e he
        rw [d4, d3, (hsame _ (by simp) (by simp)).2.2]
        exact hr.data e he
      · rw [List.nodup_cons]
        exact ⟨fun hp => hnode hp d rfl, hnodup⟩
    · refine rs.cell_congr (by rw [hz]) ?_
      intro p hp
      rw [List.mem_singleton.1 hp]; exact hcs
    · intro j h1 h2; rw [hz, z2]; simp [h1, h2]
    · intro p h1 h2 h3
      rw [c4 p (fun e => h3 (e ▸ hfirst)), c3 p (fun e => h3 (e ▸ hlast)), c2 p h1 h2]
    · rw [s4.next, s3.next, x2]
    · rw [s4.lost, s3.lost, o2]
  rw [put_put] at res
  exact res

theorem backwardFrom_ok {m : Mem α} {k : Nat} : ∀ (rs : List (Nat × α)) (it : Ptr),
    Chain (pv m) (it :: ptrs rs) → (it :: ptrs rs).Nodup → Live m it →
    (∀ e ∈ rs, dt m (.node e.1) = some e.2) → (∀ e ∈ rs, Live m (.node e.1)) →
    Returns (backwardFrom k (lastOf it (ptrs rs)) it) m (rs.map (·.2)) m := by
  intro rs
  induction rs with
  | nil =>
    intro it _ _ _ _ _
    show backwardFrom k it it m = _
    unfold backwardFrom
    rw [if_pos rfl]; rfl
  | cons e rs ih =>
    intro it hc hn hli hd hl
    have hle := hl e (List.mem_cons_self ..)
    have hlast : lastOf it (ptrs (e :: rs)) = lastOf (.node e.1) (ptrs rs) := lastOf_cons ..
    have hne : it ≠ lastOf (.node e.1) (ptrs rs) := by
      intro h
      have := lastOf_mem (.node e.1) (ptrs rs)
      rw [← h] at this
      exact (List.nodup_cons.1 hn).1 this
    have hr := ih (.node e.1) hc.2 (List.nodup_cons.1 hn).2 hle
      (fun f hf => hd f (List.mem_cons_of_mem _ hf)) (fun f hf => hl f (List.mem_cons_of_mem _ hf))
    rw [hlast]
    unfold backwardFrom Returns
    rw [if_neg hne, bind_returns (getPrev_ok hli hc.1),
      bind_returns (getData_ok hle (hd e (List.mem_cons_self ..))), bind_returns hr]
    rfl

theorem backward_ok {m : Mem α} {k : Nat} {ns : List (Nat × α)} (hr : Rep .doubly m k ns) :
    Returns (backward k) m (ns.map (·.2)).reverse m := by
  unfold backward Returns
  rw [bind_returns (getNext_ok hr.head hr.fwd.first)]
  have hfr : lastOf (.head k) (ptrs ns.reverse) = firstOf (.head k) (ptrs ns) := by
    rw [← firstOf_reverse]; simp
  have hb := hr.bwd rfl
  rw [show (ptrs ns).reverse = ptrs ns.reverse by simp] at hb
  have hch : Chain (pv m) (.head k :: ptrs ns.reverse) := by
    unfold Circle at hb
    obtain ⟨xs, e1⟩ := last_split (.head k) (ptrs ns.reverse)
    rw [e1] at hb ⊢
    rw [List.append_assoc, List.singleton_append, Chain.append] at hb
    exact hb.1
  have := backwardFrom_ok (k := k) ns.reverse (.head k) hch
    (by
      have := hr.nodup
      simp only [List.nodup_cons, List.map_reverse, List.mem_reverse, nodup_rev] at this ⊢
      exact this)
    hr.head (fun e he => hr.data e (by simpa using he))
    (fun e he => hr.live (List.mem_cons_of_mem _ (List.mem_map.2 ⟨e, by simpa using he, rfl⟩)))
  rw [hfr] at this
  rw [List.map_reverse] at this
  exact this

theorem back_ok {m : Mem α} {k : Nat} {i : Nat} {x : α} {ns : List (Nat × α)}
    (hr : Rep .doubly m k (ns ++ [(i, x)])) : Returns (back k) m x m := by
  unfold back Returns
  rw [bind_returns (getSize_ok hr.head), dassert_pos (by rw [hr.size]; simp)]
  show (getPrev (.head k) >>= _) m = _
  rw [bind_returns (getPrev_ok hr.head (q := .node i)
    (by rw [prevHead hr]; rw [show ptrs (ns ++ [(i, x)]) = ptrs ns ++ [Ptr.node i] by simp, lastOf_append]))]
  exact getData_ok (hr.live (by simp)) (hr.data (i, x) (by simp))

theorem Holds.shows {m : Mem α} {w : SWorld α} (h : Holds m w) : Shows m w := by
  intro k
  refine ⟨fun hk => ?_, fun l hk => ?_⟩
  · obtain ⟨g, h1, rfl⟩ := h
    exact h1.dead k (by simpa [abs] using hk)
  · obtain ⟨g, ns, h1, _, h3, rfl⟩ := h.get hk
    have hr := h1.alive k ns h3
    refine ⟨iterate_ok hr, backward_ok hr, ?_, ?_, ?_, ?_⟩
    · have := getSize_ok hr.head
      rw [hr.size] at this
      rw [List.length_map]; exact this
    · have := empty_ok hr
      have e : ((ns.map (·.2)).length == 0) = ns.isEmpty := by cases ns <;> simp
      rw [e]; exact this
    · intro x hx
      cases ns with
      | nil => simp at hx
      | cons e ns =>
        simp only [List.map_cons, List.head?_cons, Option.some.injEq] at hx
        subst hx
        exact front_ok hr
    · intro x hx
      cases hn : ns.reverse with
      | nil => simp only [List.reverse_eq_nil_iff] at hn; subst hn; simp at hx
      | cons e t =>
        have hns : ns = t.reverse ++ [e] := by
          rw [← List.reverse_reverse ns, hn]; simp
        subst hns
        simp only [List.map_append, List.map_cons, List.map_nil, List.getLast?_append,
          List.getLast?_singleton, Option.some_or, Option.some.injEq] at hx
        subst hx
        exact back_ok hr

/-! ## All operations -/

/-- Elements that `op` does not remove keep their nodes. -/
def Keeps (op : Op α) (w : SWorld α) (g g' : Nat → Option (List (Nat × α))) : Prop :=
  ∀ j i j' i' ns e, g j = some ns → ns[i]? = some e → follow op w (j, i) = some (j', i') →
    ∃ ns' e', g' j' = some ns' ∧ ns'[i']? = some e' ∧ e'.1 = e.1

theorem keeps_one {op : Op α} {w : SWorld α} {g : Nat → Option (List (Nat × α))} {k : Nat}
    {v : Option (List (Nat × α))}
    (h1 : ∀ p : Nat × Nat, p.1 ≠ k → follow op w p = some p)
    (h2 : ∀ ns i e j' i', g k = some ns → ns[i]? = some e → follow op w (k, i) = some (j', i') →
      j' = k ∧ ∃ ns' e', v = some ns' ∧ ns'[i']? = some e' ∧ e'.1 = e.1) :
    Keeps op w g (put g k v) := by
  intro j i j' i' ns e hj he hf
  by_cases hjk : j = k
  · subst hjk
    obtain ⟨rfl, ns', e', h3, h4, h5⟩ := h2 ns i e j' i' hj he hf
    exact ⟨ns', e', by simp [put, h3], h4, h5⟩
  · rw [h1 (j, i) hjk] at hf
    cases hf
    exact ⟨ns, e, by simp [put, hjk, hj], he, rfl⟩

theorem get_of_abs {g : Nat → Option (List (Nat × α))} {k : Nat} {l : List α} (h : abs g k = some l) :
    ∃ ns, g k = some ns ∧ ns.map (·.2) = l := by
  simpa [abs] using h

theorem step_ghost {dflt : Option α} {op : Op α} {m : Mem α} {g : Nat → Option (List (Nat × α))}
    {w' : SWorld α} (h : WInv .doubly m g) (hs : specStep op (abs g) = some w')
    (ha : Avoids op (abs g)) :
    wp (step dflt op) (fun _ m' => ∃ g', WInv .doubly m' g' ∧ abs g' = w' ∧ Keeps op (abs g) g g') m := by
  have hnew : ∀ k, (abs g k).isNone = true →
      wp (new dflt k) (fun _ m' => WInv .doubly m' (put g k (some []))) m := by
    intro k hk
    refine wp_mono (baseNew_ok h (by simpa [abs] using hk)) ?_
    rintro _ m1 ⟨h2, _⟩
    exact h2
  have hnone : ∀ k ns, (abs g k).isNone = true → g k ≠ some ns := by
    intro k ns hk e
    simp [abs, e] at hk
  cases op with
  | new k =>
    simp only [specStep] at hs
    split at hs
    · rename_i hk; cases hs
      refine wp_mono (hnew k hk) ?_
      rintro _ m1 h2
      refine ⟨_, h2, by rw [abs_put]; rfl, keeps_one (fun p _ => by simp [follow]) ?_⟩
      intro ns i e j' i' hg
      exact absurd hg (hnone k ns hk)
    · cases hs
  | newFill k n x =>
    simp only [specStep] at hs
    split at hs
    · rename_i hk; cases hs
      show wp (newFill dflt k n x) _ _
      unfold newFill
      rw [wp_bind]
      refine wp_mono (hnew k hk) ?_
      rintro _ m1 h1
      refine wp_mono (fill_ok n x [] h1 (by simp [put]) 0) ?_
      rintro _ m2 ⟨ns', h2, h3⟩
      rw [put_put] at h2
      refine ⟨_, h2, by rw [abs_put]; simp [h3], keeps_one (fun p _ => by simp [follow]) ?_⟩
      intro ns i e j' i' hg
      exact absurd hg (hnone k ns hk)
    · cases hs
  | pushFront k x =>
    rcases hk : abs g k with _ | l
    · simp [specStep, hk] at hs
    · simp only [specStep, hk, Option.bind_some, Option.some.injEq] at hs
      subst hs
      obtain ⟨ns, h3, rfl⟩ := get_of_abs hk
      refine wp_mono (basePushFront_ok (a := .val x) h h3 (x := x) rfl) ?_
      rintro _ m1 ⟨h4, _⟩
      refine ⟨_, h4, by rw [abs_put]; rfl, keeps_one (fun p hp => by simp [follow, hp]) ?_⟩
      intro ns1 i e j' i' hg he hf
      rw [h3] at hg; cases hg
      simp [follow] at hf
      obtain ⟨rfl, rfl⟩ := hf
      exact ⟨rfl, _, e, rfl, by simpa using he, rfl⟩
  | pushBack k x =>
    rcases hk : abs g k with _ | l
    · simp [specStep, hk] at hs
    · simp only [specStep, hk, Option.bind_some, Option.some.injEq] at hs
      subst hs
      obtain ⟨ns, h3, rfl⟩ := get_of_abs hk
      refine wp_mono (pushBack_ok (a := .val x) h h3 (x := x) rfl) ?_
      rintro _ m1 h4
      refine ⟨_, h4, by rw [abs_put]; simp, keeps_one (fun p hp => by simp [follow]) ?_⟩
      intro ns1 i e j' i' hg he hf
      rw [h3] at hg; cases hg
      simp [follow] at hf
      obtain ⟨rfl, rfl⟩ := hf
      have hi := (List.getElem?_eq_some_iff.1 he).1
      exact ⟨rfl, _, e, rfl, by rw [List.getElem?_append_left hi]; exact he, rfl⟩
  | pushFrontElem k j i =>
    rcases hk : abs g k with _ | l
    · simp [specStep, hk] at hs
    rcases hj : abs g j with _ | u
    · simp [specStep, hk, hj] at hs
    rcases hx : u[i]? with _ | x
    · simp [specStep, hk, hj, hx] at hs
    simp only [specStep, hk, hj, hx, Option.bind_some, Option.some.injEq] at hs
    subst hs
    obtain ⟨ns, h3, rfl⟩ := get_of_abs hk
    obtain ⟨us, h5, rfl⟩ := get_of_abs hj
    obtain ⟨e, he, rfl⟩ : ∃ e, us[i]? = some e ∧ e.2 = x := by simpa using hx
    have hr := h.alive j us h5
    have hem : e ∈ us := List.mem_of_getElem? he
    have hle := hr.live (List.mem_cons_of_mem _ (List.mem_map.2 ⟨e, hem, rfl⟩ : Ptr.node e.1 ∈ ptrs us))
    rw [step, wp_bind, wp_of_returns (nth_elem hr he)]
    refine wp_mono (basePushFront_ok (a := .ref (.node e.1)) h h3 ⟨hle, hr.data e hem⟩) ?_
    rintro _ m1 ⟨h4, _⟩
    refine ⟨_, h4, by rw [abs_put]; rfl, keeps_one (fun p hp => by simp [follow, hp]) ?_⟩
    intro ns1 i e j' i' hg he hf
    rw [h3] at hg; cases hg
    simp [follow] at hf
    obtain ⟨rfl, rfl⟩ := hf
    exact ⟨rfl, _, e, rfl, by simpa using he, rfl⟩
  | pushBackElem k j i =>
    rcases hk : abs g k with _ | l
    · simp [specStep, hk] at hs
    rcases hj : abs g j with _ | u
    · simp [specStep, hk, hj] at hs
    rcases hx : u[i]? with _ | x
    · simp [specStep, hk, hj, hx] at hs
    simp only [specStep, hk, hj, hx, Option.bind_some, Option.some.injEq] at hs
    subst hs
    obtain ⟨ns, h3, rfl⟩ := get_of_abs hk
    obtain ⟨us, h5, rfl⟩ := get_of_abs hj
    obtain ⟨e, he, rfl⟩ : ∃ e, us[i]? = some e ∧ e.2 = x := by simpa using hx
    have hr := h.alive j us h5
    have hem : e ∈ us := List.mem_of_getElem? he
    have hle := hr.live (List.mem_cons_of_mem _ (List.mem_map.2 ⟨e, hem, rfl⟩ : Ptr.node e.1 ∈ ptrs us))
    rw [step, wp_bind, wp_of_returns (nth_elem hr he)]
    refine wp_mono (pushBack_ok (a := .ref (.node e.1)) h h3 ⟨hle, hr.data e hem⟩) ?_
    rintro _ m1 h4
    refine ⟨_, h4, by rw [abs_put]; simp, keeps_one (fun p hp => by simp [follow]) ?_⟩
    intro ns1 i e j' i' hg he hf
    rw [h3] at hg; cases hg
    simp [follow] at hf
    obtain ⟨rfl, rfl⟩ := hf
    have hi := (List.getElem?_eq_some_iff.1 he).1
    exact ⟨rfl, _, e, rfl, by rw [List.getElem?_append_left hi]; exact he, rfl⟩
  | set k i x =>
    rcases hk : abs g k with _ | l
    · simp [specStep, hk] at hs
    simp only [specStep, hk, Option.bind_some] at hs
    split at hs
    · rename_i hi
      cases hs
      obtain ⟨ns, h3, rfl⟩ := get_of_abs hk
      rw [List.length_map] at hi
      have he : ns[i]? = some ns[i] := List.getElem?_eq_getElem hi
      rw [step, wp_bind, wp_of_returns (nth_elem (h.alive k ns h3) he)]
      refine wp_mono (setElem_ok h h3 he) ?_
      rintro _ m1 h4
      refine ⟨_, h4, by rw [abs_put]; simp [List.map_set], keeps_one (fun p hp => by simp [follow]) ?_⟩
      intro ns1 i1 e j' i' hg he hf
      rw [h3] at hg; cases hg
      simp [follow] at hf
      obtain ⟨rfl, rfl⟩ := hf
      refine ⟨rfl, _, if i = i1 then (ns[i].1, x) else e, rfl, ?_, ?_⟩
      · rw [List.getElem?_set]
        split
        · simp
        · exact he
      · split
        · rename_i hii
          subst hii
          rw [List.getElem?_eq_getElem hi] at he
          cases he; rfl
        · rfl
    · cases hs
  | popFront k =>
    rcases hk : abs g k with _ | l
    · simp [specStep, hk] at hs
    · simp only [specStep, hk, Option.bind_some] at hs
      split at hs
      · cases hs
      rename_i hne
      cases hs
      obtain ⟨ns, h3, rfl⟩ := get_of_abs hk
      cases ns with
      | nil => simp at hne
      | cons e ns =>
        refine wp_mono (basePopFront_ok (i := e.1) (x := e.2) h h3) ?_
        rintro _ m1 ⟨h4, _⟩
        refine ⟨_, h4, by rw [abs_put]; rfl, keeps_one (fun p hp => by simp [follow, hp]) ?_⟩
        intro ns1 i e j' i' hg he hf
        rw [h3] at hg; cases hg
        cases i with
        | zero => simp [follow] at hf
        | succ i =>
          simp [follow] at hf
          obtain ⟨rfl, rfl⟩ := hf
          exact ⟨rfl, _, e, rfl, by simpa using he, rfl⟩
  | popBack k =>
    rcases hk : abs g k with _ | l
    · simp [specStep, hk] at hs
    · simp only [specStep, hk, Option.bind_some] at hs
      split at hs
      · cases hs
      rename_i hne
      cases hs
      obtain ⟨ns, h3, rfl⟩ := get_of_abs hk
      have hne' : ns ≠ [] := by rintro rfl; simp at hne
      have hsplit : ns = ns.dropLast ++ [((ns.getLast hne').1, (ns.getLast hne').2)] :=
        (List.dropLast_concat_getLast hne').symm
      have h3' := h3
      rw [hsplit] at h3
      refine wp_mono (popBack_ok h h3) ?_
      rintro _ m1 h4
      refine ⟨_, h4, by rw [abs_put]; simp, keeps_one (fun p hp => by simp [follow, hp]) ?_⟩
      intro ns1 i e j' i' hg he hf
      rw [h3'] at hg; cases hg
      simp only [follow, hk, Option.map_some, List.length_map, true_and, Option.some.injEq] at hf
      split at hf
      · cases hf
      · rename_i hi
        cases hf
        have hlt := (List.getElem?_eq_some_iff.1 he).1
        refine ⟨rfl, _, e, rfl, ?_, rfl⟩
        rw [List.getElem?_dropLast, if_pos (by omega)]
        exact he
  | clear k =>
    rcases hk : abs g k with _ | l
    · simp [specStep, hk] at hs
    · simp only [specStep, hk, Option.bind_some, Option.some.injEq] at hs
      subst hs
      obtain ⟨ns, h3, rfl⟩ := get_of_abs hk
      refine wp_mono (baseClear_ok h h3) ?_
      rintro _ m1 ⟨h4, _⟩
      refine ⟨_, h4, by rw [abs_put]; rfl, keeps_one (fun p hp => by simp [follow, hp]) ?_⟩
      intro ns1 i e j' i' hg he hf
      simp [follow] at hf
  | copy d s =>
    rcases hd : abs g d with _ | ld
    · simp [specStep, hd] at hs
    rcases hk : abs g s with _ | ls
    · simp [specStep, hd, hk] at hs
    simp only [specStep, hd, hk, Option.bind_some, Option.some.injEq] at hs
    subst hs
    obtain ⟨nd, h3, rfl⟩ := get_of_abs hd
    obtain ⟨ns, h4, h5⟩ := get_of_abs hk
    obtain ⟨_, g1, _⟩ := get_ok (h.alive d nd h3).head
    obtain ⟨_, g2, _⟩ := get_ok (h.alive s ns h4).head
    rw [step, wp_bind, wp_of_returns g1, wp_bind, wp_of_returns g2]
    split
    · rename_i hds
      subst hds
      refine (wp_pure _ _ _).2 ⟨g, h, ?_, ?_⟩
      · funext j; unfold SWorld.put; split
        · rename_i e; rw [e, hk]
        · rfl
      · intro j i j' i' ns e hj he hf
        simp [follow] at hf
        obtain ⟨rfl, rfl⟩ := hf
        exact ⟨ns, e, hj, he, rfl⟩
    · rename_i hds
      unfold copyAssign
      rw [wp_bind]
      refine wp_mono (baseClear_ok h h3) ?_
      rintro _ m1 ⟨h6, _⟩
      have hs1 : put g d (some []) s = some ns := by simp [put, Ne.symm hds, h4]
      have hr1 := h6.alive s ns hs1
      rw [wp_bind, wp_of_returns (getNext_ok hr1.head hr1.fwd.first)]
      refine wp_mono (copyLoop_ok hds [] ns [] h6 (by simpa using hs1) (by simp [put])) ?_
      rintro _ m2 ⟨ns', h7, h8⟩
      rw [put_put] at h7
      refine ⟨_, h7, by rw [abs_put]; simp [h5, h8], keeps_one (fun p hp => by simp [follow, hp]) ?_⟩
      intro ns1 i e j' i' hg he hf
      simp [follow, hds] at hf
  | move d s =>
    rcases hd : abs g d with _ | ld
    · simp [specStep, hd] at hs
    rcases hk : abs g s with _ | ls
    · simp [specStep, hd, hk] at hs
    simp only [specStep, hd, hk, Option.bind_some] at hs
    obtain ⟨nd, h3, rfl⟩ := get_of_abs hd
    obtain ⟨ns, h4, h5⟩ := get_of_abs hk
    obtain ⟨_, g1, _⟩ := get_ok (h.alive d nd h3).head
    obtain ⟨_, g2, _⟩ := get_ok (h.alive s ns h4).head
    rw [step, wp_bind, wp_of_returns g1, wp_bind, wp_of_returns g2]
    by_cases hds : d = s
    · rw [if_pos hds] at hs; cases hs
      rw [if_pos hds]
      refine (wp_pure _ _ _).2 ⟨g, h, rfl, ?_⟩
      intro j i j' i' ns e hj he hf
      simp [follow, hds] at hf
      obtain ⟨rfl, rfl⟩ := hf
      exact ⟨ns, e, hj, he, rfl⟩
    · rw [if_neg hds] at hs; cases hs
      rw [if_neg hds]
      have hne : ns ≠ [] := by
        rintro rfl
        rcases ha with ha | ha
        · exact hds ha
        · exact ha (by rw [hk, ← h5]; rfl)
      refine wp_mono (moveAssign_ok h hds h3 h4 hne) ?_
      rintro _ m1 h6
      refine ⟨_, h6, by rw [abs_put, abs_put]; simp [h5], ?_⟩
      intro j i j' i' ns1 e hj he hf
      simp only [follow, if_neg hds] at hf
      split at hf
      · cases hf
      · rename_i hjd
        split at hf
        · rename_i hjs
          subst hjs
          cases hf
          rw [h4] at hj; cases hj
          exact ⟨ns, e, by simp [put, hds], he, rfl⟩
        · rename_i hjs
          cases hf
          exact ⟨ns1, e, by simp [put, hjd, hjs, hj], he, rfl⟩
  | drop k =>
    rcases hk : abs g k with _ | l
    · simp [specStep, hk] at hs
    · simp only [specStep, hk, Option.bind_some, Option.some.injEq] at hs
      subst hs
      obtain ⟨ns, h3, rfl⟩ := get_of_abs hk
      refine wp_mono (baseDrop_ok h h3) ?_
      rintro _ m1 ⟨h4, _⟩
      refine ⟨_, h4, by rw [abs_put]; rfl, keeps_one (fun p hp => by simp [follow, hp]) ?_⟩
      intro ns1 i e j' i' hg he hf
      simp [follow] at hf

theorem step_ok {dflt : Option α} {op : Op α} {m : Mem α} {w w' : SWorld α} (h : Holds m w)
    (hs : specStep op w = some w') (ha : Avoids op w) :
    wp (step dflt op) (fun _ m' => Holds m' w') m := by
  obtain ⟨g, h1, rfl⟩ := h
  refine wp_mono (step_ghost h1 hs ha) ?_
  rintro _ m' ⟨g', h2, h3, _⟩
  exact ⟨g', h2, h3⟩

/-- The node of every element that a history does not remove stays the same. -/
theorem run_ghost {dflt : Option α} {ops : List (Op α)} {m : Mem α}
    {g : Nat → Option (List (Nat × α))} {w' : SWorld α} (h : WInv .doubly m g)
    (hs : specRun ops (abs g) = some w') (ha : AvoidsAll ops (abs g)) :
    wp (run dflt ops) (fun _ m' => ∃ g', WInv .doubly m' g' ∧ abs g' = w' ∧
      ∀ j i j' i' ns e, g j = some ns → ns[i]? = some e → followAll ops (abs g) (j, i) = some (j', i') →
        ∃ ns' e', g' j' = some ns' ∧ ns'[i']? = some e' ∧ e'.1 = e.1) m := by
  induction ops generalizing m g with
  | nil =>
    simp only [specRun, Option.some.injEq] at hs
    subst hs
    refine (wp_pure _ _ _).2 ⟨g, h, rfl, ?_⟩
    intro j i j' i' ns e hj he hf
    simp [followAll] at hf
    obtain ⟨rfl, rfl⟩ := hf
    exact ⟨ns, e, hj, he, rfl⟩
  | cons op ops ih =>
    simp only [specRun] at hs
    rcases h1 : specStep op (abs g) with _ | w1
    · simp [h1] at hs
    · simp only [h1, Option.bind_some] at hs
      show wp (do step dflt op; run dflt ops) _ m
      rw [wp_bind]
      refine wp_mono (step_ghost h h1 ha.1) ?_
      rintro _ m1 ⟨g1, h2, rfl, h3⟩
      refine wp_mono (ih h2 hs (ha.2 _ h1)) ?_
      rintro _ m2 ⟨g2, h4, h5, h6⟩
      refine ⟨g2, h4, h5, ?_⟩
      intro j i j' i' ns e hj he hf
      simp only [followAll, h1, Option.bind_some, Option.bind_eq_some_iff] at hf
      obtain ⟨⟨j1, i1⟩, f1, f2⟩ := hf
      obtain ⟨ns1, e1, k1, k2, k3⟩ := h3 j i j1 i1 ns e hj he f1
      obtain ⟨ns2, e2, l1, l2, l3⟩ := h6 j1 i1 j' i' ns1 e1 k1 k2 f2
      exact ⟨ns2, e2, l1, l2, l3.trans k3⟩

theorem run_ok {dflt : Option α} {ops : List (Op α)} {m : Mem α} {w w' : SWorld α} (h : Holds m w)
    (hs : specRun ops w = some w') (ha : AvoidsAll ops w) :
    wp (run dflt ops) (fun _ m' => Holds m' w') m := by
  obtain ⟨g, h1, rfl⟩ := h
  refine wp_mono (run_ghost h1 hs ha) ?_
  rintro _ m' ⟨g', h2, h3, _⟩
  exact ⟨g', h2, h3⟩

theorem Holds.init : Holds (Mem.init : Mem α) (fun _ => none) := by
  refine ⟨fun _ => none, ⟨fun _ _ => rfl, ?_, ?_, ?_, fun _ _ => rfl, rfl⟩, rfl⟩
  · intro k ns h; cases h
  · intro j k a b _ h; cases h
  · intro n h; exact absurd rfl h

end Verif.DL
