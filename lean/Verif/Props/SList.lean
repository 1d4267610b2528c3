import Verif.SListLemmas

/-! # Properties of `SinglyLinkedList` (C28–C30) -/

namespace Verif.SL

open Prog Verif.LL
open Verif.DL (abs abs_put)

variable {α : Type}

/-- The operations that keep the cached tail up to date. -/
def Op.plain : Op α → Prop
  | .copy _ _ | .move _ _ | .push _ _ | .pop _ => False
  | _ => True

theorem avoidsAll_of_plain {ops : List (Op α)} (h : ∀ op ∈ ops, op.plain) :
    ∀ w, AvoidsAll ops w := by
  induction ops with
  | nil => intro _; trivial
  | cons op ops ih =>
    intro w
    refine ⟨?_, fun w' _ => ih (fun o ho => h o (List.mem_cons_of_mem _ ho)) w'⟩
    have := h op (List.mem_cons_self ..)
    cases op <;> simp_all [Avoids, Op.plain]

/-- **C28** (partial: the inherited `push` must not be used on an empty list nor the inherited
`pop` on the only element, see `slist_push_wrong` and `slist_pop_faults`; copies and moves as in
C29, C30).  Any such history meeting the preconditions runs without fault, so no freed node is
touched; afterwards iteration, `size`, `empty`, `front` and `back` of every list agree with the
sequence the history means.  No object is lost and after destroying all lists no node is
allocated. -/
theorem slist_sequence_partial (dflt : Option α) (ops : List (Op α)) (w : SWorld α)
    (hs : specRun ops (fun _ => none) = some w) (ha : AvoidsAll ops (fun _ => none)) :
    ∃ m, Returns (run dflt ops) Mem.init () m ∧ Shows m w ∧ m.lost = 0 ∧
      ((∀ k, w k = none) → ∀ n, ¬ DL.Allocated m n) := by
  obtain ⟨_, m, h1, h2⟩ := run_ok (dflt := dflt) Holds.init hs ha
  refine ⟨m, h1, h2.shows, ?_, ?_⟩
  · obtain ⟨g, h3, _⟩ := h2; exact h3.lost
  · obtain ⟨g, h3, _, rfl⟩ := h2
    intro hn n ha
    obtain ⟨k, ns, h4, _⟩ := h3.owned n ha
    have := hn k
    simp [abs, h4] at this

/-- Without inherited `push`/`pop`, copies and moves no guard is needed. -/
theorem slist_sequence_plain (dflt : Option α) (ops : List (Op α)) (w : SWorld α)
    (hp : ∀ op ∈ ops, op.plain) (hs : specRun ops (fun _ => none) = some w) :
    ∃ m, Returns (run dflt ops) Mem.init () m ∧ Shows m w := by
  obtain ⟨m, h1, h2, _⟩ := slist_sequence_partial dflt ops w hs (avoidsAll_of_plain hp _)
  exact ⟨m, h1, h2⟩

example : ∃ w, specRun [Op.new 0, .pushBack 0 1, .pushFront 0 2, .pushBack 0 3, .popFront 0,
      .popBack 0, .newFill 1 2 9, .popFront 1, .popFront 1, .pushBack 1 4] (fun _ => none) = some w ∧
    w 0 = some [1] ∧ w 1 = some [4] := ⟨_, rfl, rfl, rfl⟩

example : ∃ w, specRun [Op.new 0, .pushBack 0 1, .push 0 2, .push 0 3, .pop 0, .new 1, .move 1 0,
      .pushBack 0 5] (fun _ => none) = some w ∧
    AvoidsAll [Op.new 0, .pushBack 0 1, .push 0 2, .push 0 3, .pop 0, .new 1, .move 1 0,
      .pushBack 0 5] (fun _ => none) ∧ w 0 = some [5] ∧ w 1 = some [2, 1] := by
  refine ⟨_, rfl, ?_, rfl, rfl⟩
  refine ⟨trivial, fun _ h => ?_⟩; cases h
  refine ⟨trivial, fun _ h => ?_⟩; cases h
  refine ⟨by simp [Avoids, DL.SWorld.put], fun _ h => ?_⟩; cases h
  refine ⟨by simp [Avoids, DL.SWorld.put], fun _ h => ?_⟩; cases h
  refine ⟨by simp [Avoids, DL.SWorld.put], fun _ h => ?_⟩; cases h
  refine ⟨trivial, fun _ h => ?_⟩; cases h
  refine ⟨Or.inr (by simp [DL.SWorld.put]), fun _ h => ?_⟩; cases h
  exact ⟨trivial, fun _ _ => trivial⟩

/-- Popping an empty list stops at the assertion. -/
theorem slist_empty_pop (dflt : Option α) (ops : List (Op α)) (w : SWorld α)
    (hs : specRun ops (fun _ => none) = some w) (ha : AvoidsAll ops (fun _ => none)) (k : Nat)
    (hk : w k = some []) :
    ∃ m, Returns (run dflt ops) Mem.init () m ∧ Faults (step dflt (.popFront k)) m .assert ∧
      Faults (step dflt (.pop k)) m .assert ∧
      Faults (step dflt (.popBack k)) m .assert ∧ Faults (back k) m .assert := by
  obtain ⟨_, m, h1, h2⟩ := run_ok (dflt := dflt) Holds.init hs ha
  obtain ⟨g, ns, h3, _, _, h4, h5⟩ := h2.get hk
  have hr := h3.alive k ns h4
  have hn : ns = [] := by simpa using h5
  subst hn
  have key : ∀ {β : Type} (p : Prog (Mem α) β), Faults (do dassert ((← getSize k) > 0); p) m .assert := by
    intro β p
    unfold Faults
    rw [bind_returns (getSize_ok hr.head)]
    exact bind_faults (faults_dassert (by rw [hr.size]; simp) m)
  exact ⟨m, h1, bind_faults (key _), key _, key _, key _⟩

example : ∃ w, specRun [Op.new 0, .pushBack 0 1, .popFront 0] (fun _ => none) = some w ∧
    AvoidsAll [Op.new 0, .pushBack 0 1, .popFront 0] (fun _ => none) ∧ w 0 = some [] :=
  ⟨_, rfl, avoidsAll_of_plain (by simp [Op.plain]) _, rfl⟩

/-- `push_back` inserts after whatever the cached tail is. -/
theorem pushBack_at {m : Mem α} {k : Nat} {T b : Ptr} {x : α} (hh : Live m (.head k)) (hT : Live m T)
    (hb : Live m b) (hn : nx m T = some b) (ht : m.tail k = T) (hf : m.cell (.node m.next) = none) :
    wp (pushBack k (.val x)) (fun _ m' => (∀ p, Live m p → Live m' p) ∧
      (∀ p, nx m' p = if p = T then some (.node m.next) else if p = .node m.next then some b else nx m p) ∧
      (∀ p, dt m' p = if p = .node m.next ∨ p = .head k then some x else dt m p)) m := by
  unfold pushBack
  rw [wp_bind]
  refine wp_mono (newNode_ok hh (a := .val x) (x := x) rfl hf) ?_
  rintro n m1 ⟨rfl, l1, s1, n1, p1, d1, c1, x1, z1, t1, o1⟩
  have hne : ∀ p, Live m p → p ≠ .node m.next := by
    rintro p ⟨_, c, hc⟩ rfl; rw [hf] at hc; cases hc
  have live1 : ∀ p, Live m p → Live m1 p := by
    intro p hp
    have hp' := hne p hp
    rw [live_iff] at hp ⊢
    exact ⟨hp.1, by rw [s1 p hp']; exact hp.2⟩
  rw [wp_bind, wp_of_returns (getTail_ok (live1 _ hh)), t1, ht, wp_bind]
  refine wp_mono (linkAdd_ok (kd := .singly) (b := b) (live1 _ hT) l1 (live1 _ hb)
    (by rw [n1 _ (hne _ hT)]; exact hn) (Ne.symm (hne _ hT))) ?_
  rintro _ m2 ⟨s2, n2, p2, d2, c2⟩
  have hl2 := s2.live (live1 _ hh)
  rw [wp_bind, wp_of_returns (getSize_ok hl2), wp_bind, wp_of_returns (setSize_ok hl2)]
  have hl3 : Live { m2 with sz := fun x => if x = k then m2.sz k + 1 else m2.sz x } (.head k) := hl2
  rw [wp_of_returns (setTail_ok hl3)]
  refine ⟨fun p hp => s2.live (live1 p hp), fun p => ?_, fun p => ?_⟩
  · show nx m2 p = _
    rw [n2]
    by_cases h1 : p = T
    · simp [h1]
    · by_cases h2 : p = .node m.next
      · simp [h2]
      · simp only [h1, h2, if_false]; exact n1 p h2
  · show dt m2 p = _
    rw [d2, d1]

/-- **C28, failing case 1.**  On *every* empty list, the inherited `push(x)` followed by
`push_back(y)` yields `y, x` instead of `x, y`. -/
theorem slist_push_wrong (dflt : Option α) (ops : List (Op α)) (w : SWorld α)
    (hs : specRun ops (fun _ => none) = some w) (ha : AvoidsAll ops (fun _ => none)) (k : Nat)
    (hk : w k = some []) (x y : α) :
    ∃ m m', Returns (run dflt ops) Mem.init () m ∧
      Returns (run dflt [.push k x, .pushBack k y]) m () m' ∧ Returns (iterate k) m' [y, x] m' := by
  obtain ⟨_, m, h1, h2⟩ := run_ok (dflt := dflt) Holds.init hs ha
  obtain ⟨g, ns, h3, ht, _, h4, h5⟩ := h2.get hk
  have hn : ns = [] := by simpa using h5
  subst hn
  have key : wp (run dflt [.push k x, .pushBack k y]) (fun _ m' => Returns (iterate k) m' [y, x] m') m := by
    show wp (do basePushFront .singly k (.val x); run dflt [.pushBack k y]) _ m
    rw [wp_bind]
    refine wp_mono (basePushFront_ok (a := .val x) h3 h4 (x := x) rfl) ?_
    rintro _ m1 ⟨k1, t1, x1, c1⟩
    show wp (do pushBack k (.val y); run dflt []) _ m1
    have hr := k1.alive k [(m.next, x)] (by simp [put])
    rw [wp_bind]
    refine wp_mono (pushBack_at (x := y) (T := .head k) (b := .node m.next) hr.head hr.head
      (hr.live (by simp)) hr.fwd.first (by rw [t1, ht k [] h4]; rfl) (k1.fresh _ (Nat.le_refl _))) ?_
    rintro _ m2 ⟨l2, n2, d2⟩
    have hlt : m.next ≠ m1.next := by omega
    refine (wp_pure _ _ _).2 ?_
    refine iterate_circle (ns := [(m1.next, y), (m.next, x)]) (l2 _ hr.head) ?_ ?_
    · refine ⟨by rw [n2]; simp, by rw [n2]; simp, ?_, trivial⟩
      rw [n2]
      simp only [reduceCtorEq, if_false, Ptr.node.injEq, hlt]
      exact hr.fwd.2.1
    · intro e he
      simp only [List.mem_cons, List.not_mem_nil, or_false] at he
      rcases he with rfl | rfl
      · rw [d2]; simp
      · rw [d2]; simp only [Ptr.node.injEq, hlt, reduceCtorEq, or_self, if_false]
        exact hr.data (m.next, x) (by simp)
  obtain ⟨_, m', e1, e2⟩ := key
  exact ⟨m, m', h1, e1, e2⟩

example : ∃ w : SWorld Nat, specRun [Op.new 0, .pushBack 0 1, .popFront 0] (fun _ => none) = some w ∧
    w 0 = some [] := ⟨_, rfl, rfl⟩

/-- **C28, failing case 2.**  After the inherited `pop()` of the only element of *any* list the
cached tail dangles: `push_back` then uses the freed node. -/
theorem slist_pop_faults (dflt : Option α) (ops : List (Op α)) (w : SWorld α)
    (hs : specRun ops (fun _ => none) = some w) (ha : AvoidsAll ops (fun _ => none)) (k : Nat)
    (x : α) (hk : w k = some [x]) (y : α) :
    ∃ m m', Returns (run dflt ops) Mem.init () m ∧ Returns (step dflt (.pop k)) m () m' ∧
      Faults (step dflt (.pushBack k y)) m' .useAfterFree := by
  obtain ⟨_, m, h1, h2⟩ := run_ok (dflt := dflt) Holds.init hs ha
  obtain ⟨g, ns, h3, ht, _, h4, h5⟩ := h2.get hk
  obtain ⟨e, rfl⟩ : ∃ e, ns = [e] := by
    match ns, h5 with
    | [e], _ => exact ⟨e, rfl⟩
  have hlt := h3.lt_next h4 (n := e.1) (by simp)
  have key : wp (step dflt (.pop k)) (fun _ m' =>
      Faults (step dflt (.pushBack k y)) m' .useAfterFree) m := by
    refine wp_mono (basePopFront_ok (i := e.1) (x := e.2) h3 h4) ?_
    rintro _ m1 ⟨k1, t1, x1⟩
    have hr := k1.alive k [] (by simp [put])
    have hdead : m1.cell (.node e.1) = none := by
      rcases hc : m1.cell (.node e.1) with _ | c
      · rfl
      · obtain ⟨j, a, ha, hp⟩ := k1.owned e.1 (by rw [hc]; simp)
        unfold put at ha
        split at ha
        · cases ha; simp at hp
        · rename_i hj
          exact absurd (show Ptr.node e.1 ∈ ptrs [e] by simp) (h3.sep j k a [e] hj ha h4 _ hp)
    show Faults (pushBack k (.val y)) m1 .useAfterFree
    unfold pushBack
    refine faults_bind_of_wp (wp_mono (newNode_ok hr.head (a := .val y) (x := y) rfl
      (k1.fresh _ (Nat.le_refl _))) ?_)
    rintro n m2 ⟨rfl, l2, s2, n2, p2, d2, c2, x2, z2, t2, o2⟩
    have hl2 : Live m2 (.head k) := by
      have := hr.head
      rw [live_iff] at this ⊢
      exact ⟨this.1, by rw [s2 _ (by simp)]; exact this.2⟩
    have htl : m2.tail k = .node e.1 := by rw [t2, t1, ht k _ h4]; rfl
    unfold Faults
    rw [bind_returns (getTail_ok hl2), htl]
    refine bind_faults (bind_faults ?_)
    show Faults (LL.get (.node e.1) >>= _) m2 _
    refine bind_faults ?_
    unfold Faults LL.get
    rw [if_neg (by simp), c2 _ (by simp; omega) (by simp), hdead]
  obtain ⟨_, m', e1, e2⟩ := key
  exact ⟨m, m', h1, e1, e2⟩

example : ∃ w : SWorld Nat, specRun [Op.new 0, .pushBack 0 1] (fun _ => none) = some w ∧
    AvoidsAll [Op.new 0, .pushBack 0 1] (fun _ => none) ∧ w 0 = some [1] :=
  ⟨_, rfl, avoidsAll_of_plain (by simp [Op.plain]) _, rfl⟩

/-- **C29** (partial: the source must be empty; see `slist_copy_wrong` for *every* other
source).  Copying an empty list makes the destination an empty list, releases its old nodes and
any later history on both behaves as specified. -/
theorem slist_copy_partial (dflt : Option α) (ops more : List (Op α)) (w w' : SWorld α) (d s : Nat)
    (t : List α) (hs : specRun ops (fun _ => none) = some w) (ha : AvoidsAll ops (fun _ => none))
    (hd : w d = some t) (hsrc : w s = some [])
    (hmore : specRun more (fun x => if x = d then some [] else w x) = some w')
    (ha' : AvoidsAll more (fun x => if x = d then some [] else w x)) :
    ∃ m1 m2 m3, Returns (run dflt ops) Mem.init () m1 ∧ Returns (step dflt (.copy d s)) m1 () m2 ∧
      Returns (run dflt more) m2 () m3 ∧
      Shows m2 (fun x => if x = d then some [] else w x) ∧ Shows m3 w' := by
  obtain ⟨_, m1, h1, h2⟩ := run_ok (dflt := dflt) Holds.init hs ha
  obtain ⟨_, m2, h3, h4⟩ := step_ok (dflt := dflt) (op := .copy d s) h2
    (w' := fun x => if x = d then some [] else w x) (by simp [specStep, hd, hsrc]; rfl) (Or.inr hsrc)
  obtain ⟨_, m3, h5, h6⟩ := run_ok (dflt := dflt) h4 hmore ha'
  exact ⟨m1, m2, m3, h1, h3, h5, h4.shows, h6.shows⟩

example : ∃ w w', specRun [Op.new 0, .new 1, .pushBack 1 4] (fun _ => none) = some w ∧
    AvoidsAll [Op.new 0, .new 1, .pushBack 1 4] (fun _ => none) ∧ w 1 = some [4] ∧ w 0 = some [] ∧
    specRun [Op.pushBack 1 7, .pushFront 0 8] (fun x => if x = 1 then some [] else w x) = some w' ∧
    w' 1 = some [7] ∧ w' 0 = some [8] :=
  ⟨_, _, rfl, avoidsAll_of_plain (by simp [Op.plain]) _, rfl, rfl, rfl, rfl, rfl⟩

theorem copyLoop_ok {m : Mem α} {g} {d s : Nat} (hds : d ≠ s) (e : Nat × α)
    (done rest nd : List (Nat × α))
    (h : WInv .singly m g) (ht : Tails m g) (hs : g s = some (e :: done ++ rest)) (hd : g d = some nd) :
    wp (copyLoop d s (.node e.1) (firstOf (.head s) (ptrs rest)))
      (fun _ m' => ∃ nd', WInv .singly m' (put g d (some nd')) ∧ Tails m' (put g d (some nd')) ∧
        nd'.map (·.2) = nd.map (·.2) ++ List.replicate rest.length e.2) m := by
  induction rest generalizing m g done nd with
  | nil =>
    show wp (copyLoop d s (.node e.1) (.head s)) _ _
    unfold copyLoop
    rw [if_pos rfl]
    refine (wp_pure _ _ _).2 ⟨nd, ?_, ?_, by simp⟩
    · rw [← hd, put_self]; exact h
    · rw [← hd, put_self]; exact ht
  | cons f rest ih =>
    have hr := h.alive s _ hs
    have hle := hr.live (p := .node e.1) (by simp)
    show wp (copyLoop d s (.node e.1) (.node f.1)) _ _
    unfold copyLoop
    rw [if_neg (by simp), wp_bind]
    refine wp_mono (pushBack_ok (a := .ref (.node e.1)) h ht hd ⟨hle, hr.data e (by simp)⟩) ?_
    rintro _ m1 ⟨h1, ht1⟩
    have hs1 : put g d (some (nd ++ [(m.next, e.2)])) s = some (e :: done ++ f :: rest) := by
      simp [put, Ne.symm hds, hs]
    have hr1 := h1.alive s _ hs1
    have hnx : nx m1 (.node f.1) = some (firstOf (.head s) (ptrs rest)) := by
      have := hr1.fwd
      rw [show ptrs (e :: done ++ f :: rest) = ptrs (e :: done) ++ Ptr.node f.1 :: ptrs rest by simp] at this
      exact this.next_mid
    rw [wp_bind, wp_of_returns (getNext_ok (hr1.live (by simp)) hnx)]
    refine wp_mono (ih (done ++ [f]) (nd ++ [(m.next, e.2)]) h1 ht1 (by rw [hs1]; simp) (by simp [put])) ?_
    rintro _ m2 ⟨nd', h2, h3, h4⟩
    rw [put_put] at h2 h3
    refine ⟨nd', h2, h3, ?_⟩
    rw [h4]
    simp [List.replicate_succ]

/-- **C29, failing case.**  Copying *any* non-empty list `x :: l` into another one produces
`length` copies of `x` instead of the list, and leaves the destination's tail at the source's
first node: the next `push_back` on the copy inserts its element into the *source*, not into the
copy. -/
theorem slist_copy_wrong (dflt : Option α) (ops : List (Op α)) (w : SWorld α) (d s : Nat)
    (t l : List α) (x : α) (hds : d ≠ s) (hs : specRun ops (fun _ => none) = some w)
    (ha : AvoidsAll ops (fun _ => none)) (hd : w d = some t) (hsrc : w s = some (x :: l)) :
    ∃ m1 m2, Returns (run dflt ops) Mem.init () m1 ∧ Returns (step dflt (.copy d s)) m1 () m2 ∧
      Returns (iterate d) m2 (List.replicate (l.length + 1) x) m2 ∧
      Returns (iterate s) m2 (x :: l) m2 ∧
      ∀ y, ∃ m3, Returns (step dflt (.pushBack d y)) m2 () m3 ∧
        Returns (iterate s) m3 (x :: y :: l) m3 ∧
        Returns (iterate d) m3 (List.replicate (l.length + 1) x) m3 := by
  obtain ⟨_, m, h1, h2⟩ := run_ok (dflt := dflt) Holds.init hs ha
  obtain ⟨g, nd, h3, ht, h4, h5, h6⟩ := h2.get hd
  obtain ⟨ns, h7, h8⟩ : ∃ ns, g s = some ns ∧ ns.map (·.2) = x :: l := by
    rw [← h4] at hsrc; simpa [abs] using hsrc
  obtain ⟨e, ns, rfl⟩ : ∃ e ns', ns = e :: ns' := by
    cases ns with
    | nil => simp at h8
    | cons e ns => exact ⟨e, ns, rfl⟩
  simp only [List.map_cons, List.cons.injEq] at h8
  obtain ⟨rfl, rfl⟩ := h8
  have key : wp (step dflt (.copy d s)) (fun _ m2 => ∃ nd', WInv .singly m2 (put g d (some nd')) ∧
      m2.tail d = .node e.1 ∧ nd'.map (·.2) = List.replicate (ns.length + 1) e.2) m := by
    obtain ⟨_, g1, _⟩ := get_ok (h3.alive d nd h5).head
    obtain ⟨_, g2, _⟩ := get_ok (h3.alive s _ h7).head
    rw [step, wp_bind, wp_of_returns g1, wp_bind, wp_of_returns g2, if_neg hds]
    unfold copyAssign
    rw [wp_bind]
    refine wp_mono (clear_ok h3 ht h5) ?_
    rintro _ m1 ⟨k1, kt1⟩
    have hs1 : put g d (some []) s = some (e :: ns) := by simp [put, Ne.symm hds, h7]
    have hr1 := k1.alive s _ hs1
    have hnx : nx m1 (.node e.1) = some (firstOf (.head s) (ptrs ns)) :=
      Circle.next_mid (as := []) hr1.fwd
    rw [wp_bind, wp_of_returns (getSize_ok hr1.head), hr1.size, if_pos (by simp), wp_bind,
      wp_of_returns (getNext_ok hr1.head (show nx m1 (.head s) = some (.node e.1) from hr1.fwd.1)), wp_bind,
      wp_of_returns (getNext_ok (hr1.live (by simp)) hnx), wp_bind]
    refine wp_mono (copyLoop_ok hds e [] ns [] k1 kt1 hs1 (by simp [put])) ?_
    rintro _ m2 ⟨nd2, k2, kt2, e2⟩
    rw [put_put] at k2 kt2
    have hs2 : put g d (some nd2) s = some (e :: ns) := by simp [put, Ne.symm hds, h7]
    have hr2 := k2.alive s _ hs2
    rw [wp_bind]
    refine wp_mono (pushBack_ok (a := .ref (.node e.1)) k2 kt2 (k := d) (ns := nd2) (by simp [put])
      ⟨hr2.live (by simp), hr2.data e (by simp)⟩) ?_
    rintro _ m3 ⟨k3, kt3⟩
    rw [put_put] at k3 kt3
    rw [wp_of_returns (setTail_ok (k3.alive d (nd2 ++ [(m2.next, e.2)]) (by simp [put])).head)]
    refine ⟨nd2 ++ [(m2.next, e.2)], k3.setTail _, by simp, ?_⟩
    simp only [List.map_append, e2, List.map_nil, List.nil_append, List.map_cons]
    rw [List.replicate_succ']
  obtain ⟨_, m2, e1, nd', k2, htl, hnd⟩ := key
  have hs2 : put g d (some nd') s = some (e :: ns) := by simp [put, Ne.symm hds, h7]
  have hd2 : put g d (some nd') d = some nd' := by simp [put]
  have rs := k2.alive s _ hs2
  have rd := k2.alive d _ hd2
  refine ⟨m, m2, h1, e1, ?_, iterate_ok rs, ?_⟩
  · rw [List.length_map, ← hnd]; exact iterate_ok rd
  · intro y
    have hnx : nx m2 (.node e.1) = some (firstOf (.head s) (ptrs ns)) :=
      Circle.next_mid (as := []) rs.fwd
    have hfirst : Live m2 (firstOf (.head s) (ptrs ns)) := by
      rcases firstOf_mem (.head s) (ptrs ns) with h | h
      · rw [h]; exact rs.head
      · exact rs.live (List.mem_cons_of_mem _ (List.mem_cons_of_mem _ h))
    obtain ⟨_, m3, e3, l3, n3, d3⟩ := pushBack_at (x := y) rd.head (rs.live (p := .node e.1) (by simp))
      hfirst hnx htl (k2.fresh _ (Nat.le_refl _))
    have hnew : ∀ p, Live m2 p → p ≠ .node m2.next := by
      rintro p ⟨_, c, hc⟩ rfl; rw [k2.fresh _ (Nat.le_refl _)] at hc; cases hc
    have hnodup := rs.nodup
    refine ⟨m3, e3, ?_, ?_⟩
    · refine iterate_circle (ns := e :: (m2.next, y) :: ns) (l3 _ rs.head) ?_ ?_
      · have hc := rs.fwd
        simp only [Circle, List.map_cons, List.cons_append] at hc ⊢
        refine ⟨?_, ?_⟩
        · rw [n3, if_neg (by simp), if_neg (by simp)]; exact hc.1
        · obtain ⟨u, u1, u2⟩ := first_split (.head s) (ptrs ns)
          rw [u1] at hc ⊢
          refine hc.2.insertHead (by rw [n3, if_pos rfl]) ?_ ?_
          · rw [n3, if_neg (Ne.symm (hnew _ (rs.live (by simp)))), if_pos rfl]
          · rw [u2]
            intro p hp
            have hpe : p ≠ .node e.1 := by
              rintro rfl
              simp only [List.map_cons, List.nodup_cons] at hnodup
              exact hnodup.2.1 hp
            rw [n3, if_neg hpe,
              if_neg (hnew _ (rs.live (List.mem_cons_of_mem _ (List.mem_cons_of_mem _ hp))))]
      · intro f hf
        simp only [List.mem_cons] at hf
        rw [d3]
        rcases hf with rfl | rfl | hf
        · rw [if_neg (by
            rintro (h | h)
            · exact hnew _ (rs.live (by simp)) h
            · cases h)]
          exact rs.data _ (by simp)
        · simp
        · rw [if_neg (by
            rintro (h | h)
            · exact hnew _ (rs.live (List.mem_cons_of_mem _ (List.mem_map.2 ⟨f, List.mem_cons_of_mem _ hf, rfl⟩))) h
            · cases h)]
          exact rs.data f (List.mem_cons_of_mem _ hf)
    · rw [List.length_map, ← hnd]
      refine iterate_circle (l3 _ rd.head) (rd.fwd.congr ?_) ?_
      · intro p hp
        have hpe : p ≠ .node e.1 := by
          rintro rfl
          rcases List.mem_cons.1 hp with h | h
          · cases h
          · exact k2.sep d s nd' (e :: ns) hds hd2 hs2 _ h (by simp)
        rw [n3, if_neg hpe, if_neg (hnew _ (rd.live hp))]
      · intro f hf
        rw [d3, if_neg (by
          rintro (h | h)
          · exact hnew _ (rd.live (List.mem_cons_of_mem _ (List.mem_map.2 ⟨f, hf, rfl⟩))) h
          · cases h)]
        exact rd.data f hf

example : ∃ w : SWorld Nat, specRun [Op.new 0, .pushBack 0 1, .pushBack 0 2, .new 1] (fun _ => none) = some w ∧
    AvoidsAll [Op.new 0, .pushBack 0 1, .pushBack 0 2, .new 1] (fun _ => none) ∧
    w 1 = some [] ∧ w 0 = some [1, 2] :=
  ⟨_, rfl, avoidsAll_of_plain (by simp [Op.plain]) _, rfl, rfl⟩

/-- **C30** (partial: the source must not be empty, see `slist_move_empty_faults`).  Moving a
non-empty list into another one transfers all its elements in order, leaves the source a valid
empty list and all others unchanged, and any further history behaves as specified. -/
theorem slist_move_partial (dflt : Option α) (ops more : List (Op α)) (w w' : SWorld α) (d s : Nat)
    (t l : List α) (hds : d ≠ s) (hs : specRun ops (fun _ => none) = some w)
    (ha : AvoidsAll ops (fun _ => none)) (hd : w d = some t) (hsrc : w s = some l) (hl : l ≠ [])
    (hmore : specRun more (fun x => if x = s then some [] else if x = d then some l else w x) = some w')
    (ha' : AvoidsAll more (fun x => if x = s then some [] else if x = d then some l else w x)) :
    ∃ m1 m2 m3, Returns (run dflt ops) Mem.init () m1 ∧ Returns (step dflt (.move d s)) m1 () m2 ∧
      Returns (run dflt more) m2 () m3 ∧
      Shows m2 (fun x => if x = s then some [] else if x = d then some l else w x) ∧ Shows m3 w' := by
  obtain ⟨_, m1, h1, h2⟩ := run_ok (dflt := dflt) Holds.init hs ha
  obtain ⟨_, m2, h3, h4⟩ := step_ok (dflt := dflt) (op := .move d s) h2
    (w' := fun x => if x = s then some [] else if x = d then some l else w x)
    (by simp [specStep, hd, hsrc, hds]; rfl) (Or.inr (by rw [hsrc]; simpa using hl))
  obtain ⟨_, m3, h5, h6⟩ := run_ok (dflt := dflt) h4 hmore ha'
  exact ⟨m1, m2, m3, h1, h3, h5, h4.shows, h6.shows⟩

example : ∃ w w', specRun [Op.new 0, .pushBack 0 1, .pushBack 0 2, .new 1, .pushBack 1 8]
      (fun _ => none) = some w ∧
    AvoidsAll [Op.new 0, .pushBack 0 1, .pushBack 0 2, .new 1, .pushBack 1 8] (fun _ => none) ∧
    w 1 = some [8] ∧ w 0 = some [1, 2] ∧
    specRun [Op.pushBack 0 9, .pushBack 1 3]
      (fun x => if x = 0 then some [] else if x = 1 then some [1, 2] else w x) = some w' ∧
    w' 0 = some [9] ∧ w' 1 = some [1, 2, 3] ∧
    AvoidsAll [Op.pushBack 0 9, .pushBack 1 3]
      (fun x => if x = 0 then some [] else if x = 1 then some [1, 2] else w x) :=
  ⟨_, _, rfl, avoidsAll_of_plain (by simp [Op.plain]) _, rfl, rfl, rfl, rfl, rfl,
    avoidsAll_of_plain (by simp [Op.plain]) _⟩

/-- **C30, failing case.**  After a move from *any* empty list into a different one the two
sentinels point at each other: `empty()` and the destructor of either stop at the assertion. -/
theorem slist_move_empty_faults (dflt : Option α) (ops : List (Op α)) (w : SWorld α) (d s : Nat)
    (t : List α) (hds : d ≠ s) (hs : specRun ops (fun _ => none) = some w)
    (ha : AvoidsAll ops (fun _ => none)) (hd : w d = some t) (hsrc : w s = some []) :
    ∃ m1 m2, Returns (run dflt ops) Mem.init () m1 ∧ Returns (step dflt (.move d s)) m1 () m2 ∧
      Faults (empty d) m2 .assert ∧ Faults (empty s) m2 .assert ∧
      Faults (step dflt (.drop d)) m2 .assert ∧ Faults (step dflt (.drop s)) m2 .assert := by
  obtain ⟨_, m, h1, h2⟩ := run_ok (dflt := dflt) Holds.init hs ha
  obtain ⟨g, nd, h3, ht, h4, h5, h6⟩ := h2.get hd
  obtain ⟨ns, h7, h8⟩ : ∃ ns, g s = some ns ∧ ns.map (·.2) = [] := by
    rw [← h4] at hsrc; simpa [abs] using hsrc
  have hns : ns = [] := by simpa using h8
  subst hns
  have key : wp (step dflt (.move d s)) (fun _ m' => Live m' (.head d) ∧ Live m' (.head s) ∧
      m'.sz d = 0 ∧ m'.sz s = 0 ∧ nx m' (.head d) = some (.head s) ∧
      nx m' (.head s) = some (.head d)) m := by
    obtain ⟨_, g1, _⟩ := get_ok (h3.alive d nd h5).head
    obtain ⟨_, g2, _⟩ := get_ok (h3.alive s [] h7).head
    rw [step, wp_bind, wp_of_returns g1, wp_bind, wp_of_returns g2, if_neg hds]
    unfold moveAssign
    rw [wp_bind]
    refine wp_mono (baseMove_ok h3 hds h5 h7) ?_
    rintro _ m2 ⟨m1, k1, t1, rs, ld, nd, pd, c2, z2, t2, x2, o2⟩
    have hs1 : put g d (some []) s = some [] := by simp [put, Ne.symm hds, h7]
    have hr := k1.alive s [] hs1
    have hnx : nx m2 (.head d) = some (.head s) := nd.trans hr.fwd.first
    have htl : m2.tail s = .head s := by rw [t2, t1, ht s [] h7]; rfl
    rw [wp_bind, wp_of_returns (getTail_ok rs.head), htl, wp_bind, wp_of_returns (setTail_ok ld)]
    generalize hm3 : ({ m2 with tail := fun x => if x = d then Ptr.head s else m2.tail x } : Mem α) = m3
    have c3 : m3.cell = m2.cell := by subst hm3; rfl
    have live3 : ∀ {p}, Live m2 p → Live m3 p := by
      rintro p ⟨h0, c, hc⟩; exact ⟨h0, c, by rw [c3]; exact hc⟩
    have ht3 : m3.tail d = .head s := by subst hm3; simp
    rw [wp_bind, wp_of_returns (getTail_ok (live3 ld)), ht3, wp_bind]
    refine wp_mono (setNext_ok (live3 rs.head)) ?_
    rintro _ m4 ⟨s4, n4, p4, d4, c4⟩
    rw [wp_of_returns (setTail_ok (s4.live (live3 rs.head)))]
    have hds' : Ptr.head d ≠ Ptr.head s := by simpa using hds
    have z3 : m3.sz = m2.sz := by subst hm3; rfl
    refine ⟨s4.live (live3 ld), s4.live (live3 rs.head), ?_, ?_, ?_, ?_⟩
    · show m4.sz d = 0
      rw [s4.sz, z3, z2]; simp [hds]
    · show m4.sz s = 0
      rw [s4.sz, z3, z2]; simp
    · show nx m4 _ = _
      rw [n4, if_neg hds']; unfold nx; rw [c3]; exact hnx
    · show nx m4 _ = _
      rw [n4, if_pos rfl]
  obtain ⟨_, m2, e1, l1, l2, z1, z2, n1, n2⟩ := key
  have hempty : ∀ a b : Nat, a ≠ b → Live m2 (.head a) → m2.sz a = 0 →
      nx m2 (.head a) = some (.head b) → Faults (empty a : Prog (Mem α) Bool) m2 .assert := by
    intro a b hab hl hz hn
    unfold empty Faults
    rw [bind_returns (getSize_ok hl), if_pos hz, bind_returns (getNext_ok hl hn)]
    exact bind_faults (faults_dassert (by simpa using Ne.symm hab) m2)
  have hdrop : ∀ a, Faults (empty a : Prog (Mem α) Bool) m2 .assert → Faults (step dflt (.drop a)) m2 .assert := by
    intro a hf
    show Faults (baseDrop .singly a) m2 .assert
    unfold baseDrop baseClear
    exact bind_faults (bind_faults hf)
  have f1 := hempty d s hds l1 z1 n1
  have f2 := hempty s d (Ne.symm hds) l2 z2 n2
  exact ⟨m, m2, h1, e1, f1, f2, hdrop d f1, hdrop s f2⟩

example : ∃ w : SWorld Nat, specRun [Op.new 0, .new 1, .pushBack 1 8] (fun _ => none) = some w ∧
    AvoidsAll [Op.new 0, .new 1, .pushBack 1 8] (fun _ => none) ∧
    w 1 = some [8] ∧ w 0 = some [] := ⟨_, rfl, avoidsAll_of_plain (by simp [Op.plain]) _, rfl, rfl⟩

end Verif.SL
