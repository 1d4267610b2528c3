import Verif.DListLemmas

/-! # Properties of `DoublyLinkedList` (C24–C27, C68, C69) -/

namespace Verif.DL

open Prog Verif.LL

variable {α : Type}

theorem avoidsAll_of_noMove {ops : List (Op α)} (h : ∀ op ∈ ops, ∀ d s, op ≠ .move d s) :
    ∀ w, AvoidsAll ops w := by
  induction ops with
  | nil => intro _; trivial
  | cons op ops ih =>
    intro w
    refine ⟨?_, fun w' _ => ih (fun o ho => h o (List.mem_cons_of_mem _ ho)) w'⟩
    have := h op (List.mem_cons_self ..)
    cases op <;> simp_all [Avoids]

/-- **C24.**  Any history of construction, push_front, push_back (also of a reference to an element
of the same or another list), writing through iterators, pop_front, pop_back, clear, copying and
destruction that meets the preconditions (no pop on an empty list) runs without
fault; afterwards every list read forwards is the sequence the history means, read backwards
its reverse, and `front`, `back`, `size`, `empty` agree with it. -/
theorem dlist_sequence (dflt : Option α) (ops : List (Op α)) (w : SWorld α)
    (hm : ∀ op ∈ ops, ∀ d s, op ≠ .move d s) (hs : specRun ops (fun _ => none) = some w) :
    ∃ m, Returns (run dflt ops) Mem.init () m ∧ Shows m w := by
  obtain ⟨_, m, h1, h2⟩ := run_ok (dflt := dflt) Holds.init hs (avoidsAll_of_noMove hm _)
  exact ⟨m, h1, h2.shows⟩

example : ∃ w, specRun [Op.new 0, .pushBack 0 1, .pushBack 0 2, .pushFront 0 3, .popBack 0,
      .newFill 1 3 7, .popFront 1, .copy 1 0, .pushBack 1 5, .popFront 0, .pushFrontElem 0 0 0,
      .pushBackElem 0 1 2, .set 0 1 9] (fun _ => none) = some w ∧
    w 0 = some [1, 9, 5] ∧ w 1 = some [3, 1, 5] := ⟨_, rfl, rfl, rfl⟩

/-- Popping an empty list stops at the assertion. -/
theorem dlist_empty_pop (dflt : Option α) (ops : List (Op α)) (w : SWorld α)
    (hs : specRun ops (fun _ => none) = some w) (ha : AvoidsAll ops (fun _ => none)) (k : Nat)
    (hk : w k = some []) :
    ∃ m, Returns (run dflt ops) Mem.init () m ∧ Faults (step dflt (.popFront k)) m .assert ∧
      Faults (step dflt (.popBack k)) m .assert ∧ Faults (back k) m .assert := by
  obtain ⟨_, m, h1, h2⟩ := run_ok (dflt := dflt) Holds.init hs ha
  obtain ⟨g, ns, h3, _, h4, h5⟩ := h2.get hk
  have hr := h3.alive k ns h4
  have hn : ns = [] := by simpa using h5
  subst hn
  have key : ∀ {β : Type} (p : Prog (Mem α) β), Faults (do dassert ((← getSize k) > 0); p) m .assert := by
    intro β p
    unfold Faults
    rw [bind_returns (getSize_ok hr.head)]
    exact bind_faults (faults_dassert (by rw [hr.size]; simp) m)
  exact ⟨m, h1, key _, key _, key _⟩

example : ∃ w, specRun [Op.new 0, .pushBack 0 1, .popFront 0] (fun _ => none) = some w ∧
    AvoidsAll [Op.new 0, .pushBack 0 1, .popFront 0] (fun _ => none) ∧ w 0 = some [] :=
  ⟨_, rfl, avoidsAll_of_noMove (by simp) _, rfl⟩

/-- The operation may change the list `j`. -/
def Op.changes (j : Nat) : Op α → Prop
  | .new k | .newFill k _ _ | .pushFront k _ | .pushBack k _ | .pushFrontElem k _ _
  | .pushBackElem k _ _ | .set k _ _ | .popFront k | .popBack k | .clear k | .drop k => k = j
  | .copy d _ => d = j
  | .move d s => d = j ∨ s = j

theorem specStep_other {op : Op α} {w w' : SWorld α} (hs : specStep op w = some w') {j : Nat}
    (hj : ¬ op.changes j) : w' j = w j := by
  cases op with
  | move d s =>
    simp only [Op.changes, not_or] at hj
    simp only [specStep, Option.bind_eq_some_iff] at hs
    obtain ⟨_, _, l, _, hs⟩ := hs
    split at hs
    · cases hs; rfl
    · cases hs; simp [SWorld.put, Ne.symm hj.1, Ne.symm hj.2]
  | copy d s =>
    simp only [Op.changes] at hj
    simp only [specStep, Option.bind_eq_some_iff] at hs
    obtain ⟨_, _, l, _, hs⟩ := hs
    cases hs; simp [SWorld.put, Ne.symm hj]
  | new k =>
    simp only [Op.changes] at hj
    simp only [specStep] at hs
    split at hs <;> cases hs
    simp [SWorld.put, Ne.symm hj]
  | newFill k n x =>
    simp only [Op.changes] at hj
    simp only [specStep] at hs
    split at hs <;> cases hs
    simp [SWorld.put, Ne.symm hj]
  | pushFrontElem k _ _ | pushBackElem k _ _ =>
    simp only [Op.changes] at hj
    simp only [specStep, Option.bind_eq_some_iff] at hs
    obtain ⟨_, _, _, _, _, _, hs⟩ := hs
    cases hs
    simp [SWorld.put, Ne.symm hj]
  | set k i x =>
    simp only [Op.changes] at hj
    simp only [specStep, Option.bind_eq_some_iff] at hs
    obtain ⟨_, _, hs⟩ := hs
    split at hs <;> cases hs
    simp [SWorld.put, Ne.symm hj]
  | popFront k =>
    simp only [Op.changes] at hj
    simp only [specStep, Option.bind_eq_some_iff] at hs
    obtain ⟨_, _, hs⟩ := hs
    split at hs <;> cases hs
    simp [SWorld.put, Ne.symm hj]
  | popBack k =>
    simp only [Op.changes] at hj
    simp only [specStep, Option.bind_eq_some_iff] at hs
    obtain ⟨_, _, hs⟩ := hs
    split at hs <;> cases hs
    simp [SWorld.put, Ne.symm hj]
  | _ =>
    simp only [Op.changes] at hj
    simp only [specStep, Option.bind_eq_some_iff] at hs
    obtain ⟨_, _, hs⟩ := hs
    cases hs
    simp [SWorld.put, Ne.symm hj]

theorem specRun_other {ops : List (Op α)} {w w' : SWorld α} (hs : specRun ops w = some w') {j : Nat}
    (hj : ∀ op ∈ ops, ¬ op.changes j) : w' j = w j := by
  induction ops generalizing w with
  | nil => cases hs; rfl
  | cons op ops ih =>
    simp only [specRun, Option.bind_eq_some_iff] at hs
    obtain ⟨w1, h1, h2⟩ := hs
    rw [ih h2 (fun o ho => hj o (List.mem_cons_of_mem _ ho)),
      specStep_other h1 (hj op (List.mem_cons_self ..))]

/-- **C25.**  After any history, `d = s` makes `d` equal to `s` and leaves all other lists as
they were; and whatever is done afterwards, a list of the two that is not itself changed still
reads, forwards and backwards, as at the time of the copy. -/
theorem dlist_copy (dflt : Option α) (ops more : List (Op α)) (w w' : SWorld α) (d s : Nat)
    (t l : List α) (hs : specRun ops (fun _ => none) = some w) (ha : AvoidsAll ops (fun _ => none))
    (hd : w d = some t) (hsrc : w s = some l)
    (hmore : specRun more (fun x => if x = d then some l else w x) = some w')
    (ha' : AvoidsAll more (fun x => if x = d then some l else w x)) :
    ∃ m1 m2 m3, Returns (run dflt ops) Mem.init () m1 ∧ Returns (step dflt (.copy d s)) m1 () m2 ∧
      Returns (run dflt more) m2 () m3 ∧
      Shows m2 (fun x => if x = d then some l else w x) ∧ Shows m3 w' ∧
      ∀ j, (j = d ∨ j = s) → (∀ op ∈ more, ¬ op.changes j) →
        Returns (iterate j) m3 l m3 ∧ Returns (backward j) m3 l.reverse m3 := by
  obtain ⟨_, m1, h1, h2⟩ := run_ok (dflt := dflt) Holds.init hs ha
  obtain ⟨_, m2, h3, h4⟩ := step_ok (dflt := dflt) (op := .copy d s) h2
    (w' := fun x => if x = d then some l else w x) (by simp [specStep, hd, hsrc]; rfl) trivial
  obtain ⟨_, m3, h5, h6⟩ := run_ok (dflt := dflt) h4 hmore ha'
  refine ⟨m1, m2, m3, h1, h3, h5, h4.shows, h6.shows, ?_⟩
  intro j hj hc
  have hw : w' j = some l := by
    rw [specRun_other hmore hc]
    rcases hj with rfl | rfl
    · simp
    · simp only [hsrc]; split <;> rfl
  obtain ⟨e1, e2, _⟩ := (h6.shows j).2 l hw
  exact ⟨e1, e2⟩

example : ∃ w w', specRun [Op.new 0, .pushBack 0 1, .pushBack 0 2, .new 1] (fun _ => none) = some w ∧
    AvoidsAll [Op.new 0, .pushBack 0 1, .pushBack 0 2, .new 1] (fun _ => none) ∧
    w 1 = some [] ∧ w 0 = some [1, 2] ∧
    specRun [Op.popFront 1, .pushBack 1 9] (fun x => if x = 1 then some [1, 2] else w x) = some w' ∧
    w' 1 = some [2, 9] ∧ ∀ op ∈ [Op.popFront 1, .pushBack 1 9], ¬ op.changes 0 :=
  ⟨_, _, rfl, avoidsAll_of_noMove (by simp) _, rfl, rfl, rfl, rfl, by simp [Op.changes]⟩

/-- **C26** (partial: the source must not be empty, see `dlist_move_empty_faults`).  Moving a
non-empty list into another one transfers all its elements in order, leaves the source a valid
empty list and all others unchanged, and any further history behaves as specified. -/
theorem dlist_move_partial (dflt : Option α) (ops more : List (Op α)) (w w' : SWorld α) (d s : Nat)
    (t l : List α) (hds : d ≠ s) (hs : specRun ops (fun _ => none) = some w)
    (ha : AvoidsAll ops (fun _ => none)) (hd : w d = some t) (hsrc : w s = some l) (hl : l ≠ [])
    (hmore : specRun more (fun x => if x = s then some [] else if x = d then some l else w x) = some w')
    (ha' : AvoidsAll more (fun x => if x = s then some [] else if x = d then some l else w x)) :
    ∃ m1 m2 m3, Returns (run dflt ops) Mem.init () m1 ∧ Returns (step dflt (.move d s)) m1 () m2 ∧
      Returns (run dflt more) m2 () m3 ∧
      Shows m2 (fun x => if x = s then some [] else if x = d then some l else w x) ∧ Shows m3 w' := by
  obtain ⟨_, m1, h1, h2⟩ := run_ok (dflt := dflt) Holds.init hs ha
  obtain ⟨_, m2, h3, h4⟩ := step_ok (dflt := dflt) (op := .move d s) h2
    (w' := fun x => if x = s then some [] else if x = d then some l else w x)
    (by simp [specStep, hd, hsrc, hds]; rfl) (Or.inr (by rw [hsrc]; simpa using hl))
  obtain ⟨_, m3, h5, h6⟩ := run_ok (dflt := dflt) h4 hmore ha'
  exact ⟨m1, m2, m3, h1, h3, h5, h4.shows, h6.shows⟩

example : ∃ w w', specRun [Op.new 0, .pushBack 0 1, .pushBack 0 2, .new 1, .pushBack 1 8]
      (fun _ => none) = some w ∧
    AvoidsAll [Op.new 0, .pushBack 0 1, .pushBack 0 2, .new 1, .pushBack 1 8] (fun _ => none) ∧
    w 1 = some [8] ∧ w 0 = some [1, 2] ∧
    specRun [Op.pushBack 0 9] (fun x => if x = 0 then some [] else if x = 1 then some [1, 2] else w x)
      = some w' ∧ w' 0 = some [9] ∧
    AvoidsAll [Op.pushBack 0 9] (fun x => if x = 0 then some [] else if x = 1 then some [1, 2] else w x) :=
  ⟨_, _, rfl, avoidsAll_of_noMove (by simp) _, rfl, rfl, rfl, rfl, avoidsAll_of_noMove (by simp) _⟩

/-- **C26, failing case.**  After a move from *any* empty list into a different one the two
sentinels point at each other: `empty()` and the destructor of either stop at the assertion. -/
theorem dlist_move_empty_faults (dflt : Option α) (ops : List (Op α)) (w : SWorld α) (d s : Nat)
    (t : List α) (hds : d ≠ s) (hs : specRun ops (fun _ => none) = some w)
    (ha : AvoidsAll ops (fun _ => none)) (hd : w d = some t) (hsrc : w s = some []) :
    ∃ m1 m2, Returns (run dflt ops) Mem.init () m1 ∧ Returns (step dflt (.move d s)) m1 () m2 ∧
      Faults (empty d) m2 .assert ∧ Faults (empty s) m2 .assert ∧
      Faults (step dflt (.drop d)) m2 .assert ∧ Faults (step dflt (.drop s)) m2 .assert := by
  obtain ⟨_, m, h1, h2⟩ := run_ok (dflt := dflt) Holds.init hs ha
  obtain ⟨g, nd, h3, h4, h5, h6⟩ := h2.get hd
  obtain ⟨ns, h7, h8⟩ : ∃ ns, g s = some ns ∧ ns.map (·.2) = [] := by
    rw [← h4] at hsrc; simpa [abs] using hsrc
  have hns : ns = [] := by simpa using h8
  subst hns
  have key : wp (step dflt (.move d s)) (fun _ m' => Live m' (.head d) ∧ Live m' (.head s) ∧
      m'.sz d = 0 ∧ m'.sz s = 0 ∧ nx m' (.head d) = some (.head s) ∧
      nx m' (.head s) = some (.head d)) m := by
    obtain ⟨_, g1, _⟩ := get_ok (h3.alive d nd h5).head
    obtain ⟨_, g2, _⟩ := get_ok (h3.alive s [] h7).head
    rw [step, wp_bind, wp_of_returns g1, wp_bind, wp_of_returns g2, if_neg hds]
    unfold moveAssign
    rw [wp_bind]
    refine wp_mono (baseMove_ok h3 hds h5 h7) ?_
    rintro _ m2 ⟨m1, k1, t1, rs, ld, nd, pd, c2, z2, t2, x2, o2⟩
    have hs1 : put g d (some []) s = some [] := by simp [put, Ne.symm hds, h7]
    have hr := k1.alive s [] hs1
    have hnx : nx m2 (.head d) = some (.head s) := nd.trans hr.fwd.first
    have hpv : pv m2 (.head d) = some (.head s) := pd.trans (prevHead hr)
    rw [wp_bind, wp_of_returns (getPrev_ok ld hpv), wp_bind]
    refine wp_mono (setNext_ok rs.head) ?_
    rintro _ m3 ⟨s3, n3, p3, d3, c3⟩
    have hds' : Ptr.head d ≠ Ptr.head s := by simpa using hds
    rw [wp_bind, wp_of_returns (getNext_ok (s3.live ld) (by rw [n3, if_neg hds']; exact hnx))]
    refine wp_mono (setPrev_ok (s3.live rs.head)) ?_
    rintro _ m4 ⟨s4, p4, n4, d4, c4⟩
    refine ⟨s4.live (s3.live ld), s4.live (s3.live rs.head), ?_, ?_, ?_, ?_⟩
    · rw [s4.sz, s3.sz, z2]; simp [hds]
    · rw [s4.sz, s3.sz, z2]; simp
    · rw [n4, n3, if_neg hds', hnx]
    · rw [n4, n3, if_pos rfl]
  obtain ⟨_, m2, e1, l1, l2, z1, z2, n1, n2⟩ := key
  have hempty : ∀ a b : Nat, a ≠ b → Live m2 (.head a) → m2.sz a = 0 →
      nx m2 (.head a) = some (.head b) → Faults (empty a : Prog (Mem α) Bool) m2 .assert := by
    intro a b hab hl hz hn
    unfold empty Faults
    rw [bind_returns (getSize_ok hl), if_pos hz, bind_returns (getNext_ok hl hn)]
    exact bind_faults (faults_dassert (by simpa using Ne.symm hab) m2)
  have hdrop : ∀ a, Faults (empty a : Prog (Mem α) Bool) m2 .assert → Faults (step dflt (.drop a)) m2 .assert := by
    intro a hf
    show Faults (baseDrop .doubly a) m2 .assert
    unfold baseDrop baseClear
    exact bind_faults (bind_faults hf)
  have f1 := hempty d s hds l1 z1 n1
  have f2 := hempty s d (Ne.symm hds) l2 z2 n2
  exact ⟨m, m2, h1, e1, f1, f2, hdrop d f1, hdrop s f2⟩

example : ∃ w : SWorld Nat, specRun [Op.new 0, .new 1, .pushBack 1 8] (fun _ => none) = some w ∧
    AvoidsAll [Op.new 0, .new 1, .pushBack 1 8] (fun _ => none) ∧
    w 1 = some [8] ∧ w 0 = some [] := ⟨_, rfl, avoidsAll_of_noMove (by simp) _, rfl, rfl⟩

/-- **C27** (partial: histories do not move from an empty list, C26).  Any history is free of
faults, so no node is used after its release or released twice; no node object is lost; every
allocated node is on the forward path of a live list, exactly as many as its elements; and when
all lists have been destroyed no node is allocated. -/
theorem dlist_memory_partial (dflt : Option α) (ops : List (Op α)) (w : SWorld α)
    (hs : specRun ops (fun _ => none) = some w) (ha : AvoidsAll ops (fun _ => none)) :
    ∃ m, Returns (run dflt ops) Mem.init () m ∧ m.lost = 0 ∧
      (∃ own : Nat → List Nat, (∀ k, (own k).length = ((w k).getD []).length ∧ (own k).Nodup) ∧
        (∀ j k, j ≠ k → ∀ n ∈ own j, n ∉ own k) ∧
        ∀ n, Allocated m n ↔ ∃ k, n ∈ own k) ∧
      ((∀ k, w k = none) → ∀ n, ¬ Allocated m n) := by
  obtain ⟨_, m, h1, g, h2, rfl⟩ := run_ok (dflt := dflt) Holds.init hs ha
  have hinj : ∀ (ns : List (Nat × α)) (n : Nat), Ptr.node n ∈ ptrs ns ↔ n ∈ ns.map (·.1) := by
    intro ns n; simp
  have howned : ∀ n, Allocated m n ↔ ∃ k, n ∈ ((g k).getD []).map (·.1) := by
    intro n
    constructor
    · intro hn
      obtain ⟨k, ns, h3, h4⟩ := h2.owned n hn
      exact ⟨k, by rw [h3]; exact (hinj ns n).1 h4⟩
    · rintro ⟨k, hn⟩
      rcases hk : g k with _ | ns
      · rw [hk] at hn; simp at hn
      · rw [hk] at hn
        obtain ⟨_, c, hc⟩ := (h2.alive k ns hk).live (List.mem_cons_of_mem _ ((hinj ns n).2 hn))
        intro h; rw [h] at hc; cases hc
  refine ⟨m, h1, h2.lost, ⟨fun k => ((g k).getD []).map (·.1), ?_, ?_, howned⟩, ?_⟩
  · intro k
    rcases hk : g k with _ | ns
    · simp [abs, hk]
    · refine ⟨by simp [abs, hk], ?_⟩
      have := (List.nodup_cons.1 (h2.alive k ns hk).nodup).2
      have e : ptrs ns = (ns.map (·.1)).map Ptr.node := by simp
      rw [e] at this
      show (((g k).getD []).map (·.1)).Nodup
      rw [hk]
      exact List.Pairwise.of_map Ptr.node (fun a b hab h => hab (by rw [h])) this
  · intro j k hjk n hn hn'
    simp only at hn hn'
    rcases hj : g j with _ | a
    · simp [hj] at hn
    · rcases hk : g k with _ | b
      · simp [hk] at hn'
      · rw [hj] at hn; rw [hk] at hn'
        exact h2.sep j k a b hjk hj hk _ ((hinj a n).2 hn) ((hinj b n).2 hn')
  · intro hnone n hn
    obtain ⟨k, hk⟩ := (howned n).1 hn
    have : g k = none := by have := hnone k; simpa [abs] using this
    rw [this] at hk; simp at hk

example : ∃ w : SWorld Nat, specRun [Op.newFill 0 3 7, .new 1, .pushBack 1 8, .move 1 0, .popFront 1,
      .drop 0, .drop 1] (fun _ => none) = some w ∧
    AvoidsAll [Op.newFill 0 3 7, .new 1, .pushBack 1 8, .move 1 0, .popFront 1, .drop 0, .drop 1]
      (fun _ => none) ∧ ∀ k, w k = none := by
  refine ⟨_, rfl, ?_, ?_⟩
  · refine ⟨trivial, fun _ h => ?_⟩; cases h
    refine ⟨trivial, fun _ h => ?_⟩; cases h
    refine ⟨trivial, fun _ h => ?_⟩; cases h
    exact ⟨Or.inr (by decide), fun w' _ => avoidsAll_of_noMove (by simp) w'⟩
  · intro k
    simp only [SWorld.put]
    repeat' split
    all_goals first | rfl | omega

/-! ## Iterators -/

/-- **C68** (partial: histories do not move from an empty list, C26).  An iterator (and a reference
it gives) stays with its element: take the iterator at position `i` of list `k` in any reachable
state; after any further history that does not remove that element, the same iterator is still at
the element, which is now where `followAll` says (possibly in another list, after a move), and
reading through it gives its current value. -/
theorem dlist_references_partial (dflt : Option α) (ops more : List (Op α)) (w w' : SWorld α)
    (hs : specRun ops (fun _ => none) = some w) (ha : AvoidsAll ops (fun _ => none))
    (hmore : specRun more w = some w') (ha' : AvoidsAll more w)
    (k i k' i' : Nat) (l : List α) (hk : w k = some l) (hi : i < l.length)
    (hf : followAll more w (k, i) = some (k', i')) :
    ∃ m m' p, Returns (run dflt ops) Mem.init () m ∧ Returns (nth k i) m p m ∧
      Returns (run dflt more) m () m' ∧ Returns (nth k' i') m' p m' ∧
      ∃ l' x, w' k' = some l' ∧ l'[i']? = some x ∧ Returns (getData p) m' x m' := by
  obtain ⟨_, m, h1, g, h2, rfl⟩ := run_ok (dflt := dflt) Holds.init hs ha
  obtain ⟨ns, h3, rfl⟩ := get_of_abs hk
  rw [List.length_map] at hi
  have he : ns[i]? = some ns[i] := List.getElem?_eq_getElem hi
  obtain ⟨_, m', h4, g', h5, rfl, h6⟩ := run_ghost (dflt := dflt) h2 hmore ha'
  obtain ⟨ns', e', k1, k2, k3⟩ := h6 k i k' i' ns _ h3 he hf
  have hr := h5.alive k' ns' k1
  refine ⟨m, m', .node ns[i].1, h1, nth_elem (h2.alive k ns h3) he, h4, ?_, ns'.map (·.2), e'.2,
    by simp [abs, k1], by simp [k2], ?_⟩
  · rw [← k3]; exact nth_elem hr k2
  · rw [← k3]
    have hem : e' ∈ ns' := List.mem_of_getElem? k2
    exact getData_ok (hr.live (List.mem_cons_of_mem _ (List.mem_map.2 ⟨e', hem, rfl⟩))) (hr.data e' hem)

/-- The third element is followed through pushes, pops, a write, a copy and a move. -/
example : ∃ w w', specRun [Op.newFill 0 3 7, .new 1] (fun _ => none) = some w ∧
    AvoidsAll [Op.newFill 0 3 7, .new 1] (fun _ => none) ∧
    specRun [.pushFront 0 8, .popFront 0, .popFront 0, .set 0 1 5, .pushBack 0 6, .copy 1 0,
      .move 1 0, .clear 0] w = some w' ∧
    AvoidsAll [Op.pushFront 0 8, .popFront 0, .popFront 0, .set 0 1 5, .pushBack 0 6, .copy 1 0,
      .move 1 0, .clear 0] w ∧ w 0 = some [7, 7, 7] ∧
    followAll [Op.pushFront 0 8, .popFront 0, .popFront 0, .set 0 1 5, .pushBack 0 6, .copy 1 0,
      .move 1 0, .clear 0] w (0, 2) = some (1, 1) ∧ w' 1 = some [7, 5, 6] := by
  refine ⟨_, _, rfl, avoidsAll_of_noMove (by simp) _, rfl, ?_, rfl, rfl, rfl⟩
  refine ⟨trivial, fun _ h => ?_⟩; cases h
  refine ⟨trivial, fun _ h => ?_⟩; cases h
  refine ⟨trivial, fun _ h => ?_⟩; cases h
  refine ⟨trivial, fun _ h => ?_⟩; cases h
  refine ⟨trivial, fun _ h => ?_⟩; cases h
  refine ⟨trivial, fun _ h => ?_⟩; cases h
  exact ⟨Or.inr (by decide), fun w' _ => avoidsAll_of_noMove (by simp) w'⟩

/-- `it 0, it 1, …` are the iterators of the list `k` with contents `l` from `begin()` to `end()`;
iterators are compared as the pointers they hold (spec/DStructSpec.hpp:93-94). -/
structure Line (m : Mem α) (k : Nat) (l : List α) (it : Nat → Ptr) : Prop where
  begin_ : Returns (getNext (.head k)) m (it 0) m
  end_ : it l.length = .head k
  next : ∀ i, i < l.length → Returns (getNext (it i)) m (it (i + 1)) m
  prev : ∀ i, i < l.length → Returns (getPrev (it (i + 1))) m (it i) m
  eq : ∀ i j, i ≤ l.length → j ≤ l.length → (it i = it j ↔ i = j)
  elem : ∀ i (h : i < l.length), Returns (getData (it i)) m l[i] m

/-- **C69** (partial: histories do not move from an empty list, C26).  In every reachable state the
iterators of every list form a line from `begin()` to `end()`: `++` and `--` move between
neighbours, different positions are different, and reading gives the element at the position. -/
theorem dlist_iterators_partial (dflt : Option α) (ops : List (Op α)) (w : SWorld α)
    (hs : specRun ops (fun _ => none) = some w) (ha : AvoidsAll ops (fun _ => none)) :
    ∃ m, Returns (run dflt ops) Mem.init () m ∧ ∀ k l, w k = some l → ∃ it, Line m k l it := by
  obtain ⟨_, m, h1, g, h2, rfl⟩ := run_ok (dflt := dflt) Holds.init hs ha
  refine ⟨m, h1, ?_⟩
  intro k l hk
  obtain ⟨ns, h3, rfl⟩ := get_of_abs hk
  have hr := h2.alive k ns h3
  have hnode : ∀ i (h : i < ns.length), firstOf (.head k) (ptrs (ns.drop i)) = .node ns[i].1 := by
    intro i h
    rw [List.drop_eq_getElem_cons h]; rfl
  have hlive : ∀ i (h : i < ns.length), Live m (.node ns[i].1) := fun i h =>
    hr.live (List.mem_cons_of_mem _ (List.mem_map.2 ⟨_, List.getElem_mem h, rfl⟩))
  have hend : firstOf (.head k) (ptrs (ns.drop ns.length)) = .head k := by
    rw [List.drop_length]; rfl
  have hsplit : ∀ i (h : i < ns.length),
      ptrs ns = ptrs (ns.take i) ++ Ptr.node ns[i].1 :: ptrs (ns.drop (i + 1)) := by
    intro i h
    have : ns = ns.take i ++ ns[i] :: ns.drop (i + 1) := by
      rw [← List.drop_eq_getElem_cons h, List.take_append_drop]
    calc ptrs ns = ptrs (ns.take i ++ ns[i] :: ns.drop (i + 1)) := by rw [← this]
      _ = _ := by unfold ptrs; rw [List.map_append, List.map_cons]
  refine ⟨fun i => firstOf (.head k) (ptrs (ns.drop i)), ?_, ?_, ?_, ?_, ?_, ?_⟩
  · exact getNext_ok hr.head hr.fwd.first
  · simpa using hend
  · intro i hi
    rw [List.length_map] at hi
    simp only [hnode i hi]
    have := hr.fwd
    rw [hsplit i hi] at this
    exact getNext_ok (hlive i hi) this.next_mid
  · intro i hi
    rw [List.length_map] at hi
    simp only [hnode i hi]
    by_cases hi1 : i + 1 < ns.length
    · rw [hnode _ hi1]
      refine getPrev_ok (hlive _ hi1) ?_
      have := hr.bwd rfl
      rw [hsplit i hi, show ptrs (ns.drop (i + 1)) = Ptr.node ns[i + 1].1 :: ptrs (ns.drop (i + 2)) by
        rw [List.drop_eq_getElem_cons hi1]; rfl] at this
      rw [show (ptrs (ns.take i) ++ Ptr.node ns[i].1 :: Ptr.node ns[i + 1].1 :: ptrs (ns.drop (i + 2))).reverse
        = (ptrs (ns.drop (i + 2))).reverse ++ Ptr.node ns[i + 1].1 ::
          (Ptr.node ns[i].1 :: (ptrs (ns.take i)).reverse) by simp] at this
      exact this.next_mid
    · have e : i + 1 = ns.length := by omega
      rw [e, hend]
      refine getPrev_ok hr.head ?_
      rw [prevHead hr, hsplit i hi, e, List.drop_length]
      exact congrArg some (lastOf_append ..)
  · intro i j hi hj
    rw [List.length_map] at hi hj
    refine ⟨fun h => ?_, fun h => by rw [h]⟩
    have hnd := (List.nodup_cons.1 hr.nodup).2
    have hne : ∀ i, i < ns.length → firstOf (.head k) (ptrs (ns.drop i)) ≠ .head k := by
      intro i h; rw [hnode i h]; simp
    rcases Nat.lt_or_ge i ns.length with hi' | hi'
    · rcases Nat.lt_or_ge j ns.length with hj' | hj'
      · simp only [hnode i hi', hnode j hj'] at h
        have h1 : (ptrs ns)[i]? = some (Ptr.node ns[i].1) := by simp [ptrs, hi']
        have h2 : (ptrs ns)[j]? = some (Ptr.node ns[i].1) := by rw [h]; simp [ptrs, hj']
        exact (List.getElem?_inj (by simpa using hi') hnd).1 (h1.trans h2.symm)
      · have : j = ns.length := by omega
        subst this
        exact absurd (h.trans hend) (hne i hi')
    · have : i = ns.length := by omega
      subst this
      rcases Nat.lt_or_ge j ns.length with hj' | hj'
      · exact absurd (h.symm.trans hend) (hne j hj')
      · omega
  · intro i hi
    rw [List.length_map] at hi
    simp only [hnode i hi, List.getElem_map]
    exact getData_ok (hlive i hi) (hr.data _ (List.getElem_mem hi))

example : ∃ w, specRun [Op.newFill 0 3 7, .pushFront 0 1, .popBack 0] (fun _ => none) = some w ∧
    AvoidsAll [Op.newFill 0 3 7, .pushFront 0 1, .popBack 0] (fun _ => none) ∧ w 0 = some [1, 7, 7] :=
  ⟨_, rfl, avoidsAll_of_noMove (by simp) _, rfl⟩

end Verif.DL
