import Verif.LinkedListLemmas

/-! # Lists in memory: representation and the base-class operations -/

namespace Verif.LL

open Prog

variable {α : Type} {kd : Kind}

/-- The pointers of a list of nodes. -/
abbrev ptrs (ns : List (Nat × α)) : List Ptr := ns.map fun e => Ptr.node e.1

/-- The list object `k` consists of the nodes `ns` (identifier and value). -/
structure Rep (kd : Kind) (m : Mem α) (k : Nat) (ns : List (Nat × α)) : Prop where
  head : Live m (.head k)
  size : m.sz k = ns.length
  fwd : Circle (nx m) (.head k) (ptrs ns)
  bwd : kd = .doubly → Circle (pv m) (.head k) (ptrs ns).reverse
  data : ∀ e ∈ ns, dt m (.node e.1) = some e.2
  nodup : (Ptr.head k :: ptrs ns).Nodup

/-- The lists alive in memory are those of `g`, they share no node, and every node belongs to
one of them. -/
structure WInv (kd : Kind) (m : Mem α) (g : Nat → Option (List (Nat × α))) : Prop where
  dead : ∀ k, g k = none → m.cell (.head k) = none
  alive : ∀ k ns, g k = some ns → Rep kd m k ns
  sep : ∀ j k a b, j ≠ k → g j = some a → g k = some b → ∀ p ∈ ptrs a, p ∉ ptrs b
  owned : ∀ n, m.cell (.node n) ≠ none → ∃ k ns, g k = some ns ∧ Ptr.node n ∈ ptrs ns
  fresh : ∀ n, m.next ≤ n → m.cell (.node n) = none
  lost : m.lost = 0

theorem nodup_rev {β : Type} {l : List β} : l.reverse.Nodup ↔ l.Nodup := by
  unfold List.Nodup
  rw [List.pairwise_reverse]
  exact ⟨fun h => h.imp Ne.symm, fun h => h.imp Ne.symm⟩

/-- Replace one entry. -/
def put {β : Type} (g : Nat → Option β) (k : Nat) (v : Option β) : Nat → Option β :=
  fun x => if x = k then v else g x

theorem Rep.live {m : Mem α} {k : Nat} {ns : List (Nat × α)} (h : Rep kd m k ns) {p : Ptr}
    (hp : p ∈ Ptr.head k :: ptrs ns) : Live m p := by
  obtain ⟨q, h1, _⟩ := h.fwd.succ hp
  refine live_of_nx ?_ h1
  rcases List.mem_cons.1 hp with rfl | hp
  · simp
  · obtain ⟨e, _, rfl⟩ := List.mem_map.1 hp; simp

theorem Rep.cell_congr {m m' : Mem α} {k : Nat} {ns : List (Nat × α)} (h : Rep kd m k ns)
    (hs : m'.sz k = m.sz k) (hc : ∀ p ∈ Ptr.head k :: ptrs ns, m'.cell p = m.cell p) :
    Rep kd m' k ns := by
  refine ⟨?_, hs.trans h.size, h.fwd.congr fun p hp => ?_, fun e => (h.bwd e).congr fun p hp => ?_,
    fun e he => ?_, h.nodup⟩
  · obtain ⟨h0, c, hc'⟩ := h.head
    exact ⟨h0, c, by rw [hc _ (List.mem_cons_self ..)]; exact hc'⟩
  · unfold nx; rw [hc p hp]
  · unfold pv; rw [hc p (by simpa using hp)]
  · rw [← h.data e he]; unfold dt
    rw [hc _ (List.mem_cons_of_mem _ (List.mem_map.2 ⟨e, he, rfl⟩))]

theorem WInv.lt_next {m : Mem α} {g} (h : WInv kd m g) {k n : Nat} {ns : List (Nat × α)}
    (hk : g k = some ns) (hn : Ptr.node n ∈ ptrs ns) : n < m.next := by
  rcases Nat.lt_or_ge n m.next with hlt | hge
  · exact hlt
  · obtain ⟨_, c, hc⟩ := (h.alive k ns hk).live (List.mem_cons_of_mem _ hn)
    rw [h.fresh n hge] at hc; cases hc

/-- Changing one list keeps the world well formed. -/
theorem WInv.update {m m' : Mem α} {g : Nat → Option (List (Nat × α))} {k : Nat}
    {ns ns' : List (Nat × α)} (h : WInv kd m g) (hk : g k = some ns) (hr : Rep kd m' k ns')
    (hsz : ∀ j, j ≠ k → m'.sz j = m.sz j)
    (hoth : ∀ p, p ≠ .head k → p ∉ ptrs ns → p ∉ ptrs ns' → m'.cell p = m.cell p)
    (hsub : ∀ n, Ptr.node n ∈ ptrs ns' → Ptr.node n ∈ ptrs ns ∨ (m.next ≤ n ∧ n < m'.next))
    (hdead : ∀ n, Ptr.node n ∈ ptrs ns → Ptr.node n ∉ ptrs ns' → m'.cell (.node n) = none)
    (hnext : m.next ≤ m'.next) (hlost : m'.lost = 0) : WInv kd m' (put g k (some ns')) := by
  have hnode : ∀ {l : List (Nat × α)} {p : Ptr}, p ∈ ptrs l → ∃ n, p = .node n := by
    intro l p hp
    obtain ⟨e, _, rfl⟩ := List.mem_map.1 hp; exact ⟨_, rfl⟩
  have hdisj : ∀ j a, j ≠ k → g j = some a → ∀ p ∈ ptrs a, p ∉ ptrs ns' := by
    intro j a hj ha p hp hp'
    obtain ⟨n, rfl⟩ := hnode hp
    rcases hsub n hp' with h1 | h1
    · exact h.sep j k a ns hj ha hk _ hp h1
    · have := h.lt_next ha hp; omega
  constructor
  · intro j hj
    unfold put at hj
    split at hj
    · cases hj
    · rename_i hjk
      rw [hoth _ (by simpa using hjk) (fun hp => by obtain ⟨n, e⟩ := hnode hp; cases e)
        (fun hp => by obtain ⟨n, e⟩ := hnode hp; cases e)]
      exact h.dead j hj
  · intro j a ha
    unfold put at ha
    split at ha
    · rename_i hjk; cases ha; subst hjk; exact hr
    · rename_i hjk
      refine (h.alive j a ha).cell_congr (hsz j hjk) fun p hp => ?_
      rcases List.mem_cons.1 hp with rfl | hp
      · exact hoth _ (by simpa using hjk) (fun hp => by obtain ⟨n, e⟩ := hnode hp; cases e)
          (fun hp => by obtain ⟨n, e⟩ := hnode hp; cases e)
      · exact hoth p (fun e => by obtain ⟨n, e'⟩ := hnode hp; rw [e] at e'; cases e')
          (h.sep j k a ns hjk ha hk p hp) (hdisj j a hjk ha p hp)
  · intro i j a b hij ha hb p hp hp'
    unfold put at ha hb
    split at ha <;> split at hb
    · rename_i h1 h2; exact hij (h1.trans h2.symm)
    · rename_i h1 h2; cases ha; exact hdisj j b h2 hb p hp' hp
    · rename_i h1 h2; cases hb; exact hdisj i a h1 ha p hp hp'
    · exact h.sep i j a b hij ha hb p hp hp'
  · intro n hn
    by_cases h1 : Ptr.node n ∈ ptrs ns'
    · exact ⟨k, ns', by simp [put], h1⟩
    · by_cases h2 : Ptr.node n ∈ ptrs ns
      · exact absurd (hdead n h2 h1) hn
      · rw [hoth _ (by simp) h2 h1] at hn
        obtain ⟨j, a, ha, hp⟩ := h.owned n hn
        by_cases hjk : j = k
        · subst hjk; rw [hk] at ha; cases ha; exact absurd hp h2
        · exact ⟨j, a, by simp [put, hjk, ha], hp⟩
  · intro n hn
    by_cases h1 : Ptr.node n ∈ ptrs ns'
    · rcases hsub n h1 with h2 | h2
      · have := h.lt_next hk h2; omega
      · omega
    · by_cases h2 : Ptr.node n ∈ ptrs ns
      · exact hdead n h2 h1
      · rw [hoth _ (by simp) h2 h1]; exact h.fresh n (by omega)
  · exact hlost

/-! ## Sizes and tails -/

theorem getSize_ok {m : Mem α} {k : Nat} (h : Live m (.head k)) : Returns (getSize k) m (m.sz k) m := by
  obtain ⟨c, h1, _⟩ := get_ok h
  unfold getSize Returns
  rw [bind_returns h1]; rfl

theorem setSize_ok {m : Mem α} {k n : Nat} (h : Live m (.head k)) :
    Returns (setSize k n) m () { m with sz := fun x => if x = k then n else m.sz x } := by
  obtain ⟨c, h1, _⟩ := get_ok h
  unfold setSize Returns
  rw [bind_returns h1]; rfl

theorem getTail_ok {m : Mem α} {k : Nat} (h : Live m (.head k)) : Returns (getTail k) m (m.tail k) m := by
  obtain ⟨c, h1, _⟩ := get_ok h
  unfold getTail Returns
  rw [bind_returns h1]; rfl

theorem setTail_ok {m : Mem α} {k : Nat} {p : Ptr} (h : Live m (.head k)) :
    Returns (setTail k p) m () { m with tail := fun x => if x = k then p else m.tail x } := by
  obtain ⟨c, h1, _⟩ := get_ok h
  unfold setTail Returns
  rw [bind_returns h1]; rfl

/-! ## Creating and releasing nodes -/

/-- The argument refers to the value `x`. -/
def ArgIs (m : Mem α) (x : α) : Arg α → Prop
  | .val y => y = x
  | .ref p => Live m p ∧ dt m p = some x

theorem newNode_ok {m : Mem α} {k : Nat} {a : Arg α} {x : α} (hh : Live m (.head k))
    (ha : ArgIs m x a) (hf : m.cell (.node m.next) = none) :
    wp (newNode k a) (fun n m' => n = .node m.next ∧ Live m' n ∧
      (∀ p, p ≠ n → st m' p = st m p) ∧ (∀ p, p ≠ n → nx m' p = nx m p) ∧
      (∀ p, p ≠ n → pv m' p = pv m p) ∧
      (∀ p, dt m' p = if p = n ∨ p = .head k then some x else dt m p) ∧
      (∀ p, p ≠ n → p ≠ .head k → m'.cell p = m.cell p) ∧
      m'.next = m.next + 1 ∧ m'.sz = m.sz ∧ m'.tail = m.tail ∧ m'.lost = m.lost) m := by
  unfold newNode
  rw [wp_bind]
  have hAl : Returns allocNode m (.node m.next)
      { m with cell := fun x => if x = .node m.next then some none else m.cell x
               next := m.next + 1 } := rfl
  rw [wp_of_returns hAl]
  generalize hm1 : ({ m with cell := fun x => if x = Ptr.node m.next then some none else m.cell x
                             next := m.next + 1 } : Mem α) = m1
  have hcell1 : ∀ p, p ≠ .node m.next → m1.cell p = m.cell p := by
    intro p hp; subst hm1; simp [hp]
  have hlive1 : ∀ p, Live m p → Live m1 p := by
    rintro p ⟨h0, c, hc⟩
    refine ⟨h0, c, ?_⟩
    rw [hcell1 p (by rintro rfl; rw [hf] at hc; cases hc)]; exact hc
  have hget : Returns a.get m1 x m1 := by
    cases a with
    | val y => cases ha; rfl
    | ref p =>
      refine getData_ok (hlive1 p ha.1) ?_
      have hp : p ≠ .node m.next := by
        rintro rfl; obtain ⟨⟨_, c, hc⟩, _⟩ := ha; rw [hf] at hc; cases hc
      rw [← ha.2]; unfold dt; rw [hcell1 p hp]
  rw [wp_bind, wp_of_returns hget, wp_bind]
  refine wp_mono (setData_ok (hlive1 _ hh)) ?_
  rintro _ m2 ⟨s2, d2, n2, p2, c2⟩
  obtain ⟨c, g1, g2, g3, g4, g5⟩ := get_ok (s2.live (hlive1 _ hh))
  rw [wp_bind, wp_of_returns g1, wp_bind]
  have hraw : m2.cell (.node m.next) = some none := by
    rw [c2 _ (by simp)]; subst hm1; simp
  have hcd : c.data = some x := by rw [← g4, d2]; simp
  have hCo : Returns (constructNode (.node m.next) c) m2 ()
      { m2 with cell := fun x => if x = .node m.next then some (some c) else m2.cell x
                lost := m2.lost + 0 } := by
    unfold Returns constructNode
    simp [hraw]
  rw [wp_of_returns hCo, wp_pure]
  have hcell2 : ∀ p, p ≠ .node m.next → p ≠ .head k → m2.cell p = m.cell p := by
    intro p h1 h2; rw [c2 p h2, hcell1 p h1]
  refine ⟨rfl, ⟨by simp, c, by simp⟩, fun p hp => ?_, fun p hp => ?_, fun p hp => ?_, fun p => ?_,
    fun p hp hp' => ?_, ?_, ?_, ?_, ?_⟩
  · have : st m2 p = st m p := by rw [s2.st]; unfold st; rw [hcell1 p hp]
    rw [← this]; unfold st; simp [hp]
  · have : nx m2 p = nx m p := by rw [n2]; unfold nx; rw [hcell1 p hp]
    rw [← this]; unfold nx; simp [hp]
  · have : pv m2 p = pv m p := by rw [p2]; unfold pv; rw [hcell1 p hp]
    rw [← this]; unfold pv; simp [hp]
  · by_cases h1 : p = .node m.next
    · subst h1; simp [dt, hcd]
    · by_cases h2 : p = .head k
      · subst h2
        have : dt m2 (.head k) = some x := by rw [d2]; simp
        rw [if_pos (Or.inr rfl), ← this]; unfold dt; simp
      · rw [if_neg (by simp [h1, h2])]
        unfold dt; simp [h1, hcell2 p h1 h2]
  · simp only [hp, if_false]; exact hcell2 p hp hp'
  · show m2.next = _
    rw [s2.next]; subst hm1; rfl
  · show m2.sz = _
    rw [s2.sz]; subst hm1; rfl
  · show m2.tail = _
    rw [s2.tail]; subst hm1; rfl
  · show m2.lost + 0 = _
    rw [s2.lost]; subst hm1; rfl

theorem release_ok {m : Mem α} {n : Nat} (h : Live m (.node n)) (Q : Unit → Mem α → Prop)
    (hq : ∀ m', (∀ p, m'.cell p = if p = .node n then none else m.cell p) → m'.next = m.next →
      m'.sz = m.sz → m'.tail = m.tail → m'.lost = m.lost → Q () m') :
    wp (do destroyNode (.node n); freeNode (.node n)) Q m := by
  obtain ⟨_, c, hc⟩ := h
  have h1 : Returns (destroyNode (.node n)) m ()
      { m with cell := fun x => if x = .node n then some none else m.cell x } := by
    unfold Returns destroyNode; simp [hc]
  rw [wp_bind, wp_of_returns h1]
  have h2 : Returns (freeNode (.node n))
      { m with cell := fun x => if x = .node n then some none else m.cell x } ()
      { m with cell := fun x => if x = .node n then none else m.cell x } := by
    unfold Returns freeNode
    simp only [if_true, Option.isSome_none, Bool.false_eq_true, if_false, Nat.add_zero]
    congr 4
    funext x; split <;> rfl
  rw [wp_of_returns h2]
  exact hq _ (fun p => rfl) rfl rfl rfl rfl

/-! ## Base-class operations -/

theorem Rep.nodeMem {m : Mem α} {k : Nat} {ns : List (Nat × α)} (_ : Rep kd m k ns) {p : Ptr}
    (hp : p ∈ ptrs ns) : p ≠ .head k := by
  obtain ⟨e, _, rfl⟩ := List.mem_map.1 hp; simp

/-- `push_front` puts a new node first. -/
theorem basePushFront_ok {m : Mem α} {g} {k : Nat} {ns : List (Nat × α)} {a : Arg α} {x : α}
    (h : WInv kd m g) (hk : g k = some ns) (ha : ArgIs m x a) :
    wp (basePushFront kd k a) (fun _ m' => WInv kd m' (put g k (some ((m.next, x) :: ns))) ∧
      m'.tail = m.tail ∧ m'.next = m.next + 1 ∧
      (∀ p, p ≠ .head k → p ∉ ptrs ns → p ≠ .node m.next → m'.cell p = m.cell p)) m := by
  have hr := h.alive k ns hk
  have hf := h.fresh m.next (Nat.le_refl _)
  have hnew : Ptr.node m.next ∉ ptrs ns := fun hp => by have := h.lt_next hk hp; omega
  unfold basePushFront
  rw [wp_bind]
  refine wp_mono (newNode_ok hr.head ha hf) ?_
  rintro n m1 ⟨rfl, l1, s1, n1, p1, d1, c1, x1, z1, t1, o1⟩
  have hne : ∀ p ∈ Ptr.head k :: ptrs ns, p ≠ .node m.next := by
    intro p hp e
    rcases List.mem_cons.1 hp with e' | hp
    · rw [e'] at e; cases e
    · rw [e] at hp; exact hnew hp
  have live1 : ∀ p ∈ Ptr.head k :: ptrs ns, Live m1 p := by
    intro p hp
    have := hr.live hp
    rw [live_iff] at this ⊢
    exact ⟨this.1, by rw [s1 p (hne p hp)]; exact this.2⟩
  have hfirst : firstOf (.head k) (ptrs ns) ∈ Ptr.head k :: ptrs ns := by
    rcases firstOf_mem (.head k) (ptrs ns) with e | e
    · rw [e]; simp
    · exact List.mem_cons_of_mem _ e
  have hhead : Ptr.head k ∈ Ptr.head k :: ptrs ns := List.mem_cons_self ..
  rw [wp_bind]
  refine wp_mono (linkAdd_ok (b := firstOf (.head k) (ptrs ns)) (live1 _ hhead) l1
    (live1 _ hfirst) (by rw [n1 _ (by simp)]; exact hr.fwd.first) (by simp)) ?_
  rintro _ m2 ⟨s2, n2, p2, d2, c2⟩
  have hl2 := s2.live (live1 _ hhead)
  rw [wp_bind, wp_of_returns (getSize_ok hl2), wp_of_returns (setSize_ok hl2)]
  have hsz2 : m2.sz = m.sz := by rw [s2.sz, z1]
  have hcells : ∀ p, p ≠ .head k → p ∉ ptrs ns → p ≠ .node m.next → m2.cell p = m.cell p := by
    intro p h1 h2 h3
    have hpf : p ≠ firstOf (.head k) (ptrs ns) := fun e => by
      rcases List.mem_cons.1 hfirst with e' | e'
      · exact h1 (e.trans e')
      · rw [← e] at e'; exact h2 e'
    rw [c2 p h1 hpf h3]
    exact c1 p h3 h1
  have hrep : Rep kd { m2 with sz := fun x => if x = k then m2.sz k + 1 else m2.sz x } k
      ((m.next, x) :: ns) := by
    refine ⟨hl2, by simp [hsz2, hr.size], ?_, ?_, ?_, ?_⟩
    · show Circle (nx m2) (.head k) (.node m.next :: ptrs ns)
      refine hr.fwd.insertFront ?_ ?_ fun p hp => ?_
      · rw [n2]; simp
      · rw [n2]; simp
      · rw [n2, if_neg (hr.nodeMem hp), if_neg (hne p (List.mem_cons_of_mem _ hp)), n1 p (hne p (List.mem_cons_of_mem _ hp))]
    · intro e
      show Circle (pv m2) (.head k) (.node m.next :: ptrs ns).reverse
      rw [List.reverse_cons]
      have hlast : lastOf (.head k) (ptrs ns).reverse = firstOf (.head k) (ptrs ns) := by
        rw [← firstOf_reverse, List.reverse_reverse]
      have hpv := p2 e
      have hnf : Ptr.node m.next ≠ firstOf (.head k) (ptrs ns) := Ne.symm (hne _ hfirst)
      refine (hr.bwd e).insertBack ?_ ?_ ?_ fun p hp hpl => ?_
      · rw [hlast, hpv]; simp
      · rw [hpv, if_neg hnf]; simp
      · have := hr.nodup
        simp only [List.nodup_cons, List.mem_reverse, nodup_rev] at this ⊢
        exact this
      · rw [hlast] at hpl
        have hp' : p ∈ Ptr.head k :: ptrs ns := by simpa using hp
        rw [hpv, if_neg hpl, if_neg (hne p hp'), p1 p (hne p hp')]
    · intro e he
      show dt m2 _ = _
      rw [d2, d1]
      rcases List.mem_cons.1 he with rfl | he
      · simp
      · have : Ptr.node e.1 ∈ ptrs ns := List.mem_map.2 ⟨e, he, rfl⟩
        rw [if_neg (by
          rintro (e' | e')
          · exact hnew (e' ▸ this)
          · cases e')]
        exact hr.data e he
    · have := hr.nodup
      simp only [List.map_cons, List.nodup_cons, List.mem_cons] at this ⊢
      refine ⟨?_, hnew, this.2⟩
      rintro (e | e)
      · cases e
      · exact this.1 e
  refine ⟨h.update hk hrep ?_ ?_ ?_ ?_ ?_ ?_, ?_, ?_, hcells⟩
  · intro j hj; simp [hj, hsz2]
  · intro p h1 h2 h3
    exact hcells p h1 h2 (fun e => h3 (by simp [e]))
  · intro n hn
    rcases List.mem_cons.1 hn with e | hn
    · cases e
      refine Or.inr ⟨Nat.le_refl _, ?_⟩
      show _ < m2.next
      rw [s2.next, x1]; omega
    · exact Or.inl hn
  · intro n hn hn'; exact absurd (List.mem_cons_of_mem _ hn) hn'
  · show m.next ≤ m2.next
    rw [s2.next, x1]; omega
  · show m2.lost = 0
    rw [s2.lost, o1]; exact h.lost
  · show m2.tail = m.tail
    rw [s2.tail, t1]
  · show m2.next = _
    rw [s2.next, x1]

/-- `pop_front` removes and releases the first node. -/
theorem basePopFront_ok {m : Mem α} {g} {k i : Nat} {x : α} {ns : List (Nat × α)}
    (h : WInv kd m g) (hk : g k = some ((i, x) :: ns)) :
    wp (basePopFront kd k) (fun _ m' => WInv kd m' (put g k (some ns)) ∧ m'.tail = m.tail ∧
      m'.next = m.next) m := by
  have hr := h.alive k _ hk
  have hhead : Ptr.head k ∈ Ptr.head k :: ptrs ((i, x) :: ns) := List.mem_cons_self ..
  have hi : Ptr.node i ∈ Ptr.head k :: ptrs ((i, x) :: ns) := by simp
  have hnd : (Ptr.head k :: Ptr.node i :: ptrs ns).Nodup := hr.nodup
  have hi' : Ptr.node i ∉ ptrs ns := by
    have := hnd; simp only [List.nodup_cons] at this; exact this.2.1
  have hfirst : firstOf (.head k) (ptrs ns) ∈ Ptr.head k :: ptrs ns := by
    rcases firstOf_mem (.head k) (ptrs ns) with e | e
    · rw [e]; simp
    · exact List.mem_cons_of_mem _ e
  have hfirst' : firstOf (.head k) (ptrs ns) ∈ Ptr.head k :: ptrs ((i, x) :: ns) := by
    rcases List.mem_cons.1 hfirst with e | e
    · rw [e]; simp
    · exact List.mem_cons_of_mem _ (List.mem_cons_of_mem _ e)
  have hfi : firstOf (.head k) (ptrs ns) ≠ .node i := by
    intro e; rw [e] at hfirst
    rcases List.mem_cons.1 hfirst with e' | e'
    · cases e'
    · exact hi' e'
  have hnxi : nx m (.node i) = some (firstOf (.head k) (ptrs ns)) := by
    have := hr.fwd
    obtain ⟨t, e1, _⟩ := first_split (.head k) (ptrs ns)
    simp only [Circle, List.map_cons, List.cons_append] at this
    rw [e1] at this
    exact this.2.1
  unfold basePopFront
  rw [wp_bind, wp_of_returns (getSize_ok hr.head), wp_bind, wp_dassert]
  refine ⟨by rw [hr.size]; simp, ?_⟩
  rw [wp_bind, wp_of_returns (getNext_ok hr.head (show nx m (.head k) = some (.node i) from hr.fwd.1)), wp_bind]
  refine wp_mono (linkDel_ok (b := firstOf (.head k) (ptrs ns)) hr.head (hr.live hi)
    (hr.live hfirst') hnxi (by simp)) ?_
  rintro _ m1 ⟨s1, n1, p1, d1, c1⟩
  have hassoc : (do destroyNode (.node i); freeNode (.node i); setSize k ((← getSize k) - 1) : Prog (Mem α) Unit)
      = (do (do destroyNode (.node i); freeNode (.node i)); setSize k ((← getSize k) - 1)) := by
    simp only [bind_assoc]
  rw [hassoc, wp_bind]
  refine release_ok (s1.live (hr.live hi)) _ ?_
  intro m2 c2 x2 z2 t2 o2
  have hl2 : Live m2 (.head k) := by
    obtain ⟨h0, c, hc⟩ := s1.live hr.head
    exact ⟨h0, c, by rw [c2]; simpa using hc⟩
  rw [wp_bind, wp_of_returns (getSize_ok hl2), wp_of_returns (setSize_ok hl2)]
  have hsz2 : m2.sz = m.sz := by rw [z2, s1.sz]
  have hrest : ∀ p ∈ Ptr.head k :: ptrs ns, p ≠ .node i := by
    intro p hp e
    rcases List.mem_cons.1 hp with e' | hp
    · rw [e'] at e; cases e
    · rw [e] at hp; exact hi' hp
  have nx2 : ∀ p, p ≠ .node i → nx m2 p = nx m1 p := by
    intro p hp; unfold nx; rw [c2, if_neg hp]
  have pv2 : ∀ p, p ≠ .node i → pv m2 p = pv m1 p := by
    intro p hp; unfold pv; rw [c2, if_neg hp]
  have dt2 : ∀ p, p ≠ .node i → dt m2 p = dt m1 p := by
    intro p hp; unfold dt; rw [c2, if_neg hp]
  have hrep : Rep kd { m2 with sz := fun x => if x = k then m2.sz k - 1 else m2.sz x } k ns := by
    refine ⟨hl2, by simp [hsz2, hr.size], ?_, ?_, ?_, ?_⟩
    · show Circle (nx m2) (.head k) (ptrs ns)
      refine Circle.deleteFront hr.fwd ?_ fun p hp => ?_
      · rw [nx2 _ (by simp), n1 _ (by simp)]; simp
      · have := hrest p (List.mem_cons_of_mem _ hp)
        have hpk : p ≠ .head k := by obtain ⟨e, _, rfl⟩ := List.mem_map.1 hp; simp
        rw [nx2 p this, n1 p this, if_neg hpk]
    · intro e
      show Circle (pv m2) (.head k) (ptrs ns).reverse
      have hlast : lastOf (.head k) (ptrs ns).reverse = firstOf (.head k) (ptrs ns) := by
        rw [← firstOf_reverse, List.reverse_reverse]
      have hb := hr.bwd e
      rw [show (ptrs ((i, x) :: ns)).reverse = (ptrs ns).reverse ++ [Ptr.node i] by simp] at hb
      refine hb.deleteBack ?_ ?_ fun p hp hpl => ?_
      · have := hnd
        simp only [List.nodup_cons, List.mem_reverse, nodup_rev, List.mem_cons] at this ⊢
        exact ⟨fun h => this.1 (Or.inr h), this.2.2⟩
      · rw [hlast, pv2 _ hfi, p1 e _ hfi]; simp
      · rw [hlast] at hpl
        have hp' : p ∈ Ptr.head k :: ptrs ns := by simpa using hp
        rw [pv2 p (hrest p hp'), p1 e p (hrest p hp'), if_neg hpl]
    · intro e he
      have : Ptr.node e.1 ∈ ptrs ns := List.mem_map.2 ⟨e, he, rfl⟩
      show dt m2 _ = _
      rw [dt2 _ (hrest _ (List.mem_cons_of_mem _ this)), d1]
      exact hr.data e (List.mem_cons_of_mem _ he)
    · have := hnd
      simp only [List.nodup_cons, List.mem_cons] at this ⊢
      exact ⟨fun h => this.1 (Or.inr h), this.2.2⟩
  refine ⟨h.update hk hrep ?_ ?_ ?_ ?_ ?_ ?_, ?_, ?_⟩
  · intro j hj; simp [hj, hsz2]
  · intro p h1 h2 h3
    show m2.cell p = _
    have hpi : p ≠ .node i := fun e => h2 (by simp [e])
    rw [c2, if_neg hpi]
    refine c1 p h1 (fun e => ?_) hpi
    rcases List.mem_cons.1 hfirst with e' | e'
    · exact h1 (e.trans e')
    · rw [← e] at e'; exact h3 e'
  · intro n hn; exact Or.inl (List.mem_cons_of_mem _ hn)
  · intro n hn hn'
    rcases List.mem_cons.1 hn with e | hn
    · show m2.cell _ = _
      rw [c2, if_pos e]
    · exact absurd hn hn'
  · show m.next ≤ m2.next
    rw [x2, s1.next]; omega
  · show m2.lost = 0
    rw [o2, s1.lost]; exact h.lost
  · show m2.tail = m.tail
    rw [t2, s1.tail]
  · show m2.next = m.next
    rw [x2, s1.next]

theorem empty_ok {m : Mem α} {k : Nat} {ns : List (Nat × α)} (hr : Rep kd m k ns) :
    Returns (empty k) m (ns.isEmpty) m := by
  unfold empty Returns
  rw [bind_returns (getSize_ok hr.head)]
  cases ns with
  | nil =>
    rw [if_pos (by rw [hr.size]; rfl),
      bind_returns (getNext_ok hr.head (show nx m (.head k) = some (.head k) from hr.fwd.1)),
      dassert_pos rfl]
    rfl
  | cons e ns =>
    rw [if_neg (by rw [hr.size]; simp)]
    rfl

theorem put_put {β : Type} (g : Nat → Option β) (k : Nat) (a b : Option β) :
    put (put g k a) k b = put g k b := by
  funext x; unfold put; split <;> rfl

theorem put_self {β : Type} (g : Nat → Option β) (k : Nat) : put g k (g k) = g := by
  funext x; unfold put; split
  · rename_i e; rw [e]
  · rfl

/-- `_clear` releases all nodes. -/
theorem baseClear_ok {m : Mem α} {g} {k : Nat} {ns : List (Nat × α)}
    (h : WInv kd m g) (hk : g k = some ns) :
    wp (baseClear kd k) (fun _ m' => WInv kd m' (put g k (some [])) ∧ m'.tail = m.tail ∧
      m'.next = m.next) m := by
  induction ns generalizing m g with
  | nil =>
    unfold baseClear
    rw [wp_bind, wp_of_returns (empty_ok (h.alive k _ hk))]
    refine (wp_pure _ _ _).2 ⟨?_, rfl, rfl⟩
    rw [← hk, put_self]; exact h
  | cons e ns ih =>
    unfold baseClear
    rw [wp_bind, wp_of_returns (empty_ok (h.alive k _ hk))]
    rw [if_neg (by simp), wp_bind]
    obtain ⟨i, x⟩ := e
    refine wp_mono (basePopFront_ok h hk) ?_
    rintro _ m1 ⟨h1, t1, x1⟩
    refine wp_mono (ih h1 (by simp [put])) ?_
    rintro _ m2 ⟨h2, t2, x2⟩
    rw [put_put] at h2
    exact ⟨h2, by rw [t2, t1], by rw [x2, x1]⟩

/-- Ending the lifetime of a list. -/
theorem baseDrop_ok {m : Mem α} {g} {k : Nat} {ns : List (Nat × α)}
    (h : WInv kd m g) (hk : g k = some ns) :
    wp (baseDrop kd k) (fun _ m' => WInv kd m' (put g k none) ∧ m'.tail = m.tail) m := by
  unfold baseDrop
  rw [wp_bind]
  refine wp_mono (baseClear_ok h hk) ?_
  rintro _ m1 ⟨h1, t1, _⟩
  rw [wp_modify]
  refine ⟨?_, t1⟩
  have hput : ∀ j, j ≠ k → put g k none j = put g k (some []) j := by
    intro j hj; simp [put, hj]
  have hnode : ∀ {l : List (Nat × α)} {p : Ptr}, p ∈ ptrs l → p ≠ .head k := by
    intro l p hp
    obtain ⟨e, _, rfl⟩ := List.mem_map.1 hp; simp
  constructor
  · intro j hj
    by_cases hjk : j = k
    · subst hjk; simp
    · rw [hput j hjk] at hj
      simp only [Ptr.head.injEq, hjk, if_false]; exact h1.dead j hj
  · intro j a ha
    by_cases hjk : j = k
    · subst hjk; simp [put] at ha
    · rw [hput j hjk] at ha
      refine (h1.alive j a ha).cell_congr rfl fun p hp => ?_
      rcases List.mem_cons.1 hp with rfl | hp
      · simp [hjk]
      · simp [hnode hp]
  · intro i j a b hij ha hb
    have hi : i ≠ k := by rintro rfl; simp [put] at ha
    have hj : j ≠ k := by rintro rfl; simp [put] at hb
    rw [hput _ hi] at ha; rw [hput _ hj] at hb
    exact h1.sep i j a b hij ha hb
  · intro n hn
    simp only [reduceCtorEq, if_false] at hn
    obtain ⟨j, a, ha, hp⟩ := h1.owned n hn
    have hj : j ≠ k := by rintro rfl; simp [put] at ha; subst ha; simp at hp
    exact ⟨j, a, by rw [hput j hj]; exact ha, hp⟩
  · intro n hn; simp only [reduceCtorEq, if_false]; exact h1.fresh n hn
  · exact h1.lost

/-- `LinkedList_()` makes an empty list. -/
theorem baseNew_ok {m : Mem α} {g} {dflt : Option α} {k : Nat} (h : WInv kd m g) (hk : g k = none) :
    wp (baseNew kd dflt k) (fun _ m' => WInv kd m' (put g k (some [])) ∧ m'.tail = m.tail) m := by
  unfold baseNew
  rw [wp_bind, wp_modify]
  generalize hm1 : ({ m with cell := fun x => if x = Ptr.head k then some (some ⟨.null, .null, dflt⟩) else m.cell x } : Mem α) = m1
  have hc1 : ∀ p, p ≠ .head k → m1.cell p = m.cell p := by intro p hp; subst hm1; simp [hp]
  have l1 : Live m1 (.head k) := ⟨by simp, ⟨.null, .null, dflt⟩, by subst hm1; simp⟩
  have hz1 : m1.sz = m.sz := by subst hm1; rfl
  have ht1 : m1.tail = m.tail := by subst hm1; rfl
  have hx1 : m1.next = m.next := by subst hm1; rfl
  have ho1 : m1.lost = m.lost := by subst hm1; rfl
  have key : wp (linkInit kd (.head k)) (fun _ m2 => Same m1 m2 ∧ nx m2 (.head k) = some (.head k) ∧
      (kd = .doubly → pv m2 (.head k) = some (.head k)) ∧ ∀ p, p ≠ .head k → m2.cell p = m1.cell p) m1 := by
    unfold linkInit
    rw [wp_bind]
    refine wp_mono (setNext_ok l1) ?_
    rintro _ m2 ⟨s2, n2, p2, d2, c2⟩
    cases kd with
    | singly => exact (wp_pure _ _ _).2 ⟨s2, by rw [n2]; simp, fun h => (by cases h), c2⟩
    | doubly =>
      refine wp_mono (setPrev_ok (s2.live l1)) ?_
      rintro _ m3 ⟨s3, p3, n3, d3, c3⟩
      exact ⟨s2.trans s3, by rw [n3, n2]; simp, fun _ => by rw [p3]; simp, fun p hp => by rw [c3 p hp, c2 p hp]⟩
  rw [wp_bind]
  refine wp_mono key ?_
  rintro _ m2 ⟨s2, n2, p2, c2⟩
  rw [wp_of_returns (setSize_ok (s2.live l1))]
  have hnode : ∀ {l : List (Nat × α)} {p : Ptr}, p ∈ ptrs l → p ≠ .head k := by
    intro l p hp
    obtain ⟨e, _, rfl⟩ := List.mem_map.1 hp; simp
  refine ⟨⟨?_, ?_, ?_, ?_, ?_, ?_⟩, ?_⟩
  · intro j hj
    have hjk : j ≠ k := by rintro rfl; simp [put] at hj
    simp only [put, hjk, if_false] at hj
    show m2.cell _ = _
    rw [c2 _ (by simpa using hjk), hc1 _ (by simpa using hjk)]
    exact h.dead j hj
  · intro j a ha
    by_cases hjk : j = k
    · subst hjk
      simp only [put, if_true] at ha; cases ha
      exact ⟨s2.live l1, by simp, ⟨n2, trivial⟩, fun e => ⟨p2 e, trivial⟩, by simp, by simp⟩
    · simp only [put, hjk, if_false] at ha
      refine (h.alive j a ha).cell_congr ?_ fun p hp => ?_
      · simp only [hjk, if_false]; rw [s2.sz, hz1]
      · have hp' : p ≠ .head k := by
          rcases List.mem_cons.1 hp with rfl | hp
          · simpa using hjk
          · exact hnode hp
        show m2.cell p = _
        rw [c2 p hp', hc1 p hp']
  · intro i j a b hij ha hb p hp hp'
    unfold put at ha hb
    split at ha <;> split at hb
    · rename_i h1 h2; exact hij (h1.trans h2.symm)
    · cases ha; simp at hp
    · cases hb; simp at hp'
    · exact h.sep i j a b hij ha hb p hp hp'
  · intro n hn
    have hn' : m.cell (.node n) ≠ none := by
      rw [← hc1 _ (by simp), ← c2 _ (by simp)]; exact hn
    obtain ⟨j, a, ha, hp⟩ := h.owned n hn'
    have hj : j ≠ k := by rintro rfl; rw [hk] at ha; cases ha
    exact ⟨j, a, by simp [put, hj, ha], hp⟩
  · intro n hn
    show m2.cell _ = _
    have hn' : m2.next ≤ n := hn
    rw [c2 _ (by simp), hc1 _ (by simp)]; exact h.fresh n (by rw [s2.next, hx1] at hn'; exact hn')
  · show m2.lost = 0
    rw [s2.lost, ho1]; exact h.lost
  · show m2.tail = _
    rw [s2.tail, ht1]

/-! ## Observers -/

theorem iterateFrom_ok {m : Mem α} {k : Nat} : ∀ (ns : List (Nat × α)) (p : Ptr),
    Chain (nx m) (p :: (ptrs ns).tail ++ [.head k]) → p = firstOf (.head k) (ptrs ns) →
    (ns = [] → p = .head k) →
    (∀ e ∈ ns, dt m (.node e.1) = some e.2) → (∀ e ∈ ns, Live m (.node e.1)) →
    Returns (iterateFrom k p) m (ns.map (·.2)) m := by
  intro ns
  induction ns with
  | nil =>
    intro p _ _ hp _ _
    unfold iterateFrom Returns
    rw [if_pos (hp rfl)]; rfl
  | cons e ns ih =>
    intro p hc hp _ hd hl
    have hp' : p = .node e.1 := hp
    subst hp'
    unfold iterateFrom Returns
    rw [if_neg (by simp)]
    have hle := hl e (List.mem_cons_self ..)
    rw [bind_returns (getData_ok hle (hd e (List.mem_cons_self ..)))]
    have hnx : nx m (.node e.1) = some (firstOf (.head k) (ptrs ns)) ∧
        Chain (nx m) (firstOf (.head k) (ptrs ns) :: (ptrs ns).tail ++ [.head k]) ∨
        (ns = [] ∧ nx m (.node e.1) = some (.head k)) := by
      cases ns with
      | nil => exact Or.inr ⟨rfl, hc.1⟩
      | cons f ns => exact Or.inl ⟨hc.1, hc.2⟩
    rcases hnx with ⟨h1, h2⟩ | ⟨h1, h2⟩
    · rw [bind_returns (getNext_ok hle h1)]
      have hr : Returns (iterateFrom k (firstOf (.head k) (ptrs ns))) m (ns.map (·.2)) m := by
        refine ih _ h2 rfl (fun h => by subst h; rfl) (fun f hf => hd f (List.mem_cons_of_mem _ hf))
          (fun f hf => hl f (List.mem_cons_of_mem _ hf))
      rw [bind_returns hr]; rfl
    · subst h1
      rw [bind_returns (getNext_ok hle h2)]
      have hr : Returns (iterateFrom k (.head k)) m ([] : List α) m := by
        unfold iterateFrom Returns; rw [if_pos rfl]; rfl
      rw [bind_returns hr]; rfl

theorem iterate_circle {m : Mem α} {k : Nat} {ns : List (Nat × α)} (hh : Live m (.head k))
    (hc : Circle (nx m) (.head k) (ptrs ns)) (hd : ∀ e ∈ ns, dt m (.node e.1) = some e.2) :
    Returns (iterate k) m (ns.map (·.2)) m := by
  unfold iterate Returns
  rw [bind_returns (getNext_ok hh hc.first)]
  have hl : ∀ e ∈ ns, Live m (.node e.1) := fun e he => by
    obtain ⟨q, h1, _⟩ := hc.succ (List.mem_cons_of_mem _ (List.mem_map.2 ⟨e, he, rfl⟩))
    exact live_of_nx (by simp) h1
  cases ns with
  | nil =>
    show iterateFrom k (.head k) m = _
    unfold iterateFrom; rw [if_pos rfl]; rfl
  | cons e ns => exact iterateFrom_ok (e :: ns) _ hc.2 rfl (fun h => by cases h) hd hl

theorem iterate_ok {m : Mem α} {k : Nat} {ns : List (Nat × α)} (hr : Rep kd m k ns) :
    Returns (iterate k) m (ns.map (·.2)) m := iterate_circle hr.head hr.fwd hr.data

theorem front_ok {m : Mem α} {k : Nat} {e : Nat × α} {ns : List (Nat × α)} (hr : Rep kd m k (e :: ns)) :
    Returns (front k) m e.2 m := by
  unfold front Returns
  rw [bind_returns (getNext_ok hr.head hr.fwd.first)]
  exact getData_ok (hr.live (by simp [firstOf])) (hr.data e (List.mem_cons_self ..))

/-! ## Adding and removing at the end, transferring a list -/

theorem Circle.next_mid {f : Ptr → Option Ptr} {h b : Ptr} {as cs : List Ptr}
    (hc : Circle f h (as ++ b :: cs)) : f b = some (firstOf h cs) := by
  unfold Circle at hc
  rw [show h :: (as ++ b :: cs) ++ [h] = (h :: as) ++ b :: (cs ++ [h]) by simp, Chain.append] at hc
  obtain ⟨t, e1, _⟩ := first_split h cs
  have := hc.2
  rw [e1] at this
  exact this.1

theorem Circle.last {f : Ptr → Option Ptr} {h : Ptr} {ps : List Ptr} (hc : Circle f h ps) :
    f (lastOf h ps) = some h := by
  obtain ⟨xs, e1⟩ := last_split h ps
  unfold Circle at hc
  rw [e1, List.append_assoc, List.singleton_append, Chain.append] at hc
  exact hc.2.1

theorem lastOf_append (h : Ptr) (ps : List Ptr) (z : Ptr) : lastOf h (ps ++ [z]) = z := by
  unfold lastOf
  rw [List.getLast_cons (by simp), List.getLast_append_of_ne_nil (by simp) (by simp)]; rfl

theorem lastOf_cons (h q : Ptr) (ps : List Ptr) : lastOf h (q :: ps) = lastOf q ps := by
  unfold lastOf
  rw [List.getLast_cons]

/-- The circle `ps` gets a new sentinel. -/
theorem Circle.rehead {f f' : Ptr → Option Ptr} {h h' : Ptr} {ps : List Ptr} (hc : Circle f h ps)
    (hne : ps ≠ []) (hn : ps.Nodup) (h1 : f' h' = f h) (h2 : f' (lastOf h ps) = some h')
    (e : ∀ p ∈ ps, p ≠ lastOf h ps → f' p = f p) : Circle f' h' ps := by
  obtain ⟨xs, z, rfl⟩ : ∃ xs z, ps = xs ++ [z] :=
    ⟨ps.dropLast, ps.getLast hne, (List.dropLast_concat_getLast hne).symm⟩
  rw [lastOf_append] at h2 e
  have hz : ∀ p ∈ xs, p ≠ z := by
    intro p hp hpz
    rw [List.nodup_append] at hn
    exact hn.2.2 p hp z (by simp) hpz
  unfold Circle at hc ⊢
  rw [show h :: (xs ++ [z]) ++ [h] = (h :: xs) ++ z :: [h] by simp, Chain.append] at hc
  rw [show h' :: (xs ++ [z]) ++ [h'] = (h' :: xs) ++ z :: [h'] by simp, Chain.append]
  refine ⟨?_, h2, trivial⟩
  have e' : ∀ p ∈ xs, f' p = f p := fun p hp => e p (by simp [hp]) (hz p hp)
  have hc1 := hc.1
  cases xs with
  | nil => exact ⟨h1.trans hc1.1, trivial⟩
  | cons q xs =>
    refine ⟨h1.trans hc1.1, hc1.2.congr ?_⟩
    show ∀ p ∈ ((q :: xs) ++ [z]).dropLast, _
    rw [List.dropLast_concat]
    exact e'

/-- A node linked in after the last one. -/
theorem WInv.addBack {m m' : Mem α} {g} {k : Nat} {ns : List (Nat × α)} {x : α}
    (h : WInv kd m g) (hk : g k = some ns)
    (hlive : ∀ p ∈ Ptr.head k :: ptrs ns, Live m' p)
    (hnx : ∀ p, p ≠ lastOf (.head k) (ptrs ns) → p ≠ .node m.next → nx m' p = nx m p)
    (hnx1 : nx m' (lastOf (.head k) (ptrs ns)) = some (.node m.next))
    (hnx2 : nx m' (.node m.next) = some (.head k))
    (hpv : kd = .doubly → (∀ p, p ≠ .head k → p ≠ .node m.next → pv m' p = pv m p) ∧
      pv m' (.head k) = some (.node m.next) ∧
      pv m' (.node m.next) = some (lastOf (.head k) (ptrs ns)))
    (hdt : ∀ p, dt m' p = if p = .node m.next ∨ p = .head k then some x else dt m p)
    (hcell : ∀ p, p ≠ .head k → p ∉ ptrs ns → p ≠ .node m.next → m'.cell p = m.cell p)
    (hsz : m'.sz = fun j => if j = k then m.sz k + 1 else m.sz j)
    (hnext : m'.next = m.next + 1) (hlost : m'.lost = m.lost) :
    WInv kd m' (put g k (some (ns ++ [(m.next, x)]))) := by
  have hr := h.alive k ns hk
  have hnew : Ptr.node m.next ∉ ptrs ns := fun hp => by have := h.lt_next hk hp; omega
  have hne : ∀ p ∈ Ptr.head k :: ptrs ns, p ≠ .node m.next := by
    intro p hp e
    rcases List.mem_cons.1 hp with e' | hp
    · rw [e'] at e; cases e
    · rw [e] at hp; exact hnew hp
  have hrep : Rep kd m' k (ns ++ [(m.next, x)]) := by
    refine ⟨hlive _ (List.mem_cons_self ..), by simp [hsz, hr.size], ?_, ?_, ?_, ?_⟩
    · rw [show ptrs (ns ++ [(m.next, x)]) = ptrs ns ++ [Ptr.node m.next] by simp]
      exact hr.fwd.insertBack hnx1 hnx2 hr.nodup fun p hp hpl => hnx p hpl (hne p hp)
    · intro e
      rw [show (ptrs (ns ++ [(m.next, x)])).reverse = Ptr.node m.next :: (ptrs ns).reverse by simp]
      obtain ⟨h1, h2, h3⟩ := hpv e
      refine (hr.bwd e).insertFront h2 (by rw [firstOf_reverse]; exact h3) fun p hp => ?_
      have hp' : p ∈ ptrs ns := by simpa using hp
      exact h1 p (hr.nodeMem hp') (hne p (List.mem_cons_of_mem _ hp'))
    · intro e he
      rw [hdt]
      rcases List.mem_append.1 he with he | he
      · have : Ptr.node e.1 ∈ ptrs ns := List.mem_map.2 ⟨e, he, rfl⟩
        rw [if_neg (by
          rintro (e' | e')
          · exact hnew (e' ▸ this)
          · cases e')]
        exact hr.data e he
      · rw [List.mem_singleton.1 he, if_pos (Or.inl rfl)]
    · have := hr.nodup
      rw [show ptrs (ns ++ [(m.next, x)]) = ptrs ns ++ [Ptr.node m.next] by simp,
        ← List.cons_append, List.nodup_append]
      refine ⟨this, by simp, ?_⟩
      intro a ha b hb
      rw [List.mem_singleton.1 hb]; exact hne a ha
  refine h.update hk hrep ?_ ?_ ?_ ?_ (by omega) (by rw [hlost]; exact h.lost)
  · intro j hj; simp [hsz, hj]
  · intro p h1 h2 h3
    exact hcell p h1 h2 (fun e => h3 (by simp [e]))
  · intro n hn
    rw [show ptrs (ns ++ [(m.next, x)]) = ptrs ns ++ [Ptr.node m.next] by simp] at hn
    rcases List.mem_append.1 hn with hn | hn
    · exact Or.inl hn
    · have := List.mem_singleton.1 hn; cases this
      exact Or.inr ⟨Nat.le_refl _, by omega⟩
  · intro n hn hn'; exact absurd (by simp only [List.map_append]; exact List.mem_append_left _ hn) hn'

/-- The last node taken out. -/
theorem WInv.removeBack {m m' : Mem α} {g} {k i : Nat} {ns : List (Nat × α)} {x : α}
    (h : WInv kd m g) (hk : g k = some (ns ++ [(i, x)])) (hlive : Live m' (.head k))
    (hnx : ∀ p, p ≠ lastOf (.head k) (ptrs ns) → p ≠ .node i → nx m' p = nx m p)
    (hnx1 : nx m' (lastOf (.head k) (ptrs ns)) = some (.head k))
    (hpv : kd = .doubly → (∀ p, p ≠ .head k → p ≠ .node i → pv m' p = pv m p) ∧
      pv m' (.head k) = some (lastOf (.head k) (ptrs ns)))
    (hdt : ∀ p, p ≠ .node i → dt m' p = dt m p)
    (hcell : ∀ p, p ≠ .head k → p ∉ ptrs ns → p ≠ .node i → m'.cell p = m.cell p)
    (hfree : m'.cell (.node i) = none)
    (hsz : m'.sz = fun j => if j = k then m.sz k - 1 else m.sz j)
    (hnext : m'.next = m.next) (hlost : m'.lost = m.lost) :
    WInv kd m' (put g k (some ns)) := by
  have hr := h.alive k _ hk
  have hps : ptrs (ns ++ [(i, x)]) = ptrs ns ++ [Ptr.node i] := by simp
  have hnd := hr.nodup
  rw [hps, ← List.cons_append, List.nodup_append] at hnd
  have hne : ∀ p ∈ Ptr.head k :: ptrs ns, p ≠ .node i := fun p hp => hnd.2.2 p hp _ (by simp)
  have hrep : Rep kd m' k ns := by
    refine ⟨hlive, by simp [hsz, hr.size], ?_, ?_, ?_, hnd.1⟩
    · have := hr.fwd
      rw [hps] at this
      exact this.deleteBack hnd.1 hnx1 fun p hp hpl => hnx p hpl (hne p hp)
    · intro e
      have hb := hr.bwd e
      rw [hps, List.reverse_append] at hb
      obtain ⟨h1, h2⟩ := hpv e
      refine Circle.deleteFront hb (by rw [firstOf_reverse]; exact h2) fun p hp => ?_
      have hp' : p ∈ ptrs ns := by simpa using hp
      have : p ≠ .head k := by obtain ⟨e, _, rfl⟩ := List.mem_map.1 hp'; simp
      exact h1 p this (hne p (List.mem_cons_of_mem _ hp'))
    · intro e he
      have : Ptr.node e.1 ∈ ptrs ns := List.mem_map.2 ⟨e, he, rfl⟩
      rw [hdt _ (hne _ (List.mem_cons_of_mem _ this))]
      exact hr.data e (List.mem_append_left _ he)
  refine h.update hk hrep ?_ ?_ ?_ ?_ (by omega) (by rw [hlost]; exact h.lost)
  · intro j hj; simp [hsz, hj]
  · intro p h1 h2 h3
    exact hcell p h1 h3 (fun e => h2 (by simp [e]))
  · intro n hn; left; rw [hps]; exact List.mem_append_left _ hn
  · intro n hn hn'
    rw [hps] at hn
    rcases List.mem_append.1 hn with hn | hn
    · exact absurd hn hn'
    · rw [List.mem_singleton.1 hn]; exact hfree

/-- All nodes of `s` handed over to the empty list `d`. -/
theorem WInv.transfer {m m' : Mem α} {g} {d s : Nat} {ns : List (Nat × α)}
    (h : WInv kd m g) (hds : d ≠ s) (hd : g d = some []) (hs : g s = some ns)
    (hrd : Rep kd m' d ns) (hrs : Rep kd m' s [])
    (hsz : ∀ j, j ≠ d → j ≠ s → m'.sz j = m.sz j)
    (hcell : ∀ p, p ≠ .head d → p ≠ .head s → p ∉ ptrs ns → m'.cell p = m.cell p)
    (hnext : m'.next = m.next) (hlost : m'.lost = m.lost) :
    WInv kd m' (put (put g d (some ns)) s (some [])) := by
  have hnode : ∀ {l : List (Nat × α)} {p : Ptr}, p ∈ ptrs l → ∃ n, p = .node n := by
    intro l p hp
    obtain ⟨e, _, rfl⟩ := List.mem_map.1 hp; exact ⟨_, rfl⟩
  have hhead : ∀ j, j ≠ d → j ≠ s → m'.cell (.head j) = m.cell (.head j) := by
    intro j h1 h2
    refine hcell _ (by simpa using h1) (by simpa using h2) ?_
    intro hp; obtain ⟨n, e⟩ := hnode hp; cases e
  have hg : ∀ j a, put (put g d (some ns)) s (some []) j = some a →
      (j = s ∧ a = []) ∨ (j = d ∧ a = ns) ∨ (j ≠ s ∧ j ≠ d ∧ g j = some a) := by
    intro j a ha
    unfold put at ha
    split at ha
    · rename_i e; cases ha; exact Or.inl ⟨e, rfl⟩
    · split at ha
      · rename_i e; cases ha; exact Or.inr (Or.inl ⟨e, rfl⟩)
      · exact Or.inr (Or.inr ⟨by assumption, by assumption, ha⟩)
  constructor
  · intro j hj
    have h1 : j ≠ s := by rintro rfl; simp [put] at hj
    have h2 : j ≠ d := by rintro rfl; simp [put, h1] at hj
    simp only [put, h1, h2, if_false] at hj
    rw [hhead j h2 h1]; exact h.dead j hj
  · intro j a ha
    rcases hg j a ha with ⟨rfl, rfl⟩ | ⟨rfl, rfl⟩ | ⟨h1, h2, h3⟩
    · exact hrs
    · exact hrd
    · refine (h.alive j a h3).cell_congr (hsz j h2 h1) fun p hp => ?_
      rcases List.mem_cons.1 hp with rfl | hp
      · exact hhead j h2 h1
      · have := h.sep j s a ns h1 h3 hs p hp
        obtain ⟨n, rfl⟩ := hnode hp
        exact hcell _ (by simp) (by simp) this
  · intro i j a b hij ha hb p hp hp'
    rcases hg i a ha with ⟨rfl, rfl⟩ | ⟨rfl, rfl⟩ | ⟨h1, h2, h3⟩
    · simp at hp
    · rcases hg j b hb with ⟨rfl, rfl⟩ | ⟨rfl, rfl⟩ | ⟨h1', h2', h3'⟩
      · simp at hp'
      · exact hij rfl
      · exact h.sep j s b _ h1' h3' hs p hp' hp
    · rcases hg j b hb with ⟨rfl, rfl⟩ | ⟨rfl, rfl⟩ | ⟨h1', h2', h3'⟩
      · simp at hp'
      · exact h.sep i s a _ h1 h3 hs p hp hp'
      · exact h.sep i j a b hij h3 h3' p hp hp'
  · intro n hn
    by_cases hp : Ptr.node n ∈ ptrs ns
    · exact ⟨d, ns, by simp [put, hds], hp⟩
    · rw [hcell _ (by simp) (by simp) hp] at hn
      obtain ⟨j, a, ha, hp'⟩ := h.owned n hn
      have h1 : j ≠ s := by rintro rfl; rw [hs] at ha; cases ha; exact hp hp'
      have h2 : j ≠ d := by rintro rfl; rw [hd] at ha; cases ha; simp at hp'
      exact ⟨j, a, by simp [put, h1, h2, ha], hp'⟩
  · intro n hn
    have hp : Ptr.node n ∉ ptrs ns := fun hp => by have := h.lt_next hs hp; omega
    rw [hcell _ (by simp) (by simp) hp]; exact h.fresh n (by omega)
  · rw [hlost]; exact h.lost

/-- The base-class part of a move between distinct lists: afterwards `s` is empty and `d`'s
sentinel is a copy of the one `s` had. -/
theorem baseMove_ok {m : Mem α} {g} {d s : Nat} {old ns : List (Nat × α)}
    (h : WInv kd m g) (hds : d ≠ s) (hd : g d = some old) (hs : g s = some ns) :
    wp (baseMove kd d s) (fun _ m' => ∃ m1, WInv kd m1 (put g d (some [])) ∧ m1.tail = m.tail ∧
      Rep kd m' s [] ∧ Live m' (.head d) ∧
      nx m' (.head d) = nx m1 (.head s) ∧ pv m' (.head d) = pv m1 (.head s) ∧
      (∀ p, p ≠ .head d → p ≠ .head s → m'.cell p = m1.cell p) ∧
      (m'.sz = fun j => if j = s then 0 else if j = d then ns.length else m1.sz j) ∧
      m'.tail = m1.tail ∧ m'.next = m1.next ∧ m'.lost = m1.lost) m := by
  unfold baseMove
  rw [wp_bind]
  refine wp_mono (baseClear_ok h hd) ?_
  rintro _ m1 ⟨h1, t1, x1⟩
  have hs1 : put g d (some []) s = some ns := by simp [put, Ne.symm hds, hs]
  have hr1 := h1.alive s ns hs1
  have hd1 := h1.alive d [] (by simp [put])
  obtain ⟨c, g1, g2, g3, g4, g5⟩ := get_ok hr1.head
  obtain ⟨c', g1', _, _, _, g5'⟩ := get_ok hd1.head
  rw [wp_bind, wp_of_returns g1, wp_bind, wp_of_returns g1', wp_bind, wp_modify]
  generalize hm2 : m1.upd (.head d) (fun _ => c) = m2
  have s2 : Same m1 m2 := by subst hm2; exact Same.upd _ _ _
  have c2 : m2.cell (.head d) = some (some c) := by subst hm2; simp [Mem.upd, g5']
  have o2 : ∀ p, p ≠ .head d → m2.cell p = m1.cell p := by
    intro p hp; subst hm2; simp [Mem.upd, hp]
  have hl2s := s2.live hr1.head
  have hl2d := s2.live hd1.head
  rw [wp_bind, wp_of_returns (getSize_ok hl2s), wp_bind, wp_of_returns (setSize_ok hl2d)]
  generalize hm3 : ({ m2 with sz := fun x => if x = d then m2.sz s else m2.sz x } : Mem α) = m3
  have c3 : ∀ p, m3.cell p = m2.cell p := by subst hm3; intro p; rfl
  have live3 : ∀ p, Live m2 p → Live m3 p := by
    rintro p ⟨a, b, e⟩; exact ⟨a, b, by rw [c3]; exact e⟩
  have key : wp (linkInit kd (.head s)) (fun _ m4 => Same m3 m4 ∧ nx m4 (.head s) = some (.head s) ∧
      (kd = .doubly → pv m4 (.head s) = some (.head s)) ∧ ∀ p, p ≠ .head s → m4.cell p = m3.cell p) m3 := by
    unfold linkInit
    rw [wp_bind]
    refine wp_mono (setNext_ok (live3 _ hl2s)) ?_
    rintro _ m4 ⟨s4, n4, p4, d4, c4⟩
    cases kd with
    | singly => exact (wp_pure _ _ _).2 ⟨s4, by rw [n4]; simp, fun h => (by cases h), c4⟩
    | doubly =>
      refine wp_mono (setPrev_ok (s4.live (live3 _ hl2s))) ?_
      rintro _ m5 ⟨s5, p5, n5, d5, c5⟩
      exact ⟨s4.trans s5, by rw [n5, n4]; simp, fun _ => by rw [p5]; simp, fun p hp => by rw [c5 p hp, c4 p hp]⟩
  rw [wp_bind]
  refine wp_mono key ?_
  rintro _ m4 ⟨s4, n4, p4, c4⟩
  have hl4s := s4.live (live3 _ hl2s)
  rw [wp_of_returns (setSize_ok hl4s)]
  have hcd : m4.cell (.head d) = some (some c) := by
    rw [c4 _ (by simpa using hds), c3, c2]
  have hsz4 : m4.sz = fun x => if x = d then ns.length else m1.sz x := by
    rw [s4.sz]; subst hm3
    show (fun x => if x = d then m2.sz s else m2.sz x) = _
    rw [s2.sz, hr1.size]
  refine ⟨m1, h1, t1, ⟨hl4s, by simp, ⟨n4, trivial⟩, fun e => ⟨p4 e, trivial⟩, by simp, by simp⟩,
    s4.live (live3 _ hl2d), ?_, ?_, ?_, ?_, ?_, ?_, ?_⟩
  · rw [g2]; show nx m4 _ = _; simp [nx, hcd]
  · rw [g3]; show pv m4 _ = _; simp [pv, hcd]
  · intro p h1 h2
    show m4.cell p = _
    rw [c4 p h2, c3, o2 p h1]
  · show (fun x => if x = s then 0 else m4.sz x) = _
    rw [hsz4]
  · show m4.tail = _
    rw [s4.tail]; subst hm3; exact s2.tail
  · show m4.next = _
    rw [s4.next]; subst hm3; exact s2.next
  · show m4.lost = _
    rw [s4.lost]; subst hm3; exact s2.lost

/-! ## Individual steps used by the singly linked list -/

theorem destroyNode_ok {m : Mem α} {n : Nat} (h : Live m (.node n)) :
    Returns (destroyNode (.node n)) m ()
      { m with cell := fun x => if x = .node n then some none else m.cell x } := by
  obtain ⟨_, c, hc⟩ := h
  unfold Returns destroyNode; simp [hc]

theorem freeNode_ok {m : Mem α} {n : Nat} (h : m.cell (.node n) = some none) :
    Returns (freeNode (.node n)) m ()
      { m with cell := fun x => if x = .node n then none else m.cell x } := by
  unfold Returns freeNode
  simp only [h, Option.isSome_none, Bool.false_eq_true, if_false, Nat.add_zero]

theorem WInv.setTail {m : Mem α} {g} (h : WInv kd m g) (t : Nat → Ptr) :
    WInv kd { m with tail := t } g :=
  ⟨h.dead, fun k ns hk => (h.alive k ns hk).cell_congr rfl fun _ _ => rfl, h.sep, h.owned, h.fresh,
    h.lost⟩

theorem lastOf_ne_nil (h h' : Ptr) {ps : List Ptr} (hne : ps ≠ []) : lastOf h ps = lastOf h' ps := by
  cases ps with
  | nil => exact absurd rfl hne
  | cons p ps => rw [lastOf_cons, lastOf_cons]

/-! ## Iterators -/

theorem advance_ok {m : Mem α} {k : Nat} {ns : List (Nat × α)} (hr : Rep kd m k ns) (i : Nat) :
    ∀ done rest : List (Nat × α), ns = done ++ rest → i ≤ rest.length →
      Returns (advance i (firstOf (.head k) (ptrs rest))) m (firstOf (.head k) (ptrs (rest.drop i))) m := by
  induction i with
  | zero => intro done rest _ _; rfl
  | succ i ih =>
    intro done rest e hi
    cases rest with
    | nil => simp at hi
    | cons a rest =>
      have hmem : Ptr.node a.1 ∈ ptrs ns := by rw [e]; simp
      have hnx : nx m (.node a.1) = some (firstOf (.head k) (ptrs rest)) := by
        have := hr.fwd
        rw [e, show ptrs (done ++ a :: rest) = ptrs done ++ Ptr.node a.1 :: ptrs rest by simp] at this
        exact this.next_mid
      show Returns (advance (i + 1) (.node a.1)) m _ m
      unfold advance Returns
      rw [bind_returns (getNext_ok (hr.live (List.mem_cons_of_mem _ hmem)) hnx)]
      exact ih (done ++ [a]) rest (by simp [e]) (by simpa using hi)

theorem nth_ok {m : Mem α} {k i : Nat} {ns : List (Nat × α)} (hr : Rep kd m k ns) (hi : i ≤ ns.length) :
    Returns (nth k i) m (firstOf (.head k) (ptrs (ns.drop i))) m := by
  unfold nth Returns
  rw [bind_returns (getNext_ok hr.head hr.fwd.first)]
  exact advance_ok hr i [] ns rfl hi

theorem nth_elem {m : Mem α} {k i : Nat} {ns : List (Nat × α)} {e : Nat × α} (hr : Rep kd m k ns)
    (he : ns[i]? = some e) : Returns (nth k i) m (.node e.1) m := by
  obtain ⟨hi, rfl⟩ := List.getElem?_eq_some_iff.1 he
  have := nth_ok hr (Nat.le_of_lt hi)
  rw [List.drop_eq_getElem_cons hi] at this
  exact this

theorem ptrs_set {ns : List (Nat × α)} {i : Nat} {e : Nat × α} (he : ns[i]? = some e) (v : α) :
    ptrs (ns.set i (e.1, v)) = ptrs ns := by
  obtain ⟨hi, rfl⟩ := List.getElem?_eq_some_iff.1 he
  unfold ptrs
  rw [List.map_set]
  apply List.ext_getElem?
  intro j
  rw [List.getElem?_set]
  split
  · rename_i h; subst h; simp [hi]
  · rfl

theorem setElem_ok {m : Mem α} {g} {k i : Nat} {ns : List (Nat × α)} {e : Nat × α} {v : α}
    (h : WInv kd m g) (hk : g k = some ns) (he : ns[i]? = some e) :
    wp (setData (.node e.1) v) (fun _ m' => WInv kd m' (put g k (some (ns.set i (e.1, v))))) m := by
  have hr := h.alive k ns hk
  have hp := ptrs_set he v
  have hem : e ∈ ns := List.mem_of_getElem? he
  have hmem : Ptr.node e.1 ∈ ptrs ns := List.mem_map.2 ⟨e, hem, rfl⟩
  refine wp_mono (setData_ok (hr.live (List.mem_cons_of_mem _ hmem))) ?_
  rintro _ m' ⟨s, d, n, q, c⟩
  refine h.update hk ⟨s.live hr.head, ?_, ?_, ?_, ?_, ?_⟩ ?_ ?_ ?_ ?_ ?_ ?_
  · rw [s.sz, hr.size]; simp
  · rw [hp]; exact hr.fwd.congr fun p _ => n p
  · intro hd; rw [hp]; exact (hr.bwd hd).congr fun p _ => q p
  · intro f hf
    rw [d]
    obtain ⟨j, hj⟩ := List.mem_iff_getElem?.1 hf
    rw [List.getElem?_set] at hj
    split at hj
    · rename_i hij
      split at hj
      · cases hj; simp
      · cases hj
    · rename_i hij
      have hfe : Ptr.node f.1 ≠ Ptr.node e.1 := by
        intro hx
        have hnd := (List.nodup_cons.1 hr.nodup).2
        have h1 : (ptrs ns)[j]? = some (Ptr.node f.1) := by simp [ptrs, hj]
        have h2 : (ptrs ns)[i]? = some (Ptr.node f.1) := by rw [hx]; simp [ptrs, he]
        have hjl : j < (ptrs ns).length := (List.getElem?_eq_some_iff.1 h1).1
        exact hij (((List.getElem?_inj hjl hnd).1 (h1.trans h2.symm)).symm)
      rw [if_neg hfe]
      exact hr.data f (List.mem_of_getElem? hj)
  · rw [hp]; exact hr.nodup
  · intro j _; rw [s.sz]
  · intro p hp1 hp2 _
    exact c p (fun e => hp2 (e ▸ hmem))
  · intro x hx; rw [hp] at hx; exact .inl hx
  · intro x h1 h2; rw [hp] at h2; exact absurd h1 h2
  · rw [s.next]; exact Nat.le_refl _
  · rw [s.lost, h.lost]

end Verif.LL
